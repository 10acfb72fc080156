import Verif.Tools.Model
import Verif.Gp2Scale.Lemmas
import Mathlib.Data.Nat.Choose.Sum
import Mathlib.Tactic.Linarith
import Mathlib.Tactic.FieldSimp
import Mathlib.Tactic.Positivity

/-!
C126 (prediction grids) and C127 (time estimate of gp2Scale).
-/

namespace Verif.Tools

open Verif.Gp2Scale

/-! ## C126 -/

theorem linspace_ok {a b : ℝ} {num : ℤ} {l : List ℝ} (h : linspace a b num = .ok l) :
    0 ≤ num ∧ l = (List.range num.toNat).map fun (i : ℕ) => a + i * ((b - a) / ((num : ℝ) - 1)) := by
  simp only [linspace] at h
  split_ifs at h with h1
  exact ⟨by omega, by injection h with h; exact h.symm⟩

/-- Specification: `l` are `n` evenly spaced numbers from `a` to `b`. -/
structure EvenlySpaced (a b : ℝ) (n : ℕ) (l : List ℝ) : Prop where
  length : l.length = n
  first : 0 < n → l[0]? = some a
  last : 1 < n → l[n - 1]? = some b
  step : ∀ i x y z, l[i]? = some x → l[i + 1]? = some y → l[i + 2]? = some z → y - x = z - y

theorem linspace_spaced {a b : ℝ} {num : ℤ} {l : List ℝ} (h : linspace a b num = .ok l) : EvenlySpaced a b num.toNat l := by
  obtain ⟨h0, rfl⟩ := linspace_ok h
  have hc : ((num.toNat : ℕ) : ℝ) = num := by exact_mod_cast Int.toNat_of_nonneg h0
  refine ⟨by simp, fun hn => ?_, fun hn => ?_, fun i x y z hx hy hz => ?_⟩
  · rw [List.getElem?_map, List.getElem?_range hn]; simp
  · rw [List.getElem?_map, List.getElem?_range (by omega)]
    have h2 : ((num.toNat - 1 : ℕ) : ℝ) = num - 1 := by rw [Nat.cast_sub (by omega), hc]; simp
    have h3 : (num : ℝ) - 1 ≠ 0 := by
      have : (1 : ℝ) < num := by rw [← hc]; exact_mod_cast hn
      linarith
    simp only [Option.map_some, h2]
    congr 1; field_simp; ring
  · rw [List.getElem?_map] at hx hy hz
    obtain ⟨i', e1, rfl⟩ := Option.map_eq_some_iff.mp hx
    obtain ⟨j', e2, rfl⟩ := Option.map_eq_some_iff.mp hy
    obtain ⟨k', e3, rfl⟩ := Option.map_eq_some_iff.mp hz
    rw [List.getElem?_eq_some_iff] at e1 e2 e3
    obtain ⟨_, e1⟩ := e1; obtain ⟨_, e2⟩ := e2; obtain ⟨_, e3⟩ := e3
    simp only [List.getElem_range] at e1 e2 e3
    subst e1 e2 e3
    push_cast; ring

theorem spaced_get {a b : ℝ} {n : ℕ} {l : List ℝ} (h : EvenlySpaced a b n l) (hn : 1 < n) (i : ℕ) (hi : i < n) :
    l[i]? = some (a + i * ((b - a) / (n - 1))) := by
  have hl := h.length
  have get : ∀ i, i < n → ∃ x, l[i]? = some x := fun i hi => ⟨l[i]'(by omega), List.getElem?_eq_getElem (by omega)⟩
  obtain ⟨y, hy⟩ := get 1 hn
  have key : ∀ i, i + 1 < n → l[i]? = some (a + i * (y - a)) ∧ l[i + 1]? = some (a + (i + 1 : ℕ) * (y - a)) := by
    intro i
    induction i with
    | zero => intro _; exact ⟨by simpa using h.first (by omega), by simpa using hy⟩
    | succ i ih =>
      intro hi
      obtain ⟨h1, h2⟩ := ih (by omega)
      obtain ⟨z, hz⟩ := get (i + 2) (by omega)
      have := h.step i _ _ _ h1 h2 hz
      refine ⟨h2, ?_⟩
      rw [hz]; congr 1; push_cast at this ⊢; linarith
  have hlast : b = a + (n - 1) * (y - a) := by
    obtain ⟨k, rfl⟩ : ∃ k, n = k + 2 := ⟨n - 2, by omega⟩
    have h1 := (key k (by omega)).2
    have h2 := h.last hn
    simp only [Nat.add_sub_cancel, show k + 2 - 1 = k + 1 by omega] at h2
    rw [h1] at h2
    injection h2 with h2
    push_cast at h2 ⊢; linarith
  have hn1 : (n : ℝ) - 1 ≠ 0 := by
    have : (1 : ℝ) < n := by exact_mod_cast hn
    linarith
  have hy' : y - a = (b - a) / (n - 1) := by rw [hlast]; field_simp; ring
  rw [← hy']
  rcases Nat.lt_or_ge (i + 1) n with h1 | h1
  · exact (key i h1).1
  · obtain ⟨k, rfl⟩ : ∃ k, i = k + 1 := ⟨i - 1, by omega⟩
    exact (key k (by omega)).2

/-- `make_1d_x_pred` returns `res` points, one coordinate each, evenly spaced from the lower to the upper bound; it fails exactly for
`res < 1`. -/
theorem C126_line (lo hi : ℝ) (res : ℤ) :
    (res < 1 → ∃ e, make1d lo hi res = .error e) ∧
    (1 ≤ res → ∃ l, make1d lo hi res = .ok (l.map fun a => [a]) ∧ EvenlySpaced lo hi res.toNat l) := by
  refine ⟨fun h => ?_, fun h => ?_⟩
  · rcases lt_or_eq_of_le (show res ≤ 0 by omega) with h | h
    · exact ⟨"Number of samples must be non-negative.", by simp [make1d, linspace, h]; rfl⟩
    · exact ⟨"cannot reshape array of size 0 into shape (0,newaxis)", by subst h; simp [make1d, linspace]; rfl⟩
  · obtain ⟨l, hl⟩ : ∃ l, linspace lo hi res = .ok l := ⟨_, by rw [linspace, if_neg (by omega)]⟩
    refine ⟨l, ?_, linspace_spaced hl⟩
    simp only [make1d, hl, show res ≠ 0 by omega]
    simp [bind, Except.bind]

/-- `make_2d_x_pred` returns the `resx * resy` points of the product of two evenly spaced sets, in the order in which `reshape(resx, resy)` of a
prediction gives the value at `(x_i, y_j)` at position `i, j`. It fails exactly for a negative resolution. -/
theorem C126_grid (bx by_ : ℝ × ℝ) (resx resy : ℤ) :
    ((resx < 0 ∨ resy < 0) → ∃ e, make2d bx by_ resx resy = .error e) ∧
    (0 ≤ resx → 0 ≤ resy → ∃ rows lx ly, make2d bx by_ resx resy = .ok rows ∧
      EvenlySpaced bx.1 bx.2 resx.toNat lx ∧ EvenlySpaced by_.1 by_.2 resy.toNat ly ∧ rows.length = resx.toNat * resy.toNat ∧
      ∀ i j x y, lx[i]? = some x → ly[j]? = some y → rows[i * resy.toNat + j]? = some [x, y]) := by
  refine ⟨fun h => ?_, fun hx hy => ?_⟩
  · refine ⟨"Number of samples must be non-negative.", ?_⟩
    by_cases h1 : resx < 0
    · simp [make2d, linspace, h1, bind, Except.bind]
    · simp [make2d, linspace, h1, h.resolve_left h1, bind, Except.bind]
  · obtain ⟨lx, hlx⟩ : ∃ l, linspace bx.1 bx.2 resx = .ok l := ⟨_, by rw [linspace, if_neg (by omega)]⟩
    obtain ⟨ly, hly⟩ : ∃ l, linspace by_.1 by_.2 resy = .ok l := ⟨_, by rw [linspace, if_neg (by omega)]⟩
    have sx := linspace_spaced hlx
    have sy := linspace_spaced hly
    refine ⟨lx.flatMap fun a => ly.map fun b => [a, b], lx, ly, by simp [make2d, hlx, hly, bind, Except.bind], sx, sy, ?_, ?_⟩
    · simp [List.length_flatMap, sx.length, sy.length]
    · rw [← sy.length]
      clear sx sy hlx hly
      intro i j x y h1 h2
      induction lx generalizing i with
      | nil => simp at h1
      | cons a lx ih =>
        rw [List.flatMap_cons]
        have hj : j < ly.length := (List.getElem?_eq_some_iff.mp h2).1
        cases i with
        | zero =>
          simp only [List.getElem?_cons_zero, Option.some.injEq] at h1
          subst h1
          rw [Nat.zero_mul, Nat.zero_add, List.getElem?_append_left (by simpa using hj)]
          simp [h2]
        | succ i =>
          rw [List.getElem?_cons_succ] at h1
          rw [List.getElem?_append_right (by simp [Nat.add_mul]; omega)]
          rw [List.length_map, show (i + 1) * ly.length + j - ly.length = i * ly.length + j by rw [Nat.add_mul]; omega]
          exact ih i h1

/-- Evenly spaced numbers stay within the bounds, are different from each other, and every number within the bounds is at most half a spacing away
from one of them. -/
theorem C126_cover {a b : ℝ} {n : ℕ} {l : List ℝ} (h : EvenlySpaced a b n l) (hn : 1 < n) (hab : a < b) :
    (∀ x ∈ l, a ≤ x ∧ x ≤ b) ∧ l.Nodup ∧ (∀ x, a ≤ x → x ≤ b → ∃ y ∈ l, |x - y| ≤ (b - a) / (2 * (n - 1))) := by
  have hn' : (0 : ℝ) < n - 1 := by
    have : (1 : ℝ) < n := by exact_mod_cast hn
    linarith
  have hs : 0 < (b - a) / (n - 1) := div_pos (by linarith) hn'
  have get := spaced_get h hn
  have mem : ∀ x ∈ l, ∃ i : ℕ, i < n ∧ x = a + i * ((b - a) / (n - 1)) := fun x hx => by
    obtain ⟨i, hi⟩ := List.mem_iff_getElem?.mp hx
    have hi' : i < n := by rw [← h.length]; exact (List.getElem?_eq_some_iff.mp hi).1
    rw [get i hi'] at hi
    injection hi with hi
    exact ⟨i, hi', hi.symm⟩
  refine ⟨fun x hx => ?_, ?_, fun x h1 h2 => ?_⟩
  · obtain ⟨i, hi, rfl⟩ := mem x hx
    have hi' : (i : ℝ) ≤ n - 1 := by
      have : ((i + 1 : ℕ) : ℝ) ≤ n := by exact_mod_cast hi
      push_cast at this; linarith
    have e : (n - 1) * ((b - a) / ((n : ℝ) - 1)) = b - a := by field_simp
    have := mul_le_mul_of_nonneg_right hi' hs.le
    refine ⟨by have := mul_nonneg (Nat.cast_nonneg (α := ℝ) i) hs.le; linarith, by linarith⟩
  · rw [List.nodup_iff_getElem?_ne_getElem?]
    intro i j hij hj
    rw [h.length] at hj
    rw [get i (by omega), get j hj]
    intro e
    injection e with e
    have : (i : ℝ) = j := by
      have : (i : ℝ) * ((b - a) / (n - 1)) = j * ((b - a) / (n - 1)) := by linarith
      exact mul_right_cancel₀ hs.ne' this
    have : i = j := by exact_mod_cast this
    omega
  · set s := (b - a) / ((n : ℝ) - 1) with hsdef
    have e : (n - 1) * s = b - a := by rw [hsdef]; field_simp
    obtain ⟨k, hk, hk1⟩ : ∃ k : ℕ, k < n ∧ |x - (a + k * s)| ≤ s / 2 := by
      have hq0 : 0 ≤ (x - a) / s := div_nonneg (by linarith) hs.le
      have hq1 : (x - a) / s ≤ n - 1 := by rw [div_le_iff₀ hs]; linarith
      refine ⟨⌊(x - a) / s + 1 / 2⌋₊, ?_, ?_⟩
      · rw [Nat.floor_lt (by linarith)]; linarith
      · have f1 := Nat.floor_le (show 0 ≤ (x - a) / s + 1 / 2 by linarith)
        have f2 := Nat.lt_floor_add_one ((x - a) / s + 1 / 2)
        have ex : x = a + (x - a) / s * s := by field_simp; ring
        have f1' := mul_le_mul_of_nonneg_right f1 hs.le
        have f2' := mul_le_mul_of_nonneg_right f2.le hs.le
        rw [abs_le]
        constructor <;> nlinarith
    refine ⟨a + k * s, List.mem_of_getElem? (get k hk), hk1.trans (le_of_eq ?_)⟩
    rw [hsdef]; field_simp

/-- Resolution 1: the only point is the lower bound. -/
theorem C126_single (lo hi : ℝ) : make1d lo hi 1 = .ok [[lo]] := by
  simp [make1d, linspace, bind, Except.bind]

example : make2d (0, 1) (2, 4) 2 3 = .ok [[0, 2], [0, 3], [0, 4], [1, 2], [1, 3], [1, 4]] := by
  simp only [make2d, linspace, bind, Except.bind]
  norm_num [List.range_succ, show Int.toNat 3 = 3 from rfl, show Int.toNat 2 = 2 from rfl]

example : EvenlySpaced 0 1 3 [0, 1 / 2, 1] := by
  have := linspace_spaced (a := 0) (b := 1) (num := 3) (l := [0, 1 / 2, 1]) (by
    simp only [linspace]; norm_num [List.range_succ, show Int.toNat 3 = 3 from rfl])
  exact this

/-! ## C127 -/

theorem sum_triangle (c : ℕ) : 2 * ∑ i ∈ Finset.range c, (c - i) = c * (c + 1) := by
  induction c with
  | zero => simp
  | succ c ih =>
    rw [Finset.sum_range_succ', Nat.mul_add]
    simp only [Nat.add_sub_add_right, ih]
    ring_nf
    omega

/-- The number of kernel calls on the workers for the prior covariance of `D` points. -/
theorem block_count (D : ℕ) (b : ℤ) :
    2 * (blockTasks D D b true).length = nChunks D (clampBatch b) * (nChunks D (clampBatch b) + 1) := by
  have hB1 : 1 ≤ clampBatch b := clampBatch_pos b
  rw [← sum_triangle]
  congr 1
  unfold blockTasks
  simp only [if_true, ranges_eq]
  generalize clampBatch b = B at *
  generalize nChunks D B = c
  rw [← List.countP_eq_length_filter, List.flatMap_map, List.countP_flatMap, Finset.sum_range, ← List.sum_ofFn]
  rw [show List.ofFn (fun i : Fin c => c - (i : ℕ)) = (List.range c).map fun i => c - i by
    rw [← List.map_coe_finRange_eq_range, List.ofFn_eq_map, List.map_map]; rfl]
  congr 1
  apply List.map_congr_left
  intro i hi
  simp only [Function.comp_apply, List.countP_map, List.map_map]
  rw [show ((fun t : (ℕ × ℕ) × (ℕ × ℕ) => decide (t.1.1 ≤ t.2.1)) ∘ (fun c_1 : ℕ × ℕ => ((i * B, min (i * B + B) D), c_1)) ∘
      fun k => (k * B, min (k * B + B) D)) = fun k => decide (i ≤ k) by
    funext k; simp only [Function.comp_apply]; congr 1; exact propext (Nat.mul_le_mul_right_iff (by omega))]
  rw [List.mem_range] at hi
  obtain ⟨m, rfl⟩ : ∃ m, c = i + m := ⟨c - i, by omega⟩
  rw [List.range_add, List.countP_append, List.countP_eq_zero.mpr, List.countP_map, List.countP_eq_length.mpr]
  · simp
  · intro a _; simp
  · intro a ha; simp at ha ⊢; exact ha

/-- Specification: if task `t` runs on worker `assign t` and every task takes `tb`, all workers are done at time `T`. -/
def DoneBy (tb : ℝ) {tasks n : ℕ} (assign : Fin tasks → Fin n) (T : ℝ) : Prop :=
  ∀ w, ((Finset.univ.filter fun t => assign t = w).card : ℝ) * tb ≤ T

theorem doneBy_total {tb T : ℝ} {tasks n : ℕ} {assign : Fin tasks → Fin n} (h : DoneBy tb assign T) : tasks * tb ≤ n * T := by
  have h1 : ∑ w : Fin n, ((Finset.univ.filter fun t => assign t = w).card : ℝ) * tb ≤ ∑ _w : Fin n, T :=
    Finset.sum_le_sum fun w _ => h w
  rw [← Finset.sum_mul] at h1
  have h2 : ∑ w : Fin n, (Finset.univ.filter fun t => assign t = w).card = tasks := by
    rw [← Finset.card_eq_sum_card_fiberwise (fun _ _ => Finset.mem_coe.mpr (Finset.mem_univ _))]
    simp
  have h3 : ∑ w : Fin n, ((Finset.univ.filter fun t => assign t = w).card : ℝ) = tasks := by exact_mod_cast h2
  rw [h3] at h1
  simpa using h1

theorem roundRobin (tasks n : ℕ) (hn : 0 < n) : ∃ assign : Fin tasks → Fin n,
    ∀ w, (Finset.univ.filter fun t => assign t = w).card ≤ tasks / n + 1 := by
  refine ⟨fun t => ⟨t % n, Nat.mod_lt _ hn⟩, fun w => ?_⟩
  have : (Finset.univ.filter fun t : Fin tasks => (⟨t % n, Nat.mod_lt _ hn⟩ : Fin n) = w).card
      ≤ (Finset.range (tasks / n + 1)).card := by
    refine Finset.card_le_card_of_injOn (fun t => (t : ℕ) / n) (fun t _ => ?_) fun a ha b hb hab => ?_
    · simp only [Finset.coe_range, Set.mem_Iio]
      exact Nat.lt_succ_of_le (Nat.div_le_div_right t.isLt.le)
    · simp only [Finset.coe_filter, Finset.mem_univ, true_and, Set.mem_setOf_eq, Fin.ext_iff] at ha hb
      have e1 := Nat.div_add_mod (a : ℕ) n
      have e2 := Nat.div_add_mod (b : ℕ) n
      simp only at hab
      rw [hab, ha] at e1
      rw [hb] at e2
      exact Fin.ext (by omega)
  simpa using this

theorem chunks_lower (D : ℕ) {b : ℤ} (hb : 1 ≤ b) : (D : ℝ) / b ≤ nChunks D (clampBatch b) ∧
    (nChunks D (clampBatch b) : ℝ) ≤ D / b + 1 := by
  have hB : ((clampBatch b : ℕ) : ℝ) = b := by
    have : ((clampBatch b : ℕ) : ℤ) = b := by unfold clampBatch; omega
    exact_mod_cast this
  have hb' : (0 : ℝ) < b := by exact_mod_cast (by omega : 0 < b)
  have h1 := clampBatch_pos b
  generalize clampBatch b = B at *
  have hm := Nat.div_mul_le_self (D + B - 1) B
  have hlt : D + B - 1 < ((D + B - 1) / B + 1) * B := by
    have := Nat.lt_div_mul_add (a := D + B - 1) (b := B) (by omega)
    rw [Nat.add_mul]; omega
  unfold nChunks
  generalize (D + B - 1) / B = q at *
  have a1 : D ≤ q * B := by rw [Nat.add_mul] at hlt; omega
  have a2 : q * B ≤ D + B := by omega
  have a1' : (D : ℝ) ≤ q * b := by rw [← hB]; exact_mod_cast a1
  have a2' : (q : ℝ) * b ≤ D + b := by rw [← hB]; exact_mod_cast a2
  constructor
  · rw [div_le_iff₀ hb']; exact a1'
  · rw [div_add_one hb'.ne', le_div_iff₀ hb']; exact a2'

/-- Block-wise gp2Scale: no distribution of the covariance blocks over `n` workers that each need `tb` per block is faster than the estimate. -/
theorem C127_lower (D : ℕ) (b n : ℤ) (tb est : ℝ) (hb : 1 ≤ b) (hn : 1 ≤ n) (htb : 0 ≤ tb) (h : execTime D b tb n = .ok est)
    (assign : Fin (blockTasks D D b true).length → Fin n.toNat) (T : ℝ) (hT : DoneBy tb assign T) : est ≤ T := by
  have hb' : (0 : ℝ) < b := by exact_mod_cast (by omega : 0 < b)
  have hn' : (0 : ℝ) < n := by exact_mod_cast (by omega : 0 < n)
  simp only [execTime] at h
  rw [if_neg (by positivity)] at h
  injection h with h
  subst h
  have h1 := doneBy_total hT
  have h2 : (2 : ℝ) * (blockTasks D D b true).length = nChunks D (clampBatch b) * (nChunks D (clampBatch b) + 1) := by
    exact_mod_cast block_count D b
  have hnn : ((n.toNat : ℕ) : ℝ) = n := by exact_mod_cast Int.toNat_of_nonneg (by omega)
  rw [hnn] at h1
  have hc := (chunks_lower D hb).1
  have hq : 0 ≤ (D : ℝ) / b := by positivity
  have h3 : ((D : ℝ) / b) ^ 2 ≤ 2 * (blockTasks D D b true).length := by rw [h2]; nlinarith
  have h4 : ((D : ℝ) / b) ^ 2 * tb ≤ 2 * n * T := by nlinarith [mul_le_mul_of_nonneg_right h3 htb]
  have e : (D : ℝ) ^ 2 * tb / (2 * n * (b : ℝ) ^ 2) = ((D : ℝ) / b) ^ 2 * tb / (2 * n) := by field_simp
  rw [e, div_le_iff₀ (by positivity)]
  linarith

/-- Block-wise gp2Scale: some distribution of the blocks comes close to the estimate: with `q = D / b` blocks per side, the time is at most
`(1 + 1/q)(1 + 2/q)` times the estimate and the time of one block. -/
theorem C127_reached (D : ℕ) (b n : ℤ) (tb est : ℝ) (hD : 0 < D) (hb : 1 ≤ b) (hn : 1 ≤ n) (htb : 0 ≤ tb)
    (h : execTime D b tb n = .ok est) :
    ∃ assign : Fin (blockTasks D D b true).length → Fin n.toNat, DoneBy tb assign (est * ((1 + b / D) * (1 + 2 * b / D)) + tb) := by
  have hb' : (0 : ℝ) < b := by exact_mod_cast (by omega : 0 < b)
  have hn' : (0 : ℝ) < n := by exact_mod_cast (by omega : 0 < n)
  have hD' : (0 : ℝ) < D := by exact_mod_cast hD
  simp only [execTime] at h
  rw [if_neg (by positivity)] at h
  injection h with h
  subst h
  obtain ⟨assign, ha⟩ := roundRobin (blockTasks D D b true).length n.toNat (by omega)
  refine ⟨assign, fun w => ?_⟩
  have h2 : (2 : ℝ) * (blockTasks D D b true).length = nChunks D (clampBatch b) * (nChunks D (clampBatch b) + 1) := by
    exact_mod_cast block_count D b
  have hnn : ((n.toNat : ℕ) : ℝ) = n := by exact_mod_cast Int.toNat_of_nonneg (by omega)
  have h1 : ((Finset.univ.filter fun t => assign t = w).card : ℝ) ≤ (blockTasks D D b true).length / n + 1 := by
    have : ((Finset.univ.filter fun t => assign t = w).card : ℝ) ≤ (((blockTasks D D b true).length / n.toNat : ℕ) : ℝ) + 1 := by
      exact_mod_cast ha w
    have h3 : (((blockTasks D D b true).length / n.toNat : ℕ) : ℝ) ≤ (blockTasks D D b true).length / (n.toNat : ℝ) := Nat.cast_div_le
    rw [hnn] at h3
    linarith
  have hc := (chunks_lower D hb).2
  have hc0 : (0 : ℝ) ≤ nChunks D (clampBatch b) := Nat.cast_nonneg _
  have h4 : (2 : ℝ) * (blockTasks D D b true).length ≤ (D / b + 1) * (D / b + 2) := by rw [h2]; nlinarith
  have e : (D : ℝ) ^ 2 * tb / (2 * n * (b : ℝ) ^ 2) * ((1 + b / D) * (1 + 2 * b / D)) = (D / b + 1) * (D / b + 2) / (2 * n) * tb := by
    field_simp
  rw [e]
  have h5 : ((blockTasks D D b true).length : ℝ) / n ≤ (D / b + 1) * (D / b + 2) / (2 * n) := by
    rw [div_le_div_iff₀ hn' (by positivity)]; nlinarith
  nlinarith [mul_le_mul_of_nonneg_right (h1.trans (add_le_add_left h5 1)) htb]

/-- Row-wise gp2Scale computes `D / b` strips, but the estimate is the one for blocks: it exceeds the time of a single worker that computes all strips
one after the other by any factor. -/
theorem C127_rowwise_violated (F : ℕ) : ∃ (D : ℕ) (b : ℤ), 1 ≤ b ∧ ∀ tb : ℝ, 0 < tb →
    DoneBy (n := 1) tb (fun _ : Fin (ranges D b).length => 0) (D * tb) ∧ ∃ est, execTime D b tb 1 = .ok est ∧ F * (D * tb) ≤ est := by
  refine ⟨2 * F + 2, 1, le_rfl, fun tb htb => ⟨fun w => ?_, ((2 * F + 2 : ℕ) : ℝ) ^ 2 * tb / (2 * (1 : ℤ) * ((1 : ℤ) : ℝ) ^ 2), ?_, ?_⟩⟩
  · have : (ranges (2 * F + 2) 1).length = 2 * F + 2 := by
      rw [ranges_eq]; simp [nChunks, clampBatch]
    have h1 : (Finset.univ.filter fun _t : Fin (ranges (2 * F + 2) 1).length => (0 : Fin 1) = w).card = 2 * F + 2 := by
      rw [Finset.filter_true_of_mem fun _ _ => Subsingleton.elim _ _]; simpa using this
    rw [h1]
  · rw [execTime, if_neg (by norm_num)]
  · have : (0 : ℝ) ≤ F := Nat.cast_nonneg F
    push_cast
    rw [le_div_iff₀ (by norm_num)]
    nlinarith [mul_nonneg this htb.le]

/-- One block: the covariance is computed by one kernel call in the calling process, but the estimate is half the time of that call divided by the
number of workers. -/
theorem C127_small_violated (D : ℕ) (hD : 0 < D) (n : ℤ) (hn : 1 ≤ n) (tb : ℝ) :
    shouldDistribute D D D .blockwise = false ∧ execTime D D tb n = .ok (tb / (2 * n)) := by
  have hn' : (n : ℝ) ≠ 0 := by exact_mod_cast (by omega : n ≠ 0)
  have hD' : (D : ℝ) ≠ 0 := by exact_mod_cast hD.ne'
  refine ⟨?_, ?_⟩
  · have : clampBatch (D : ℤ) = D := by unfold clampBatch; omega
    simp [shouldDistribute, taskBudget, this]
  · rw [execTime, if_neg (by push_cast; positivity)]
    congr 1
    push_cast
    field_simp

/-- The estimate fails exactly for no workers or batch size 0; it is never negative, decreases with the number of workers and grows with the number
of points. -/
theorem C127_shape (D : ℕ) (b n : ℤ) (tb : ℝ) :
    ((∃ e, execTime D b tb n = .error e) ↔ n = 0 ∨ b = 0) ∧
    (∀ est, 0 ≤ tb → 0 ≤ n → execTime D b tb n = .ok est → 0 ≤ est) ∧
    (∀ est D' n' est', 0 ≤ tb → 1 ≤ n → n ≤ n' → D' ≤ D → execTime D b tb n = .ok est → execTime D' b tb n' = .ok est' → est' ≤ est) := by
  have ok : ∀ {D : ℕ} {n : ℤ} {est : ℝ}, execTime D b tb n = .ok est → b ≠ 0 ∧ est = (D : ℝ) ^ 2 * tb / (2 * n * (b : ℝ) ^ 2) := by
    intro D n est h
    simp only [execTime] at h
    split_ifs at h with h1
    injection h with h
    refine ⟨?_, h.symm⟩
    rintro rfl
    simp at h1
  refine ⟨?_, fun est h1 h2 h => ?_, fun est D' n' est' h1 h2 h3 h4 h h' => ?_⟩
  · simp only [execTime]
    by_cases h : (2 : ℝ) * n * (b : ℝ) ^ 2 = 0
    · rw [if_pos h]
      refine ⟨fun _ => by simpa using h, fun _ => ⟨_, rfl⟩⟩
    · rw [if_neg h]
      refine ⟨fun ⟨e, he⟩ => (nomatch he), fun h' => absurd ?_ h⟩
      rcases h' with rfl | rfl <;> simp
  · have hn : (0 : ℝ) ≤ n := by exact_mod_cast h2
    rw [(ok h).2]; positivity
  · obtain ⟨hb, rfl⟩ := ok h
    obtain ⟨-, rfl⟩ := ok h'
    have hn : (0 : ℝ) < n := by exact_mod_cast (by omega : 0 < n)
    have hb' : (b : ℝ) ≠ 0 := by exact_mod_cast hb
    have hD : (D' : ℝ) ≤ D := by exact_mod_cast h4
    have hnn : (n : ℝ) ≤ n' := by exact_mod_cast h3
    have hb2 : 0 < (b : ℝ) ^ 2 := by positivity
    gcongr

example : execTime 100 10 3 5 = .ok 30 := by
  rw [execTime, if_neg (by norm_num)]; norm_num

example : (blockTasks 5 5 2 true).length = 6 := by have := block_count 5 2; simp [nChunks, clampBatch] at this; omega

end Verif.Tools
