import Verif.Tools.Model
import Mathlib.Algebra.Order.Round
import Mathlib.Algebra.Order.BigOperators.Group.Finset
import Mathlib.Tactic.Linarith
import Mathlib.Tactic.Positivity
import Mathlib.Tactic.FieldSimp
import Mathlib.Tactic.NormNum

/-!
C128: the deep kernel network.
-/

namespace Verif.Tools

open Verif.GP

/-- Writing a `float32` number into a `float32` array does not change it. -/
theorem store32_idem (r : ℝ) : Dtype.float32.store (Dtype.float32.store r) = Dtype.float32.store r := by
  by_cases hr : r = 0
  · simp [Dtype.store, hr]
  have hpos : 0 < |r| := abs_pos.mpr hr
  have h2 : (1 : ℕ) < 2 := by norm_num
  set L := Int.log 2 |r| with hL
  have hlo : (2 : ℝ) ^ L ≤ |r| := by simpa using Int.zpow_log_le_self h2 hpos
  have hhi : |r| < (2 : ℝ) ^ (L + 1) := by simpa using Int.lt_zpow_succ_log_self h2 |r|
  set m : ℤ := round (r * (2 : ℝ) ^ (23 - L)) with hm
  have hst : Dtype.float32.store r = m * (2 : ℝ) ^ (L - 23) := by rw [Dtype.store]; simp only [if_neg hr, hm, hL]
  have hp : (0 : ℝ) < (2 : ℝ) ^ (23 - L) := by positivity
  -- |m| between 2^23 and 2^24
  have hx1 : (2 : ℝ) ^ (23 : ℤ) ≤ |r * (2 : ℝ) ^ (23 - L)| := by
    rw [abs_mul, abs_of_pos hp]
    calc (2 : ℝ) ^ (23 : ℤ) = 2 ^ L * 2 ^ (23 - L) := by rw [← zpow_add₀ (by norm_num)]; congr 1; ring
      _ ≤ _ := mul_le_mul_of_nonneg_right hlo hp.le
  have hx2 : |r * (2 : ℝ) ^ (23 - L)| < (2 : ℝ) ^ (24 : ℤ) := by
    rw [abs_mul, abs_of_pos hp]
    calc _ < 2 ^ (L + 1) * (2 : ℝ) ^ (23 - L) := mul_lt_mul_of_pos_right hhi hp
      _ = 2 ^ (24 : ℤ) := by rw [← zpow_add₀ (by norm_num)]; congr 1; ring
  have hclose : |r * (2 : ℝ) ^ (23 - L) - m| ≤ 1 / 2 := abs_sub_round _
  have hm1 : (2 : ℤ) ^ 23 ≤ |m| := by
    have h : (2 : ℝ) ^ (23 : ℤ) - 1 / 2 ≤ |(m : ℝ)| := by
      have := abs_sub_abs_le_abs_sub (r * (2 : ℝ) ^ (23 - L)) (m : ℝ)
      linarith
    have h' : ((2 ^ 23 - 1 : ℤ) : ℝ) < ((|m| : ℤ) : ℝ) := by push_cast; norm_num at h ⊢; linarith
    have := Int.cast_lt.mp h'
    omega
  have hm2 : |m| ≤ (2 : ℤ) ^ 24 := by
    have h : |(m : ℝ)| < (2 : ℝ) ^ (24 : ℤ) + 1 / 2 + 1 / 2 := by
      have := abs_sub_abs_le_abs_sub (m : ℝ) (r * (2 : ℝ) ^ (23 - L))
      rw [abs_sub_comm] at this
      linarith
    have h' : ((|m| : ℤ) : ℝ) < ((2 ^ 24 + 1 : ℤ) : ℝ) := by push_cast; norm_num at h ⊢; linarith
    have := Int.cast_lt.mp h'
    omega
  have hm0 : m ≠ 0 := by rintro h; rw [h] at hm1; norm_num at hm1
  have hmR : (m : ℝ) ≠ 0 := by exact_mod_cast hm0
  rw [hst]
  have hv : (m : ℝ) * (2 : ℝ) ^ (L - 23) ≠ 0 := mul_ne_zero hmR (by positivity)
  have habs : |(m : ℝ) * (2 : ℝ) ^ (L - 23)| = (|m| : ℤ) * (2 : ℝ) ^ (L - 23) := by
    rw [abs_mul, abs_of_pos (show (0 : ℝ) < 2 ^ (L - 23) by positivity), Int.cast_abs]
  have hq : (0 : ℝ) < 2 ^ (L - 23) := by positivity
  rw [Dtype.store]
  simp only [if_neg hv]
  rcases lt_or_eq_of_le hm2 with hlt | heq
  · have hlog : Int.log 2 |(m : ℝ) * (2 : ℝ) ^ (L - 23)| = L := by
      rw [habs]
      apply le_antisymm
      · rw [← Int.lt_add_one_iff, ← Int.lt_zpow_iff_log_lt h2 (by positivity)]
        have : (((|m| : ℤ)) : ℝ) < 2 ^ (24 : ℤ) := by exact_mod_cast hlt
        calc _ < (2 : ℝ) ^ (24 : ℤ) * 2 ^ (L - 23) := mul_lt_mul_of_pos_right this hq
          _ = _ := by rw [← zpow_add₀ (by norm_num)]; push_cast; congr 1; ring
      · rw [← Int.zpow_le_iff_le_log h2 (by positivity)]
        have : (2 : ℝ) ^ (23 : ℤ) ≤ ((|m| : ℤ) : ℝ) := by exact_mod_cast hm1
        calc _ = (2 : ℝ) ^ (23 : ℤ) * 2 ^ (L - 23) := by rw [← zpow_add₀ (by norm_num)]; push_cast; congr 1; ring
          _ ≤ _ := mul_le_mul_of_nonneg_right this hq.le
    rw [hlog, mul_assoc, ← zpow_add₀ (by norm_num), show L - 23 + (23 - L) = 0 by ring, zpow_zero, mul_one, round_intCast]
  · have hval : (((|m| : ℤ)) : ℝ) * 2 ^ (L - 23) = ((2 : ℕ) : ℝ) ^ (L + 1) := by
      rw [heq]; push_cast
      rw [show (16777216 : ℝ) = 2 ^ (24 : ℤ) by norm_num, ← zpow_add₀ (by norm_num)]; congr 1; ring
    have hlog : Int.log 2 |(m : ℝ) * (2 : ℝ) ^ (L - 23)| = L + 1 := by
      rw [habs, hval, Int.log_zpow h2]
    rw [hlog]
    have hmm : m = 2 ^ 24 ∨ m = -2 ^ 24 := by
      rcases abs_choice m with h | h <;> rw [h] at heq <;> [left; right] <;> omega
    have hcalc : (m : ℝ) * 2 ^ (L - 23) * 2 ^ (23 - (L + 1)) = m / 2 := by
      rw [mul_assoc, ← zpow_add₀ (by norm_num), show L - 23 + (23 - (L + 1)) = -1 by ring, zpow_neg_one]; rfl
    rw [hcalc]
    have hr' : (round ((m : ℝ) / 2) : ℝ) = m / 2 := by
      rcases hmm with h | h
      · rw [h]; push_cast
        rw [show ((16777216 : ℝ) / 2) = ((2 ^ 23 : ℤ) : ℝ) by norm_num, round_intCast]
      · rw [h]; push_cast
        rw [show ((-16777216 : ℝ) / 2) = ((-2 ^ 23 : ℤ) : ℝ) by norm_num, round_intCast]
    rw [hr']
    rw [show L + 1 - 23 = (L - 23) + 1 by ring, zpow_add_one₀ (by norm_num)]
    ring

/-- The relative error of `float32` storage. -/
theorem store32_close (r : ℝ) : |Dtype.float32.store r - r| ≤ |r| * (2 : ℝ) ^ (-24 : ℤ) := by
  by_cases hr : r = 0
  · simp [Dtype.store, hr]
  have hpos : 0 < |r| := abs_pos.mpr hr
  set L := Int.log 2 |r| with hL
  have hlo : (2 : ℝ) ^ L ≤ |r| := by simpa using Int.zpow_log_le_self (b := 2) (by norm_num) hpos
  have hst : Dtype.float32.store r = round (r * (2 : ℝ) ^ (23 - L)) * (2 : ℝ) ^ (L - 23) := by simp only [Dtype.store, if_neg hr, hL]
  have hq : (0 : ℝ) < 2 ^ (L - 23) := by positivity
  have e : r = r * 2 ^ (23 - L) * (2 : ℝ) ^ (L - 23) := by
    rw [mul_assoc, ← zpow_add₀ (by norm_num), show 23 - L + (L - 23) = 0 by ring, zpow_zero, mul_one]
  have h1 := abs_sub_round (r * (2 : ℝ) ^ (23 - L))
  rw [hst]
  calc |round (r * (2 : ℝ) ^ (23 - L)) * (2 : ℝ) ^ (L - 23) - r|
      = |r * (2 : ℝ) ^ (23 - L) - round (r * (2 : ℝ) ^ (23 - L))| * 2 ^ (L - 23) := by
        conv_lhs => rw [show round (r * (2 : ℝ) ^ (23 - L)) * (2 : ℝ) ^ (L - 23) - r
          = -((r * (2 : ℝ) ^ (23 - L) - round (r * (2 : ℝ) ^ (23 - L))) * 2 ^ (L - 23)) by rw [sub_mul, ← e]; ring]
        rw [abs_neg, abs_mul, abs_of_pos hq]
    _ ≤ 1 / 2 * 2 ^ (L - 23) := mul_le_mul_of_nonneg_right h1 hq.le
    _ = 2 ^ L * (2 : ℝ) ^ (-24 : ℤ) := by
        rw [← zpow_add₀ (by norm_num), show (1 / 2 : ℝ) = 2 ^ (-1 : ℤ) by norm_num, ← zpow_add₀ (by norm_num)]; congr 1; ring
    _ ≤ _ := mul_le_mul_of_nonneg_right hlo (by positivity)

/-! ## C128 -/

/-- Specification: the number of scalar weights and biases. -/
def Network.size (n : Network) : ℕ :=
  (n.layer1.weight.rows * n.layer1.weight.cols + n.layer1.bias.len) + (n.layer2.weight.rows * n.layer2.weight.cols + n.layer2.bias.len) +
    (n.layer3.weight.rows * n.layer3.weight.cols + n.layer3.bias.len)

/-- Specification: weights and biases of a network for points with `dim` coordinates and layers of the given width. -/
structure Network.Fits (n : Network) (dim width : ℕ) : Prop where
  w1 : n.layer1.weight.rows = width ∧ n.layer1.weight.cols = dim
  w2 : n.layer2.weight.rows = width ∧ n.layer2.weight.cols = width
  w3 : n.layer3.weight.rows = dim ∧ n.layer3.weight.cols = width
  b : n.layer1.bias.len = width ∧ n.layer2.bias.len = width ∧ n.layer3.bias.len = dim

/-- `number_of_hps` is the number of weights and biases of the new network. -/
theorem C128_count (g : Init) (dim width : ℕ) :
    (Network.new g dim width).Fits dim width ∧ ((Network.new g dim width).size : ℤ) = (Network.new g dim width).numberOfHps := by
  refine ⟨⟨⟨rfl, rfl⟩, ⟨rfl, rfl⟩, ⟨rfl, rfl⟩, rfl, rfl, rfl⟩, ?_⟩
  simp only [Network.size, Network.new, linearInit]
  push_cast
  ring

theorem float2_idem (w : Arr2) : w.float.float = w.float := by
  simp only [Arr2.float, store32_idem]

theorem float1_idem (w : Arr1) : w.float.float = w.float := by
  simp only [Arr1.float, store32_idem]

/-- Two arrays of the same shape with entries that differ by at most the factor `1 ± 2⁻²⁴`. -/
def Arr2.Close (a w : Arr2) : Prop :=
  ∃ (hr : a.rows = w.rows) (hc : a.cols = w.cols), ∀ i j, |a.val i j - w.val (Fin.cast hr i) (Fin.cast hc j)| ≤ |w.val (Fin.cast hr i) (Fin.cast hc j)| * 2 ^ (-24 : ℤ)

/-- The same for vectors. -/
def Arr1.Close (a w : Arr1) : Prop :=
  ∃ h : a.len = w.len, ∀ i, |a.val i - w.val (Fin.cast h i)| ≤ |w.val (Fin.cast h i)| * 2 ^ (-24 : ℤ)

/-- Weights and biases that were set are read back up to single precision, in the same order; setting one kind does not change the other; writing back
what was read changes nothing. -/
theorem C128_roundtrip (n : Network) (w1 w2 w3 : Arr2) (b1 b2 b3 : Arr1) :
    (((n.setWeights w1 w2 w3).getWeights.1.Close w1 ∧ (n.setWeights w1 w2 w3).getWeights.2.1.Close w2 ∧
      (n.setWeights w1 w2 w3).getWeights.2.2.Close w3) ∧ (n.setWeights w1 w2 w3).getBiases = n.getBiases) ∧
    (((n.setBiases b1 b2 b3).getBiases.1.Close b1 ∧ (n.setBiases b1 b2 b3).getBiases.2.1.Close b2 ∧
      (n.setBiases b1 b2 b3).getBiases.2.2.Close b3) ∧ (n.setBiases b1 b2 b3).getWeights = n.getWeights) ∧
    (let m := (n.setWeights w1 w2 w3).setBiases b1 b2 b3
     m.setWeights m.getWeights.1 m.getWeights.2.1 m.getWeights.2.2 = m ∧ m.setBiases m.getBiases.1 m.getBiases.2.1 m.getBiases.2.2 = m) := by
  have c2 : ∀ w : Arr2, w.float.Close w := fun w => ⟨rfl, rfl, fun i j => store32_close _⟩
  have c1 : ∀ w : Arr1, w.float.Close w := fun w => ⟨rfl, fun i => store32_close _⟩
  refine ⟨⟨⟨c2 _, c2 _, c2 _⟩, rfl⟩, ⟨⟨c1 _, c1 _, c1 _⟩, rfl⟩, ?_, ?_⟩
  · simp only [Network.setWeights, Network.setBiases, Network.getWeights, float2_idem]
  · simp only [Network.setWeights, Network.setBiases, Network.getBiases, float1_idem]

theorem apply_ok (l : Linear) (x : List ℝ) :
    (∃ y, l.apply x = .ok y ∧ y.length = l.weight.rows) ∨ (∃ e, l.apply x = .error e) := by
  unfold Linear.apply
  split_ifs
  · exact .inr ⟨_, rfl⟩
  · exact .inl ⟨_, rfl, by simp⟩
  · exact .inl ⟨_, rfl, by simp⟩
  · exact .inr ⟨_, rfl⟩

theorem apply_isOk (l : Linear) (x : List ℝ) :
    (∃ y, l.apply x = .ok y) ↔ x.length = l.weight.cols ∧ (l.bias.len = l.weight.rows ∨ l.bias.len = 1) := by
  unfold Linear.apply
  split_ifs with h1 h2 h3
  · simp [h1]
  · simp only [ne_eq, not_not] at h1; simp [h1, h2]
  · simp only [ne_eq, not_not] at h1; simp [h1, h3]
  · simp only [ne_eq, not_not] at h1; simp [h1, h2, h3]

/-- The network evaluates a point exactly if the shapes of its arrays fit together; nothing else can fail. In particular wrong shapes given to
`set_weights` show up at the evaluation only. A network of the right shapes maps points with `dim` coordinates to points with `dim` non-negative
coordinates. -/
theorem C128_shapes (n : Network) (x : List ℝ) :
    ((∃ y, n.row x = .ok y) ↔ x.length = n.layer1.weight.cols ∧ n.layer1.weight.rows = n.layer2.weight.cols ∧
        n.layer2.weight.rows = n.layer3.weight.cols ∧ (n.layer1.bias.len = n.layer1.weight.rows ∨ n.layer1.bias.len = 1) ∧
        (n.layer2.bias.len = n.layer2.weight.rows ∨ n.layer2.bias.len = 1) ∧ (n.layer3.bias.len = n.layer3.weight.rows ∨ n.layer3.bias.len = 1)) ∧
    ∀ dim width, n.Fits dim width → x.length = dim → ∃ y, n.row x = .ok y ∧ y.length = dim ∧ ∀ a ∈ y, 0 ≤ a := by
  have key : ∀ l : Linear, ∀ x : List ℝ, ∀ y, l.apply x = .ok y → y.length = l.weight.rows := fun l x y h => by
    rcases apply_ok l x with ⟨y', h', hl⟩ | ⟨e, h'⟩
    · rw [h] at h'; injection h' with h'; rw [h', hl]
    · rw [h] at h'; cases h'
  have main : (∃ y, n.row x = .ok y) ↔ x.length = n.layer1.weight.cols ∧ n.layer1.weight.rows = n.layer2.weight.cols ∧
        n.layer2.weight.rows = n.layer3.weight.cols ∧ (n.layer1.bias.len = n.layer1.weight.rows ∨ n.layer1.bias.len = 1) ∧
        (n.layer2.bias.len = n.layer2.weight.rows ∨ n.layer2.bias.len = 1) ∧ (n.layer3.bias.len = n.layer3.weight.rows ∨ n.layer3.bias.len = 1) := by
    constructor
    · rintro ⟨y, h⟩
      simp only [Network.row, bind, Except.bind] at h
      split at h
      · cases h
      rename_i a ha
      split at h
      · cases h
      rename_i b hb
      split at h
      · cases h
      rename_i c hc
      obtain ⟨p1, p2⟩ := (apply_isOk _ _).mp ⟨a, ha⟩
      obtain ⟨q1, q2⟩ := (apply_isOk _ _).mp ⟨b, hb⟩
      obtain ⟨r1, r2⟩ := (apply_isOk _ _).mp ⟨c, hc⟩
      simp only [relu, List.length_map] at q1 r1
      exact ⟨p1, (key _ _ _ ha).symm.trans q1, (key _ _ _ hb).symm.trans r1, p2, q2, r2⟩
    · rintro ⟨h1, h2, h3, h4, h5, h6⟩
      obtain ⟨a, ha⟩ := (apply_isOk n.layer1 x).mpr ⟨h1, h4⟩
      obtain ⟨b, hb⟩ := (apply_isOk n.layer2 (relu a)).mpr ⟨by simp [relu, key _ _ _ ha, h2], h5⟩
      obtain ⟨c, hc⟩ := (apply_isOk n.layer3 (relu b)).mpr ⟨by simp [relu, key _ _ _ hb, h3], h6⟩
      exact ⟨relu c, by simp [Network.row, bind, Except.bind, ha, hb, hc]⟩
  refine ⟨main, fun dim width hf hx => ?_⟩
  obtain ⟨f1, f2, f3, f4, f5, f6⟩ := hf
  obtain ⟨y, hy⟩ := main.mpr ⟨by omega, by omega, by omega, .inl (by omega), .inl (by omega), .inl (by omega)⟩
  refine ⟨y, hy, ?_⟩
  simp only [Network.row, bind, Except.bind] at hy
  split at hy
  · cases hy
  split at hy
  · cases hy
  split at hy
  · cases hy
  rename_i c hc
  injection hy with hy
  subst hy
  refine ⟨by simp [relu, key _ _ _ hc, f3.1], fun a ha => ?_⟩
  simp only [relu, List.mem_map] at ha
  obtain ⟨b, -, rfl⟩ := ha
  exact le_max_right _ _

/-- Each point is warped on its own: the result for a point does not depend on the other points of the call. -/
theorem C128_pointwise (n : Network) (xs ys : List (List ℝ)) (h : n.forward xs = .ok ys) :
    ys.length = xs.length ∧ ∀ (i : ℕ) x, xs[i]? = some x → ∃ y, n.row x = .ok y ∧ ys[i]? = some y ∧ n.forward [x] = .ok [y] := by
  induction xs generalizing ys with
  | nil =>
    simp only [Network.forward, List.mapM_nil] at h
    injection h with h
    subst h
    simp
  | cons a xs ih =>
    simp only [Network.forward, List.mapM_cons, bind, Except.bind] at h
    split at h
    · cases h
    rename_i y hy
    split at h
    · cases h
    rename_i zs hz
    injection h with h
    subst h
    obtain ⟨h1, h2⟩ := ih zs hz
    refine ⟨by simp [h1], fun i x hx => ?_⟩
    cases i with
    | zero =>
      simp only [List.getElem?_cons_zero, Option.some.injEq] at hx
      subst hx
      exact ⟨y, hy, rfl, by simp [Network.forward, List.mapM_cons, bind, Except.bind, hy, pure, Except.pure]⟩
    | succ i => exact h2 i x (by simpa using hx)

/-- Specification: coordinates differ by at most `δ`. -/
def Within (δ : ℝ) (x y : List ℝ) : Prop := x.length = y.length ∧ ∀ i : ℕ, |x.getD i 0 - y.getD i 0| ≤ δ

theorem relu_within {δ : ℝ} {x y : List ℝ} (h : Within δ x y) : Within δ (relu x) (relu y) := by
  refine ⟨by simp [relu, h.1], fun i => ?_⟩
  have e : ∀ l : List ℝ, (relu l).getD i 0 = max (l.getD i 0) 0 := fun l => by
    simp only [relu, List.getD_eq_getElem?_getD, List.getElem?_map]
    cases l[i]? <;> simp
  rw [e, e]
  exact (abs_max_sub_max_le_abs _ _ _).trans (h.2 i)

theorem apply_within {l : Linear} {δ C : ℝ} {x y a b : List ℝ} (hC : ∀ o, ∑ i, |l.weight.val o i| ≤ C) (hC0 : 0 ≤ C) (h : Within δ x y)
    (ha : l.apply x = .ok a) (hb : l.apply y = .ok b) : Within (C * δ) a b := by
  have hδ : 0 ≤ δ := (abs_nonneg _).trans (h.2 0)
  have bound : ∀ (o : Fin l.weight.rows) (r : ℝ),
      |(∑ i, l.weight.val o i * x.getD i 0 + r) - (∑ i, l.weight.val o i * y.getD i 0 + r)| ≤ C * δ := by
    intro o r
    rw [add_sub_add_right_eq_sub, ← Finset.sum_sub_distrib]
    calc _ ≤ ∑ i, |l.weight.val o i * x.getD i 0 - l.weight.val o i * y.getD i 0| := Finset.abs_sum_le_sum_abs _ _
      _ ≤ ∑ i, |l.weight.val o i| * δ := Finset.sum_le_sum fun i _ => by
          rw [← mul_sub, abs_mul]; exact mul_le_mul_of_nonneg_left (h.2 i) (abs_nonneg _)
      _ = (∑ i, |l.weight.val o i|) * δ := by rw [Finset.sum_mul]
      _ ≤ _ := mul_le_mul_of_nonneg_right (hC o) hδ
  have fin : ∀ (r : Fin l.weight.rows → ℝ), Within (C * δ) (List.ofFn fun o => ∑ i, l.weight.val o i * x.getD i 0 + r o)
      (List.ofFn fun o => ∑ i, l.weight.val o i * y.getD i 0 + r o) := by
    intro r
    refine ⟨by simp, fun i => ?_⟩
    by_cases hi : i < l.weight.rows
    · simp only [List.getD_eq_getElem?_getD, List.getElem?_ofFn, hi, dif_pos, Option.getD_some]
      exact bound ⟨i, hi⟩ _
    · simp only [List.getD_eq_getElem?_getD, List.getElem?_ofFn, hi, dif_neg, not_false_eq_true, Option.getD_none, sub_self, abs_zero]
      positivity
  simp only [Linear.apply] at ha hb
  split_ifs at ha hb
  · injection ha with ha; injection hb with hb; subst ha hb; exact fin _
  · injection ha with ha; injection hb with hb; subst ha hb; exact fin _

/-- Nearby points stay nearby: the coordinates of warped points differ at most by the product of the row sums of the three weight matrices times the
difference of the coordinates. -/
theorem C128_lipschitz (n : Network) (C1 C2 C3 δ : ℝ) (h1 : ∀ o, ∑ i, |n.layer1.weight.val o i| ≤ C1) (h2 : ∀ o, ∑ i, |n.layer2.weight.val o i| ≤ C2)
    (h3 : ∀ o, ∑ i, |n.layer3.weight.val o i| ≤ C3) (p1 : 0 ≤ C1) (p2 : 0 ≤ C2) (p3 : 0 ≤ C3) (x y a b : List ℝ) (h : Within δ x y)
    (ha : n.row x = .ok a) (hb : n.row y = .ok b) : Within (C3 * C2 * C1 * δ) a b := by
  simp only [Network.row, bind, Except.bind] at ha hb
  split at ha
  · cases ha
  rename_i a1 e1
  split at ha
  · cases ha
  rename_i a2 e2
  split at ha
  · cases ha
  rename_i a3 e3
  split at hb
  · cases hb
  rename_i b1 f1
  split at hb
  · cases hb
  rename_i b2 f2
  split at hb
  · cases hb
  rename_i b3 f3
  injection ha with ha; injection hb with hb
  subst ha hb
  have := relu_within (apply_within h3 p3 (relu_within (apply_within h2 p2 (relu_within (apply_within h1 p1 h e1 f1)) e2 f2)) e3 f3)
  convert this using 1
  ring

/-- A network with weights and biases that are numbers in single precision. -/
noncomputable def exampleNet : Network where
  layer1 := ⟨⟨2, 1, fun o _ => if o = 0 then 1 else -1⟩, ⟨2, fun _ => 0⟩⟩
  layer2 := ⟨⟨2, 2, fun o i => if o = i then 1 else 0⟩, ⟨2, fun _ => 0⟩⟩
  layer3 := ⟨⟨1, 2, fun _ _ => 1⟩, ⟨1, fun _ => 1⟩⟩
  numberOfHps := 13

example : exampleNet.Fits 1 2 ∧ (exampleNet.size : ℤ) = exampleNet.numberOfHps :=
  ⟨⟨⟨rfl, rfl⟩, ⟨rfl, rfl⟩, ⟨rfl, rfl⟩, rfl, rfl, rfl⟩, by simp [exampleNet, Network.size]⟩

example : exampleNet.row [-3] = .ok [4] := by
  have l1 : exampleNet.layer1.apply [-3] = .ok [-3, 3] := by
    rw [Linear.apply, if_neg (by simp [exampleNet]), if_pos (by simp [exampleNet])]
    show Except.ok (List.ofFn fun o : Fin 2 => ∑ i : Fin 1, (if o = 0 then (1 : ℝ) else -1) * [-3].getD i 0 +
      (List.ofFn fun _ : Fin 2 => (0 : ℝ)).getD o 0) = _
    simp [List.ofFn_succ]
  have l2 : exampleNet.layer2.apply [0, 3] = .ok [0, 3] := by
    rw [Linear.apply, if_neg (by simp [exampleNet]), if_pos (by simp [exampleNet])]
    show Except.ok (List.ofFn fun o : Fin 2 => ∑ i : Fin 2, (if o = i then (1 : ℝ) else 0) * [0, 3].getD i 0 +
      (List.ofFn fun _ : Fin 2 => (0 : ℝ)).getD o 0) = _
    simp [List.ofFn_succ]
  have l3 : exampleNet.layer3.apply [0, 3] = .ok [4] := by
    rw [Linear.apply, if_neg (by simp [exampleNet]), if_pos (by simp [exampleNet])]
    show Except.ok (List.ofFn fun o : Fin 1 => ∑ i : Fin 2, (1 : ℝ) * [0, 3].getD i 0 +
      (List.ofFn fun _ : Fin 1 => (1 : ℝ)).getD o 0) = _
    simp [List.ofFn_succ]; norm_num
  have r1 : relu [-3, 3] = [0, 3] := by simp [relu]
  have r2 : relu [0, 3] = [0, 3] := by simp [relu]
  simp only [Network.row, l1, l2, l3, r1, r2, bind, Except.bind]
  simp [relu]

example : Within 2 [1, 3] [2, 1] := by
  refine ⟨rfl, fun i => ?_⟩
  match i with
  | 0 => norm_num
  | 1 => norm_num
  | i + 2 => simp

/-- Specification of a layer without activation: one weighted sum plus bias for each output. -/
def affine {o i : ℕ} (W : Fin o → Fin i → ℝ) (b : Fin o → ℝ) (x : Fin i → ℝ) : Fin o → ℝ := fun k => b k + ∑ j, x j * W k j

/-- Specification of a layer with activation. -/
noncomputable def rectified {o i : ℕ} (W : Fin o → Fin i → ℝ) (b : Fin o → ℝ) (x : Fin i → ℝ) : Fin o → ℝ :=
  fun k => if 0 ≤ affine W b x k then affine W b x k else 0

theorem apply_value {o i : ℕ} (W : Fin o → Fin i → ℝ) (b : Fin o → ℝ) (x : Fin i → ℝ) :
    Linear.apply ⟨⟨o, i, W⟩, ⟨o, b⟩⟩ (List.ofFn x) = .ok (List.ofFn (affine W b x)) := by
  simp only [Linear.apply, List.length_ofFn, ne_eq, not_true_eq_false, if_false, if_true]
  congr 2
  funext k
  simp only [affine, List.getD_eq_getElem?_getD, List.getElem?_ofFn, Fin.is_lt, dif_pos, Fin.eta, Option.getD_some]
  rw [add_comm]
  congr 1
  exact Finset.sum_congr rfl fun j _ => mul_comm _ _

theorem relu_value {o i : ℕ} (W : Fin o → Fin i → ℝ) (b : Fin o → ℝ) (x : Fin i → ℝ) :
    relu (List.ofFn (affine W b x)) = List.ofFn (rectified W b x) := by
  simp only [relu, List.map_ofFn]
  congr 1
  funext k
  simp only [Function.comp, rectified]
  split_ifs with h
  · exact max_eq_left h
  · exact max_eq_right (not_le.mp h).le

/-- The value of both networks: three layers in order, `Network` with an activation after each, `WarpNet` without the last one. (`Fits` networks are
exactly those of this form.) -/
theorem C128_value {d w o : ℕ} (W1 : Fin w → Fin d → ℝ) (b1 : Fin w → ℝ) (W2 : Fin w → Fin w → ℝ) (b2 : Fin w → ℝ) (W3 : Fin o → Fin w → ℝ)
    (b3 : Fin o → ℝ) (hps : ℤ) (x : Fin d → ℝ) :
    let n : Network := ⟨⟨⟨w, d, W1⟩, ⟨w, b1⟩⟩, ⟨⟨w, w, W2⟩, ⟨w, b2⟩⟩, ⟨⟨o, w, W3⟩, ⟨o, b3⟩⟩, hps⟩
    n.row (List.ofFn x) = .ok (List.ofFn (rectified W3 b3 (rectified W2 b2 (rectified W1 b1 x)))) ∧
    warpRow n (List.ofFn x) = .ok (List.ofFn (affine W3 b3 (rectified W2 b2 (rectified W1 b1 x)))) := by
  simp only [Network.row, warpRow, apply_value, relu_value, bind, Except.bind, and_self]

theorem fits_form (n : Network) (dim width : ℕ) (h : n.Fits dim width) : ∃ W1 b1 W2 b2 W3 b3,
    n = ⟨⟨⟨width, dim, W1⟩, ⟨width, b1⟩⟩, ⟨⟨width, width, W2⟩, ⟨width, b2⟩⟩, ⟨⟨dim, width, W3⟩, ⟨dim, b3⟩⟩, n.numberOfHps⟩ := by
  obtain ⟨⟨⟨r1, c1, W1⟩, ⟨l1, b1⟩⟩, ⟨⟨r2, c2, W2⟩, ⟨l2, b2⟩⟩, ⟨⟨r3, c3, W3⟩, ⟨l3, b3⟩⟩, k⟩ := n
  obtain ⟨⟨e1, e2⟩, ⟨e3, e4⟩, ⟨e5, e6⟩, e7, e8, e9⟩ := h
  simp only at e1 e2 e3 e4 e5 e6 e7 e8 e9
  subst e1 e2
  subst e3 e4 e5 e6 e7 e8 e9
  exact ⟨W1, b1, W2, b2, W3, b3, rfl⟩

/-- The last activation makes `Network` forget points: with negative weights in the last layer all points get the same image, so
the kernel of the warped points no longer depends on the points. -/
theorem C128_distinct_violated (dim width : ℕ) (hd : 0 < dim) : ∃ n : Network, n.Fits dim width ∧
    (∃ x y : List ℝ, x.length = dim ∧ y.length = dim ∧ x ≠ y) ∧
    ∀ x : List ℝ, x.length = dim → n.row x = .ok (List.replicate dim 0) := by
  refine ⟨⟨⟨⟨width, dim, fun _ _ => 1⟩, ⟨width, fun _ => 0⟩⟩, ⟨⟨width, width, fun _ _ => 1⟩, ⟨width, fun _ => 0⟩⟩,
    ⟨⟨dim, width, fun _ _ => -1⟩, ⟨dim, fun _ => 0⟩⟩, 0⟩, ⟨⟨rfl, rfl⟩, ⟨rfl, rfl⟩, ⟨rfl, rfl⟩, rfl, rfl, rfl⟩,
    ⟨List.replicate dim 0, List.replicate dim 1, by simp, by simp, fun h => ?_⟩, fun x hx => ?_⟩
  · have := congrArg List.head? h
    obtain ⟨k, rfl⟩ : ∃ k, dim = k + 1 := ⟨dim - 1, by omega⟩
    simp [List.replicate_succ] at this
  · subst hx
    have := (C128_value (fun (_ : Fin width) (_ : Fin x.length) => (1 : ℝ)) (fun _ => 0) (fun (_ _ : Fin width) => 1) (fun _ => 0)
      (fun (_ : Fin x.length) (_ : Fin width) => -1) (fun _ => 0) 0 x.get).1
    rw [List.ofFn_get] at this
    rw [this, ← List.ofFn_const]
    congr 2
    funext k
    have pos : ∀ j, 0 ≤ rectified (fun (_ _ : Fin width) => (1 : ℝ)) (fun _ => 0)
        (rectified (fun (_ : Fin width) (_ : Fin x.length) => (1 : ℝ)) (fun _ => 0) x.get) j := fun j => by
      rw [rectified]; split_ifs with h
      · exact h
      · exact le_rfl
    rw [rectified]
    split_ifs with h
    · refine le_antisymm ?_ h
      simp only [affine, zero_add]
      exact Finset.sum_nonpos fun j _ => by have := pos j; linarith
    · rfl

example : ∃ n : Network, n.Fits 2 3 := ⟨_, (C128_count (fun _ _ => (fun _ _ => 1, fun _ => 0)) 2 3).1⟩

end Verif.Tools
