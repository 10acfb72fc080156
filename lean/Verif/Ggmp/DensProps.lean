import Verif.Ggmp.DensModel
import Verif.Ggmp.EmProps
import Mathlib.Algebra.Order.BigOperators.Ring.Finset
import Mathlib.Analysis.MeanInequalities

/-!
C74: normalised densities. C85: distances between densities.
-/

namespace Verif.Ggmp

open Finset

variable {K : ℕ}

theorem spacing_nonneg (n : ℕ) (x : ℕ → ℝ) (i : ℕ) : 0 ≤ spacing n x i := by
  unfold spacing
  split_ifs <;> exact abs_nonneg _

theorem pos_nonneg (d : ℕ → ℝ) (i : ℕ) : 0 ≤ pos d i := le_max_right _ _

/-- C74: on a grid of at least two points, if the density has positive mass, the result is non-negative and its Riemann sum
with the returned spacing is one. -/
theorem C74_positive_mass (n : ℕ) (hn : 2 ≤ n) (x d : ℕ → ℝ) (hz : 0 < ∑ i ∈ range n, max (d i) 0 * spacing n x i) :
    ∃ p dx, normalizePdf n x n d = .ok (p, dx) ∧ (∀ i, 0 ≤ p i) ∧ dx = spacing n x ∧ ∑ i ∈ range n, p i * dx i = 1 := by
  refine ⟨fun i => pos d i / ∑ i ∈ range n, pos d i * spacing n x i, spacing n x, ?_, ?_, rfl, ?_⟩
  · simp only [normalizePdf, ne_eq, not_true_eq_false, if_false, Nat.not_lt.2 hn]
    exact if_neg (not_le.2 hz)
  · exact fun i => div_nonneg (pos_nonneg d i) hz.le
  · have : ∀ i, pos d i / (∑ i ∈ range n, pos d i * spacing n x i) * spacing n x i
        = pos d i * spacing n x i / ∑ i ∈ range n, pos d i * spacing n x i := fun i => by ring
    simp only [this]
    rw [← sum_div]
    exact div_self hz.ne'

/-- The spacing of a strictly increasing grid is positive. -/
theorem spacing_pos {n : ℕ} (hn : 2 ≤ n) {x : ℕ → ℝ} (hx : ∀ i j, i < j → j < n → x i < x j) {i : ℕ} (hi : i < n) :
    0 < spacing n x i := by
  unfold spacing
  split_ifs with h0 h1
  · exact abs_pos.2 (sub_ne_zero.2 (hx 0 1 (by omega) (by omega)).ne')
  · exact abs_pos.2 (sub_ne_zero.2 (hx (n - 2) (n - 1) (by omega) (by omega)).ne')
  · exact abs_pos.2 (div_ne_zero (sub_ne_zero.2 (hx (i - 1) (i + 1) (by omega) (by omega)).ne') (by norm_num))

/-- C74 for a strictly increasing grid and a density that is positive somewhere. -/
theorem C74_grid (n : ℕ) (hn : 2 ≤ n) (x d : ℕ → ℝ) (hx : ∀ i j, i < j → j < n → x i < x j) (i : ℕ) (hi : i < n)
    (hd : 0 < d i) :
    ∃ p dx, normalizePdf n x n d = .ok (p, dx) ∧ (∀ i, 0 ≤ p i) ∧ ∑ i ∈ range n, p i * dx i = 1 := by
  obtain ⟨p, dx, h1, h2, -, h3⟩ := C74_positive_mass n hn x d (sum_pos'
    (fun j _ => mul_nonneg (pos_nonneg d j) (spacing_nonneg n x j))
    ⟨i, mem_range.2 hi, mul_pos (lt_max_of_lt_left hd) (spacing_pos hn hx hi)⟩)
  exact ⟨p, dx, h1, h2, h3⟩

/-- C74 for histograms: every histogram with at least two bins and increasing edges gives a normalised density, whatever
the counts. -/
theorem C74_histogram (bins : ℕ) (hb : 2 ≤ bins) (edges hist : ℕ → ℝ) (he : ∀ i j, i < j → j ≤ bins → edges i < edges j) :
    ∃ p dx, empiricalPdf bins edges hist = .ok (p, dx) ∧ (∀ i, 0 ≤ p i) ∧ ∑ i ∈ range bins, p i * dx i = 1 := by
  refine C74_grid bins hb _ _ (fun i j hij hj => ?_) 0 (by omega) (lt_max_of_lt_right (by positivity))
  have h1 := he i j hij hj.le
  have h2 := he (i + 1) (j + 1) (by omega) (by omega)
  linarith

/-- C74 fails for a density without positive mass: the fallback has Riemann sum `1/n`, less than one. -/
theorem C74_fallback_violated (n : ℕ) (hn : 2 ≤ n) (x d : ℕ → ℝ) (hz : ∑ i ∈ range n, max (d i) 0 * spacing n x i ≤ 0) :
    ∃ p dx, normalizePdf n x n d = .ok (p, dx) ∧ ∑ i ∈ range n, p i * dx i = 1 / n ∧ ∑ i ∈ range n, p i * dx i < 1 := by
  have hn' : (2 : ℝ) ≤ n := by exact_mod_cast hn
  have e : ∑ i ∈ range n, (1 / (n : ℝ)) * (1 / n) = 1 / n := by
    rw [sum_const, card_range, nsmul_eq_mul]
    field_simp
  refine ⟨fun _ => 1 / n, fun _ => 1 / n, ?_, e, ?_⟩
  · simp only [normalizePdf, ne_eq, not_true_eq_false, if_false, Nat.not_lt.2 hn]
    exact if_pos hz
  · rw [e, div_lt_one (by linarith)]
    linarith

/-- The fallback is reached, for instance by a density that is zero on a unit grid. -/
example : ∃ p dx, normalizePdf 3 (fun i => i) 3 (fun _ => 0) = .ok (p, dx) ∧ ∑ i ∈ range 3, p i * dx i = 1 / (3 : ℕ) ∧
    ∑ i ∈ range 3, p i * dx i < 1 :=
  C74_fallback_violated 3 (by norm_num) _ _ (by simp)

example : ∃ p dx, normalizePdf 3 (fun i => i) 3 (fun i => i) = .ok (p, dx) ∧ (∀ i, 0 ≤ p i) ∧ ∑ i ∈ range 3, p i * dx i = 1 :=
  C74_grid 3 (by norm_num) _ _ (fun i j h _ => by exact_mod_cast h) 2 (by norm_num) (by norm_num)

theorem list_range_sum (n : ℕ) (f : ℕ → ℝ) : ((List.range n).map f).sum = ∑ i ∈ range n, f i := by
  induction n with
  | zero => simp
  | succ n ih => rw [List.range_succ, List.map_append, List.sum_append, sum_range_succ, ih]; simp

theorem normalizePdf_mass {n n' : ℕ} {x d p dx : ℕ → ℝ} (h : normalizePdf n x n' d = .ok (p, dx)) :
    (∀ i, 0 ≤ p i * dx i) ∧ 0 < ∑ i ∈ range n, p i * dx i := by
  simp only [normalizePdf] at h
  split_ifs at h with h1 h2 h3
  · injection h with h
    injection h with ha hb
    subst ha hb
    have : 0 < n := by omega
    refine ⟨fun i => by positivity, ?_⟩
    rw [sum_const, card_range, nsmul_eq_mul]
    positivity
  · injection h with h
    injection h with ha hb
    subst ha hb
    have hz := not_le.1 h3
    refine ⟨fun i => mul_nonneg (div_nonneg (pos_nonneg d i) hz.le) (spacing_nonneg n x i), ?_⟩
    have : ∀ i, pos d i / (∑ i ∈ range n, pos d i * spacing n x i) * spacing n x i
        = pos d i * spacing n x i / ∑ i ∈ range n, pos d i * spacing n x i := fun i => by ring
    simp only [this]
    rw [← sum_div, div_self hz.ne']
    norm_num

/-- C69: the observations built from at least one station always have non-negative factors with positive sum, so that the
EM theorems apply to `GGMP.train`. -/
theorem C69_station_rows (logPdf : ℕ → ℝ → Fin K → ℝ) (i : ℕ) (ss : List Station) (hs : ss ≠ []) (rows : List (Row K))
    (h : stationRows logPdf i ss = .ok rows) : Proper rows := by
  have key : ∀ (ss : List Station) (i : ℕ) (rows : List (Row K)), stationRows logPdf i ss = .ok rows →
      (∀ r ∈ rows, 0 ≤ r.c) ∧ 0 ≤ (rows.map Row.c).sum ∧ (ss ≠ [] → 0 < (rows.map Row.c).sum) := by
    intro ss
    induction ss with
    | nil =>
      intro i rows h
      simp only [stationRows, Except.ok.injEq] at h
      subst h
      simp
    | cons s ss ih =>
      intro i rows h
      simp only [stationRows, bind, Except.bind] at h
      cases hp : normalizePdf s.n s.x s.n' s.d with
      | error e => rw [hp] at h; simp at h
      | ok pd =>
        obtain ⟨p, dx⟩ := pd
        rw [hp] at h
        cases hr : stationRows logPdf (i + 1) ss with
        | error e => rw [hr] at h; simp at h
        | ok rest =>
          rw [hr] at h
          simp only [Except.ok.injEq] at h
          subst h
          obtain ⟨a, b, -⟩ := ih (i + 1) rest hr
          obtain ⟨c, d⟩ := normalizePdf_mass hp
          have e : (((List.range s.n).map fun j => (⟨p j * dx j, logPdf i (s.x j)⟩ : Row K)).map Row.c).sum
              = ∑ j ∈ range s.n, p j * dx j := by
            rw [List.map_map]
            exact list_range_sum s.n _
          refine ⟨fun r hr => ?_, ?_, fun _ => ?_⟩
          · rcases List.mem_append.1 hr with hr | hr
            · obtain ⟨j, -, rfl⟩ := List.mem_map.1 hr
              exact c j
            · exact a r hr
          · rw [List.map_append, List.sum_append, e]; linarith
          · rw [List.map_append, List.sum_append, e]; linarith
  exact ⟨(key ss i rows h).1, (key ss i rows h).2.2 hs⟩

/-! ### C85 -/

theorem unit_nonneg (n : ℕ) (x p : ℕ → ℝ) (i : ℕ) : 0 ≤ unit n x p i :=
  div_nonneg (pos_nonneg p i) (add_nonneg (sum_nonneg fun i _ => mul_nonneg (pos_nonneg p i) (spacing_nonneg n x i)) tiny_pos.le)

theorem unit_sum_le (n : ℕ) (x p : ℕ → ℝ) : ∑ i ∈ range n, unit n x p i * spacing n x i ≤ 1 := by
  have h0 : 0 ≤ ∑ i ∈ range n, pos p i * spacing n x i := sum_nonneg fun i _ => mul_nonneg (pos_nonneg p i) (spacing_nonneg n x i)
  have : ∀ i, unit n x p i * spacing n x i = pos p i * spacing n x i / (∑ i ∈ range n, pos p i * spacing n x i + tiny) := fun i => by
    unfold unit; ring
  simp only [this]
  rw [← sum_div, div_le_one (by linarith [tiny_pos])]
  linarith [tiny_pos]

/-- C85: the Bhattacharyya distance is symmetric. -/
theorem C85_bhattacharyya_symm (n : ℕ) (x p q : ℕ → ℝ) : bhattacharyya n x p q = bhattacharyya n x q p := by
  unfold bhattacharyya
  simp only [mul_comm (unit n x p _)]

/-- C85: the Bhattacharyya distance is not negative. -/
theorem C85_bhattacharyya_nonneg (n : ℕ) (x p q : ℕ → ℝ) : 0 ≤ bhattacharyya n x p q := by
  unfold bhattacharyya
  have ht1 : tiny ≤ 1 := by
    unfold tiny
    rw [div_le_one (by positivity)]
    exact one_le_pow₀ (by norm_num)
  have hb : ∑ i ∈ range n, √(max (unit n x p i * unit n x q i) 0) * spacing n x i ≤ 1 := by
    have e : ∀ i, √(max (unit n x p i * unit n x q i) 0) * spacing n x i
        = √(unit n x p i * spacing n x i) * √(unit n x q i * spacing n x i) := by
      intro i
      rw [max_eq_left (mul_nonneg (unit_nonneg n x p i) (unit_nonneg n x q i)), ← Real.sqrt_mul (mul_nonneg (unit_nonneg n x p i) (spacing_nonneg n x i))]
      have : unit n x p i * spacing n x i * (unit n x q i * spacing n x i)
          = unit n x p i * unit n x q i * (spacing n x i * spacing n x i) := by ring
      rw [this, Real.sqrt_mul (mul_nonneg (unit_nonneg n x p i) (unit_nonneg n x q i)), Real.sqrt_mul_self (spacing_nonneg n x i)]
    simp only [e]
    have cs := sum_mul_sq_le_sq_mul_sq (range n) (fun i => √(unit n x p i * spacing n x i)) (fun i => √(unit n x q i * spacing n x i))
    have sp : ∀ (p : ℕ → ℝ) (i : ℕ), √(unit n x p i * spacing n x i) ^ 2 = unit n x p i * spacing n x i := fun p i =>
      Real.sq_sqrt (mul_nonneg (unit_nonneg n x p i) (spacing_nonneg n x i))
    simp only [sp] at cs
    have h1 := unit_sum_le n x p
    have h2 := unit_sum_le n x q
    have h3 : 0 ≤ ∑ i ∈ range n, unit n x q i * spacing n x i := sum_nonneg fun i _ => mul_nonneg (unit_nonneg n x q i) (spacing_nonneg n x i)
    have h4 := mul_le_one₀ h1 h3 h2
    exact abs_le_one_iff_mul_self_le_one.2 (by rw [← sq]; exact cs.trans h4) |> fun h => (abs_le.1 h).2
  have := Real.log_nonpos (le_trans tiny_pos.le (le_max_right _ _)) (max_le hb ht1)
  linarith

/-- C85: `wasserstein_1d` is a pseudometric on densities over one grid. -/
theorem C85_wasserstein (n : ℕ) (x p q r : ℕ → ℝ) :
    0 ≤ wasserstein1d n x p q ∧ wasserstein1d n x p q = wasserstein1d n x q p ∧ wasserstein1d n x p p = 0 ∧
      wasserstein1d n x p r ≤ wasserstein1d n x p q + wasserstein1d n x q r := by
  refine ⟨sum_nonneg fun i _ => mul_nonneg (abs_nonneg _) (spacing_nonneg n x i), ?_, ?_, ?_⟩
  · unfold wasserstein1d
    exact sum_congr rfl fun i _ => by rw [abs_sub_comm]
  · simp [wasserstein1d]
  · unfold wasserstein1d
    rw [← sum_add_distrib]
    refine sum_le_sum fun i _ => ?_
    rw [← add_mul]
    exact mul_le_mul_of_nonneg_right (abs_sub_le _ _ _) (spacing_nonneg n x i)

/-- C85: the reported divergence of a density from itself is zero, and in general it is not below the difference of the two
normalised masses minus `1e-300` times the length of the grid. -/
theorem C85_kl (n : ℕ) (x p q : ℕ → ℝ) :
    klDivergence n x p p = 0 ∧
      ∑ i ∈ range n, unit n x p i * spacing n x i - ∑ i ∈ range n, unit n x q i * spacing n x i
        - tiny * ∑ i ∈ range n, spacing n x i ≤ klDivergence n x p q := by
  refine ⟨by simp [klDivergence], ?_⟩
  unfold klDivergence
  rw [← sum_sub_distrib, mul_sum, ← sum_sub_distrib]
  refine sum_le_sum fun i _ => ?_
  have ht := tiny_pos
  have hp := unit_nonneg n x p i
  have hq := unit_nonneg n x q i
  have hs := spacing_nonneg n x i
  set a := unit n x p i
  set b := unit n x q i
  have h1 : 1 - (b + tiny) / (a + tiny) ≤ Real.log (a + tiny) - Real.log (b + tiny) := by
    have := Real.one_sub_inv_le_log_of_pos (x := (a + tiny) / (b + tiny)) (by positivity)
    rw [inv_div, Real.log_div (by positivity) (by positivity)] at this
    exact this
  have h2 := mul_le_mul_of_nonneg_left h1 hp
  have h3 : a - b - tiny ≤ a * (1 - (b + tiny) / (a + tiny)) := by
    have e : a * (1 - (b + tiny) / (a + tiny)) = (a - b) - tiny * (a - b) / (a + tiny) := by
      field_simp
      ring
    rw [e]
    have : tiny * (a - b) / (a + tiny) ≤ tiny := by
      rw [div_le_iff₀ (by positivity)]
      nlinarith
    linarith
  have := mul_le_mul_of_nonneg_right (h3.trans h2) hs
  linarith

end Verif.Ggmp
