import Verif.Metrics.Props

/-!
C91: which test sets the metrics accept, and C77 for the coverage curve and the relative errors.
-/

namespace Verif.Metrics

open Finset

/-- `np.squeeze` on shapes. -/
def squeeze (s : List ℕ) : List ℕ := s.filter (· ≠ 1)

/-- What kind of GP is asked: `outputs` columns of `y_data`, or (`tasks`) a product space of `x_out` positions with one column. -/
inductive Kind where
  | outputs (no : ℕ)
  | tasks (no : ℕ)

/-- Shape of `posterior_mean(x)["m(x)"]` for `V` points, gp_posterior.py:161-183. -/
def meanShape (V : ℕ) : Kind → List ℕ
  | .outputs no => if no = 1 then squeeze [V, 1] else [V, no]
  | .tasks no => [V, no]

/-- Shape of `posterior_covariance(x)["v(x)"]`, gp_posterior.py:264-284. -/
def varShape (V : ℕ) : Kind → List ℕ
  | .outputs no => if no > 1 then [V, no] else [V]
  | .tasks no => [V, no]

/-- The assertion of `rmse`, `r2`, `mae`, `mape` (gp.py:1804, 1870, 2013, 2037). -/
def meanCheck (V : ℕ) (k : Kind) (y : List ℕ) : Bool := decide (meanShape V k = y)

/-- The assertion of `crps`, `nlpd`, `interval_score`, `msll` (gp.py:1779, 1846, 1982, 2061). -/
def bothCheck (V : ℕ) (k : Kind) (y : List ℕ) : Bool := decide (meanShape V k = varShape V k ∧ varShape V k = y)

/-- The documented shape of the test values: `V` or `(V x No)`. -/
def documented (V : ℕ) : Kind → List ℕ
  | .outputs no => if no = 1 then [V] else [V, no]
  | .tasks no => [V, no]

/-- With more than one test point (or several outputs) every metric accepts test values of the documented shape, and no other. -/
theorem C91_accepts_partial (V : ℕ) (k : Kind) (hk : ∀ no, k = .outputs no → 1 ≤ no) (h : V ≠ 1 ∨ k ≠ .outputs 1) (y : List ℕ) :
    (meanCheck V k y = true ↔ y = documented V k) ∧ (bothCheck V k y = true ↔ y = documented V k) := by
  have hm : meanShape V k = documented V k := by
    cases k with
    | tasks no => rfl
    | outputs no =>
      by_cases hno : no = 1
      · subst hno
        have hV : V ≠ 1 := h.resolve_right (by simp)
        simp [meanShape, documented, squeeze, hV]
      · simp [meanShape, documented, hno]
  have hv : varShape V k = documented V k := by
    cases k with
    | tasks no => rfl
    | outputs no =>
      have := hk no rfl
      by_cases hno : no = 1
      · simp [varShape, documented, hno]
      · have : 1 < no := by omega
        simp [varShape, documented, hno, this]
  simp only [meanCheck, bothCheck, hm, hv, decide_eq_true_eq, true_and]
  exact ⟨eq_comm, eq_comm⟩

/-- A single test point of a single-output GP is refused in its documented shape by every metric that checks shapes, and the
density scores and the interval score refuse it in every shape. -/
theorem C91_single_point_violated :
    meanCheck 1 (.outputs 1) (documented 1 (.outputs 1)) = false ∧ ∀ y, bothCheck 1 (.outputs 1) y = false := by
  constructor
  · decide
  · intro y
    simp [bothCheck, meanShape, varShape, squeeze]

/-- `coverage_curve`, gp.py:1910-1935. -/
noncomputable def coverageCurve {n : ℕ} (ppf : ℝ → ℝ) (y m v : Fin n → ℝ) (intervals : List ℝ) : List (ℝ × ℝ) :=
  intervals.map fun q => (q, picp ppf y m v q)

/-- The default levels `np.linspace(0.05, 0.95, 19)`, gp.py:1932. -/
noncomputable def defaultLevels : List ℝ := (List.range 19).map fun i : ℕ => 0.05 + 0.05 * (i : ℝ)

/-- The measured coverage never falls along increasing levels in (0, 1). -/
theorem C77_coverage_curve {n : ℕ} {ppf : ℝ → ℝ} (hp : IsPpf ppf) (hn : 0 < n) (y m v : Fin n → ℝ) (hv : ∀ i, 0 ≤ v i) (qs : List ℝ)
    (hq : ∀ q ∈ qs, 0 < q ∧ q < 1) (hs : qs.Pairwise (· ≤ ·)) :
    (coverageCurve ppf y m v qs).map Prod.fst = qs ∧
      ((coverageCurve ppf y m v qs).map Prod.snd).Pairwise (· ≤ ·) ∧
      ∀ c ∈ (coverageCurve ppf y m v qs).map Prod.snd, 0 ≤ c ∧ c ≤ 1 := by
  refine ⟨by simp [coverageCurve, Function.comp_def], ?_, ?_⟩
  · simp only [coverageCurve, List.map_map, List.pairwise_map, Function.comp_apply]
    refine hs.imp_of_mem fun {a b} ha hb hab => ?_
    exact (C77_picp hp hn y m v hv a b (hq a ha).1 hab (hq b hb).2).2.1
  · intro c hc
    simp only [coverageCurve, List.map_map, List.mem_map, Function.comp_apply] at hc
    obtain ⟨q, hq', rfl⟩ := hc
    have h := C77_picp hp hn y m v hv q q (hq q hq').1 le_rfl (hq q hq').2
    exact ⟨h.1, h.2.2⟩

/-- The default levels qualify. -/
theorem C77_default_levels : (∀ q ∈ defaultLevels, 0 < q ∧ q < 1) ∧ defaultLevels.Pairwise (· ≤ ·) := by
  constructor
  · intro q hq
    simp only [defaultLevels, List.mem_map, List.mem_range] at hq
    obtain ⟨i, hi, rfl⟩ := hq
    have h2 : (i : ℝ) ≤ 18 := by exact_mod_cast Nat.le_of_lt_succ hi
    have h3 : (0 : ℝ) ≤ i := Nat.cast_nonneg i
    constructor
    · nlinarith
    · norm_num
      linarith
  · rw [defaultLevels, List.pairwise_map]
    refine List.pairwise_lt_range.imp fun {a b} hab => ?_
    have : (a : ℝ) ≤ b := by exact_mod_cast hab.le
    nlinarith

/-- `nrmse`, gp.py:1807-1825: `lo` and `hi` are the extreme test values. -/
noncomputable def nrmse {n : ℕ} (y m : Fin n → ℝ) (lo hi : ℝ) : Option ℝ :=
  open Classical in if hi - lo = 0 then none else some (rmse y m / (hi - lo))

/-- The normalised error does not change if test values and predictions are shifted and scaled together. -/
theorem C77_nrmse_scale {n : ℕ} (y m : Fin n → ℝ) (lo hi a b : ℝ) (ha : 0 < a) :
    nrmse (fun i => a * y i + b) (fun i => a * m i + b) (a * lo + b) (a * hi + b) = nrmse y m lo hi := by
  have hr : rmse (fun i => a * y i + b) (fun i => a * m i + b) = a * rmse y m := by
    unfold rmse
    have : ∀ i, (a * y i + b - (a * m i + b)) ^ 2 = a ^ 2 * (y i - m i) ^ 2 := fun i => by ring
    simp only [this]
    rw [← mul_sum, mul_div_assoc, Real.sqrt_mul (sq_nonneg a), Real.sqrt_sq ha.le]
  have hd : a * hi + b - (a * lo + b) = a * (hi - lo) := by ring
  unfold nrmse
  rw [hr, hd]
  by_cases h : hi - lo = 0
  · simp [h]
  · rw [if_neg h, if_neg (mul_ne_zero ha.ne' h), mul_div_mul_left _ _ ha.ne']

/-- `mape`, gp.py:2016-2038: none if a test value is zero. -/
noncomputable def mape {n : ℕ} (y m : Fin n → ℝ) : Option ℝ :=
  open Classical in if ∃ i, y i = 0 then none else some (mean fun i => |(y i - m i) / y i|)

/-- The relative error does not change with the unit, is not negative, and zero only for perfect predictions. -/
theorem C77_mape {n : ℕ} (hn : 0 < n) (y m : Fin n → ℝ) (a : ℝ) (ha : a ≠ 0) :
    mape (fun i => a * y i) (fun i => a * m i) = mape y m ∧
      ∀ r, mape y m = some r → 0 ≤ r ∧ (r = 0 ↔ ∀ i, m i = y i) := by
  constructor
  · unfold mape
    simp only [mul_eq_zero, ha, false_or, ← mul_sub, mul_div_mul_left _ _ ha]
  · intro r h
    unfold mape at h
    split_ifs at h with h0
    simp only [Option.some.injEq] at h
    subst h
    push Not at h0
    refine ⟨mean_nonneg fun i => abs_nonneg _, ?_⟩
    rw [mean_eq_zero hn fun i => abs_nonneg _]
    refine forall_congr' fun i => ?_
    rw [abs_eq_zero, div_eq_zero_iff, or_iff_left (h0 i), sub_eq_zero, eq_comm]

example : bothCheck 5 (.outputs 1) [5] = true ∧ bothCheck 5 (.outputs 1) [5, 1] = false ∧ meanCheck 1 (.outputs 2) [1, 2] = true := by
  decide

end Verif.Metrics
