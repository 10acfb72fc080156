import Verif.Metrics.Model
import Verif.Metrics.Normal
import Mathlib.Algebra.Order.Chebyshev

/-!
C77 (metrics), C87 (prediction intervals) and C89 (log density scores).
-/

namespace Verif.Metrics

open Finset ProbabilityTheory

variable {n : ℕ}

/-- What is assumed of `norm.ppf`: it inverts the distribution function. -/
def IsPpf (ppf : ℝ → ℝ) : Prop := ∀ p, 0 < p → p < 1 → stdCdf (ppf p) = p

/-- There is such a function. -/
theorem ppf_exists : ∃ ppf, IsPpf ppf := by
  have h : ∀ p, 0 < p → p < 1 → ∃ x, stdCdf x = p := by
    intro p h0 h1
    obtain ⟨a, ha⟩ := ((tendsto_cdf_atBot (gaussianReal 0 1)).eventually (gt_mem_nhds h0)).exists
    obtain ⟨b, hb⟩ := ((tendsto_cdf_atTop (gaussianReal 0 1)).eventually (lt_mem_nhds h1)).exists
    exact mem_range_of_exists_le_of_exists_ge stdCdf_continuous ⟨a, le_of_lt ha⟩ ⟨b, le_of_lt hb⟩
  classical
  refine ⟨fun p => if h' : 0 < p ∧ p < 1 then (h p h'.1 h'.2).choose else 0, fun p h0 h1 => ?_⟩
  simp only [h0, h1, and_self, dif_pos]
  exact (h p h0 h1).choose_spec

theorem zOf_spec {ppf : ℝ → ℝ} (hp : IsPpf ppf) {q : ℝ} (h0 : 0 < q) (h1 : q < 1) :
    stdCdf (zOf ppf q) = 1 - (1 - q) / 2 := hp _ (by linarith) (by linarith)

theorem zOf_pos {ppf : ℝ → ℝ} (hp : IsPpf ppf) {q : ℝ} (h0 : 0 < q) (h1 : q < 1) : 0 < zOf ppf q := by
  have h := zOf_spec hp h0 h1
  rw [← stdCdf_strictMono.lt_iff_lt, h, stdCdf_zero]
  linarith

theorem zOf_strictMono {ppf : ℝ → ℝ} (hp : IsPpf ppf) {q r : ℝ} (h0 : 0 < q) (h : q < r) (h1 : r < 1) :
    zOf ppf q < zOf ppf r := by
  rw [← stdCdf_strictMono.lt_iff_lt, zOf_spec hp h0 (h.trans h1), zOf_spec hp (h0.trans h) h1]
  linarith

/-! ### C77 -/

theorem mean_nonneg {f : Fin n → ℝ} (h : ∀ i, 0 ≤ f i) : 0 ≤ mean f :=
  div_nonneg (sum_nonneg fun i _ => h i) (Nat.cast_nonneg n)

theorem mean_mono {f g : Fin n → ℝ} (h : ∀ i, f i ≤ g i) : mean f ≤ mean g :=
  div_le_div_of_nonneg_right (sum_le_sum fun i _ => h i) (Nat.cast_nonneg n)

theorem mean_eq_zero (hn : 0 < n) {f : Fin n → ℝ} (h : ∀ i, 0 ≤ f i) : mean f = 0 ↔ ∀ i, f i = 0 := by
  have : (n : ℝ) ≠ 0 := by positivity
  unfold mean
  rw [div_eq_zero_iff, or_iff_left this, sum_eq_zero_iff_of_nonneg fun i _ => h i]
  simp

/-- The root mean squared error is not negative, and zero only for perfect predictions. -/
theorem C77_rmse (hn : 0 < n) (y m : Fin n → ℝ) : 0 ≤ rmse y m ∧ (rmse y m = 0 ↔ ∀ i, m i = y i) := by
  refine ⟨Real.sqrt_nonneg _, ?_⟩
  have h : rmse y m = √(mean fun i => (y i - m i) ^ 2) := rfl
  rw [h, Real.sqrt_eq_zero (mean_nonneg fun i => sq_nonneg _), mean_eq_zero hn fun i => sq_nonneg _]
  exact forall_congr' fun i => by rw [sq_eq_zero_iff, sub_eq_zero, eq_comm]

/-- The mean absolute error is not negative, zero only for perfect predictions, and at most the root mean squared error,
which is at most the largest error. -/
theorem C77_mae (hn : 0 < n) (y m : Fin n → ℝ) :
    0 ≤ mae y m ∧ (mae y m = 0 ↔ ∀ i, m i = y i) ∧ mae y m ≤ rmse y m ∧
      ∀ b, (∀ i, |y i - m i| ≤ b) → rmse y m ≤ b := by
  have hn' : (0 : ℝ) < n := by exact_mod_cast hn
  refine ⟨mean_nonneg fun i => abs_nonneg _, ?_, ?_, fun b hb => ?_⟩
  · unfold mae
    rw [mean_eq_zero hn fun i => abs_nonneg _]
    exact forall_congr' fun i => by rw [abs_eq_zero, sub_eq_zero, eq_comm]
  · refine Real.le_sqrt_of_sq_le ?_
    unfold mae mean
    rw [div_pow, div_le_div_iff₀ (by positivity) hn']
    have h := sq_sum_le_card_mul_sum_sq (s := (univ : Finset (Fin n))) (f := fun i => |y i - m i|)
    simp only [sq_abs, card_univ, Fintype.card_fin] at h
    nlinarith
  · have hb0 : 0 ≤ b := (abs_nonneg _).trans (hb ⟨0, hn⟩)
    refine Real.sqrt_le_iff.2 ⟨hb0, ?_⟩
    rw [div_le_iff₀ hn']
    calc ∑ i, (y i - m i) ^ 2 ≤ ∑ _i : Fin n, b ^ 2 :=
          sum_le_sum fun i _ => by rw [← sq_abs]; exact pow_le_pow_left₀ (abs_nonneg _) (hb i) 2
      _ = b ^ 2 * n := by simp [mul_comm]

/-- The score R² is at most one, one only for perfect predictions, and zero for the constant prediction by the mean of the
test values. It has a value unless the test values are all equal. -/
theorem C77_r2 (hn : 0 < n) (y m : Fin n → ℝ) :
    (∀ r, r2 y m = some r → r ≤ 1 ∧ (r = 1 ↔ ∀ i, m i = y i)) ∧
      (∀ r, r2 y (fun _ => mean y) = some r → r = 0) ∧ (r2 y m = none ↔ ∀ i j, y i = y j) := by
  have hn' : (n : ℝ) ≠ 0 := by positivity
  refine ⟨fun r h => ?_, fun r h => ?_, ?_⟩
  · unfold r2 at h
    simp only at h
    split_ifs at h with h0
    simp only [Option.some.injEq] at h
    have hp : 0 < ∑ i, (y i - mean y) ^ 2 := lt_of_le_of_ne (sum_nonneg fun i _ => sq_nonneg _) (Ne.symm h0)
    have hr : 0 ≤ ∑ i, (y i - m i) ^ 2 := sum_nonneg fun i _ => sq_nonneg _
    have hd := div_nonneg hr hp.le
    refine ⟨by linarith, ?_⟩
    rw [← h]
    have : (1 - (∑ i, (y i - m i) ^ 2) / ∑ i, (y i - mean y) ^ 2 = 1) ↔ ∑ i, (y i - m i) ^ 2 = 0 := by
      constructor
      · intro e
        have : (∑ i, (y i - m i) ^ 2) / ∑ i, (y i - mean y) ^ 2 = 0 := by linarith
        exact (div_eq_zero_iff.1 this).resolve_right h0
      · intro e; rw [e]; simp
    rw [this, sum_eq_zero_iff_of_nonneg fun i _ => sq_nonneg _]
    simp only [mem_univ, true_implies]
    exact forall_congr' fun i => by rw [sq_eq_zero_iff, sub_eq_zero, eq_comm]
  · unfold r2 at h
    simp only at h
    split_ifs at h with h0
    simp only [Option.some.injEq] at h
    rw [← h, div_self h0, sub_self]
  · unfold r2
    simp only [ite_eq_left_iff, reduceCtorEq, imp_false, not_not]
    rw [sum_eq_zero_iff_of_nonneg fun i _ => sq_nonneg _]
    simp only [mem_univ, true_implies, sq_eq_zero_iff, sub_eq_zero]
    constructor
    · exact fun h i j => (h i).trans (h j).symm
    · intro h i
      unfold mean
      rw [eq_div_iff hn', sum_congr rfl fun j _ => h j i]
      simp [mul_comm]

/-- Coverage lies between zero and one and does not decrease with the level. -/
theorem C77_picp {ppf : ℝ → ℝ} (hp : IsPpf ppf) (hn : 0 < n) (y m v : Fin n → ℝ) (_hv : ∀ i, 0 ≤ v i) (q r : ℝ)
    (h0 : 0 < q) (h : q ≤ r) (h1 : r < 1) :
    0 ≤ picp ppf y m v q ∧ picp ppf y m v q ≤ picp ppf y m v r ∧ picp ppf y m v r ≤ 1 := by
  classical
  have hn' : (n : ℝ) ≠ 0 := by positivity
  refine ⟨mean_nonneg fun i => by split_ifs <;> norm_num, mean_mono fun i => ?_, ?_⟩
  · have hz : zOf ppf q ≤ zOf ppf r := by
      rcases eq_or_lt_of_le h with e | e
      · rw [e]
      · exact (zOf_strictMono hp h0 e h1).le
    have hs := mul_le_mul_of_nonneg_right hz (Real.sqrt_nonneg (v i))
    by_cases a : lower ppf q (m i) (v i) ≤ y i ∧ y i ≤ upper ppf q (m i) (v i)
    · have b : lower ppf r (m i) (v i) ≤ y i ∧ y i ≤ upper ppf r (m i) (v i) := by
        simp only [lower, upper] at a ⊢
        exact ⟨by linarith [a.1], by linarith [a.2]⟩
      rw [if_pos a, if_pos b]
    · rw [if_neg a]
      split_ifs <;> norm_num
  · have : mean (fun _ : Fin n => (1 : ℝ)) = 1 := by simp [mean, hn']
    rw [← this]
    exact mean_mono fun i => by split_ifs <;> norm_num

/-- The mean width is not negative, zero only without any variance, and does not decrease with the level. -/
theorem C77_mpiw {ppf : ℝ → ℝ} (hp : IsPpf ppf) (hn : 0 < n) (v : Fin n → ℝ) (q r : ℝ) (h0 : 0 < q) (h : q ≤ r) (h1 : r < 1) :
    0 ≤ mpiw ppf v q ∧ (mpiw ppf v q = 0 ↔ ∀ i, v i ≤ 0) ∧ mpiw ppf v q ≤ mpiw ppf v r := by
  have hz := zOf_pos hp h0 (h.trans_lt h1)
  refine ⟨mean_nonneg fun i => by positivity, ?_, mean_mono fun i => ?_⟩
  · unfold mpiw
    rw [mean_eq_zero hn fun i => by positivity]
    refine forall_congr' fun i => ?_
    rw [mul_eq_zero, or_iff_right (by positivity), Real.sqrt_eq_zero (le_max_right _ _), max_eq_right_iff]
  · have hz' : zOf ppf q ≤ zOf ppf r := by
      rcases eq_or_lt_of_le h with e | e
      · rw [e]
      · exact (zOf_strictMono hp h0 e h1).le
    have := mul_le_mul_of_nonneg_right hz' (Real.sqrt_nonneg (max (v i) 0))
    nlinarith

/-- The interval score is at least the mean width, equal to it exactly if all values are covered, and zero only for perfect
predictions without variance. -/
theorem C77_interval_score {ppf : ℝ → ℝ} (hp : IsPpf ppf) (hn : 0 < n) (y m v : Fin n → ℝ) (hv : ∀ i, 0 ≤ v i) (q : ℝ) (h0 : 0 < q)
    (h1 : q < 1) :
    mpiw ppf v q ≤ intervalScore ppf y m v q ∧ (intervalScore ppf y m v q = mpiw ppf v q ↔ picp ppf y m v q = 1) ∧
      0 ≤ intervalScore ppf y m v q ∧ (intervalScore ppf y m v q = 0 ↔ ∀ i, v i = 0 ∧ m i = y i) := by
  classical
  have hn' : (n : ℝ) ≠ 0 := by positivity
  have hz := zOf_pos hp h0 h1
  have hq : 0 < 2 / (1 - q) := div_pos two_pos (by linarith)
  set P : Fin n → ℝ := fun i => 2 / (1 - q) * max (lower ppf q (m i) (v i) - y i) 0
      + 2 / (1 - q) * max (y i - upper ppf q (m i) (v i)) 0 with hP
  have hP0 : ∀ i, 0 ≤ P i := fun i => by positivity
  have e : intervalScore ppf y m v q = mpiw ppf v q + mean P := by
    unfold intervalScore mpiw mean
    rw [← add_div, ← sum_add_distrib]
    congr 1
    refine sum_congr rfl fun i _ => ?_
    rw [max_eq_left (hv i)]
    simp only [hP, lower, upper]
    ring
  have hPi : ∀ i, P i = 0 ↔ lower ppf q (m i) (v i) ≤ y i ∧ y i ≤ upper ppf q (m i) (v i) := by
    intro i
    have a1 : 0 ≤ 2 / (1 - q) * max (lower ppf q (m i) (v i) - y i) 0 := by positivity
    have a2 : 0 ≤ 2 / (1 - q) * max (y i - upper ppf q (m i) (v i)) 0 := by positivity
    simp only [hP]
    rw [add_eq_zero_iff_of_nonneg a1 a2, mul_eq_zero, mul_eq_zero, or_iff_right hq.ne', or_iff_right hq.ne', max_eq_right_iff,
      max_eq_right_iff, sub_nonpos, sub_nonpos]
  have hmp := C77_mpiw hp hn v q q h0 le_rfl h1
  have hmP : 0 ≤ mean P := mean_nonneg hP0
  refine ⟨by linarith, ?_, by linarith [hmp.1], ?_⟩
  · rw [e]
    have : (mpiw ppf v q + mean P = mpiw ppf v q) ↔ mean P = 0 := by constructor <;> intro h <;> linarith
    rw [this, mean_eq_zero hn hP0]
    have h1' : picp ppf y m v q = 1 ↔
        mean (fun i => 1 - if lower ppf q (m i) (v i) ≤ y i ∧ y i ≤ upper ppf q (m i) (v i) then (1 : ℝ) else 0) = 0 := by
      unfold picp mean
      rw [sum_sub_distrib, sub_div]
      simp only [sum_const, card_univ, Fintype.card_fin, nsmul_eq_mul, mul_one, div_self hn']
      rw [sub_eq_zero, eq_comm]
    rw [h1', mean_eq_zero hn fun i => by split_ifs <;> norm_num]
    refine forall_congr' fun i => ?_
    rw [hPi i]
    split_ifs with h
    · simp [h]
    · simp [h]
  · rw [e]
    constructor
    · intro h
      have h2 : mpiw ppf v q = 0 := by linarith [hmp.1]
      have h3 : mean P = 0 := by linarith [hmp.1]
      intro i
      have h4 : v i = 0 := le_antisymm ((hmp.2.1.1 h2) i) (hv i)
      have h5 := (hPi i).1 ((mean_eq_zero hn hP0).1 h3 i)
      simp only [lower, upper, h4, Real.sqrt_zero, mul_zero, sub_zero, add_zero] at h5
      exact ⟨h4, le_antisymm h5.1 h5.2⟩
    · intro h
      have h2 : mpiw ppf v q = 0 := hmp.2.1.2 fun i => (h i).1.le
      have h3 : mean P = 0 := (mean_eq_zero hn hP0).2 fun i => (hPi i).2 (by simp [lower, upper, (h i).1, (h i).2])
      rw [h2, h3, add_zero]

/-- Test values in a column are compared with every interval: two perfect, certain predictions have coverage one half. -/
theorem C90_picp_column_violated (ppf : ℝ → ℝ) (q : ℝ) : picp (n := 2) ppf ![0, 1] ![0, 1] ![0, 0] q = 1 ∧
    picpColumn (n := 2) ppf ![0, 1] ![0, 1] ![0, 0] q = 1 / 2 := by
  constructor
  · simp only [picp, mean, lower, upper, Fin.sum_univ_two]
    norm_num
  · simp only [picpColumn, mean, lower, upper, Fin.sum_univ_two]
    norm_num

/-! ### C87 -/

/-- The normal distribution with mean `m` and variance `v` gives the prediction interval of level `q` the probability `q`. -/
theorem C87_coverage {ppf : ℝ → ℝ} (hp : IsPpf ppf) (m v q : ℝ) (hv : 0 < v) (h0 : 0 < q) (h1 : q < 1) :
    (gaussianReal m v.toNNReal).real (Set.Icc (lower ppf q m v) (upper ppf q m v)) = q := by
  have hz := zOf_pos hp h0 h1
  have hs : 0 < √v := Real.sqrt_pos.2 hv
  have hmap : gaussianReal m v.toNNReal = (gaussianReal 0 1).map fun x => m + √v * x := by
    have e : (fun x => m + √v * x) = (fun x => m + x) ∘ fun x => √v * x := rfl
    rw [e, ← MeasureTheory.Measure.map_map (by fun_prop) (by fun_prop), gaussianReal_map_const_mul, gaussianReal_map_const_add]
    congr 1
    · simp
    · ext
      simp [Real.sq_sqrt hv.le, hv.le]
  rw [hmap, MeasureTheory.measureReal_def, MeasureTheory.Measure.map_apply (by fun_prop) measurableSet_Icc]
  have hpre : (fun x => m + √v * x) ⁻¹' Set.Icc (lower ppf q m v) (upper ppf q m v) = Set.Icc (-zOf ppf q) (zOf ppf q) := by
    ext x
    simp only [Set.mem_preimage, Set.mem_Icc, lower, upper]
    constructor
    · rintro ⟨a, b⟩
      constructor
      · by_contra hc
        nlinarith
      · by_contra hc
        nlinarith
    · rintro ⟨a, b⟩
      constructor <;> nlinarith
  haveI := nullSingletonClass_gaussianReal (μ := 0) (v := 1) one_ne_zero
  rw [hpre, ← MeasureTheory.measureReal_def, ← MeasureTheory.measureReal_congr MeasureTheory.Ioc_ae_eq_Icc]
  rw [std_Ioc (by linarith : -zOf ppf q ≤ zOf ppf q), stdCdf_neg, zOf_spec hp h0 h1]
  ring

/-! ### C89 -/

/-- The density `gaussian_1d` is the normal density. -/
theorem C89_gaussian_1d (x mu sigma : ℝ) (hs : 0 < sigma) :
    gaussian1d x mu sigma = gaussianPDFReal mu (sigma ^ 2).toNNReal x := by
  unfold gaussian1d gaussianPDFReal
  rw [Real.coe_toNNReal _ (sq_nonneg _), Real.sqrt_mul (by positivity) (sigma ^ 2), Real.sqrt_sq hs.le, one_div]

/-- The score is the mean of the negative logarithms of the normal densities. -/
theorem C89_nlpd (_hn : 0 < n) (y m v : Fin n → ℝ) (hv : ∀ i, 0 < v i) :
    nlpd y m v = mean fun i => -Real.log (gaussianPDFReal (m i) (v i).toNNReal (y i)) := by
  unfold nlpd
  congr 1
  funext i
  have hv' := hv i
  have hpv : 0 < 2 * Real.pi * v i := by positivity
  rw [gaussianPDFReal, Real.coe_toNNReal _ hv'.le, Real.log_mul (by positivity) (Real.exp_ne_zero _), Real.log_exp, Real.log_inv,
    Real.log_sqrt hpv.le]
  field_simp
  ring

/-- Among all predictions with the same mean none scores better than the one whose variances are the squared errors. -/
theorem C89_nlpd_best_variance (_hn : 0 < n) (y m v : Fin n → ℝ) (hv : ∀ i, 0 < v i) (hne : ∀ i, y i ≠ m i) :
    nlpd y m (fun i => (y i - m i) ^ 2) ≤ nlpd y m v := by
  refine mean_mono fun i => ?_
  have hd : 0 < (y i - m i) ^ 2 := by have := sub_ne_zero.2 (hne i); positivity
  set d := (y i - m i) ^ 2
  have h := Real.add_one_le_exp (Real.log (d / v i))
  rw [Real.exp_log (div_pos hd (hv i)), Real.log_div hd.ne' (hv i).ne'] at h
  rw [Real.log_mul (by positivity) hd.ne', Real.log_mul (by positivity) (hv i).ne']
  have e1 : 1 / 2 * d / d = 1 / 2 := by field_simp
  have e2 : 1 / 2 * d / v i = 1 / 2 * (d / v i) := by ring
  rw [e1, e2]
  linarith

/-- The standardised score is zero for the baseline itself, and the difference of two scores is that of the log scores. -/
theorem C89_msll {N : ℕ} (_hn : 0 < n) (data : Fin N → ℝ) (_hd : 0 < mean fun i => (data i - mean data) ^ 2) (y m v : Fin n → ℝ)
    (_hv : ∀ i, 0 < v i) :
    msll data y (fun _ => mean data) (fun _ => mean fun i => (data i - mean data) ^ 2) = 0 ∧
      ∀ m' v', (∀ i, 0 < v' i) → msll data y m v - msll data y m' v' = nlpd y m v - nlpd y m' v' := by
  refine ⟨by simp [msll], fun m' v' _ => ?_⟩
  simp only [msll, nlpd]
  ring

/-- One value hit, one missed. -/
example : mae ![1, 2] ![1, 4] = 1 ∧ rmse ![1, 2] ![1, 4] = √2 := by
  constructor
  · simp [mae, mean, Fin.sum_univ_two]; norm_num
  · have : (∑ i : Fin 2, (![1, 2] i - ![1, 4] i) ^ 2) / ((2 : ℕ) : ℝ) = 2 := by rw [Fin.sum_univ_two]; norm_num
    rw [rmse, this]

end Verif.Metrics
