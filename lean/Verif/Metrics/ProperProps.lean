import Verif.Metrics.ProperModel
import Verif.Metrics.ProperLemmas
import Mathlib.Analysis.Complex.ExponentialBounds

/-!
C143: which scores are proper for the values a GP predicts.
-/

namespace Verif.Metrics

open MeasureTheory ProbabilityTheory Set
open scoped NNReal

variable {n : ℕ}

/-- Specification: a probability distribution of the test values under which each value is normal with the predicted mean and
the variance of the function plus the noise variance, as in the model `y = f(x) + noise` of the GP. The values may depend on
each other in any way. -/
structure Observed (μ : Measure (Fin n → ℝ)) (p : Pred n) : Prop where
  prob : IsProbabilityMeasure μ
  law : ∀ i, μ.map (fun y => y i) = gaussianReal (p.mean i) (p.var i + p.noise i).toNNReal

/-- Expectation of a mean of scores of the single values. -/
theorem expect_mean {μ : Measure (Fin n → ℝ)} {p : Pred n} (h : Observed μ p) (f : Fin n → ℝ → ℝ)
    (hf : ∀ i, Integrable (f i) (gaussianReal (p.mean i) (p.var i + p.noise i).toNNReal)) :
    ∫ y, mean (fun i => f i (y i)) ∂μ = mean fun i => ∫ x, f i x ∂gaussianReal (p.mean i) (p.var i + p.noise i).toNNReal := by
  haveI := h.prob
  have hm : ∀ i, AEMeasurable (fun y : Fin n → ℝ => y i) μ := fun i => (measurable_pi_apply i).aemeasurable
  have hi : ∀ i, Integrable (fun y : Fin n → ℝ => f i (y i)) μ := fun i => by
    have h1 := hf i
    rw [← h.law i] at h1
    exact h1.comp_aemeasurable (hm i)
  unfold mean
  rw [integral_div, integral_finsetSum _ fun i _ => hi i]
  congr 1
  refine Finset.sum_congr rfl fun i _ => ?_
  change _ = ∫ x, f i x ∂gaussianReal (p.mean i) (p.var i + p.noise i).toNNReal
  have h1 := (hf i).aestronglyMeasurable
  rw [← h.law i] at h1 ⊢
  rw [integral_map (hm i) h1]

theorem mean_lt (hn : 0 < n) {f g : Fin n → ℝ} (h : ∀ i, f i ≤ g i) (hs : ∃ i, f i < g i) : mean f < mean g := by
  unfold mean
  obtain ⟨i, hi⟩ := hs
  exact div_lt_div_of_pos_right (Finset.sum_lt_sum (fun j _ => h j) ⟨i, Finset.mem_univ i, hi⟩) (by exact_mod_cast hn)

theorem expect_nlpd {μ : Measure (Fin n → ℝ)} {p : Pred n} (h : Observed μ p) (p' : Pred n) :
    ∫ y, p'.nlpd y ∂μ = mean fun i => ∫ x, logTerm (p'.mean i) (p'.var i) x
      ∂gaussianReal (p.mean i) (p.var i + p.noise i).toNNReal :=
  expect_mean h (fun i => logTerm (p'.mean i) (p'.var i)) fun _ => integrable_logTerm _ _ _ _

theorem expect_crps {μ : Measure (Fin n → ℝ)} {p : Pred n} (h : Observed μ p) (p' : Pred n) (hv : ∀ i, 0 < p'.var i) :
    ∫ y, p'.crps y ∂μ = mean fun i => ∫ x, crpsTerm stdPdf stdCdf x (p'.mean i) √(p'.var i)
      ∂gaussianReal (p.mean i) (p.var i + p.noise i).toNNReal := by
  refine expect_mean h (fun i x => crpsTerm stdPdf stdCdf x (p'.mean i) √(p'.var i)) fun i => ?_
  have hs := Real.sqrt_pos.2 (hv i)
  simp only [crpsTerm_eq _ _ _ hs]
  exact integrable_crps _ _ _ _ hs

/-! ### Interval score and coverage -/

theorem lower_prob {ppf : ℝ → ℝ} (hp : IsPpf ppf) (m w q : ℝ) (hw : 0 < w) (h0 : 0 < q) (h1 : q < 1) :
    (gaussianReal m w.toNNReal).real (Iic (lower ppf q m w)) = (1 - q) / 2 := by
  have hs : 0 < √w := Real.sqrt_pos.2 hw
  rw [C88_distribution m w _ hw]
  have e : (lower ppf q m w - m) / √w = -zOf ppf q := by unfold lower; field_simp; ring
  rw [e, stdCdf_neg, zOf_spec hp h0 h1]
  ring

theorem upper_prob {ppf : ℝ → ℝ} (hp : IsPpf ppf) (m w q : ℝ) (hw : 0 < w) (h0 : 0 < q) (h1 : q < 1) :
    (gaussianReal m w.toNNReal).real (Ici (upper ppf q m w)) = (1 - q) / 2 := by
  have hs : 0 < √w := Real.sqrt_pos.2 hw
  haveI := nullSingletonClass_gaussianReal (μ := m) (v := w.toNNReal) (by simpa using hw)
  rw [← measureReal_congr Ioi_ae_eq_Ici, ← compl_Iic, probReal_compl_eq_one_sub measurableSet_Iic, C88_distribution m w _ hw]
  have e : (upper ppf q m w - m) / √w = zOf ppf q := by unfold upper; field_simp; ring
  rw [e, zOf_spec hp h0 h1]
  ring

/-- The interval score is proper: for values distributed as the GP says, no other prediction has a smaller expected score. -/
theorem C143_interval_score {ppf : ℝ → ℝ} (hp : IsPpf ppf) {μ : Measure (Fin n → ℝ)} {p : Pred n} (h : Observed μ p)
    (hv : ∀ i, 0 < p.var i + p.noise i) (q : ℝ) (h0 : 0 < q) (h1 : q < 1) (p' : Pred n) :
    ∫ y, p.intervalScore ppf q y ∂μ ≤ ∫ y, p'.intervalScore ppf q y ∂μ := by
  have key : ∀ p' : Pred n, ∀ i, ∀ x : ℝ,
      (upper ppf q (p'.mean i) (p'.variance true i) - lower ppf q (p'.mean i) (p'.variance true i))
        + 2 / (1 - q) * max (lower ppf q (p'.mean i) (p'.variance true i) - x) 0
        + 2 / (1 - q) * max (x - upper ppf q (p'.mean i) (p'.variance true i)) 0
      = (1 / ((1 - q) / 2) * max (lower ppf q (p'.mean i) (p'.variance true i) - x) 0 - lower ppf q (p'.mean i) (p'.variance true i))
        + (1 / ((1 - q) / 2) * max (x - upper ppf q (p'.mean i) (p'.variance true i)) 0
          + upper ppf q (p'.mean i) (p'.variance true i)) := by
    intro p' i x
    rw [one_div_div]
    ring
  have hq : 0 < (1 - q) / 2 := by linarith
  have lo := fun (p' : Pred n) (i : Fin n) => low_proper (p.mean i) (p.var i + p.noise i)
    (lower ppf q (p'.mean i) (p'.variance true i)) (lower ppf q (p.mean i) (p.variance true i)) ((1 - q) / 2) (hv i) hq
    (lower_prob hp _ _ q (hv i) h0 h1)
  have up := fun (p' : Pred n) (i : Fin n) => high_proper (p.mean i) (p.var i + p.noise i)
    (upper ppf q (p'.mean i) (p'.variance true i)) (upper ppf q (p.mean i) (p.variance true i)) ((1 - q) / 2) (hv i) hq
    (upper_prob hp _ _ q (hv i) h0 h1)
  have ex : ∀ p' : Pred n, ∫ y, p'.intervalScore ppf q y ∂μ = mean fun i =>
      (∫ x, (1 / ((1 - q) / 2) * max (lower ppf q (p'.mean i) (p'.variance true i) - x) 0
          - lower ppf q (p'.mean i) (p'.variance true i)) ∂gaussianReal (p.mean i) (p.var i + p.noise i).toNNReal) +
        ∫ x, (1 / ((1 - q) / 2) * max (x - upper ppf q (p'.mean i) (p'.variance true i)) 0
          + upper ppf q (p'.mean i) (p'.variance true i)) ∂gaussianReal (p.mean i) (p.var i + p.noise i).toNNReal := by
    intro p'
    simp only [Pred.intervalScore, intervalScore, key]
    rw [expect_mean h (fun i x => (1 / ((1 - q) / 2) * max (lower ppf q (p'.mean i) (p'.variance true i) - x) 0
          - lower ppf q (p'.mean i) (p'.variance true i)) + (1 / ((1 - q) / 2) * max (x - upper ppf q (p'.mean i) (p'.variance true i)) 0
          + upper ppf q (p'.mean i) (p'.variance true i))) fun i => (lo p' i).1.add (up p' i).1]
    congr 1
    funext i
    exact integral_add (lo p' i).1 (up p' i).1
  rw [ex p, ex p']
  exact mean_mono fun i => add_le_add (lo p' i).2 (up p' i).2

/-- For values distributed as the GP says the expected coverage is the level. -/
theorem C143_picp {ppf : ℝ → ℝ} (hp : IsPpf ppf) (hn : 0 < n) {μ : Measure (Fin n → ℝ)} {p : Pred n} (h : Observed μ p)
    (hv : ∀ i, 0 < p.var i + p.noise i) (q : ℝ) (h0 : 0 < q) (h1 : q < 1) : ∫ y, p.picp ppf q y ∂μ = q := by
  classical
  have e : ∀ y, p.picp ppf q y = mean fun i => (Icc (lower ppf q (p.mean i) (p.var i + p.noise i))
      (upper ppf q (p.mean i) (p.var i + p.noise i))).indicator (fun _ => (1 : ℝ)) (y i) := by
    intro y
    simp only [Pred.picp, picp, Pred.variance, if_true, indicator, mem_Icc]
  simp only [e]
  rw [expect_mean h (fun i => (Icc (lower ppf q (p.mean i) (p.var i + p.noise i))
      (upper ppf q (p.mean i) (p.var i + p.noise i))).indicator (fun _ => (1 : ℝ)))
    fun i => (integrable_const 1).indicator measurableSet_Icc]
  have : ∀ i, ∫ x, (Icc (lower ppf q (p.mean i) (p.var i + p.noise i))
      (upper ppf q (p.mean i) (p.var i + p.noise i))).indicator (fun _ => (1 : ℝ)) x
        ∂gaussianReal (p.mean i) (p.var i + p.noise i).toNNReal = q := by
    intro i
    rw [integral_indicator_const _ measurableSet_Icc, C87_coverage hp _ _ q (hv i) h0 h1, smul_eq_mul, mul_one]
  simp only [this, mean, Finset.sum_const, Finset.card_univ, Fintype.card_fin, nsmul_eq_mul]
  have : (n : ℝ) ≠ 0 := by exact_mod_cast hn.ne'
  field_simp

/-! ### Logarithmic and ranked probability scores -/

/-- Without noise at the test points both scores are proper: a prediction that differs from the distribution of the values in any
mean or variance has a larger expected score. Missing: values with noise, see `C143_noise_violated`. -/
theorem C143_scores_partial (hn : 0 < n) {μ : Measure (Fin n → ℝ)} {p : Pred n} (h : Observed μ p)
    (hv : ∀ i, 0 < p.var i) (h0 : ∀ i, p.noise i = 0) (p' : Pred n) (hv' : ∀ i, 0 < p'.var i) :
    ∫ y, p.nlpd y ∂μ ≤ ∫ y, p'.nlpd y ∂μ ∧ ∫ y, p.crps y ∂μ ≤ ∫ y, p'.crps y ∂μ ∧
      ((p'.mean ≠ p.mean ∨ p'.var ≠ p.var) →
        ∫ y, p.nlpd y ∂μ < ∫ y, p'.nlpd y ∂μ ∧ ∫ y, p.crps y ∂μ < ∫ y, p'.crps y ∂μ) := by
  rw [expect_nlpd h, expect_nlpd h, expect_crps h p hv, expect_crps h p' hv']
  simp only [h0, add_zero]
  have hl := fun i => logTerm_proper (p.mean i) (p'.mean i) (p'.var i) (p.var i) (hv i) (hv' i)
  have hc := fun i => crps_proper (p.mean i) (p'.mean i) √(p'.var i) (p.var i) (hv i) (Real.sqrt_pos.2 (hv' i))
  refine ⟨mean_mono fun i => (hl i).1, mean_mono fun i => (hc i).1, fun hd => ?_⟩
  have hex : ∃ i, p'.mean i ≠ p.mean i ∨ p'.var i ≠ p.var i := by
    by_contra hcon
    push Not at hcon
    rcases hd with hd | hd
    · exact hd (funext fun i => (hcon i).1)
    · exact hd (funext fun i => (hcon i).2)
  obtain ⟨i, hi⟩ := hex
  refine ⟨mean_lt hn (fun i => (hl i).1) ⟨i, (hl i).2 hi⟩, mean_lt hn (fun i => (hc i).1) ⟨i, (hc i).2 ?_⟩⟩
  refine hi.imp id fun hne heq => hne ?_
  rwa [Real.sqrt_inj (hv' i).le (hv i).le] at heq

/-- With noise at the test points the GP that predicts the distribution of the values exactly is never the best: the GP that
adds the noise to the variance of its function has smaller expected `nlpd` and `crps`. -/
theorem C143_noise_violated (hn : 0 < n) {μ : Measure (Fin n → ℝ)} {p : Pred n} (h : Observed μ p)
    (hv : ∀ i, 0 < p.var i) (hs : ∀ i, 0 < p.noise i) :
    let p' : Pred n := ⟨p.mean, fun i => p.var i + p.noise i, p.noise⟩
    ∫ y, p'.nlpd y ∂μ < ∫ y, p.nlpd y ∂μ ∧ ∫ y, p'.crps y ∂μ < ∫ y, p.crps y ∂μ := by
  intro p'
  have hw : ∀ i, 0 < p.var i + p.noise i := fun i => add_pos (hv i) (hs i)
  rw [expect_nlpd h, expect_nlpd h, expect_crps h p hv, expect_crps h p' hw]
  have hne : ∀ i, p.var i ≠ p.var i + p.noise i := fun i => by have := hs i; linarith
  have hl := fun i => logTerm_proper (p.mean i) (p.mean i) (p.var i) (p.var i + p.noise i) (hw i) (hv i)
  have hc := fun i => crps_proper (p.mean i) (p.mean i) √(p.var i) (p.var i + p.noise i) (hw i) (Real.sqrt_pos.2 (hv i))
  refine ⟨mean_lt hn (fun i => (hl i).1) ⟨⟨0, hn⟩, (hl _).2 (Or.inr (hne _))⟩,
    mean_lt hn (fun i => (hc i).1) ⟨⟨0, hn⟩, (hc _).2 (Or.inr ?_)⟩⟩
  rw [Ne, Real.sqrt_inj (hv _).le (hw _).le]
  exact hne _

/-- The loss of the exact GP against that other GP is the mean of `(s / v - log (1 + s / v)) / 2` for the noise variances `s` and
the variances `v` of the function: it has no bound as the GP learns the function. -/
theorem C143_loss_violated {μ : Measure (Fin n → ℝ)} {p : Pred n} (h : Observed μ p)
    (hv : ∀ i, 0 < p.var i) (hs : ∀ i, 0 < p.noise i) :
    ∫ y, p.nlpd y ∂μ - ∫ y, (⟨p.mean, fun i => p.var i + p.noise i, p.noise⟩ : Pred n).nlpd y ∂μ =
      mean fun i => (p.noise i / p.var i - Real.log (1 + p.noise i / p.var i)) / 2 := by
  rw [expect_nlpd h, expect_nlpd h]
  unfold mean
  rw [← sub_div, ← Finset.sum_sub_distrib]
  congr 1
  refine Finset.sum_congr rfl fun i _ => ?_
  have hw : 0 < p.var i + p.noise i := add_pos (hv i) (hs i)
  have e : 1 + p.noise i / p.var i = (p.var i + p.noise i) / p.var i := by
    have := (hv i).ne'
    field_simp
  beta_reduce
  rw [integral_logTerm, integral_logTerm, Real.coe_toNNReal _ hw.le, sub_self, e, Real.log_div hw.ne' (hv i).ne',
    Real.log_mul (by positivity) hw.ne', Real.log_mul (by positivity) (hv i).ne']
  have h1 : (p.var i + p.noise i + 0 ^ 2) / (p.var i + p.noise i) = 1 := by rw [zero_pow two_ne_zero, add_zero, div_self hw.ne']
  have h2 : (p.var i + p.noise i + 0 ^ 2) / p.var i = 1 + p.noise i / p.var i := by
    have := (hv i).ne'
    field_simp
    ring
  rw [h1, h2]
  ring

/-- `msll` is documented as negative when the GP predicts better than the baseline. Here the GP's distribution of the value has a
log loss more than one half below that of the baseline, and `msll` exceeds twenty. -/
theorem C143_msll_violated : ∃ p : Pred 1, ∃ data : Fin 2 → ℝ, ∃ y : Fin 1 → ℝ,
    (∀ i, 0 < p.var i ∧ 0 < p.noise i) ∧
      mean (fun i => -Real.log (gaussianPDFReal (p.mean i) (p.var i + p.noise i).toNNReal (y i))) + 1 / 2 <
        mean (fun i => -Real.log (gaussianPDFReal (mean data) (mean fun j => (data j - mean data) ^ 2).toNNReal (y i))) ∧
      20 < p.msll data y := by
  have hb : ∀ f : Fin 1 → ℝ, mean f = f 0 := fun f => by simp [mean]
  have hm : mean (![-1, 1] : Fin 2 → ℝ) = 0 := by simp [mean, Fin.sum_univ_two]
  have hvar : mean (fun j => ((![-1, 1] : Fin 2 → ℝ) j - 0) ^ 2) = 1 := by simp [mean, Fin.sum_univ_two]
  have l2 : Real.log 2 < 1 := by have := Real.log_two_lt_d9; linarith
  have l2' : 1 / 2 < Real.log 2 := by have := Real.log_two_gt_d9; linarith
  have l16 : Real.log (1 / 16) = -(4 * Real.log 2) := by
    rw [one_div, Real.log_inv, show (16 : ℝ) = 2 ^ 4 by norm_num, Real.log_pow]; norm_num
  have l1024 : Real.log (1 / 1024) = -(10 * Real.log 2) := by
    rw [one_div, Real.log_inv, show (1024 : ℝ) = 2 ^ 10 by norm_num, Real.log_pow]; norm_num
  refine ⟨⟨fun _ => 3 / 4, fun _ => 1 / 1024, fun _ => 1 / 16 - 1 / 1024⟩, ![-1, 1], fun _ => 1, fun i => ⟨by norm_num, by norm_num⟩,
    ?_, ?_⟩
  · rw [hm, hvar]
    have a := C89_nlpd (n := 1) one_pos (fun _ => 1) (fun _ => 3 / 4) (fun _ => 1 / 16) (fun _ => by norm_num)
    have b := C89_nlpd (n := 1) one_pos (fun _ => 1) (fun _ => 0) (fun _ => 1) (fun _ => by norm_num)
    simp only [add_sub_cancel]
    rw [← a, ← b]
    simp only [nlpd, hb]
    rw [Real.log_mul (by positivity) (by norm_num), l16, mul_one]
    norm_num
    linarith
  · simp only [Pred.msll, msll, Pred.variance, Bool.false_eq_true, if_false, hm, hvar, hb]
    rw [Real.log_mul (by positivity) (by norm_num), l1024, mul_one]
    norm_num
    linarith

/-- The hypotheses are met: two independent values. -/
example : ∃ (μ : Measure (Fin 2 → ℝ)) (p : Pred 2), Observed μ p ∧ (∀ i, 0 < p.var i) ∧ ∀ i, 0 < p.noise i := by
  refine ⟨Measure.pi fun i => gaussianReal (![0, 1] i) 2, ⟨![0, 1], fun _ => 1, fun _ => 1⟩, ⟨inferInstance, fun i => ?_⟩,
    fun _ => one_pos, fun _ => one_pos⟩
  have h := (measurePreserving_eval (fun i : Fin 2 => gaussianReal (![0, 1] i) 2) i).map_eq
  have e : ((1 : ℝ) + 1).toNNReal = 2 := by norm_num
  rw [e]
  exact h

/-- Without noise. -/
example : ∃ (μ : Measure (Fin 1 → ℝ)) (p : Pred 1), Observed μ p ∧ (∀ i, 0 < p.var i) ∧ ∀ i, p.noise i = 0 := by
  refine ⟨Measure.pi fun _ => gaussianReal 3 1, ⟨fun _ => 3, fun _ => 1, fun _ => 0⟩, ⟨inferInstance, fun i => ?_⟩,
    fun _ => one_pos, fun _ => rfl⟩
  have h := (measurePreserving_eval (fun _ : Fin 1 => gaussianReal 3 1) i).map_eq
  simpa using h

end Verif.Metrics
