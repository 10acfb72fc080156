import Verif.Ggmp.MixModel
import Mathlib.Probability.Distributions.Gaussian.Real
import Mathlib.MeasureTheory.Integral.Bochner.SumMeasure
import Mathlib.Algebra.BigOperators.Field

/-!
C71: mean and variance of the mixture.
-/

namespace Verif.Ggmp

open Finset MeasureTheory ProbabilityTheory
open scoped ENNReal NNReal

variable {K : ℕ}

/-- Specification: the predictive distribution of the mixture, `∑ w_k N(m_k, v_k)` with the weights divided by their sum. -/
noncomputable def mixtureMeasure (w m : Fin K → ℝ) (v : Fin K → ℝ≥0) : Measure ℝ :=
  ∑ k, ENNReal.ofReal (w k / ∑ k, w k) • gaussianReal (m k) (v k)

theorem gauss_sq (m : ℝ) (v : ℝ≥0) : ∫ x, x ^ 2 ∂gaussianReal m v = v + m ^ 2 := by
  have h := variance_eq_sub (memLp_id_gaussianReal (μ := m) (v := v) 2)
  rw [variance_id_gaussianReal] at h
  simp only [Pi.pow_apply, id_eq, integral_id_gaussianReal] at h
  linarith

theorem gauss_integrable_sq (m : ℝ) (v : ℝ≥0) : Integrable (fun x : ℝ => x ^ 2) (gaussianReal m v) :=
  (memLp_id_gaussianReal (μ := m) (v := v) 2).integrable_sq

theorem gauss_integrable (m : ℝ) (v : ℝ≥0) : Integrable (fun x : ℝ => x) (gaussianReal m v) :=
  (memLp_id_gaussianReal (μ := m) (v := v) 1).integrable (by simp)

theorem mixture_integral {w m : Fin K → ℝ} {v : Fin K → ℝ≥0} (hw : ∀ k, 0 ≤ w k) (f : ℝ → ℝ)
    (hf : ∀ k, Integrable f (gaussianReal (m k) (v k))) :
    ∫ x, f x ∂mixtureMeasure w m v = ∑ k, w k / (∑ k, w k) * ∫ x, f x ∂gaussianReal (m k) (v k) := by
  unfold mixtureMeasure
  rw [integral_finsetSum_measure fun k _ => (hf k).smul_measure ENNReal.ofReal_ne_top]
  refine sum_congr rfl fun k _ => ?_
  rw [integral_smul_measure, ENNReal.toReal_ofReal (div_nonneg (hw k) (sum_nonneg fun k _ => hw k)), smul_eq_mul]

theorem mixture_prob {w m : Fin K → ℝ} {v : Fin K → ℝ≥0} (hw : ∀ k, 0 ≤ w k) (hs : ∑ k, w k ≠ 0) :
    IsProbabilityMeasure (mixtureMeasure w m v) := by
  constructor
  unfold mixtureMeasure
  rw [Measure.finsetSum_apply]
  simp only [Measure.smul_apply, measure_univ, smul_eq_mul, mul_one]
  rw [← ENNReal.ofReal_sum_of_nonneg fun k _ => div_nonneg (hw k) (sum_nonneg fun k _ => hw k), ← sum_div, div_self hs,
    ENNReal.ofReal_one]

theorem normalize_some {w : Fin K → ℝ} (hs : ∑ k, w k ≠ 0) : normalize w = some fun k => w k / ∑ k, w k := by
  unfold normalize
  rw [if_neg hs]

/-- C71: the reported mean is the mean of the mixture distribution. -/
theorem C71_mean (w m : Fin K → ℝ) (v : Fin K → ℝ≥0) (hw : ∀ k, 0 ≤ w k) (hs : ∑ k, w k ≠ 0) :
    mixMean w m = some (∫ x, x ∂mixtureMeasure w m v) := by
  rw [mixture_integral hw (fun x => x) fun k => gauss_integrable _ _]
  simp only [integral_id_gaussianReal]
  rw [mixMean, normalize_some hs]
  rfl

/-- C71: the reported variance is the variance of the mixture distribution whose components have the GP variance plus the
mean training variance. -/
theorem C71_variance (w m nu : Fin K → ℝ) (s : Fin K → List ℝ) (v : Fin K → ℝ≥0) (hw : ∀ k, 0 ≤ w k) (hs : ∑ k, w k ≠ 0)
    (hv : ∀ k, (v k : ℝ) = nu k + meanNoise s k) :
    mixVariance w m nu s = some (Var[fun x => x; mixtureMeasure w m v]) := by
  have hp := mixture_prob (m := m) (v := v) hw hs
  have hmem : MemLp (fun x : ℝ => x) 2 (mixtureMeasure w m v) := by
    rw [memLp_two_iff_integrable_sq measurable_id'.aestronglyMeasurable]
    unfold mixtureMeasure
    rw [integrable_finsetSum_measure]
    exact fun k _ => (gauss_integrable_sq _ _).smul_measure ENNReal.ofReal_ne_top
  rw [variance_eq_sub hmem]
  have e : ∫ x, ((fun x : ℝ => x) ^ 2) x ∂mixtureMeasure w m v = ∑ k, w k / (∑ k, w k) * (v k + m k ^ 2) := by
    have := mixture_integral (m := m) (v := v) hw (fun x => x ^ 2) fun k => gauss_integrable_sq _ _
    simp only [gauss_sq] at this
    exact this
  rw [e, mixture_integral hw (fun x => x) fun k => gauss_integrable _ _, mixVariance, normalize_some hs]
  simp only [integral_id_gaussianReal, Option.map_some, Option.some.injEq, hv]
  have h1 : ∑ k, w k / ∑ k, w k = 1 := by rw [← sum_div, div_self hs]
  set μ := ∑ k, w k / (∑ k, w k) * m k with hμ
  have e2 : ∑ k, w k / (∑ k, w k) * (m k - μ) ^ 2 = ∑ k, w k / (∑ k, w k) * m k ^ 2 - μ ^ 2 := by
    have : ∀ k, w k / (∑ k, w k) * (m k - μ) ^ 2
        = w k / (∑ k, w k) * m k ^ 2 - 2 * μ * (w k / (∑ k, w k) * m k) + μ ^ 2 * (w k / ∑ k, w k) := fun k => by ring
    simp only [this, sum_add_distrib, sum_sub_distrib, ← mul_sum, h1, ← hμ]
    ring
  rw [e2]
  simp only [mul_add, sum_add_distrib]
  ring

/-- C71: the variance is at least the weighted mean of the component variances, hence not negative. -/
theorem C71_bounds (w m nu : Fin K → ℝ) (s : Fin K → List ℝ) (hw : ∀ k, 0 ≤ w k) (hs : ∑ k, w k ≠ 0)
    (hnu : ∀ k, 0 ≤ nu k) (hsp : ∀ k, ∀ x ∈ s k, 0 ≤ x) :
    ∃ V, mixVariance w m nu s = some V ∧ ∑ k, w k / (∑ k, w k) * nu k ≤ V ∧ 0 ≤ V := by
  have hu : ∀ k, 0 ≤ w k / ∑ k, w k := fun k => div_nonneg (hw k) (sum_nonneg fun k _ => hw k)
  have hn : ∀ k, 0 ≤ meanNoise s k := fun k => div_nonneg (List.sum_nonneg (hsp k)) (Nat.cast_nonneg _)
  have h0 : 0 ≤ ∑ k, w k / (∑ k, w k) * nu k := sum_nonneg fun k _ => mul_nonneg (hu k) (hnu k)
  refine ⟨_, by rw [mixVariance, normalize_some hs]; rfl, ?_, ?_⟩
  · have a : ∑ k, w k / (∑ k, w k) * nu k ≤ ∑ k, w k / (∑ k, w k) * (nu k + meanNoise s k) :=
      sum_le_sum fun k _ => mul_le_mul_of_nonneg_left (by linarith [hn k]) (hu k)
    have b : 0 ≤ ∑ k, w k / (∑ k, w k) * (m k - ∑ k, w k / (∑ k, w k) * m k) ^ 2 :=
      sum_nonneg fun k _ => mul_nonneg (hu k) (sq_nonneg _)
    linarith
  · exact add_nonneg (sum_nonneg fun k _ => mul_nonneg (hu k) (by linarith [hn k, hnu k]))
      (sum_nonneg fun k _ => mul_nonneg (hu k) (sq_nonneg _))

example : mixMean ![1, 3] ![2, 6] = some 5 ∧ mixVariance ![1, 3] ![2, 6] ![1, 1] ![[1, 3], [4]] = some (15 / 2) := by
  constructor
  · rw [mixMean, normalize_some (by norm_num [Fin.sum_univ_two])]
    norm_num [Fin.sum_univ_two]
  · rw [mixVariance, normalize_some (by norm_num [Fin.sum_univ_two])]
    norm_num [Fin.sum_univ_two, meanNoise]

end Verif.Ggmp
