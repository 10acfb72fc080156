import Mathlib.Probability.Distributions.Gaussian.Real
import Mathlib.Probability.CDF
import Mathlib.Probability.Moments.Variance
import Mathlib.MeasureTheory.Integral.IntervalIntegral.FundThmCalculus
import Mathlib.MeasureTheory.Integral.IntegralEqImproper

/-!
The standard normal distribution function: derivative, symmetry, tails.
-/

namespace Verif.Metrics

open MeasureTheory ProbabilityTheory Set Filter Topology

/-- The density of the standard normal distribution. -/
noncomputable def stdPdf (x : ℝ) : ℝ := gaussianPDFReal 0 1 x

/-- The distribution function of the standard normal distribution. -/
noncomputable def stdCdf (x : ℝ) : ℝ := cdf (gaussianReal 0 1) x

theorem stdPdf_eq (x : ℝ) : stdPdf x = (√(2 * Real.pi))⁻¹ * Real.exp (-x ^ 2 / 2) := by
  simp [stdPdf, gaussianPDFReal]

theorem stdPdf_pos (x : ℝ) : 0 < stdPdf x := gaussianPDFReal_pos 0 1 x one_ne_zero

theorem stdPdf_continuous : Continuous stdPdf := by
  have : stdPdf = fun x => (√(2 * Real.pi))⁻¹ * Real.exp (-x ^ 2 / 2) := funext stdPdf_eq
  rw [this]
  fun_prop

theorem stdPdf_hasDerivAt (x : ℝ) : HasDerivAt stdPdf (-x * stdPdf x) x := by
  have : stdPdf = fun x => (√(2 * Real.pi))⁻¹ * Real.exp (-x ^ 2 / 2) := funext stdPdf_eq
  rw [this]
  have h1 : HasDerivAt (fun x : ℝ => -x ^ 2 / 2) (-x) x := by
    have := ((hasDerivAt_id x).fun_pow 2).fun_neg.div_const 2
    refine this.congr_deriv ?_
    simp only [id, Nat.add_one_sub_one, pow_one, Nat.cast_ofNat]
    ring
  refine (h1.exp.const_mul _).congr_deriv ?_
  ring

theorem stdPdf_neg (x : ℝ) : stdPdf (-x) = stdPdf x := by simp [stdPdf_eq]

theorem stdCdf_real (x : ℝ) : stdCdf x = (gaussianReal 0 1).real (Iic x) := cdf_eq_real _ x

theorem stdCdf_nonneg (x : ℝ) : 0 ≤ stdCdf x := cdf_nonneg _ x

theorem stdCdf_le_one (x : ℝ) : stdCdf x ≤ 1 := cdf_le_one _ x

theorem stdCdf_mono : Monotone stdCdf := monotone_cdf _

/-- `Φ(b) - Φ(a)` is the probability of the interval. -/
theorem std_Ioc {a b : ℝ} (h : a ≤ b) : (gaussianReal 0 1).real (Ioc a b) = stdCdf b - stdCdf a := by
  rw [stdCdf_real, stdCdf_real]
  have e : Iic b = Iic a ∪ Ioc a b := (Iic_union_Ioc_eq_Iic h).symm
  rw [e, measureReal_union (by rw [Set.disjoint_left]; intro x hx hx'; exact absurd hx'.1 (not_lt.2 hx)) measurableSet_Ioc]
  rw [add_sub_cancel_left]

theorem stdCdf_sub {a b : ℝ} (h : a ≤ b) : stdCdf b - stdCdf a = ∫ t in a..b, stdPdf t := by
  rw [← std_Ioc h, intervalIntegral.integral_of_le h, measureReal_def,
    gaussianReal_apply_eq_integral 0 one_ne_zero, ENNReal.toReal_ofReal]
  · rfl
  · exact integral_nonneg fun x => gaussianPDFReal_nonneg 0 1 x

theorem stdCdf_sub' (a b : ℝ) : stdCdf b = stdCdf a + ∫ t in a..b, stdPdf t := by
  rcases le_total a b with h | h
  · rw [← stdCdf_sub h]; ring
  · rw [intervalIntegral.integral_symm, ← stdCdf_sub h]; ring

theorem stdCdf_hasDerivAt (x : ℝ) : HasDerivAt stdCdf (stdPdf x) x := by
  have : stdCdf = fun b => stdCdf 0 + ∫ t in (0 : ℝ)..b, stdPdf t := funext fun b => stdCdf_sub' 0 b
  rw [this]
  exact (intervalIntegral.integral_hasDerivAt_right (stdPdf_continuous.intervalIntegrable _ _)
    (stdPdf_continuous.stronglyMeasurableAtFilter _ _) stdPdf_continuous.continuousAt).const_add _

theorem stdCdf_continuous : Continuous stdCdf := continuous_iff_continuousAt.2 fun x => (stdCdf_hasDerivAt x).continuousAt

theorem stdCdf_strictMono : StrictMono stdCdf := by
  intro a b h
  have h1 := stdCdf_sub h.le
  have h2 : 0 < ∫ t in a..b, stdPdf t :=
    intervalIntegral.intervalIntegral_pos_of_pos (stdPdf_continuous.intervalIntegrable _ _) stdPdf_pos h
  linarith

theorem stdCdf_neg (x : ℝ) : stdCdf (-x) = 1 - stdCdf x := by
  have hd : ∀ t, HasDerivAt (fun t => stdCdf (-t) + stdCdf t) 0 t := by
    intro t
    have h1 := (stdCdf_hasDerivAt (-t)).comp t (hasDerivAt_neg t)
    refine (h1.add (stdCdf_hasDerivAt t)).congr_deriv ?_
    rw [stdPdf_neg]; ring
  have hc : ∀ t, stdCdf (-t) + stdCdf t = stdCdf (-x) + stdCdf x := fun t =>
    is_const_of_deriv_eq_zero (fun t => (hd t).differentiableAt) (fun t => (hd t).deriv) t x
  have h1 : Tendsto (fun t => stdCdf (-t) + stdCdf t) atTop (𝓝 (0 + 1)) :=
    ((tendsto_cdf_atBot _).comp tendsto_neg_atTop_atBot).add (tendsto_cdf_atTop _)
  have h2 : Tendsto (fun t => stdCdf (-t) + stdCdf t) atTop (𝓝 (stdCdf (-x) + stdCdf x)) := by
    simp only [hc]
    exact tendsto_const_nhds
  have := tendsto_nhds_unique h1 h2
  linarith

theorem stdCdf_zero : stdCdf 0 = 1 / 2 := by
  have := stdCdf_neg 0
  rw [neg_zero] at this
  linarith

/-- Chebyshev's bound for the lower tail. -/
theorem stdCdf_tail {t : ℝ} (ht : 0 < t) : stdCdf (-t) ≤ 1 / t ^ 2 := by
  have h := meas_ge_le_variance_div_sq (μ := gaussianReal 0 1) (X := id) (memLp_id_gaussianReal 2) ht
  rw [variance_id_gaussianReal] at h
  have h0 : ∫ x, id x ∂(gaussianReal 0 1) = 0 := integral_id_gaussianReal
  rw [h0] at h
  have hs : Iic (-t) ⊆ {x : ℝ | t ≤ |id x - 0|} := by
    intro x hx
    simp only [mem_Iic] at hx
    simp only [id, sub_zero, mem_setOf_eq]
    exact le_abs.2 (Or.inr (by linarith))
  have h2 := (measure_mono hs).trans h
  rw [stdCdf_real, measureReal_def]
  refine ENNReal.toReal_le_of_le_ofReal (by positivity) (h2.trans_eq ?_)
  simp

end Verif.Metrics
