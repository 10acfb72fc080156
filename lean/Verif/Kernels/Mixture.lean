import Mathlib.Analysis.SpecialFunctions.Gaussian.GaussianIntegral
import Mathlib.MeasureTheory.Function.JacobianOneDim
import Mathlib.MeasureTheory.Integral.IntegralEqImproper

/-!
The exponential and the Matérn kernels as mixtures of Gaussians:
`∫₀^∞ v^m exp(-v² - b²/v²) dv` for `m = 0, 2, 4`.
-/

namespace Verif.Kernels

open Real MeasureTheory Set Filter Topology

/-- The integrand. -/
noncomputable def mix (m : ℕ) (b v : ℝ) : ℝ := v ^ m * exp (-(v ^ 2 + b ^ 2 / v ^ 2))

theorem mix_continuousOn (m : ℕ) (b : ℝ) : ContinuousOn (mix m b) (Ioi 0) := by
  unfold mix
  refine (continuousOn_id.pow m).mul (ContinuousOn.rexp (ContinuousOn.neg ((continuousOn_id.pow 2).add ?_)))
  exact continuousOn_const.div (continuousOn_id.pow 2) fun v hv => pow_ne_zero 2 (ne_of_gt hv)

theorem pow_gauss_integrable (m : ℕ) : IntegrableOn (fun v : ℝ => v ^ m * exp (-v ^ 2)) (Ioi 0) := by
  have h := integrableOn_rpow_mul_exp_neg_mul_sq (b := 1) one_pos (s := m) (by
    have : (0 : ℝ) ≤ m := Nat.cast_nonneg m
    linarith)
  refine h.congr_fun (fun v _ => ?_) measurableSet_Ioi
  simp

theorem mix_le {m : ℕ} {b v : ℝ} (hv : 0 < v) : ‖mix m b v‖ ≤ ‖v ^ m * exp (-v ^ 2)‖ := by
  unfold mix
  rw [norm_mul, norm_mul]
  apply mul_le_mul_of_nonneg_left _ (norm_nonneg _)
  rw [norm_of_nonneg (exp_pos _).le, norm_of_nonneg (exp_pos _).le]
  apply exp_le_exp.2
  have : 0 ≤ b ^ 2 / v ^ 2 := by positivity
  linarith

theorem mix_integrable (m : ℕ) (b : ℝ) : IntegrableOn (mix m b) (Ioi 0) := by
  refine Integrable.mono (pow_gauss_integrable m) ((mix_continuousOn m b).aestronglyMeasurable measurableSet_Ioi) ?_
  rw [ae_restrict_iff' measurableSet_Ioi]
  exact Eventually.of_forall fun v hv => mix_le hv

/-- The integrand divided by `v²`. -/
noncomputable def mixInv (b v : ℝ) : ℝ := b / v ^ 2 * exp (-(v ^ 2 + b ^ 2 / v ^ 2))

/-- The substitution `v ↦ b/v`. -/
theorem swap_integral {b : ℝ} (hb : 0 < b) :
    ∫ v in Ioi 0, mix 0 b v = ∫ v in Ioi 0, mixInv b v ∧ IntegrableOn (mixInv b) (Ioi 0) := by
  have himg : (fun v : ℝ => b / v) '' Ioi 0 = Ioi 0 := by
    ext w
    simp only [mem_image, mem_Ioi]
    constructor
    · rintro ⟨v, hv, rfl⟩; positivity
    · intro hw
      exact ⟨b / w, by positivity, by field_simp⟩
  have hder : ∀ v ∈ Ioi (0 : ℝ), HasDerivWithinAt (fun v : ℝ => b / v) (-(b / v ^ 2)) (Ioi 0) v := by
    intro v hv
    have := ((hasDerivAt_inv (ne_of_gt (mem_Ioi.1 hv))).const_mul b).hasDerivWithinAt (s := Ioi 0)
    refine this.congr_deriv ?_
    rw [mul_neg, div_eq_mul_inv]
  have hinj : InjOn (fun v : ℝ => b / v) (Ioi 0) := by
    intro v hv w hw h
    have hv' := ne_of_gt (mem_Ioi.1 hv)
    have hw' := ne_of_gt (mem_Ioi.1 hw)
    simp only at h
    field_simp at h
    exact h.symm
  have heq : EqOn (fun v => |-(b / v ^ 2)| • mix 0 b (b / v)) (mixInv b) (Ioi 0) := by
    intro v hv
    have hv' : 0 < v := hv
    simp only [mix, mixInv, smul_eq_mul, pow_zero, one_mul]
    rw [abs_neg, abs_of_pos (by positivity)]
    congr 2
    field_simp
    ring
  constructor
  · have := integral_image_eq_integral_abs_deriv_smul measurableSet_Ioi hder hinj (mix 0 b)
    rw [himg] at this
    rw [this]
    exact setIntegral_congr_fun measurableSet_Ioi heq
  · have := (integrableOn_image_iff_integrableOn_abs_deriv_smul measurableSet_Ioi hder hinj (mix 0 b)).1 (by
      rw [himg]; exact mix_integrable 0 b)
    exact this.congr_fun heq measurableSet_Ioi

/-- The substitution `w = v - b/v`. -/
theorem sum_integral {b : ℝ} (hb : 0 < b) :
    ∫ v in Ioi 0, (mix 0 b v + mixInv b v) = √π * exp (-(2 * b)) := by
  have himg : (fun v : ℝ => v - b / v) '' Ioi 0 = univ := by
    ext w
    simp only [mem_image, mem_Ioi, mem_univ, iff_true]
    have hs : 0 < w ^ 2 + 4 * b := by positivity
    have h1 : √(w ^ 2 + 4 * b) ^ 2 = w ^ 2 + 4 * b := sq_sqrt hs.le
    have h2 : |w| < √(w ^ 2 + 4 * b) := by
      apply lt_sqrt_of_sq_lt
      rw [sq_abs]; linarith
    have hpos : 0 < (w + √(w ^ 2 + 4 * b)) / 2 := by
      have := neg_abs_le w
      linarith
    refine ⟨(w + √(w ^ 2 + 4 * b)) / 2, hpos, ?_⟩
    have hne : w + √(w ^ 2 + 4 * b) ≠ 0 := by
      have := hpos.ne'
      intro h; rw [h] at this; simp at this
    field_simp
    nlinarith
  have hder : ∀ v ∈ Ioi (0 : ℝ), HasDerivWithinAt (fun v : ℝ => v - b / v) (1 + b / v ^ 2) (Ioi 0) v := by
    intro v hv
    have h1 := ((hasDerivAt_inv (ne_of_gt (mem_Ioi.1 hv))).const_mul b)
    have := ((hasDerivAt_id v).sub h1).hasDerivWithinAt (s := Ioi 0)
    refine this.congr_deriv ?_
    rw [mul_neg, div_eq_mul_inv, sub_neg_eq_add]
  have hinj : InjOn (fun v : ℝ => v - b / v) (Ioi 0) := by
    have hmono : StrictMonoOn (fun v : ℝ => v - b / v) (Ioi 0) := by
      intro v hv w hw hvw
      have hv' : 0 < v := hv
      have : b / w < b / v := div_lt_div_of_pos_left hb hv' hvw
      simp only
      linarith
    exact hmono.injOn
  have heq : EqOn (fun v => |1 + b / v ^ 2| • exp (-1 * (v - b / v) ^ 2)) (fun v => exp (2 * b) * (mix 0 b v + mixInv b v)) (Ioi 0) := by
    intro v hv
    have hv' : 0 < v := hv
    simp only [mix, mixInv, smul_eq_mul, pow_zero, one_mul]
    rw [abs_of_pos (by positivity)]
    have e : -1 * (v - b / v) ^ 2 = 2 * b + -(v ^ 2 + b ^ 2 / v ^ 2) := by
      field_simp
      ring
    rw [e, exp_add]
    ring
  have h := integral_image_eq_integral_abs_deriv_smul measurableSet_Ioi hder hinj fun w => exp (-1 * w ^ 2)
  rw [himg, setIntegral_univ, integral_gaussian, div_one, setIntegral_congr_fun measurableSet_Ioi heq,
    integral_const_mul] at h
  rw [h, mul_comm (exp (2 * b)), mul_assoc, ← exp_add]
  simp

/-- Order 0: `∫₀^∞ exp(-v² - b²/v²) dv = (√π/2) exp(-2b)`. -/
theorem mix_zero {b : ℝ} (hb : 0 ≤ b) : ∫ v in Ioi 0, mix 0 b v = √π / 2 * exp (-(2 * b)) := by
  rcases hb.eq_or_lt with rfl | hb
  · have h := integral_gaussian_Ioi 1
    rw [div_one] at h
    simp only [mul_zero, neg_zero, exp_zero, mul_one]
    rw [← h]
    exact setIntegral_congr_fun measurableSet_Ioi fun v _ => by simp [mix]
  · obtain ⟨h1, h2⟩ := swap_integral hb
    have h3 := sum_integral hb
    rw [integral_add (mix_integrable 0 b) h2, ← h1] at h3
    linarith

theorem mix_hasDerivAt (m : ℕ) (b : ℝ) {v : ℝ} (hv : 0 < v) :
    HasDerivAt (mix (m + 1) b) ((m + 1) * mix m b v - 2 * mix (m + 2) b v + 2 * b * (v ^ m * mixInv b v)) v := by
  unfold mix
  have h1 : HasDerivAt (fun v : ℝ => v ^ (m + 1)) ((m + 1) * v ^ m) v := by
    simpa using hasDerivAt_pow (m + 1) v
  have h2 : HasDerivAt (fun v : ℝ => -(v ^ 2 + b ^ 2 / v ^ 2)) (-(2 * v - 2 * b ^ 2 / v ^ 3)) v := by
    have a : HasDerivAt (fun v : ℝ => v ^ 2) (2 * v) v := by simpa using hasDerivAt_pow 2 v
    have c : HasDerivAt (fun v : ℝ => b ^ 2 / v ^ 2) (-(2 * b ^ 2 / v ^ 3)) v := by
      have := (a.fun_inv (pow_ne_zero 2 hv.ne')).const_mul (b ^ 2)
      refine this.congr_deriv ?_
      field_simp
    refine (a.add c).fun_neg.congr_deriv ?_
    ring
  refine (h1.mul h2.exp).congr_deriv ?_
  unfold mixInv
  field_simp
  ring

theorem mix_tendsto_zero (m : ℕ) (b : ℝ) : ContinuousWithinAt (mix (m + 1) b) (Ici 0) 0 := by
  have h0 : mix (m + 1) b 0 = 0 := by simp [mix]
  unfold ContinuousWithinAt
  rw [h0]
  have hlim : Tendsto (fun v : ℝ => v ^ (m + 1)) (𝓝[Ici 0] 0) (𝓝 0) := by
    have : Tendsto (fun v : ℝ => v ^ (m + 1)) (𝓝 0) (𝓝 (0 ^ (m + 1))) := (continuous_pow (m + 1)).tendsto 0
    rw [zero_pow (Nat.succ_ne_zero m)] at this
    exact this.mono_left nhdsWithin_le_nhds
  refine squeeze_zero' ?_ ?_ hlim
  · filter_upwards [self_mem_nhdsWithin] with v hv
    have : 0 ≤ v := hv
    unfold mix; positivity
  · filter_upwards [self_mem_nhdsWithin] with v hv
    have hv' : 0 ≤ v := hv
    unfold mix
    apply mul_le_of_le_one_right (by positivity)
    apply exp_le_one_iff.2
    have : 0 ≤ v ^ 2 + b ^ 2 / v ^ 2 := by positivity
    linarith

theorem mix_tendsto_atTop (m : ℕ) (b : ℝ) : Tendsto (mix m b) atTop (𝓝 0) := by
  have h := tendsto_pow_mul_exp_neg_atTop_nhds_zero m
  refine squeeze_zero' ?_ ?_ h
  · filter_upwards [eventually_ge_atTop 0] with v hv
    unfold mix; positivity
  · filter_upwards [eventually_ge_atTop 1] with v hv
    unfold mix
    apply mul_le_mul_of_nonneg_left _ (by positivity)
    apply exp_le_exp.2
    have : 0 ≤ b ^ 2 / v ^ 2 := by positivity
    nlinarith

/-- Integration by parts. -/
theorem mix_parts (m : ℕ) (b : ℝ) (hi : IntegrableOn (fun v => 2 * b * (v ^ m * mixInv b v)) (Ioi 0)) :
    (m + 1) * (∫ v in Ioi 0, mix m b v) - 2 * (∫ v in Ioi 0, mix (m + 2) b v)
      + ∫ v in Ioi 0, 2 * b * (v ^ m * mixInv b v) = 0 := by
  have i1 : IntegrableOn (fun v => ((m : ℝ) + 1) * mix m b v) (Ioi 0) := (mix_integrable m b).const_mul _
  have i2 : IntegrableOn (fun v => 2 * mix (m + 2) b v) (Ioi 0) := (mix_integrable (m + 2) b).const_mul _
  have h := integral_Ioi_of_hasDerivAt_of_tendsto (mix_tendsto_zero m b)
    (fun v hv => mix_hasDerivAt m b (mem_Ioi.1 hv)) ((i1.sub i2).add hi) (mix_tendsto_atTop (m + 1) b)
  have e : mix (m + 1) b 0 = 0 := by simp [mix]
  rw [e, sub_zero] at h
  rw [integral_add (f := fun v => ((m : ℝ) + 1) * mix m b v - 2 * mix (m + 2) b v) (i1.sub i2) hi,
    integral_sub i1 i2, integral_const_mul, integral_const_mul] at h
  exact h

/-- Order 2: `∫₀^∞ v² exp(-v² - b²/v²) dv = (√π/4) (1 + 2b) exp(-2b)`. -/
theorem mix_two {b : ℝ} (hb : 0 ≤ b) :
    ∫ v in Ioi 0, mix 2 b v = √π / 4 * ((1 + 2 * b) * exp (-(2 * b))) := by
  have h0 := mix_zero hb
  have hinv : IntegrableOn (fun v => 2 * b * (v ^ 0 * mixInv b v)) (Ioi 0) ∧
      ∫ v in Ioi 0, 2 * b * (v ^ 0 * mixInv b v) = 2 * b * ∫ v in Ioi 0, mix 0 b v := by
    rcases hb.eq_or_lt with rfl | hb
    · simp
    · obtain ⟨h1, h2⟩ := swap_integral hb
      simp only [pow_zero, one_mul]
      refine ⟨h2.const_mul _, ?_⟩
      rw [integral_const_mul, h1]
  have h := mix_parts 0 b hinv.1
  rw [hinv.2, h0] at h
  simp only [zero_add, CharP.cast_eq_zero] at h
  linear_combination -(1 / 2) * h

/-- Order 4: `∫₀^∞ v⁴ exp(-v² - b²/v²) dv = (3√π/8) (1 + 2b + (2b)²/3) exp(-2b)`. -/
theorem mix_four {b : ℝ} (hb : 0 ≤ b) :
    ∫ v in Ioi 0, mix 4 b v = 3 * √π / 8 * ((1 + 2 * b + (2 * b) ^ 2 / 3) * exp (-(2 * b))) := by
  have h0 := mix_zero hb
  have h2 := mix_two hb
  have heq : EqOn (fun v => 2 * b ^ 2 * mix 0 b v) (fun v => 2 * b * (v ^ 2 * mixInv b v)) (Ioi 0) := by
    intro v hv
    have hv' : v ≠ 0 := ne_of_gt hv
    simp only [mix, mixInv]
    field_simp
  have hi : IntegrableOn (fun v => 2 * b * (v ^ 2 * mixInv b v)) (Ioi 0) :=
    IntegrableOn.congr_fun ((mix_integrable 0 b).const_mul (2 * b ^ 2)) heq measurableSet_Ioi
  have h := mix_parts 2 b hi
  rw [← setIntegral_congr_fun measurableSet_Ioi heq, integral_const_mul, h2, h0] at h
  push_cast at h
  linear_combination -(1 / 2) * h

end Verif.Kernels
