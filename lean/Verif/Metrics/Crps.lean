import Verif.Metrics.Props
import Mathlib.MeasureTheory.Integral.IntervalIntegral.Basic
import Mathlib.MeasureTheory.Measure.Haar.NormedSpace

/-!
C88: the continuous ranked probability score.
-/

namespace Verif.Metrics

open MeasureTheory ProbabilityTheory Set Filter Topology

/-- Specification: the integrated squared distance between the normal distribution function and the step at the value. -/
noncomputable def crpsSpec (x mu sigma : ℝ) : ℝ :=
  open Classical in ∫ t, (stdCdf ((t - mu) / sigma) - if x ≤ t then 1 else 0) ^ 2

/-- The score of a standardised value. -/
noncomputable def hStd (z : ℝ) : ℝ := z * (2 * stdCdf z - 1) + 2 * stdPdf z - 1 / √Real.pi

/-- An antiderivative of `Φ²`. -/
noncomputable def antiG (t : ℝ) : ℝ := t * stdCdf t ^ 2 + 2 * stdCdf t * stdPdf t - stdCdf (√2 * t) / √Real.pi

theorem hStd_hasDerivAt (z : ℝ) : HasDerivAt hStd (2 * stdCdf z - 1) z := by
  have h1 := (hasDerivAt_id z).fun_mul (((stdCdf_hasDerivAt z).const_mul 2).sub_const 1)
  have h2 := (h1.fun_add ((stdPdf_hasDerivAt z).const_mul 2)).sub_const (1 / √Real.pi)
  refine h2.congr_deriv ?_
  simp only [id]
  ring

theorem stdPdf_sqrt_two (t : ℝ) : √2 * stdPdf (√2 * t) / √Real.pi = 2 * stdPdf t ^ 2 := by
  have hp : 0 < √Real.pi := Real.sqrt_pos.2 Real.pi_pos
  have h2 : (0 : ℝ) < √2 := by positivity
  have e1 : Real.exp (-(√2 * t) ^ 2 / 2) = Real.exp (-t ^ 2 / 2) ^ 2 := by
    rw [← Real.exp_nat_mul]
    congr 1
    rw [mul_pow, Real.sq_sqrt (by norm_num)]
    push_cast
    ring
  rw [stdPdf_eq, stdPdf_eq, e1, Real.sqrt_mul (by norm_num : (0 : ℝ) ≤ 2)]
  field_simp
  rw [Real.sq_sqrt (by norm_num)]

theorem antiG_hasDerivAt (t : ℝ) : HasDerivAt antiG (stdCdf t ^ 2) t := by
  have hC := stdCdf_hasDerivAt t
  have h1 := (hasDerivAt_id t).fun_mul (hC.fun_pow 2)
  have h2 := (hC.const_mul 2).fun_mul (stdPdf_hasDerivAt t)
  have h3 := ((stdCdf_hasDerivAt (√2 * t)).comp t ((hasDerivAt_id t).const_mul √2)).div_const √Real.pi
  refine ((h1.fun_add h2).fun_sub h3).congr_deriv ?_
  have := stdPdf_sqrt_two t
  simp only [id, mul_one]
  rw [mul_comm (stdPdf (√2 * t)) √2, this]
  simp only [Nat.add_one_sub_one, pow_one, Nat.cast_ofNat]
  ring

theorem antiG_sum (z : ℝ) : antiG z + antiG (-z) = hStd z := by
  unfold antiG hStd
  rw [mul_neg, stdCdf_neg, stdCdf_neg, stdPdf_neg]
  ring

theorem stdPdf_le (x : ℝ) : stdPdf x ≤ 1 := by
  rw [stdPdf_eq]
  have h1 : Real.exp (-x ^ 2 / 2) ≤ 1 := Real.exp_le_one_iff.2 (by nlinarith [sq_nonneg x])
  have h2 : (√(2 * Real.pi))⁻¹ ≤ 1 := by
    refine inv_le_one_of_one_le₀ (Real.one_le_sqrt.2 ?_)
    nlinarith [Real.two_le_pi]
  have := mul_le_mul h2 h1 (Real.exp_pos _).le zero_le_one
  linarith

theorem stdCdf_tendsto_neg : Tendsto (fun s => stdCdf (-s)) atTop (𝓝 0) :=
  (tendsto_cdf_atBot _).comp tendsto_neg_atTop_atBot

theorem antiG_tendsto : Tendsto (fun s => antiG (-s)) atTop (𝓝 0) := by
  have h1 : Tendsto (fun s : ℝ => -s * stdCdf (-s) ^ 2) atTop (𝓝 0) := by
    have hb : Tendsto (fun s : ℝ => 1 / s) atTop (𝓝 0) := by simpa using tendsto_inv_atTop_zero (𝕜 := ℝ)
    refine squeeze_zero_norm' ?_ hb
    filter_upwards [eventually_ge_atTop 1] with s hs
    have hs0 : 0 < s := by linarith
    have a := stdCdf_tail hs0
    have b := stdCdf_nonneg (-s)
    have c := stdCdf_le_one (-s)
    rw [Real.norm_eq_abs, abs_mul, abs_neg, abs_of_pos hs0, abs_of_nonneg (sq_nonneg _)]
    calc s * stdCdf (-s) ^ 2 ≤ s * (1 / s ^ 2) := by
          refine mul_le_mul_of_nonneg_left ?_ hs0.le
          nlinarith
      _ = 1 / s := by field_simp
  have h2 : Tendsto (fun s : ℝ => 2 * stdCdf (-s) * stdPdf (-s)) atTop (𝓝 0) := by
    have hb : Tendsto (fun s : ℝ => 2 * stdCdf (-s)) atTop (𝓝 0) := by simpa using stdCdf_tendsto_neg.const_mul 2
    refine squeeze_zero (fun s => ?_) (fun s => ?_) hb
    · exact mul_nonneg (mul_nonneg two_pos.le (stdCdf_nonneg _)) (stdPdf_pos _).le
    · have := mul_le_mul_of_nonneg_left (stdPdf_le (-s)) (mul_nonneg two_pos.le (stdCdf_nonneg (-s)))
      linarith
  have h3 : Tendsto (fun s : ℝ => stdCdf (√2 * -s) / √Real.pi) atTop (𝓝 0) := by
    have : Tendsto (fun s : ℝ => √2 * -s) atTop atBot :=
      tendsto_neg_atTop_atBot.const_mul_atBot (by positivity)
    have h := ((tendsto_cdf_atBot (gaussianReal 0 1)).comp this).div_const √Real.pi
    rw [zero_div] at h
    exact h
  have := (h1.add h2).sub h3
  simpa [antiG] using this

/-- The upper tail, integrable and evaluated. -/
theorem tail_integral (x mu sigma : ℝ) (hs : 0 < sigma) :
    IntegrableOn (fun t => stdCdf (-((t - mu) / sigma)) ^ 2) (Ioi x) ∧
      ∫ t in Ioi x, stdCdf (-((t - mu) / sigma)) ^ 2 = sigma * antiG (-((x - mu) / sigma)) := by
  have hd : ∀ t ∈ Ici x, HasDerivAt (fun t => -(sigma * antiG (-((t - mu) / sigma)))) (stdCdf (-((t - mu) / sigma)) ^ 2) t := by
    intro t _
    have h1 : HasDerivAt (fun t => -((t - mu) / sigma)) (-(1 / sigma)) t :=
      (((hasDerivAt_id t).sub_const mu).div_const sigma).fun_neg
    have h2 := (((antiG_hasDerivAt (-((t - mu) / sigma))).comp t h1).const_mul sigma).fun_neg
    refine h2.congr_deriv ?_
    field_simp
  have ht : Tendsto (fun t => -(sigma * antiG (-((t - mu) / sigma)))) atTop (𝓝 0) := by
    have : Tendsto (fun t : ℝ => (t - mu) / sigma) atTop atTop :=
      (tendsto_atTop_add_const_right _ (-mu) tendsto_id).atTop_div_const hs
    simpa using ((antiG_tendsto.comp this).const_mul sigma).neg
  refine ⟨integrableOn_Ioi_deriv_of_nonneg' hd (fun _ _ => sq_nonneg _) ht, ?_⟩
  rw [integral_Ioi_of_hasDerivAt_of_nonneg' hd (fun _ _ => sq_nonneg _) ht]
  ring

theorem head_integral (x mu sigma : ℝ) (hs : 0 < sigma) :
    IntegrableOn (fun t => stdCdf ((t - mu) / sigma) ^ 2) (Iic x) ∧
      ∫ t in Iic x, stdCdf ((t - mu) / sigma) ^ 2 = sigma * antiG ((x - mu) / sigma) := by
  have h := tail_integral (-x) (-mu) sigma hs
  have e : ∀ t, stdCdf (-((t - -mu) / sigma)) ^ 2 = (fun t => stdCdf ((t - mu) / sigma) ^ 2) (-t) := by
    intro t
    simp only
    congr 2
    ring
  simp only [e] at h
  constructor
  · have := h.1.comp_neg
    rw [integrableOn_Iic_iff_integrableOn_Iio]
    simpa using this
  · have h2 := integral_comp_neg_Ioi (-x) (fun t => stdCdf ((t - mu) / sigma) ^ 2)
    rw [neg_neg] at h2
    rw [← h2, h.2]
    congr 2
    ring

theorem crpsSpec_eq (x mu sigma : ℝ) (hs : 0 < sigma) : crpsSpec x mu sigma = sigma * hStd ((x - mu) / sigma) := by
  classical
  have h1 := head_integral x mu sigma hs
  have h2 := tail_integral x mu sigma hs
  have e1 : EqOn (fun t => (stdCdf ((t - mu) / sigma) - if x ≤ t then (1 : ℝ) else 0) ^ 2)
      (fun t => stdCdf ((t - mu) / sigma) ^ 2) (Iio x) := by
    intro t ht
    simp [not_le.2 (mem_Iio.1 ht)]
  have e2 : EqOn (fun t => (stdCdf ((t - mu) / sigma) - if x ≤ t then (1 : ℝ) else 0) ^ 2)
      (fun t => stdCdf (-((t - mu) / sigma)) ^ 2) (Ici x) := by
    intro t ht
    simp only [mem_Ici.1 ht, if_true]
    rw [stdCdf_neg]
    ring
  have i1 : IntegrableOn (fun t => stdCdf ((t - mu) / sigma) ^ 2) (Iio x) := h1.1.mono_set Iio_subset_Iic_self
  have i2 : IntegrableOn (fun t => stdCdf (-((t - mu) / sigma)) ^ 2) (Ici x) := by
    rw [integrableOn_Ici_iff_integrableOn_Ioi]; exact h2.1
  unfold crpsSpec
  rw [← intervalIntegral.integral_Iio_add_Ici ((integrableOn_congr_fun e1 measurableSet_Iio).2 i1)
    ((integrableOn_congr_fun e2 measurableSet_Ici).2 i2), setIntegral_congr_fun measurableSet_Iio e1,
    setIntegral_congr_fun measurableSet_Ici e2, ← integral_Iic_eq_integral_Iio, integral_Ici_eq_integral_Ioi, h1.2, h2.2, ← mul_add,
    antiG_sum]

theorem hStd_zero : hStd 0 = (√2 - 1) / √Real.pi := by
  have hp : 0 < √Real.pi := Real.sqrt_pos.2 Real.pi_pos
  have h2 : (0 : ℝ) < √2 := by positivity
  unfold hStd
  rw [stdPdf_eq, Real.sqrt_mul (by norm_num : (0 : ℝ) ≤ 2)]
  simp only [ne_eq, OfNat.ofNat_ne_zero, not_false_eq_true, zero_pow, neg_zero, zero_div, Real.exp_zero, mul_one, zero_mul, zero_add]
  field_simp
  have := Real.mul_self_sqrt (show (0 : ℝ) ≤ 2 by norm_num)
  linarith

theorem hStd_neg (z : ℝ) : hStd (-z) = hStd z := by
  unfold hStd
  rw [stdCdf_neg, stdPdf_neg]
  ring

theorem hStd_strictMono : StrictMonoOn hStd (Ici 0) := by
  refine strictMonoOn_of_deriv_pos (convex_Ici 0) (fun z _ => (hStd_hasDerivAt z).continuousAt.continuousWithinAt) fun z hz => ?_
  rw [interior_Ici, mem_Ioi] at hz
  rw [(hStd_hasDerivAt z).deriv]
  have := stdCdf_strictMono hz
  rw [stdCdf_zero] at this
  linarith

theorem hStd_abs (z : ℝ) : hStd z = hStd |z| := by
  rcases abs_cases z with ⟨h, _⟩ | ⟨h, _⟩ <;> rw [h]
  rw [hStd_neg]

theorem hStd_lower (z : ℝ) : (√2 - 1) / √Real.pi ≤ hStd z := by
  rw [← hStd_zero, hStd_abs z]
  exact hStd_strictMono.monotoneOn (mem_Ici.2 le_rfl) (mem_Ici.2 (abs_nonneg z)) (abs_nonneg z)

theorem hStd_zero_pos : 0 < (√2 - 1) / √Real.pi := by
  have h2 : (1 : ℝ) < √2 := by
    rw [show (1 : ℝ) = √1 by simp]
    exact Real.sqrt_lt_sqrt (by norm_num) (by norm_num)
  exact div_pos (by linarith) (Real.sqrt_pos.2 Real.pi_pos)

theorem crpsTerm_eq (x mu sigma : ℝ) (hs : 0 < sigma) :
    crpsTerm stdPdf stdCdf x mu sigma = sigma * hStd ((x - mu) / sigma) := by
  unfold crpsTerm
  have e : sigma * (1 / √Real.pi - 2 * stdPdf ((x - mu) / sigma) - (x - mu) / sigma * (2 * stdCdf ((x - mu) / sigma) - 1))
      = -(sigma * hStd ((x - mu) / sigma)) := by
    unfold hStd
    ring
  rw [e, abs_neg, abs_of_nonneg]
  exact mul_nonneg hs.le (hStd_zero_pos.le.trans (hStd_lower _))

/-- The score of one prediction is the integrated squared distance of the predicted distribution function from the step at the
value. -/
theorem C88_crps_is_integral (x mu sigma : ℝ) (hs : 0 < sigma) : crpsTerm stdPdf stdCdf x mu sigma = crpsSpec x mu sigma := by
  rw [crpsTerm_eq _ _ _ hs, crpsSpec_eq _ _ _ hs]

/-- The score of a data set is the mean of the integrals. -/
theorem C88_crps {n : ℕ} (_hn : 0 < n) (y m v : Fin n → ℝ) (hv : ∀ i, 0 < v i) :
    crps stdPdf stdCdf y m v = mean fun i => crpsSpec (y i) (m i) √(v i) := by
  unfold crps
  congr 1
  funext i
  exact C88_crps_is_integral _ _ _ (Real.sqrt_pos.2 (hv i))

/-- The predicted distribution function in the integral is that of the predicted normal distribution. -/
theorem C88_distribution (mu v t : ℝ) (hv : 0 < v) : (gaussianReal mu v.toNNReal).real (Iic t) = stdCdf ((t - mu) / √v) := by
  have hs : 0 < √v := Real.sqrt_pos.2 hv
  have hmap : gaussianReal mu v.toNNReal = (gaussianReal 0 1).map fun x => mu + √v * x := by
    have e : (fun x => mu + √v * x) = (fun x => mu + x) ∘ fun x => √v * x := rfl
    rw [e, ← Measure.map_map (by fun_prop) (by fun_prop), gaussianReal_map_const_mul, gaussianReal_map_const_add]
    congr 1
    · simp
    · ext
      simp [Real.sq_sqrt hv.le, hv.le]
  rw [hmap, measureReal_def, Measure.map_apply (by fun_prop) measurableSet_Iic, stdCdf_real, measureReal_def]
  congr 2
  ext x
  simp only [mem_preimage, mem_Iic]
  rw [le_div_iff₀ hs]
  constructor <;> intro h <;> nlinarith

/-- The score is positive, at least the standard deviation times (√2 − 1) / √π, grows with the error, and is at most the
absolute error plus that bound: for a sharp prediction it is the absolute error. -/
theorem C88_bounds (x mu sigma : ℝ) (hs : 0 < sigma) :
    0 < crpsTerm stdPdf stdCdf x mu sigma ∧ sigma * ((√2 - 1) / √Real.pi) ≤ crpsTerm stdPdf stdCdf x mu sigma ∧
      (∀ x', |x - mu| < |x' - mu| → crpsTerm stdPdf stdCdf x mu sigma < crpsTerm stdPdf stdCdf x' mu sigma) ∧
      crpsTerm stdPdf stdCdf x mu sigma ≤ |x - mu| + sigma * ((√2 - 1) / √Real.pi) ∧
      |x - mu| - sigma / √Real.pi ≤ crpsTerm stdPdf stdCdf x mu sigma := by
  have hl := hStd_lower ((x - mu) / sigma)
  have h1 : sigma * ((√2 - 1) / √Real.pi) ≤ crpsTerm stdPdf stdCdf x mu sigma := by
    rw [crpsTerm_eq _ _ _ hs]
    exact mul_le_mul_of_nonneg_left hl hs.le
  have habs : ∀ u, |u / sigma| = |u| / sigma := fun u => by rw [abs_div, abs_of_pos hs]
  refine ⟨lt_of_lt_of_le (mul_pos hs hStd_zero_pos) h1, h1, fun x' h => ?_, ?_, ?_⟩
  · rw [crpsTerm_eq _ _ _ hs, crpsTerm_eq _ _ _ hs, hStd_abs, hStd_abs ((x' - mu) / sigma), habs, habs]
    exact mul_lt_mul_of_pos_left (hStd_strictMono (mem_Ici.2 (by positivity)) (mem_Ici.2 (by positivity))
      (div_lt_div_of_pos_right h hs)) hs
  · rw [crpsTerm_eq _ _ _ hs, hStd_abs, habs, ← hStd_zero]
    have hm : AntitoneOn (fun z => hStd z - z) (Ici 0) := by
      refine antitoneOn_of_deriv_nonpos (convex_Ici 0)
        (fun z _ => ((hStd_hasDerivAt z).fun_sub (hasDerivAt_id z)).continuousAt.continuousWithinAt)
        (fun z _ => ((hStd_hasDerivAt z).fun_sub (hasDerivAt_id z)).differentiableAt.differentiableWithinAt) fun z _ => ?_
      have hd : deriv (fun z => hStd z - z) z = _ := ((hStd_hasDerivAt z).fun_sub (hasDerivAt_id z)).deriv
      rw [hd]
      linarith [stdCdf_le_one z]
    have hz : 0 ≤ |x - mu| / sigma := by positivity
    have h2 := hm (mem_Ici.2 le_rfl) (mem_Ici.2 hz) hz
    simp only [sub_zero] at h2
    have h3 := mul_le_mul_of_nonneg_left h2 hs.le
    have h4 : sigma * (|x - mu| / sigma) = |x - mu| := by field_simp
    nlinarith
  · rw [crpsTerm_eq _ _ _ hs, hStd_abs, habs]
    -- h(z) ≥ z - 1/√π since h(z) - z increases as z decreases and tends to -1/√π
    have hm : AntitoneOn (fun z => hStd z - z) (Ici 0) := by
      refine antitoneOn_of_deriv_nonpos (convex_Ici 0)
        (fun z _ => ((hStd_hasDerivAt z).fun_sub (hasDerivAt_id z)).continuousAt.continuousWithinAt)
        (fun z _ => ((hStd_hasDerivAt z).fun_sub (hasDerivAt_id z)).differentiableAt.differentiableWithinAt) fun z _ => ?_
      have hd : deriv (fun z => hStd z - z) z = _ := ((hStd_hasDerivAt z).fun_sub (hasDerivAt_id z)).deriv
      rw [hd]
      linarith [stdCdf_le_one z]
    have hlow : ∀ z, 0 < z → z - 1 / √Real.pi ≤ hStd z := by
      intro z hz
      have hev : ∀ᶠ s in atTop, -(2 / s) - 1 / √Real.pi ≤ hStd z - z := by
        filter_upwards [eventually_ge_atTop (max z 1)] with s hs'
        have hsz : z ≤ s := (le_max_left _ _).trans hs'
        have hs0 : 0 < s := hz.trans_le hsz
        refine le_trans ?_ (hm (mem_Ici.2 hz.le) (mem_Ici.2 hs0.le) hsz)
        simp only [hStd]
        have ht := stdCdf_tail hs0
        rw [stdCdf_neg] at ht
        have hm2 := mul_le_mul_of_nonneg_left ht hs0.le
        have e : s * (1 / s ^ 2) = 1 / s := by field_simp
        rw [e] at hm2
        have e2 : 2 / s = 2 * (1 / s) := by ring
        have := (stdPdf_pos s).le
        rw [e2]
        nlinarith
      have hlim : Tendsto (fun s : ℝ => -(2 / s) - 1 / √Real.pi) atTop (𝓝 (0 - 1 / √Real.pi)) := by
        have : Tendsto (fun s : ℝ => -(2 / s)) atTop (𝓝 0) := by
          have h := (tendsto_inv_atTop_zero (𝕜 := ℝ)).const_mul (-2)
          simpa [div_eq_mul_inv] using h
        exact this.sub_const _
      have := le_of_tendsto hlim hev
      linarith
    rcases (abs_nonneg (x - mu)).eq_or_lt with h0 | h0
    · rw [← h0]
      have h5 := mul_nonneg hs.le (hStd_zero_pos.le.trans (hStd_lower (0 / sigma)))
      have : 0 ≤ sigma / √Real.pi := by positivity
      linarith
    · have h2 := hlow (|x - mu| / sigma) (by positivity)
      have h3 := mul_le_mul_of_nonneg_left h2 hs.le
      have h4 : sigma * (|x - mu| / sigma) = |x - mu| := by field_simp
      have h5 : sigma * (1 / √Real.pi) = sigma / √Real.pi := by ring
      rw [mul_sub, h4, h5] at h3
      exact h3

/-- A value one standard deviation off scores worse than one predicted exactly. -/
example : crpsTerm stdPdf stdCdf 0 0 1 < crpsTerm stdPdf stdCdf 1 0 1 :=
  (C88_bounds 0 0 1 one_pos).2.2.1 1 (by norm_num)

end Verif.Metrics
