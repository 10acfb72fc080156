import Verif.Metrics.Crps
import Mathlib.MeasureTheory.Integral.Prod

/-!
Expectations of the scores of a normal prediction when the value is normally distributed.
-/

namespace Verif.Metrics

open MeasureTheory ProbabilityTheory Set Filter Topology
open scoped NNReal

/-! ### Logarithmic score -/

/-- One term of the logarithmic score. -/
noncomputable def logTerm (m v x : ℝ) : ℝ := 1 / 2 * Real.log (2 * Real.pi * v) + 1 / 2 * (x - m) ^ 2 / v

theorem integrable_id_gauss (m : ℝ) (w : ℝ≥0) : Integrable (fun x : ℝ => x) (gaussianReal m w) :=
  (memLp_id_gaussianReal' (μ := m) (v := w) 1 (by simp)).integrable le_rfl

theorem integrable_sq_gauss (m c : ℝ) (w : ℝ≥0) : Integrable (fun x : ℝ => (x - c) ^ 2) (gaussianReal m w) :=
  ((memLp_id_gaussianReal' (μ := m) (v := w) 2 (by simp)).sub (memLp_const c)).integrable_sq

theorem integral_sq_gauss (m c : ℝ) (w : ℝ≥0) : ∫ x, (x - c) ^ 2 ∂gaussianReal m w = w + (m - c) ^ 2 := by
  have hv : ∫ x, (x - m) ^ 2 ∂gaussianReal m w = w := by
    have h := variance_eq_integral (X := fun x : ℝ => x) (μ := gaussianReal m w) (by fun_prop)
    rw [variance_fun_id_gaussianReal, integral_id_gaussianReal] at h
    exact h.symm
  have e : (fun x : ℝ => (x - c) ^ 2) = fun x => (x - m) ^ 2 + (2 * (m - c) * (x - m) + (m - c) ^ 2) := by
    funext x; ring
  have i1 : Integrable (fun x : ℝ => 2 * (m - c) * (x - m)) (gaussianReal m w) :=
    ((integrable_id_gauss m w).sub (integrable_const m)).const_mul _
  have i2 : Integrable (fun x : ℝ => 2 * (m - c) * (x - m) + (m - c) ^ 2) (gaussianReal m w) := i1.add (integrable_const _)
  rw [e, integral_add (integrable_sq_gauss m m w) i2, integral_add i1 (integrable_const _),
    integral_const_mul, integral_sub (integrable_id_gauss m w) (integrable_const m), integral_id_gaussianReal, hv]
  simp

theorem integrable_logTerm (m c v : ℝ) (w : ℝ≥0) : Integrable (logTerm c v) (gaussianReal m w) := by
  have := (integrable_const (μ := gaussianReal m w) (1 / 2 * Real.log (2 * Real.pi * v))).add
    (((integrable_sq_gauss m c w).const_mul (1 / 2)).div_const v)
  exact this

theorem integral_logTerm (m c v : ℝ) (w : ℝ≥0) : ∫ x, logTerm c v x ∂gaussianReal m w =
    1 / 2 * Real.log (2 * Real.pi * v) + 1 / 2 * ((w + (m - c) ^ 2) / v) := by
  unfold logTerm
  rw [integral_add (integrable_const _) (((integrable_sq_gauss m c w).const_mul (1 / 2)).div_const v), integral_div,
    integral_const_mul (1 / 2 : ℝ) (fun x : ℝ => (x - c) ^ 2), integral_sq_gauss]
  simp
  ring

/-- The expected logarithmic score is least at the true distribution, and only there. -/
theorem logTerm_proper (m c v w : ℝ) (hw : 0 < w) (hv : 0 < v) :
    ∫ x, logTerm m w x ∂gaussianReal m w.toNNReal ≤ ∫ x, logTerm c v x ∂gaussianReal m w.toNNReal ∧
      ((c ≠ m ∨ v ≠ w) → ∫ x, logTerm m w x ∂gaussianReal m w.toNNReal < ∫ x, logTerm c v x ∂gaussianReal m w.toNNReal) := by
  rw [integral_logTerm, integral_logTerm, Real.coe_toNNReal _ hw.le, sub_self, Real.log_mul (by positivity) hw.ne',
    Real.log_mul (by positivity) hv.ne']
  have e0 : (w + 0 ^ 2) / w = 1 := by field_simp; ring
  have e1 : (w + (m - c) ^ 2) / v = w / v + (m - c) ^ 2 / v := by ring
  have hl : Real.log (w / v) = Real.log w - Real.log v := Real.log_div hw.ne' hv.ne'
  have hp : 0 < w / v := div_pos hw hv
  have h1 := Real.log_le_sub_one_of_pos hp
  have h2 : 0 ≤ (m - c) ^ 2 / v := by positivity
  rw [e0, e1]
  refine ⟨by linarith, ?_⟩
  rintro (h | h)
  · have : 0 < (m - c) ^ 2 / v := by
      have := sub_ne_zero.2 h.symm
      positivity
    linarith
  · have hne : w / v ≠ 1 := fun hc => h (by rw [div_eq_one_iff_eq hv.ne'] at hc; exact hc.symm)
    have := Real.log_lt_sub_one_of_pos hp hne
    linarith

/-! ### Ranked probability score -/

/-- The distance integrated by the score. -/
noncomputable def stepSq (mu sigma x t : ℝ) : ℝ :=
  open Classical in (stdCdf ((t - mu) / sigma) - if x ≤ t then 1 else 0) ^ 2

theorem hStd_continuous : Continuous hStd := continuous_iff_continuousAt.2 fun z => (hStd_hasDerivAt z).continuousAt

theorem integrable_stepSq (x mu sigma : ℝ) (hs : 0 < sigma) : Integrable (stepSq mu sigma x) := by
  classical
  have h1 := (head_integral x mu sigma hs).1
  have h2 := (tail_integral x mu sigma hs).1
  have i1 : IntegrableOn (stepSq mu sigma x) (Iio x) := by
    refine IntegrableOn.congr_fun (h1.mono_set Iio_subset_Iic_self) (fun t ht => ?_) measurableSet_Iio
    simp only [stepSq, if_neg (not_le.2 (mem_Iio.1 ht)), sub_zero]
  have i2 : IntegrableOn (stepSq mu sigma x) (Ioi x) := by
    refine IntegrableOn.congr_fun h2 (fun t ht => ?_) measurableSet_Ioi
    simp only [stepSq, if_pos (mem_Ioi.1 ht).le, stdCdf_neg]
    ring
  have i3 : IntegrableOn (stepSq mu sigma x) (Ici x) := (integrableOn_Ici_iff_integrableOn_Ioi).2 i2
  rw [← integrableOn_univ, ← Iio_union_Ici (a := x)]
  exact i1.union i3

theorem integral_stepSq (x mu sigma : ℝ) (hs : 0 < sigma) : ∫ t, stepSq mu sigma x t = sigma * hStd ((x - mu) / sigma) :=
  crpsSpec_eq x mu sigma hs

theorem integrable_crps (m mu sigma : ℝ) (w : ℝ≥0) (hs : 0 < sigma) :
    Integrable (fun x => sigma * hStd ((x - mu) / sigma)) (gaussianReal m w) := by
  have hb : Integrable (fun x : ℝ => |x - mu| + sigma * ((√2 - 1) / √Real.pi)) (gaussianReal m w) :=
    (((integrable_id_gauss m w).sub (integrable_const mu)).abs).add (integrable_const _)
  refine hb.mono' ?_ (Eventually.of_forall fun x => ?_)
  · have : Continuous fun x => sigma * hStd ((x - mu) / sigma) := by
      have := hStd_continuous
      fun_prop
    exact this.aestronglyMeasurable
  · have h := C88_bounds x mu sigma hs
    rw [crpsTerm_eq _ _ _ hs] at h
    rw [Real.norm_of_nonneg h.1.le]
    exact h.2.2.2.1

theorem measurable_stepSq (mu sigma : ℝ) : Measurable fun z : ℝ × ℝ => stepSq mu sigma z.1 z.2 := by
  classical
  have h1 : Measurable fun z : ℝ × ℝ => stdCdf ((z.2 - mu) / sigma) :=
    stdCdf_continuous.measurable.comp (by fun_prop)
  have h2 : Measurable fun z : ℝ × ℝ => if z.1 ≤ z.2 then (1 : ℝ) else 0 :=
    Measurable.ite (measurableSet_le measurable_fst measurable_snd) measurable_const measurable_const
  exact (h1.sub h2).pow_const 2

theorem integrable_prod_stepSq (m mu sigma : ℝ) (w : ℝ≥0) (hs : 0 < sigma) :
    Integrable (fun z : ℝ × ℝ => stepSq mu sigma z.1 z.2) ((gaussianReal m w).prod volume) := by
  rw [integrable_prod_iff (measurable_stepSq mu sigma).aestronglyMeasurable]
  refine ⟨Eventually.of_forall fun x => integrable_stepSq x mu sigma hs, ?_⟩
  refine (integrable_crps m mu sigma w hs).congr (Eventually.of_forall fun x => ?_)
  change sigma * hStd ((x - mu) / sigma) = ∫ t, ‖stepSq mu sigma x t‖
  rw [← integral_stepSq x mu sigma hs]
  congr 1
  funext t
  rw [Real.norm_of_nonneg]
  unfold stepSq
  positivity

/-- The expected score exceeds that of the true distribution by the integrated squared distance of the distribution functions. -/
theorem crps_excess (m mu sigma w : ℝ) (hw : 0 < w) (hs : 0 < sigma) :
    Integrable (fun t => (stdCdf ((t - mu) / sigma) - stdCdf ((t - m) / √w)) ^ 2) ∧
    ∫ x, sigma * hStd ((x - mu) / sigma) ∂gaussianReal m w.toNNReal - ∫ x, √w * hStd ((x - m) / √w) ∂gaussianReal m w.toNNReal
      = ∫ t, (stdCdf ((t - mu) / sigma) - stdCdf ((t - m) / √w)) ^ 2 := by
  classical
  have hr : 0 < √w := Real.sqrt_pos.2 hw
  set P := gaussianReal m w.toNNReal with hP
  have i1 := integrable_prod_stepSq m mu sigma w.toNNReal hs
  have i2 := integrable_prod_stepSq m m √w w.toNNReal hr
  have hi := i1.sub i2
  have inner : ∀ t, ∫ x, (stepSq mu sigma x t - stepSq m √w x t) ∂P
      = (stdCdf ((t - mu) / sigma) - stdCdf ((t - m) / √w)) ^ 2 := by
    intro t
    set F := stdCdf ((t - mu) / sigma)
    set G := stdCdf ((t - m) / √w) with hG
    have e : (fun x => stepSq mu sigma x t - stepSq m √w x t) =
        fun x => (F ^ 2 - G ^ 2) - 2 * (F - G) * (Iic t).indicator (fun _ => (1 : ℝ)) x := by
      funext x
      simp only [stepSq, indicator, mem_Iic]
      split <;> simp only [F, G] <;> ring
    have hind : Integrable ((Iic t).indicator (fun _ => (1 : ℝ))) P := (integrable_const 1).indicator measurableSet_Iic
    rw [e, integral_sub (integrable_const _) (hind.const_mul _), integral_const_mul, integral_indicator_const _ measurableSet_Iic,
      hP, C88_distribution m w t hw, ← hG]
    simp
    ring
  have hsymm : Integrable (fun t => ∫ x, (stepSq mu sigma x t - stepSq m √w x t) ∂P) := hi.integral_prod_right
  have hfub : ∫ x, (∫ t, (stepSq mu sigma x t - stepSq m √w x t)) ∂P = ∫ t, ∫ x, (stepSq mu sigma x t - stepSq m √w x t) ∂P :=
    integral_integral_swap (f := fun x t => stepSq mu sigma x t - stepSq m √w x t) hi
  simp only [inner] at hsymm hfub
  refine ⟨hsymm, ?_⟩
  rw [← hfub, ← integral_sub (integrable_crps m mu sigma w.toNNReal hs) (integrable_crps m m √w w.toNNReal hr)]
  congr 1
  funext x
  rw [integral_sub (integrable_stepSq x mu sigma hs) (integrable_stepSq x m √w hr), integral_stepSq _ _ _ hs,
    integral_stepSq _ _ _ hr]

/-- The expected score is least at the true distribution, and only there. -/
theorem crps_proper (m mu sigma w : ℝ) (hw : 0 < w) (hs : 0 < sigma) :
    ∫ x, crpsTerm stdPdf stdCdf x m √w ∂gaussianReal m w.toNNReal ≤
        ∫ x, crpsTerm stdPdf stdCdf x mu sigma ∂gaussianReal m w.toNNReal ∧
      ((mu ≠ m ∨ sigma ≠ √w) → ∫ x, crpsTerm stdPdf stdCdf x m √w ∂gaussianReal m w.toNNReal <
        ∫ x, crpsTerm stdPdf stdCdf x mu sigma ∂gaussianReal m w.toNNReal) := by
  have hr : 0 < √w := Real.sqrt_pos.2 hw
  simp only [crpsTerm_eq _ _ _ hs, crpsTerm_eq _ _ _ hr]
  obtain ⟨hi, he⟩ := crps_excess m mu sigma w hw hs
  have h0 : 0 ≤ ∫ t, (stdCdf ((t - mu) / sigma) - stdCdf ((t - m) / √w)) ^ 2 := integral_nonneg fun t => sq_nonneg _
  refine ⟨by linarith, fun h => ?_⟩
  have hpos : 0 < ∫ t, (stdCdf ((t - mu) / sigma) - stdCdf ((t - m) / √w)) ^ 2 := by
    have hc : Continuous fun t => (stdCdf ((t - mu) / sigma) - stdCdf ((t - m) / √w)) ^ 2 := by
      have := stdCdf_continuous
      fun_prop
    have hex : ∃ t, (t - mu) / sigma ≠ (t - m) / √w := by
      by_contra hcon
      push Not at hcon
      have a := hcon m
      have b := hcon (m + √w)
      rw [sub_self, zero_div, div_eq_zero_iff] at a
      have hm : mu = m := by
        rcases a with a | a
        · linarith
        · exact absurd a hs.ne'
      rw [hm, add_sub_cancel_left, div_self hr.ne', div_eq_one_iff_eq hs.ne'] at b
      rcases h with h | h
      · exact h hm
      · exact h b.symm
    obtain ⟨t, ht⟩ := hex
    refine integral_pos_of_integrable_nonneg_nonzero (x := t) hc hi (fun t => sq_nonneg _) ?_
    have := sub_ne_zero.2 (stdCdf_strictMono.injective.ne ht)
    positivity
  linarith

/-! ### Interval score -/

/-- The part of the interval score due to the lower end: subgradient at the quantile. -/
theorem low_proper (m w l k p : ℝ) (hw : 0 < w) (hp : 0 < p) (hk : (gaussianReal m w.toNNReal).real (Iic k) = p) :
    Integrable (fun x => 1 / p * max (l - x) 0 - l) (gaussianReal m w.toNNReal) ∧
    ∫ x, (1 / p * max (k - x) 0 - k) ∂gaussianReal m w.toNNReal ≤ ∫ x, (1 / p * max (l - x) 0 - l) ∂gaussianReal m w.toNNReal := by
  classical
  have hi : ∀ l, Integrable (fun x => 1 / p * max (l - x) 0 - l) (gaussianReal m w.toNNReal) := fun l =>
    ((((integrable_const l).sub (integrable_id_gauss m _)).pos_part).const_mul _).sub (integrable_const _)
  refine ⟨hi l, ?_⟩
  have hind : Integrable (fun x => (l - k) * (1 / p * (Iic k).indicator (fun _ => (1 : ℝ)) x - 1)) (gaussianReal m w.toNNReal) :=
    ((((integrable_const 1).indicator measurableSet_Iic).const_mul _).sub (integrable_const _)).const_mul _
  have hz : ∫ x, (l - k) * (1 / p * (Iic k).indicator (fun _ => (1 : ℝ)) x - 1) ∂gaussianReal m w.toNNReal = 0 := by
    rw [integral_const_mul, integral_sub (((integrable_const 1).indicator measurableSet_Iic).const_mul _) (integrable_const _),
      integral_const_mul, integral_indicator_const _ measurableSet_Iic, hk]
    simp [hp.ne']
  rw [← sub_nonneg, ← integral_sub (hi l) (hi k)]
  refine hz.symm.le.trans (integral_mono hind ((hi l).sub (hi k)) fun x => ?_)
  simp only [indicator, mem_Iic]
  have hq : 0 < 1 / p := by positivity
  have key : ∀ a b : ℝ, a ≤ b → 1 / p * a ≤ 1 / p * b := fun a b h => mul_le_mul_of_nonneg_left h hq.le
  split
  · rename_i hx
    rw [max_eq_left (by linarith : 0 ≤ k - x)]
    have := key _ _ (le_max_left (l - x) 0)
    nlinarith
  · rename_i hx
    rw [max_eq_right (by linarith : k - x ≤ 0)]
    have := key _ _ (le_max_right (l - x) 0)
    nlinarith

theorem high_proper (m w l k p : ℝ) (hw : 0 < w) (hp : 0 < p) (hk : (gaussianReal m w.toNNReal).real (Ici k) = p) :
    Integrable (fun x => 1 / p * max (x - l) 0 + l) (gaussianReal m w.toNNReal) ∧
    ∫ x, (1 / p * max (x - k) 0 + k) ∂gaussianReal m w.toNNReal ≤ ∫ x, (1 / p * max (x - l) 0 + l) ∂gaussianReal m w.toNNReal := by
  classical
  have hi : ∀ l, Integrable (fun x => 1 / p * max (x - l) 0 + l) (gaussianReal m w.toNNReal) := fun l =>
    ((((integrable_id_gauss m _).sub (integrable_const l)).pos_part).const_mul _).add (integrable_const _)
  refine ⟨hi l, ?_⟩
  have hind : Integrable (fun x => (k - l) * (1 / p * (Ici k).indicator (fun _ => (1 : ℝ)) x - 1)) (gaussianReal m w.toNNReal) :=
    ((((integrable_const 1).indicator measurableSet_Ici).const_mul _).sub (integrable_const _)).const_mul _
  have hz : ∫ x, (k - l) * (1 / p * (Ici k).indicator (fun _ => (1 : ℝ)) x - 1) ∂gaussianReal m w.toNNReal = 0 := by
    rw [integral_const_mul, integral_sub (((integrable_const 1).indicator measurableSet_Ici).const_mul _) (integrable_const _),
      integral_const_mul, integral_indicator_const _ measurableSet_Ici, hk]
    simp [hp.ne']
  rw [← sub_nonneg, ← integral_sub (hi l) (hi k)]
  refine hz.symm.le.trans (integral_mono hind ((hi l).sub (hi k)) fun x => ?_)
  simp only [indicator, mem_Ici]
  have hq : 0 < 1 / p := by positivity
  have key : ∀ a b : ℝ, a ≤ b → 1 / p * a ≤ 1 / p * b := fun a b h => mul_le_mul_of_nonneg_left h hq.le
  split
  · rename_i hx
    rw [max_eq_left (by linarith : 0 ≤ x - k)]
    have := key _ _ (le_max_left (x - l) 0)
    nlinarith
  · rename_i hx
    rw [max_eq_right (by linarith : x - k ≤ 0)]
    have := key _ _ (le_max_right (x - l) 0)
    nlinarith

end Verif.Metrics
