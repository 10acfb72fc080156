import Verif.Kernels.Model
import Mathlib.Analysis.SpecialFunctions.ExpDeriv
import Mathlib.Analysis.SpecialFunctions.Log.Deriv
import Mathlib.Analysis.SpecialFunctions.Sqrt
import Mathlib.Analysis.Calculus.Deriv.MeanValue
import Mathlib.Analysis.Real.Pi.Bounds
import Mathlib.Analysis.Complex.ExponentialBounds

/-!
C64 (stationary kernels are normalised, bounded, decreasing) and C65 (robust variants).
-/

namespace Verif.Kernels

open Real

/-- A correlation function of the distance: 1 at zero, positive, at most 1, non-increasing (specification). -/
structure Correlation (k : ℝ → ℝ) : Prop where
  zero : k 0 = 1
  pos : ∀ d, 0 ≤ d → 0 < k d
  le_one : ∀ d, 0 ≤ d → k d ≤ 1
  anti : ∀ d e, 0 ≤ d → d ≤ e → k e ≤ k d

/-- The same with support radius `r`: nonnegative, and zero exactly from the radius on (specification). -/
structure CompactCorrelation (k : ℝ → ℝ) (r : ℝ) : Prop where
  zero : k 0 = 1
  pos : ∀ d, 0 ≤ d → d < r → 0 < k d
  support : ∀ d, r ≤ d → k d = 0
  le_one : ∀ d, 0 ≤ d → k d ≤ 1
  anti : ∀ d e, 0 ≤ d → d ≤ e → k e ≤ k d

theorem Correlation.of_anti {k : ℝ → ℝ} (h0 : k 0 = 1) (hp : ∀ d, 0 ≤ d → 0 < k d)
    (ha : ∀ d e, 0 ≤ d → d ≤ e → k e ≤ k d) : Correlation k :=
  ⟨h0, hp, fun d hd => h0 ▸ ha 0 d le_rfl hd, ha⟩

/-- C64, squared exponential; any nonzero length scale. -/
theorem C64_squared_exponential (l : ℝ) (_hl : l ≠ 0) : Correlation fun d => squaredExponential d l := by
  refine Correlation.of_anti (by simp [squaredExponential]) (fun _ _ => exp_pos _) fun d e hd hde => ?_
  apply exp_le_exp.2
  rw [neg_div, neg_div]
  apply neg_le_neg
  gcongr

/-- C64, squared exponential, robust variant. -/
theorem C64_squared_exponential_robust (φ : ℝ) : Correlation fun d => squaredExponentialRobust d φ := by
  refine Correlation.of_anti (by simp [squaredExponentialRobust]) (fun _ _ => exp_pos _) fun d e hd hde => ?_
  apply exp_le_exp.2
  rw [neg_mul, neg_mul]
  apply neg_le_neg
  gcongr

/-- C64, exponential. -/
theorem C64_exponential (l : ℝ) (hl : 0 < l) : Correlation fun d => exponential d l := by
  refine Correlation.of_anti (by simp [exponential]) (fun _ _ => exp_pos _) fun d e hd hde => ?_
  apply exp_le_exp.2
  gcongr

/-- C64, exponential, robust variant. -/
theorem C64_exponential_robust (φ : ℝ) : Correlation fun d => exponentialRobust d φ := by
  refine Correlation.of_anti (by simp [exponentialRobust]) (fun _ _ => exp_pos _) fun d e hd hde => ?_
  apply exp_le_exp.2
  rw [neg_mul, neg_mul]
  apply neg_le_neg
  gcongr

/-- `(1+t) e^{-t}` decreases. -/
theorem m1_anti {s t : ℝ} (hs : 0 ≤ s) (hst : s ≤ t) : (1 + t) * exp (-t) ≤ (1 + s) * exp (-s) := by
  have h1 := add_one_le_exp (t - s)
  have h2 : exp (-s) = exp (t - s) * exp (-t) := by rw [← exp_add]; congr 1; ring
  rw [h2, ← mul_assoc]
  apply mul_le_mul_of_nonneg_right _ (exp_pos _).le
  nlinarith [mul_nonneg hs (sub_nonneg.2 hst)]

/-- `(1+t+t²/3) e^{-t}` decreases. -/
theorem m2_anti {s t : ℝ} (hs : 0 ≤ s) (hst : s ≤ t) :
    (1 + t + t ^ 2 / 3) * exp (-t) ≤ (1 + s + s ^ 2 / 3) * exp (-s) := by
  have hu : 0 ≤ t - s := sub_nonneg.2 hst
  have h1 := quadratic_le_exp_of_nonneg hu
  have h2 : exp (-s) = exp (t - s) * exp (-t) := by rw [← exp_add]; congr 1; ring
  rw [h2, ← mul_assoc]
  apply mul_le_mul_of_nonneg_right _ (exp_pos _).le
  obtain ⟨u, rfl⟩ : ∃ u, t = s + u := ⟨t - s, by ring⟩
  simp only [add_sub_cancel_left] at h1 hu
  have h3 : (1 + s + s ^ 2 / 3) * (1 + u + u ^ 2 / 2) ≤ (1 + s + s ^ 2 / 3) * exp u :=
    mul_le_mul_of_nonneg_left h1 (by positivity)
  rw [add_sub_cancel_left]
  refine le_trans ?_ h3
  have := mul_nonneg hs hu
  have := mul_nonneg this hu
  have := mul_nonneg (sq_nonneg s) hu
  have := mul_nonneg (sq_nonneg s) (sq_nonneg u)
  nlinarith [sq_nonneg u]

theorem matern1_eq (d l : ℝ) : matern1 d l = (1 + √3 * d / l) * exp (-(√3 * d / l)) := by
  rw [matern1, neg_div]

theorem matern2_eq (d l : ℝ) :
    matern2 d l = (1 + √5 * d / l + (√5 * d / l) ^ 2 / 3) * exp (-(√5 * d / l)) := by
  rw [matern2, neg_div, div_pow, mul_pow, sq_sqrt (by norm_num : (0 : ℝ) ≤ 5)]
  congr 2
  rw [div_div, mul_comm 3]

/-- C64, Matérn of differentiability 1. -/
theorem C64_matern1 (l : ℝ) (hl : 0 < l) : Correlation fun d => matern1 d l := by
  refine Correlation.of_anti (by simp [matern1]) (fun d hd => ?_) fun d e hd hde => ?_
  · rw [matern1_eq]; positivity
  · rw [matern1_eq, matern1_eq]
    exact m1_anti (by positivity) (by gcongr)

/-- C64, Matérn of differentiability 1, robust variant. -/
theorem C64_matern1_robust (φ : ℝ) : Correlation fun d => matern1Robust d φ := by
  refine Correlation.of_anti (by simp [matern1Robust]) (fun d hd => ?_) fun d e hd hde => ?_
  · unfold matern1Robust; positivity
  · unfold matern1Robust
    rw [neg_mul, neg_mul]
    exact m1_anti (by positivity) (by gcongr)

/-- C64, Matérn of differentiability 2. -/
theorem C64_matern2 (l : ℝ) (hl : 0 < l) : Correlation fun d => matern2 d l := by
  refine Correlation.of_anti (by simp [matern2]) (fun d hd => ?_) fun d e hd hde => ?_
  · rw [matern2_eq]; positivity
  · rw [matern2_eq, matern2_eq]
    exact m2_anti (by positivity) (by gcongr)

/-- C64, violated by the robust Matérn of differentiability 2: for every nonzero parameter there is a distance at which
the kernel is above 1.8. -/
theorem C64_matern2_robust_violated (φ : ℝ) (hφ : φ ≠ 0) : ∃ d, 0 < d ∧ 1.8 < matern2Robust d φ := by
  have h5 : (0 : ℝ) < √5 := sqrt_pos.2 (by norm_num)
  have hp : 0 < φ ^ 2 := by positivity
  refine ⟨1 / (√5 * φ ^ 2), by positivity, ?_⟩
  have h1 : √5 * (1 / (√5 * φ ^ 2)) * φ ^ 2 = 1 := by field_simp
  have h2 : 5 * (1 / (√5 * φ ^ 2)) ^ 2 * (3 * φ ^ 4) = 3 := by
    have : √5 ^ 2 = 5 := sq_sqrt (by norm_num)
    rw [div_pow, mul_pow, this]
    field_simp
  unfold matern2Robust
  rw [neg_mul, h1, h2, exp_neg]
  have he := exp_one_lt_d9
  have hp := exp_pos 1
  rw [← div_eq_mul_inv, lt_div_iff₀ hp]
  linarith

example : ∃ d, 0 < d ∧ 1.8 < matern2Robust d 1 := C64_matern2_robust_violated 1 one_ne_zero

theorem wendlandPoly_anti {d e : ℝ} (hd : 0 ≤ d) (hde : d ≤ e) (he : e ≤ 1) : wendlandPoly e ≤ wendlandPoly d := by
  have hder : ∀ x, HasDerivAt wendlandPoly (-(1 - x) ^ 7 * (352 * x ^ 3 + 154 * x ^ 2 + 22 * x)) x := by
    intro x
    have h1 : HasDerivAt (fun y : ℝ => (1 - y) ^ 8) (8 * (1 - x) ^ 7 * (-1)) x := by
      refine (((hasDerivAt_id x).const_sub 1).fun_pow 8).congr_deriv ?_
      simp
    have h2 : HasDerivAt (fun y : ℝ => 32 * y ^ 3 + 25 * y ^ 2 + 8 * y + 1) (32 * (3 * x ^ 2) + 25 * (2 * x) + 8) x := by
      have a := ((hasDerivAt_id x).pow 3).const_mul (32 : ℝ)
      have b := ((hasDerivAt_id x).pow 2).const_mul (25 : ℝ)
      have c := (hasDerivAt_id x).const_mul (8 : ℝ)
      have := ((a.add b).add c).add_const 1
      refine (this.congr_deriv ?_).congr_of_eventuallyEq ?_
      · simp
      · exact Filter.Eventually.of_forall fun y => by simp
    refine (h1.mul h2).congr_deriv ?_
    ring
  have hanti : AntitoneOn wendlandPoly (Set.Icc 0 1) := by
    apply antitoneOn_of_deriv_nonpos (convex_Icc 0 1)
    · exact fun x _ => (hder x).continuousAt.continuousWithinAt
    · exact fun x _ => (hder x).differentiableAt.differentiableWithinAt
    · intro x hx
      rw [interior_Icc] at hx
      rw [(hder x).deriv]
      have h1 : 0 ≤ (1 - x) ^ 7 := pow_nonneg (sub_nonneg.2 hx.2.le) 7
      have h2 : 0 ≤ 352 * x ^ 3 + 154 * x ^ 2 + 22 * x := by have := hx.1.le; positivity
      nlinarith [mul_nonneg h1 h2]
  exact hanti ⟨hd, hde.trans he⟩ ⟨hd.trans hde, he⟩ hde

/-- C64, Wendland: support radius 1. -/
theorem C64_wendland : CompactCorrelation wendland 1 := by
  have hanti : ∀ d e, 0 ≤ d → d ≤ e → wendland e ≤ wendland d := by
    intro d e hd hde
    unfold wendland
    split_ifs with h1 h2 h2
    · exact le_rfl
    · exact wendlandPoly_anti hd (not_lt.1 h2) le_rfl
    · exact absurd (hde.trans (not_lt.1 h1)) (not_le.2 h2)
    · exact wendlandPoly_anti hd hde (not_lt.1 h1)
  have h0 : wendland 0 = 1 := by norm_num [wendland, wendlandPoly]
  refine ⟨h0, fun d hd hd1 => ?_, fun d hd => ?_, fun d hd => h0 ▸ hanti 0 d le_rfl hd, hanti⟩
  · unfold wendland wendlandPoly
    rw [if_neg (not_lt.2 hd1.le)]
    have : 0 < 1 - d := sub_pos.2 hd1
    positivity
  · unfold wendland wendlandPoly
    split_ifs with h
    · norm_num
    · have : d = 1 := le_antisymm (not_lt.1 h) hd
      rw [this]; norm_num

/-- C64, bump with unit amplitude: support radius `r`. -/
theorem C64_bump (r β : ℝ) (hr : 0 < r) (hβ : 0 ≤ β) : CompactCorrelation (fun d => bump d r β 1) r := by
  have hpos : ∀ d, 0 ≤ d → (0 < 1 - d ^ 2 / r ^ 2 ↔ d < r) := by
    intro d hd
    rw [sub_pos, div_lt_one (by positivity), sq_lt_sq₀ hd hr.le]
  have hval : ∀ d, 0 ≤ d → d < r → bump d r β 1 = exp (-β / (1 - d ^ 2 / r ^ 2) + β) := by
    intro d hd hdr
    unfold bump
    simp only
    rw [if_pos ((hpos d hd).2 hdr), one_mul]
  have hsup : ∀ d, r ≤ d → bump d r β 1 = 0 := by
    intro d hdr
    unfold bump
    simp only
    rw [if_neg (fun h => not_lt.2 hdr ((hpos d (hr.le.trans hdr)).1 h))]
  have hanti : ∀ d e, 0 ≤ d → d ≤ e → bump e r β 1 ≤ bump d r β 1 := by
    intro d e hd hde
    rcases lt_or_ge e r with he | he
    · rw [hval e (hd.trans hde) he, hval d hd (hde.trans_lt he)]
      apply exp_le_exp.2
      have h1 := (hpos e (hd.trans hde)).2 he
      have h2 : 1 - e ^ 2 / r ^ 2 ≤ 1 - d ^ 2 / r ^ 2 := by gcongr
      have h3 : β / (1 - d ^ 2 / r ^ 2) ≤ β / (1 - e ^ 2 / r ^ 2) := div_le_div_of_nonneg_left hβ h1 h2
      rw [neg_div, neg_div]
      linarith
    · rw [hsup e he]
      unfold bump
      simp only
      split_ifs
      · positivity
      · exact le_rfl
  have h0 : bump 0 r β 1 = 1 := by simp [bump]
  exact ⟨h0, fun d hd hdr => by rw [hval d hd hdr]; exact exp_pos _, hsup, fun d hd => (hanti 0 d le_rfl hd).trans_eq h0, hanti⟩

/-- C64 for the periodic kernel: 1 at zero and at every multiple of the period, within (0, 1], of period `p`. -/
theorem C64_periodic (l p : ℝ) (_hl : l ≠ 0) (hp : p ≠ 0) : periodic 0 l p = 1 ∧ (∀ d, 0 < periodic d l p ∧ periodic d l p ≤ 1) ∧
    ∀ d, periodic (d + p) l p = periodic d l p := by
  refine ⟨by simp [periodic], fun d => ⟨exp_pos _, ?_⟩, fun d => ?_⟩
  · apply exp_le_one_iff.2
    have : 0 ≤ 2 / l ^ 2 * sin (π * d / p) ^ 2 := by positivity
    linarith
  · unfold periodic
    have : π * (d + p) / p = π * d / p + π := by field_simp
    rw [this, sin_add_pi, neg_sq]

example : Correlation fun d => squaredExponential d 2 := C64_squared_exponential 2 two_ne_zero

example : Correlation fun d => exponential d 2 := C64_exponential 2 two_pos

example : Correlation fun d => matern1 d 2 := C64_matern1 2 two_pos

example : Correlation fun d => matern2 d 2 := C64_matern2 2 two_pos

example : CompactCorrelation (fun d => bump d 3 1 1) 3 := C64_bump 3 1 (by norm_num) zero_le_one

example : periodic (1 + 3) 2 3 = periodic 1 2 3 := (C64_periodic 2 3 two_ne_zero three_ne_zero).2.2 1

/-! ### The sparse kernel -/

/-- The function of `t = d / radius` inside `sparse_kernel`. -/
noncomputable def sk (t : ℝ) : ℝ := 3 * t ^ 2 * log (t / (1 + √(1 - t ^ 2))) + (2 * t ^ 2 + 1) * √(1 - t ^ 2)

/-- `log(t/(1+s)) + s`, with `s = √(1-t²)`; the derivative of `sk` is `6 t` times this. -/
noncomputable def skAux (t : ℝ) : ℝ := log (t / (1 + √(1 - t ^ 2))) + √(1 - t ^ 2)

theorem sk_sqrt {t : ℝ} (h0 : 0 < t) (h1 : t < 1) : 0 < √(1 - t ^ 2) ∧ √(1 - t ^ 2) ^ 2 = 1 - t ^ 2 ∧
    HasDerivAt (fun y : ℝ => √(1 - y ^ 2)) (-t / √(1 - t ^ 2)) t := by
  have hp : 0 < 1 - t ^ 2 := by nlinarith
  refine ⟨sqrt_pos.2 hp, sq_sqrt hp.le, ?_⟩
  have h : HasDerivAt (fun y : ℝ => 1 - y ^ 2) (-(2 * t)) t := by
    simpa using ((hasDerivAt_id t).pow 2).const_sub 1
  refine (h.sqrt hp.ne').congr_deriv ?_
  have := (sqrt_pos.2 hp).ne'
  field_simp

theorem skLog_deriv {t : ℝ} (h0 : 0 < t) (h1 : t < 1) :
    HasDerivAt (fun y : ℝ => log (y / (1 + √(1 - y ^ 2)))) (1 / (t * √(1 - t ^ 2))) t := by
  obtain ⟨hs, hs2, hsd⟩ := sk_sqrt h0 h1
  have h2 : HasDerivAt (fun y : ℝ => 1 + √(1 - y ^ 2)) (-t / √(1 - t ^ 2)) t := hsd.const_add 1
  have h3 := (hasDerivAt_id t).div h2 (by positivity)
  refine (h3.log (by simp only [Pi.div_apply, id]; positivity)).congr_deriv ?_
  simp only [id, Pi.div_apply]
  set s := √(1 - t ^ 2) with hsdef
  have ht2 : t ^ 2 = 1 - s ^ 2 := by rw [hs2]; ring
  field_simp
  nlinarith

theorem skAux_nonpos {t : ℝ} (h0 : 0 < t) (h1 : t ≤ 1) : skAux t ≤ 0 := by
  have hmono : MonotoneOn skAux (Set.Ioc 0 1) := by
    apply monotoneOn_of_deriv_nonneg (convex_Ioc 0 1)
    · have hc : ContinuousOn (fun y : ℝ => √(1 - y ^ 2)) (Set.Ioc 0 1) := by fun_prop
      refine ContinuousOn.add (ContinuousOn.log ?_ ?_) hc
      · refine ContinuousOn.div continuousOn_id (continuousOn_const.add hc) fun x _ => by positivity
      · intro x hx
        have := hx.1
        positivity
    · intro x hx
      rw [interior_Ioc] at hx
      exact ((skLog_deriv hx.1 hx.2).add (sk_sqrt hx.1 hx.2).2.2).differentiableAt.differentiableWithinAt
    · intro x hx
      rw [interior_Ioc] at hx
      have hd : HasDerivAt skAux _ x := (skLog_deriv hx.1 hx.2).add (sk_sqrt hx.1 hx.2).2.2
      rw [hd.deriv]
      obtain ⟨hs, hs2, -⟩ := sk_sqrt hx.1 hx.2
      have hx0 := hx.1
      have : 1 / (x * √(1 - x ^ 2)) + -x / √(1 - x ^ 2) = √(1 - x ^ 2) / x := by
        field_simp
        rw [hs2]; ring
      rw [this]
      positivity
  have h := hmono ⟨h0, h1⟩ ⟨one_pos, le_rfl⟩ h1
  have e : skAux 1 = 0 := by simp [skAux]
  rwa [e] at h

theorem sk_anti {s t : ℝ} (h0 : 0 < s) (hst : s ≤ t) (h1 : t ≤ 1) : sk t ≤ sk s := by
  have hanti : AntitoneOn sk (Set.Ioc 0 1) := by
    apply antitoneOn_of_deriv_nonpos (convex_Ioc 0 1)
    · have hc : ContinuousOn (fun y : ℝ => √(1 - y ^ 2)) (Set.Ioc 0 1) := by fun_prop
      have hl : ContinuousOn (fun y : ℝ => log (y / (1 + √(1 - y ^ 2)))) (Set.Ioc 0 1) := by
        refine ContinuousOn.log (ContinuousOn.div continuousOn_id (continuousOn_const.add hc) fun x _ => by positivity) ?_
        intro x hx
        have := hx.1
        positivity
      exact ((by fun_prop : ContinuousOn (fun y : ℝ => 3 * y ^ 2) (Set.Ioc 0 1)).mul hl).add
        ((by fun_prop : ContinuousOn (fun y : ℝ => 2 * y ^ 2 + 1) (Set.Ioc 0 1)).mul hc)
    all_goals
      intro x hx
      rw [interior_Ioc] at hx
      have hx0 := hx.1
      obtain ⟨hs, hs2, hsd⟩ := sk_sqrt hx.1 hx.2
      have ha : HasDerivAt (fun y : ℝ => 3 * y ^ 2) (3 * (2 * x)) x := by
        simpa using ((hasDerivAt_id x).pow 2).const_mul 3
      have hb : HasDerivAt (fun y : ℝ => 2 * y ^ 2 + 1) (2 * (2 * x)) x := by
        simpa using (((hasDerivAt_id x).pow 2).const_mul 2).add_const 1
      have hd : HasDerivAt sk _ x := (ha.mul (skLog_deriv hx.1 hx.2)).add (hb.mul hsd)
    · exact hd.differentiableAt.differentiableWithinAt
    · rw [hd.deriv]
      have key : 3 * (2 * x) * log (x / (1 + √(1 - x ^ 2))) + 3 * x ^ 2 * (1 / (x * √(1 - x ^ 2))) +
          (2 * (2 * x) * √(1 - x ^ 2) + (2 * x ^ 2 + 1) * (-x / √(1 - x ^ 2))) = 6 * x * skAux x := by
        unfold skAux
        generalize log (x / (1 + √(1 - x ^ 2))) = L
        set s := √(1 - x ^ 2) with hsdef
        have hx2 : x ^ 2 = 1 - s ^ 2 := by rw [hs2]; ring
        field_simp
        rw [hx2]
        ring
      rw [key]
      have := skAux_nonpos hx.1 hx.2.le
      nlinarith
  exact hanti ⟨h0, hst.trans h1⟩ ⟨h0.trans_le hst, h1⟩ hst

theorem sk_one : sk 1 = 0 := by simp [sk]

theorem sk_lt_one {t : ℝ} (h0 : 0 < t) (h1 : t < 1) : sk t < 1 := by
  obtain ⟨hs, hs2, -⟩ := sk_sqrt h0 h1
  have h := skAux_nonpos h0 h1.le
  unfold skAux at h
  unfold sk
  set s := √(1 - t ^ 2)
  have ht2 : t ^ 2 = 1 - s ^ 2 := by rw [hs2]; ring
  have hlog : 3 * t ^ 2 * log (t / (1 + s)) ≤ 3 * t ^ 2 * (-s) := by
    apply mul_le_mul_of_nonneg_left _ (by positivity)
    linarith
  have hs1 : s < 1 := by nlinarith [sq_nonneg t, pow_pos h0 2]
  calc _ ≤ 3 * t ^ 2 * (-s) + (2 * t ^ 2 + 1) * s := by linarith
    _ = s ^ 3 := by rw [ht2]; ring
    _ < 1 := pow_lt_one₀ hs.le hs1 (by norm_num)

theorem sparseKernel_eq (d r : ℝ) (hd : 1 / 100000 ≤ d) (hr : 0 < r) :
    sparseKernel d r = √2 / (3 * √π) * sk (min d r / r) := by
  unfold sparseKernel sk
  have h0 : d ≠ 0 := by intro h; norm_num [h] at hd
  simp only [if_neg h0]
  split_ifs with h
  · rw [min_eq_right h.le]
  · rw [min_eq_left (not_lt.1 h)]

theorem sparse_const : 0 < √2 / (3 * √π) ∧ √2 / (3 * √π) < 0.28 := by
  have hpi := sqrt_pos.2 pi_pos
  refine ⟨by positivity, ?_⟩
  rw [div_lt_iff₀ (by positivity)]
  have h1 : √2 < 1.42 := by
    rw [sqrt_lt' (by norm_num)]; norm_num
  have h2 : (1.77 : ℝ) < √π := by
    apply lt_sqrt_of_sq_lt
    have := pi_gt_d2
    norm_num at this ⊢
    linarith
  linarith

/-- C64, sparse kernel. Partial: from the distance `1e-5` on it is nonnegative, non-increasing and zero beyond the radius,
but it is scaled by `√2/(3√π) ≈ 0.266`. -/
theorem C64_sparse_kernel_partial (r : ℝ) (hr : 0 < r) :
    (∀ d, 1 / 100000 ≤ d → 0 ≤ sparseKernel d r ∧ sparseKernel d r ≤ √2 / (3 * √π)) ∧
    (∀ d e, 1 / 100000 ≤ d → d ≤ e → sparseKernel e r ≤ sparseKernel d r) ∧
    (∀ d, 1 / 100000 ≤ d → r ≤ d → sparseKernel d r = 0) := by
  have hc := sparse_const.1
  have hmem : ∀ d : ℝ, 1 / 100000 ≤ d → 0 < min d r / r ∧ min d r / r ≤ 1 := fun d hd =>
    ⟨div_pos (lt_min (by linarith) hr) hr, (div_le_one hr).2 (min_le_right _ _)⟩
  refine ⟨fun d hd => ?_, fun d e hd hde => ?_, fun d hd hrd => ?_⟩
  · obtain ⟨h1, h2⟩ := hmem d hd
    rw [sparseKernel_eq d r hd hr]
    refine ⟨mul_nonneg hc.le (sk_one ▸ sk_anti h1 h2 le_rfl), ?_⟩
    rcases h2.lt_or_eq with h3 | h3
    · exact mul_le_of_le_one_right hc.le (sk_lt_one h1 h3).le
    · rw [h3, sk_one]; simpa using hc.le
  · rw [sparseKernel_eq d r hd hr, sparseKernel_eq e r (hd.trans hde) hr]
    apply mul_le_mul_of_nonneg_left _ hc.le
    exact sk_anti (hmem d hd).1 (by gcongr) (hmem e (hd.trans hde)).2
  · rw [sparseKernel_eq d r hd hr, min_eq_right hrd, div_self hr.ne', sk_one, mul_zero]

/-- C64, violated by the sparse kernel: at distance zero it is below 0.28 whatever the radius, and exactly zero when the
radius does not exceed `1e-5`. -/
theorem C64_sparse_kernel_violated (r : ℝ) (hr : 0 < r) :
    sparseKernel 0 r < 0.28 ∧ (r ≤ 1 / 100000 → sparseKernel 0 r = 0) := by
  have e : sparseKernel 0 r = sparseKernel (1 / 100000) r := by
    unfold sparseKernel
    norm_num
  obtain ⟨h1, -, h3⟩ := C64_sparse_kernel_partial r hr
  rw [e]
  exact ⟨(h1 _ le_rfl).2.trans_lt sparse_const.2, h3 _ le_rfl⟩

example : sparseKernel 0 1 < 0.28 := (C64_sparse_kernel_violated 1 one_pos).1

/-! ## C65 -/

/-- C65 for the exponential kernel. -/
theorem C65_exponential (d φ : ℝ) (_hφ : φ ≠ 0) : exponentialRobust d φ = exponential d (1 / φ ^ 2) := by
  unfold exponentialRobust exponential
  rw [div_div_eq_mul_div, div_one]

/-- C65 for the Matérn kernel of differentiability 1. -/
theorem C65_matern1 (d φ : ℝ) (_hφ : φ ≠ 0) : matern1Robust d φ = matern1 d (1 / φ ^ 2) := by
  unfold matern1Robust matern1
  rw [div_div_eq_mul_div, div_one, div_div_eq_mul_div, div_one]

/-- C65, squared exponential. Partial: the robust kernel is the plain one with length `1/(√2 φ)`. -/
theorem C65_squared_exponential_partial (d φ : ℝ) (hφ : φ ≠ 0) :
    squaredExponentialRobust d φ = squaredExponential d (1 / (√2 * φ)) := by
  unfold squaredExponentialRobust squaredExponential
  congr 1
  rw [div_pow, mul_pow, sq_sqrt (by norm_num : (0 : ℝ) ≤ 2)]
  rw [one_pow]
  field_simp

/-- C65, violated by the squared exponential: with length `1/φ²` the two agree at a nonzero distance only if
`φ² = 2` or `φ = 0`. -/
theorem C65_squared_exponential_violated (d φ : ℝ) (hd : d ≠ 0) (hφ : φ ≠ 0) (h2 : φ ^ 2 ≠ 2) :
    squaredExponentialRobust d φ ≠ squaredExponential d (1 / φ ^ 2) := by
  unfold squaredExponentialRobust squaredExponential
  intro h
  have h := exp_injective h
  rw [div_pow, one_pow, ← pow_mul] at h
  have h3 : d ^ 2 * φ ^ 2 * (2 - φ ^ 2) = 0 := by
    field_simp at h
    have h4 : φ ^ (2 * 2) = φ ^ 2 * φ ^ 2 := by ring
    rw [h4] at h
    have : φ ^ 2 * (2 - φ ^ 2) = 0 := by linarith
    rw [mul_assoc, this, mul_zero]
  rcases mul_eq_zero.1 h3 with h3 | h3
  · rcases mul_eq_zero.1 h3 with h3 | h3
    · exact hd (pow_eq_zero_iff (two_ne_zero)|>.1 h3)
    · exact hφ (pow_eq_zero_iff (two_ne_zero)|>.1 h3)
  · exact h2 (by linarith)

example : squaredExponentialRobust 1 1 ≠ squaredExponential 1 (1 / 1 ^ 2) :=
  C65_squared_exponential_violated 1 1 one_ne_zero one_ne_zero (by norm_num)

/-- C65, violated by the Matérn kernel of differentiability 2: no positive length scale whatsoever makes the plain kernel
equal to the robust one. -/
theorem C65_matern2_violated (φ : ℝ) (hφ : φ ≠ 0) (l : ℝ) (hl : 0 < l) : ¬ ∀ d, 0 ≤ d → matern2Robust d φ = matern2 d l := by
  intro h
  obtain ⟨d, hd, h1⟩ := C64_matern2_robust_violated φ hφ
  rw [h d hd.le] at h1
  have := (C64_matern2 l hl).le_one d hd.le
  norm_num at h1
  linarith

end Verif.Kernels
