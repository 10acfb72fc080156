import Verif.GP.JointModel
import Verif.GP.XGradProps
import Verif.GP.InfoProps
import Verif.GP.MatCalc

/-!
Property C95: the joint prior is the prior distribution at data and prediction points together, `gp_entropy` is its
differential entropy and `gp_entropy_grad` the derivative of that entropy.
-/

namespace Verif.GP

open Finset Verif.LinAlg Matrix

variable {α H : Type}

/-- Data and prediction points together. -/
def allPoints (d : Data α) (xs : List α) : Fin d.x.length ⊕ Fin xs.length → α :=
  Sum.elim (fun i => d.x[i]) fun j => xs[j]

theorem jointPriorCov_apply {gp : GP α H} (hc : Consistent gp) (hsym : ∀ a b, gp.cfg.kernel gp.hps a b
    = gp.cfg.kernel gp.hps b a) (xs : List α) (a b : Fin gp.data.x.length ⊕ Fin xs.length) :
    jointPriorCov gp xs a b = gp.cfg.kernel gp.hps (allPoints gp.data xs a) (allPoints gp.data xs b)
      + if a = b then (if a.isLeft then 2e-9 else 1e-9) else 0 := by
  have hK : ∀ i j, toMat gp.data.x.length gp.K i j = gp.cfg.kernel gp.hps gp.data.x[i] gp.data.x[j] := by
    intro i j
    rw [hc.K_eq]; rfl
  rcases a with i | i <;> rcases b with j | j
  · by_cases h : i = j
    · subst h; simp [jointPriorCov, allPoints, hK, jitter]; ring
    · simp [jointPriorCov, allPoints, hK, h]
  · simp [jointPriorCov, allPoints, gram_apply, Kmat]
  · simp [jointPriorCov, allPoints, gram_apply, Kmat]; rw [hsym]
  · by_cases h : i = j
    · subst h; simp [jointPriorCov, allPoints, toMat, gram_apply, Kmat, jitter]
    · simp [jointPriorCov, allPoints, toMat, gram_apply, Kmat, h]

theorem jointPriorCov_posDef {gp : GP α H} (hc : Consistent gp) (hk : IsPSDKernel (gp.cfg.kernel gp.hps)) (xs : List α) :
    (jointPriorCov gp xs).PosDef := by
  have e : jointPriorCov gp xs = (Matrix.of fun a b => gp.cfg.kernel gp.hps (allPoints gp.data xs a)
      (allPoints gp.data xs b)) + Matrix.diagonal fun a => if a.isLeft then 2e-9 else 1e-9 := by
    ext a b
    rw [jointPriorCov_apply hc hk.1]
    simp [Matrix.diagonal_apply]
  rw [e]
  refine Matrix.PosDef.posSemidef_add (kernelMat_posSemidef hk _) (Matrix.PosDef.diagonal fun a => ?_)
  split_ifs <;> norm_num

/-- **C95** (joint prior). The joint prior of a constructed GP has the prior mean and the prior covariance at data and
prediction points, apart from a jitter of 2e-9 at the data and 1e-9 at the prediction points; for a positive semidefinite
kernel the covariance is positive definite, also for repeated points. -/
theorem C95_joint_prior (c : Config α H) (d : Data α) (h : H) (he : SpluContract c.ext) (ha : Admissible c d h)
    (hk : IsPSDKernel (c.kernel h)) :
    ∃ gp, init c d h = .ok gp ∧ gp.data = d ∧ ∀ (xs : List α), (jointPriorCov gp xs).PosDef ∧
      ∀ a, jointPriorMean gp xs a = meanFn c d h (allPoints gp.data xs a) ∧
        ∀ b, jointPriorCov gp xs a b = c.kernel h (allPoints gp.data xs a) (allPoints gp.data xs b)
          + if a = b then (if a.isLeft then 2e-9 else 1e-9) else 0 := by
  obtain ⟨gp, hgp, hc, rfl, rfl, rfl⟩ := init_ok c d h he ha
  refine ⟨gp, hgp, rfl, fun xs => ⟨jointPriorCov_posDef hc hk xs, fun a => ⟨?_, fun b => ?_⟩⟩⟩
  · rcases a with i | j
    · simp only [jointPriorMean, Sum.elim_inl, allPoints, hc.m_eq, evalAt_apply]
    · simp only [jointPriorMean, Sum.elim_inr, allPoints, evalAt_apply]
  · exact jointPriorCov_apply hc hk.1 xs a b

example (mode : Mode) : ∃ gp, init (exCfg mode) exData 2 = .ok gp ∧ gp.data = exData ∧
    ∀ (xs : List ℝ), (jointPriorCov gp xs).PosDef ∧ ∀ a,
        jointPriorMean gp xs a = meanFn (exCfg mode) exData 2 (allPoints gp.data xs a) ∧
        ∀ b, jointPriorCov gp xs a b = (exCfg mode).kernel 2 (allPoints gp.data xs a) (allPoints gp.data xs b)
          + if a = b then (if a.isLeft then 2e-9 else 1e-9) else 0 :=
  C95_joint_prior _ _ _ cholExt_contract (exAdmissible mode 2) (exKernel_psd 2)

/-- **C95** (entropy). `gp_entropy` is the differential entropy `½ log det(2πe S)` of the joint prior. -/
theorem C95_entropy (c : Config α H) (d : Data α) (h : H) (he : SpluContract c.ext) (ha : Admissible c d h)
    (hk : IsPSDKernel (c.kernel h)) :
    ∃ gp, init c d h = .ok gp ∧ ∀ xs : List α,
      gpEntropy gp xs = 1 / 2 * Real.log ((2 * Real.pi * Real.exp 1) • jointPriorCov gp xs).det := by
  obtain ⟨gp, hgp, hc, rfl, rfl, rfl⟩ := init_ok c d h he ha
  refine ⟨gp, hgp, fun xs => ?_⟩
  have hpd := jointPriorCov_posDef hc hk xs
  have hpos : 0 < 2 * Real.pi * Real.exp 1 := by positivity
  rw [Matrix.det_smul, Real.log_mul (pow_ne_zero _ hpos.ne') hpd.det_pos.ne', Real.log_pow, Real.log_mul (by positivity)
    (Real.exp_pos 1).ne', Real.log_exp, gpEntropy, slogdet, abs_of_pos hpd.det_pos]
  simp only [Fintype.card_sum, Fintype.card_fin]
  ring

example (mode : Mode) : ∃ gp, init (exCfg mode) exData 2 = .ok gp ∧ ∀ xs : List ℝ,
    gpEntropy gp xs = 1 / 2 * Real.log ((2 * Real.pi * Real.exp 1) • jointPriorCov gp xs).det :=
  C95_entropy _ _ _ cholExt_contract (exAdmissible mode 2) (exKernel_psd 2)

/-! ## The gradient -/

/-- The curve `f` has slope `s` at `0`, and its slope differs from `s` by at most `C` on `[-e, e]`. -/
def Slope2 (f : ℝ → ℝ) (s e C : ℝ) : Prop :=
  ∃ f' : ℝ → ℝ, (∀ t, |t| ≤ e → HasDerivAt f (f' t) t) ∧ f' 0 = s ∧ ∀ t, |t| ≤ e → |f' t - s| ≤ C

theorem Slope2.hasDerivAt {f : ℝ → ℝ} {s e C : ℝ} (he : 0 ≤ e) (h : Slope2 f s e C) : HasDerivAt f s 0 := by
  obtain ⟨f', hd, rfl, -⟩ := h
  exact hd 0 (by simpa using he)

/-- The error of a central difference. -/
theorem Slope2.central {f : ℝ → ℝ} {s e C : ℝ} (he : 0 < e) (h : Slope2 f s e C) :
    |(f e - f (-e)) / (2 * e) - s| ≤ C := by
  obtain ⟨f', hd, rfl, hC⟩ := h
  have hder : ∀ t ∈ Set.Icc (-e) e, HasDerivWithinAt (fun t => f t - f' 0 * t) (f' t - f' 0) (Set.Icc (-e) e) t := by
    intro t ht
    have h1 := (hd t (abs_le.2 ht)).hasDerivWithinAt (s := Set.Icc (-e) e)
    have h2 := ((hasDerivAt_id t).const_mul (f' 0)).hasDerivWithinAt (s := Set.Icc (-e) e)
    simpa using h1.fun_sub h2
  have := (convex_Icc (-e) e).norm_image_sub_le_of_norm_hasDerivWithin_le (C := C) hder
    (fun t ht => hC t (abs_le.2 ht)) (Set.left_mem_Icc.2 (by linarith)) (Set.right_mem_Icc.2 (by linarith))
  simp only [Real.norm_eq_abs] at this
  rw [show |e - -e| = 2 * e by rw [abs_of_pos (by linarith)]; ring] at this
  rw [show (f e - f (-e)) / (2 * e) - f' 0 = (f e - f' 0 * e - (f (-e) - f' 0 * -e)) / (2 * e) by field_simp; ring,
    abs_div, abs_of_pos (by linarith : 0 < 2 * e), div_le_iff₀ (by linarith)]
  exact this

/-- **C95** (gradient of the prior mean). -/
theorem C95_mean_gradient (gp : GP α H) (shift : α → ℕ → ℝ → α) (xs : List α) (dir : ℕ)
    (m' : Fin xs.length → ℝ) (Cm : ℝ) (hC : 0 ≤ Cm)
    (hm : ∀ j : Fin xs.length, Slope2 (fun t => meanFn gp.cfg gp.data gp.hps (shift xs[j] dir t)) (m' j) 1e-6 Cm) :
    ∀ a : Fin gp.data.x.length ⊕ Fin xs.length, ∃ D,
      HasDerivAt (fun t => meanFn gp.cfg gp.data gp.hps
        (Sum.elim (fun i => gp.data.x[i]) (fun j => shift xs[j] dir t) a)) D 0 ∧
      |jointPriorMeanGrad gp shift xs dir a - D| ≤ Cm := by
  rintro (i | j)
  · exact ⟨0, hasDerivAt_const (0 : ℝ) (meanFn gp.cfg gp.data gp.hps gp.data.x[i]), by simpa [jointPriorMeanGrad] using hC⟩
  · refine ⟨m' j, (hm j).hasDerivAt (by norm_num), ?_⟩
    have := (hm j).central (by norm_num)
    simpa [jointPriorMeanGrad, evalAt] using this

/-- The joint prior covariance when the prediction points move. -/
theorem entropy_moved {gp : GP α H} (hc : Consistent gp) (hk : IsPSDKernel (gp.cfg.kernel gp.hps)) (f : α → α)
    (xs : List α) (M : Matrix (Fin gp.data.x.length ⊕ Fin xs.length) (Fin gp.data.x.length ⊕ Fin xs.length) ℝ)
    (hM : ∀ a b, M a b = gp.cfg.kernel gp.hps (Sum.elim (fun i => gp.data.x[i]) (fun j => f xs[j]) a)
      (Sum.elim (fun i => gp.data.x[i]) (fun j => f xs[j]) b) + if a = b then (if a.isLeft then 2e-9 else 1e-9) else 0) :
    gpEntropy gp (xs.map f) = (gp.data.x.length + xs.length : ℕ) / 2
      + (gp.data.x.length + xs.length : ℕ) / 2 * Real.log (2 * Real.pi) + 1 / 2 * Real.log M.det ∧ 0 < M.det := by
  let e : Fin gp.data.x.length ⊕ Fin xs.length ≃ Fin gp.data.x.length ⊕ Fin (xs.map f).length :=
    Equiv.sumCongr (Equiv.refl _) (finCongr (by simp))
  have hS : (jointPriorCov gp (xs.map f)).submatrix e e = M := by
    ext a b
    rw [Matrix.submatrix_apply, jointPriorCov_apply hc hk.1, hM]
    rcases a with i | i <;> rcases b with j | j <;> simp [e, allPoints, Fin.ext_iff]
  have hdet : (jointPriorCov gp (xs.map f)).det = M.det := by
    rw [← hS, Matrix.det_submatrix_equiv_self]
  have hpos := (jointPriorCov_posDef hc hk (xs.map f)).det_pos
  constructor
  · rw [gpEntropy, slogdet, abs_of_pos hpos, hdet, List.length_map]
  · rw [← hdet]; exact hpos

/-- **C95** (gradient of the entropy). For a constructed GP with positive semidefinite kernel, `gp_entropy_grad` is the
derivative of `gp_entropy` when all prediction points move in the given direction, up to the error `E` of the difference
quotients of the covariances (change of slope within 1e-8 and 1e-6), weighted with the inverse covariance. -/
theorem C95_entropy_gradient (c : Config α H) (d : Data α) (h : H) (he : SpluContract c.ext) (ha : Admissible c d h)
    (hk : IsPSDKernel (c.kernel h)) :
    ∃ gp, init c d h = .ok gp ∧ ∀ (shift : α → ℕ → ℝ → α) (xs : List α) (dir : ℕ) (E : ℝ), 0 ≤ E →
      (∀ j : Fin xs.length, shift xs[j] dir 0 = xs[j]) →
      ∀ (k' : Fin d.x.length → Fin xs.length → ℝ) (kk' : Fin xs.length → Fin xs.length → ℝ),
      (∀ i j, Slope (fun t => c.kernel h (shift xs[j] dir t) d.x[i]) (k' i j) 1e-8 E) →
      (∀ i j : Fin xs.length,
        Slope2 (fun t => c.kernel h (shift xs[i] dir t) (shift xs[j] dir t)) (kk' i j) 1e-6 E) →
      ∃ G D, gpEntropyGrad gp shift xs dir = .ok G ∧
        HasDerivAt (fun t => gpEntropy gp (xs.map fun x => shift x dir t)) D 0 ∧
        |G - D| ≤ 1 / 2 * ((∑ a, ∑ b, |(jointPriorCov gp xs)⁻¹ a b|) * E) := by
  obtain ⟨gp, hgp, hc, rfl, rfl, rfl⟩ := init_ok c d h he ha
  refine ⟨gp, hgp, fun shift xs dir E hE h0 k' kk' hk1 hk2 => ?_⟩
  let P (t : ℝ) : Fin gp.data.x.length ⊕ Fin xs.length → α :=
    Sum.elim (fun i => gp.data.x[i]) (fun j => shift xs[j] dir t)
  let M (t : ℝ) : Matrix (Fin gp.data.x.length ⊕ Fin xs.length) (Fin gp.data.x.length ⊕ Fin xs.length) ℝ :=
    Matrix.of fun a b => gp.cfg.kernel gp.hps (P t a) (P t b) + if a = b then (if a.isLeft then 2e-9 else 1e-9) else 0
  let k'm : Matrix (Fin gp.data.x.length) (Fin xs.length) ℝ := Matrix.of k'
  let D : Matrix (Fin gp.data.x.length ⊕ Fin xs.length) (Fin gp.data.x.length ⊕ Fin xs.length) ℝ :=
    fromBlocks 0 k'm k'mᵀ (Matrix.of kk')
  have hent := fun t => entropy_moved hc hk (fun x => shift x dir t) xs (M t) fun a b => rfl
  have hMD : MatHasDeriv M D 0 := by
    intro a b
    simp only [M, Matrix.of_apply]
    refine HasDerivAt.add_const _ ?_
    rcases a with i | i <;> rcases b with j | j
    · exact hasDerivAt_const (0 : ℝ) (gp.cfg.kernel gp.hps gp.data.x[i] gp.data.x[j])
    · have := (hk1 i j).hasDerivAt (by norm_num)
      simp only [P, Sum.elim_inl, Sum.elim_inr, D, fromBlocks_apply₁₂]
      simp only [hk.1 gp.data.x[i]]
      exact this
    · have := (hk1 j i).hasDerivAt (by norm_num)
      exact this
    · exact (hk2 i j).hasDerivAt (by norm_num)
  have hM0 : M 0 = jointPriorCov gp xs := by
    ext a b
    rw [jointPriorCov_apply hc hk.1]
    have : P 0 = allPoints gp.data xs := by
      funext a
      rcases a with i | j
      · rfl
      · simp only [P, Sum.elim_inr, allPoints]; exact h0 j
    simp only [M, Matrix.of_apply, this]
  have hdet : (M 0).det ≠ 0 := (hent 0).2.ne'
  refine ⟨1 / 2 * ((M 0)⁻¹ * jointPriorCovGrad gp shift xs dir).trace, 1 / 2 * ((M 0)⁻¹ * D).trace, ?_, ?_, ?_⟩
  · rw [gpEntropyGrad, ← hM0, npInv, if_pos hdet]
    rfl
  · have := ((hasDerivAt_logdet hMD hdet).const_mul (1 / 2)).const_add
      (((gp.data.x.length + xs.length : ℕ) : ℝ) / 2
        + ((gp.data.x.length + xs.length : ℕ) : ℝ) / 2 * Real.log (2 * Real.pi))
    refine this.congr_of_eventuallyEq (Filter.Eventually.of_forall fun t => ?_)
    exact (hent t).1
  · have hent' : ∀ a b, |jointPriorCovGrad gp shift xs dir a b - D a b| ≤ E := by
      rintro (i | i) (j | j)
      · simpa [jointPriorCovGrad, D] using hE
      · have := (hk1 i j).forward (by norm_num)
        rw [h0] at this
        simpa [jointPriorCovGrad, D, k'm, gram] using this
      · have := (hk1 j i).forward (by norm_num)
        rw [h0] at this
        simpa [jointPriorCovGrad, D, k'm, gram] using this
      · have := (hk2 i j).central (by norm_num)
        simpa [jointPriorCovGrad, D, gram] using this
    rw [← mul_sub, abs_mul, abs_of_pos (by norm_num : (0:ℝ) < 1 / 2), ← Matrix.trace_sub, ← Matrix.mul_sub, hM0]
    refine mul_le_mul_of_nonneg_left ?_ (by norm_num)
    rw [Matrix.trace, Finset.sum_mul]
    refine (Finset.abs_sum_le_sum_abs _ _).trans (Finset.sum_le_sum fun a _ => ?_)
    rw [Matrix.diag_apply, Matrix.mul_apply, Finset.sum_mul]
    refine (Finset.abs_sum_le_sum_abs _ _).trans (Finset.sum_le_sum fun b _ => ?_)
    rw [abs_mul]
    exact mul_le_mul_of_nonneg_left (hent' b a) (abs_nonneg _)

/-- The model of the examples, prediction points moved along the line. -/
example (mode : Mode) : ∃ gp, init (exCfg mode) exData 2 = .ok gp ∧ ∀ xs : List ℝ,
    ∃ G D, gpEntropyGrad gp (fun x _ t => x + t) xs 0 = .ok G ∧
      HasDerivAt (fun t => gpEntropy gp (xs.map fun x => x + t)) D 0 ∧
      |G - D| ≤ 1 / 2 * ((∑ a, ∑ b, |(jointPriorCov gp xs)⁻¹ a b|) * 8e-6) := by
  obtain ⟨gp, hgp, H⟩ := C95_entropy_gradient (exCfg mode) exData 2 cholExt_contract (exAdmissible mode 2)
    (exKernel_psd 2)
  refine ⟨gp, hgp, fun xs => H (fun x _ t => x + t) xs 0 8e-6 (by norm_num) (by simp)
    (fun i _ => 4 * exData.x[i]) (fun i j => 4 * (xs[i] + xs[j])) (fun i j => ?_) fun i j => ?_⟩
  · refine ⟨fun _ => 4 * exData.x[i], fun t _ _ => ?_, rfl, fun t _ _ => by simp; norm_num⟩
    have := ((hasDerivAt_id t).const_mul (4 * exData.x[i])).const_add (4 * (1 + xs[j] * exData.x[i]))
    simp only [exCfg]
    refine (this.congr_deriv (by simp)).congr_of_eventuallyEq (Filter.Eventually.of_forall fun t => ?_)
    simp only [id]; ring
  · refine ⟨fun t => 4 * (xs[i] + xs[j]) + 8 * t, fun t _ => ?_, by simp, fun t ht => ?_⟩
    · have h1 := ((hasDerivAt_id t).const_mul (4 * (xs[i] + xs[j]))).const_add (4 * (1 + xs[i] * xs[j]))
      have h2 := (hasDerivAt_pow 2 t).const_mul (4 : ℝ)
      have := h1.fun_add h2
      simp only [exCfg]
      refine (this.congr_deriv (by simp; ring)).congr_of_eventuallyEq (Filter.Eventually.of_forall fun t => ?_)
      simp only [id]; ring
    · rw [add_sub_cancel_left, abs_mul, abs_of_pos (by norm_num : (0:ℝ) < 8)]
      norm_num at ht ⊢
      linarith

end Verif.GP
