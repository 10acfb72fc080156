import Verif.Kernels.StatProps

/-!
C67: gradients of the default kernel; C83: gradients of the basis-function kernel.
-/

namespace Verif.Kernels

open Real Finset

theorem matern1_one (d : ℝ) : matern1 d 1 = (1 + √3 * d) * exp (-(√3 * d)) := by
  rw [matern1, div_one, div_one]

/-- `matern_kernel_diff1_grad` is the chain rule for `matern_kernel_diff1(., 1)`. -/
theorem matern1_chain {f : ℝ → ℝ} {f' t : ℝ} (hf : HasDerivAt f f' t) :
    HasDerivAt (fun u => matern1 (f u) 1) (matern1Grad (f t) f') t := by
  simp only [matern1_one]
  have h1 : HasDerivAt (fun u => 1 + √3 * f u) (√3 * f') t := (hf.const_mul _).const_add 1
  have h2 : HasDerivAt (fun u => exp (-(√3 * f u))) (exp (-(√3 * f t)) * -(√3 * f')) t := (hf.const_mul _).fun_neg.exp
  refine (h1.mul h2).congr_deriv ?_
  unfold matern1Grad
  ring

/-- The anisotropic squared distance as a function of one length scale. -/
theorem anisoSq_deriv {D : ℕ} (x y l : Fin D → ℝ) (k : Fin D) (hl : l k ≠ 0) :
    HasDerivAt (fun t => ∑ i, |(x i - y i) / Function.update l k t i| ^ 2) (-2 * (x k - y k) ^ 2 / l k ^ 3) (l k) := by
  have hterm : ∀ i ∈ (univ : Finset (Fin D)), HasDerivAt (fun t => |(x i - y i) / Function.update l k t i| ^ 2)
      (if i = k then -2 * (x k - y k) ^ 2 / l k ^ 3 else 0) (l k) := by
    intro i _
    by_cases hi : i = k
    · subst hi
      simp only [Function.update_self, sq_abs, if_true]
      have h := ((hasDerivAt_inv hl).const_mul (x i - y i)).fun_pow 2
      refine h.congr_deriv ?_
      field_simp
      simp
      field_simp
    · simp only [Function.update_of_ne hi, if_neg hi]
      exact hasDerivAt_const _ _
  refine (HasDerivAt.fun_sum hterm).congr_deriv ?_
  simp

/-- C67: slice `k+1` of the analytical gradient is the partial derivative with respect to length scale `k`, for every pair
of points, coincident or not. -/
theorem C67_length_scale {D : ℕ} (x y l : Fin D → ℝ) (a : ℝ) (hl : ∀ i, l i ≠ 0) (k : Fin D) :
    HasDerivAt (fun t => defaultKernel x y a (Function.update l k t)) (defaultGradLength x y a l k) (l k) := by
  unfold defaultKernel defaultGradLength
  refine HasDerivAt.const_mul a ?_
  by_cases h0 : anisoDistance x y l = 0
  · have hz : ∀ i, x i - y i = 0 := by
      intro i
      have hs : ∑ i, |(x i - y i) / l i| ^ 2 = 0 := (sqrt_eq_zero (sum_nonneg fun i _ => sq_nonneg _)).1 h0
      have := (sum_eq_zero_iff_of_nonneg fun i _ => sq_nonneg _).1 hs i (mem_univ i)
      have := abs_eq_zero.1 (pow_eq_zero_iff (two_ne_zero) |>.1 this)
      exact (div_eq_zero_iff.1 this).resolve_right (hl i)
    have hc : ∀ l' : Fin D → ℝ, anisoDistance x y l' = 0 := fun l' => by simp [anisoDistance, hz]
    have hg : distanceDl x y l k = 0 := by simp [distanceDl, h0]
    rw [hg]
    simp only [hc]
    refine (hasDerivAt_const _ _).congr_deriv ?_
    simp [matern1Grad]
  · have hS := anisoSq_deriv x y l k (hl k)
    have hne : ∑ i, |(x i - y i) / Function.update l k (l k) i| ^ 2 ≠ 0 := by
      rw [Function.update_eq_self]
      intro h
      exact h0 (by rw [anisoDistance, h, sqrt_zero])
    have hr : HasDerivAt (fun t => anisoDistance x y (Function.update l k t)) (distanceDl x y l k) (l k) := by
      refine (hS.sqrt hne).congr_deriv ?_
      rw [Function.update_eq_self, distanceDl, if_pos h0, sq_abs]
      show _ / (2 * anisoDistance x y l) = _
      have := hl k
      field_simp
    have := matern1_chain hr
    rwa [Function.update_eq_self] at this

/-- C67: slice 0 of the analytical gradient is the derivative with respect to the amplitude. -/
theorem C67_amplitude {D : ℕ} (x y l : Fin D → ℝ) (a : ℝ) (_hl : ∀ i, l i ≠ 0) :
    HasDerivAt (fun t => defaultKernel x y t l) (defaultGradAmplitude x y l) a := by
  unfold defaultKernel defaultGradAmplitude
  simpa using (hasDerivAt_id a).mul_const (matern1 (anisoDistance x y l) 1)

/-- Coincident points: the gradient with respect to a length scale is zero. -/
theorem C67_coincident {D : ℕ} (x l : Fin D → ℝ) (a : ℝ) (_hl : ∀ i, l i ≠ 0) (k : Fin D) : defaultGradLength x x a l k = 0 := by
  simp [defaultGradLength, distanceDl, anisoDistance, matern1Grad]

example : HasDerivAt (fun t => defaultKernel ![1, 2] ![4, 6] 3 (Function.update ![1, 2] 1 t))
    (defaultGradLength ![1, 2] ![4, 6] 3 ![1, 2] 1) 2 :=
  C67_length_scale ![1, 2] ![4, 6] ![1, 2] 3 (by simp [Fin.forall_fin_two]) 1

/-! ## C83 -/

theorem basis_dw {D m : ℕ} (x : Fin D → ℝ) (x0 : Fin m → Fin D → ℝ) (w : Fin m → ℝ) (l : ℝ) (c : Fin m) :
    HasDerivAt (fun t => basis x x0 (Function.update w c t) l) (basisDw x x0 l c) (w c) := by
  unfold basis basisDw
  have hterm : ∀ i ∈ (univ : Finset (Fin m)), HasDerivAt
      (fun t => Function.update w c t i * exp (-(distance x (x0 i) ^ 2) / l))
      (if i = c then exp (-(distance x (x0 c) ^ 2) / l) else 0) (w c) := by
    intro i _
    by_cases hi : i = c
    · subst hi
      simp only [Function.update_self, if_true]
      simpa using (hasDerivAt_id (w i)).mul_const (exp (-(distance x (x0 i) ^ 2) / l))
    · simp only [Function.update_of_ne hi, if_neg hi]
      exact hasDerivAt_const _ _
  refine (HasDerivAt.fun_sum hterm).congr_deriv ?_
  simp

theorem basis_dl {D m : ℕ} (x : Fin D → ℝ) (x0 : Fin m → Fin D → ℝ) (w : Fin m → ℝ) (l : ℝ) (hl : l ≠ 0) :
    HasDerivAt (fun t => basis x x0 w t) (basisDl x x0 w l) l := by
  unfold basis basisDl
  refine HasDerivAt.fun_sum fun c _ => ?_
  have h1 : HasDerivAt (fun t => -(distance x (x0 c) ^ 2) / t) (distance x (x0 c) ^ 2 / l ^ 2) l := by
    have := (hasDerivAt_inv hl).const_mul (-(distance x (x0 c) ^ 2))
    refine this.congr_deriv ?_
    field_simp
  exact (h1.exp.const_mul (w c)).congr_deriv (by ring)

/-- C83: the first `len(w)` slices of `non_stat_kernel_gradient` are the derivatives with respect to the weights. -/
theorem C83_weights {D m : ℕ} (x y : Fin D → ℝ) (x0 : Fin m → Fin D → ℝ) (w : Fin m → ℝ) (l : ℝ) (_hl : l ≠ 0) (c : Fin m) :
    HasDerivAt (fun t => nonStat x y x0 (Function.update w c t) l) (nonStatDw x y x0 w l c) (w c) := by
  have := (basis_dw x x0 w l c).mul (basis_dw y x0 w l c)
  simp only [Function.update_eq_self] at this
  refine this.congr_deriv ?_
  unfold nonStatDw
  ring

/-- C83: the last slice is the derivative with respect to the width. -/
theorem C83_width {D m : ℕ} (x y : Fin D → ℝ) (x0 : Fin m → Fin D → ℝ) (w : Fin m → ℝ) (l : ℝ) (hl : l ≠ 0) :
    HasDerivAt (fun t => nonStat x y x0 w t) (nonStatDl x y x0 w l) l := by
  refine ((basis_dl x x0 w l hl).mul (basis_dl y x0 w l hl)).congr_deriv ?_
  unfold nonStatDl
  ring

example : HasDerivAt (fun t => nonStat ![1] ![2] ![![0], ![3]] ![1, 2] t) (nonStatDl ![1] ![2] ![![0], ![3]] ![1, 2] 5) 5 :=
  C83_width _ _ _ _ _ (by norm_num)

end Verif.Kernels
