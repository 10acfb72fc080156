import Verif.BO.SurrogateLemmas

/-!
C103: the derivatives the surrogate of the Bayesian optimiser is trained and searched with.
-/

namespace Verif.BO

open Finset Real Verif.Kernels Verif.GP

theorem surrogateKernel_dx {D : ℕ} (h : SHps D) (x u : Pos D) (i : Fin D) :
    HasDerivAt (fun t => surrogateKernel h x (Function.update u i t)) (surrogateKernelDx h u x i) (u i) := by
  simp only [surrogateKernel_eq]
  have hk : HasDerivAt (fun t => ((x i - Function.update u i t i) / h.len i) ^ 2) (2 * ((u i - x i) / h.len i) * (1 / h.len i)) (u i) := by
    simp only [Function.update_self]
    have := ((((hasDerivAt_id (u i)).const_sub (x i)).div_const (h.len i)).fun_pow 2)
    refine this.congr_deriv ?_
    simp
    ring
  have hQ := hasDerivAt_sum_one (f := fun t j => ((x j - Function.update u i t j) / h.len j) ^ 2) hk
    (fun j hj s => by simp [Function.update_of_ne hj])
  have := (mat5_chain hQ fun s => sumsq_nonneg x _ h.len).const_mul h.signal
  refine this.congr_deriv ?_
  rw [Function.update_eq_self]
  have e : ∑ j, ((x j - u j) / h.len j) ^ 2 = ∑ j, ((u j - x j) / h.len j) ^ 2 := sum_congr rfl fun j _ => by ring
  rw [e]
  simp only [surrogateKernelDx, mat5']
  ring

/-- C103: `_surrogate_kernel_dx` is the derivative of the kernel with respect to the query point, for every pair of points,
coincident or not, and nonzero length scales. -/
theorem C103_dx {D : ℕ} (h : SHps D) (_hl : ∀ j, h.len j ≠ 0) (x u : Pos D) (i : Fin D) :
    HasDerivAt (fun t => surrogateKernel h x (Function.update u i t)) (surrogateKernelDx h u x i) (u i) :=
  surrogateKernel_dx h x u i

/-- C103: slice 0 of `_surrogate_kernel_grad` is the derivative with respect to the signal variance. -/
theorem C103_signal {D : ℕ} (h : SHps D) (_hl : ∀ j, h.len j ≠ 0) (x y : Pos D) :
    HasDerivAt (fun t => surrogateKernel { h with signal := t } x y) (surrogateGradSignal h x y) h.signal := by
  have e : surrogateGradSignal h x y = mat5 (∑ i, ((x i - y i) / h.len i) ^ 2) := by
    simp only [surrogateGradSignal, gradR, mat5, matern2_one]
  simp only [surrogateKernel_eq]
  rw [e]
  simpa using (hasDerivAt_id h.signal).mul_const (mat5 (∑ i, ((x i - y i) / h.len i) ^ 2))

/-- C103: slice `1 + i` is the derivative with respect to length scale `i`, for every pair of points, coincident or not. -/
theorem C103_length {D : ℕ} (h : SHps D) (hl' : ∀ j, h.len j ≠ 0) (x y : Pos D) (i : Fin D) :
    HasDerivAt (fun t => surrogateKernel { h with len := Function.update h.len i t } x y) (surrogateGradLength h x y i) (h.len i) := by
  have hl := hl' i
  simp only [surrogateKernel_eq]
  have hk : HasDerivAt (fun t => ((x i - y i) / Function.update h.len i t i) ^ 2) (-2 * (x i - y i) ^ 2 / h.len i ^ 3) (h.len i) := by
    simp only [Function.update_self]
    have := ((hasDerivAt_inv hl).const_mul (x i - y i)).fun_pow 2
    refine this.congr_deriv ?_
    field_simp
    simp
    field_simp
  have hQ := hasDerivAt_sum_one (f := fun t j => ((x j - y j) / Function.update h.len i t j) ^ 2) hk
    (fun j hj s => by simp [Function.update_of_ne hj])
  have := (mat5_chain hQ fun s => sumsq_nonneg x y _).const_mul h.signal
  refine this.congr_deriv ?_
  rw [Function.update_eq_self]
  simp only [surrogateGradLength, mat5', gradR]
  ring

/-- C103: the learned noise level does not enter the kernel: the trailing slice is the derivative. -/
theorem C103_trailing {D : ℕ} (h : SHps D) (_hl : ∀ j, h.len j ≠ 0) (x y : Pos D) :
    HasDerivAt (fun t => surrogateKernel { h with noise := t } x y) (surrogateGradNoise h x y) h.noise :=
  hasDerivAt_const h.noise (surrogateKernel h x y)

/-- C103: the derivative of the learned noise, above the floor `1e-12`. -/
theorem C103_noise {D : ℕ} (h : SHps D) (hn : 1 / 10 ^ 12 < h.noise) :
    HasDerivAt (fun t => homoNoise { h with noise := t }) (homoNoiseGrad h) h.noise := by
  refine (hasDerivAt_id h.noise).congr_of_eventuallyEq ?_
  filter_upwards [lt_mem_nhds hn] with t ht
  exact max_eq_left ht.le

/-- The derivative with respect to the query point at coincident points is zero. -/
theorem C103_coincident {D : ℕ} (h : SHps D) (_hl : ∀ j, h.len j ≠ 0) (x : Pos D) (i : Fin D) : surrogateKernelDx h x x i = 0 := by
  simp [surrogateKernelDx]

/-- A point where the derivative is not zero. -/
example : surrogateKernelDx (D := 2) ⟨3, ![1, 2], 0⟩ ![1, 2] ![4, 2] 0 = 5 * 3 * (1 + √5 * 3) * exp (-√5 * 3) := by
  have : √(∑ j : Fin 2, (((![1, 2] : Fin 2 → ℝ) j - (![4, 2] : Fin 2 → ℝ) j) / (![1, 2] : Fin 2 → ℝ) j) ^ 2) = 3 := by
    rw [Fin.sum_univ_two]
    have : ((((![1, 2] : Fin 2 → ℝ) 0 - (![4, 2] : Fin 2 → ℝ) 0) / (![1, 2] : Fin 2 → ℝ) 0) ^ 2 +
        (((![1, 2] : Fin 2 → ℝ) 1 - (![4, 2] : Fin 2 → ℝ) 1) / (![1, 2] : Fin 2 → ℝ) 1) ^ 2) = 3 ^ 2 := by
      simp; norm_num
    rw [this, sqrt_sq (by norm_num)]
  simp only [surrogateKernelDx]
  rw [this]
  simp
  ring

end Verif.BO
