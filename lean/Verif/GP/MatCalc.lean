import Verif.GP.Gauss
import Mathlib.Analysis.Calculus.Deriv.Mul
import Mathlib.Analysis.Calculus.Deriv.Inv
import Mathlib.Analysis.Calculus.FDeriv.Mul
import Mathlib.Analysis.SpecialFunctions.Log.Deriv

/-! Calculus of matrix-valued curves, entry by entry: determinant (Jacobi's formula), inverse, quadratic forms. -/

namespace Verif.GP

open Finset Matrix

variable {n : Type} [Fintype n] [DecidableEq n]

/-- Entrywise derivative of a matrix-valued curve. -/
def MatHasDeriv (A : ℝ → Matrix n n ℝ) (D : Matrix n n ℝ) (t : ℝ) : Prop :=
  ∀ i j, HasDerivAt (fun s => A s i j) (D i j) t

/-- Jacobi's formula. -/
theorem hasDerivAt_det {A : ℝ → Matrix n n ℝ} {D : Matrix n n ℝ} {t : ℝ} (h : MatHasDeriv A D t) :
    HasDerivAt (fun s => (A s).det) (((A t).adjugate * D).trace) t := by
  have h1 : HasDerivAt (fun s => ∑ σ : Equiv.Perm n, ((Equiv.Perm.sign σ : ℤ) : ℝ) * ∏ i, A s (σ i) i)
      (∑ σ : Equiv.Perm n, ((Equiv.Perm.sign σ : ℤ) : ℝ) * ∑ i, (∏ j ∈ univ.erase i, A t (σ j) j) * D (σ i) i) t := by
    refine HasDerivAt.fun_sum fun σ _ => HasDerivAt.const_mul _ ?_
    have := HasDerivAt.fun_finset_prod (u := univ) (f := fun i s => A s (σ i) i) (f' := fun i => D (σ i) i) (x := t)
      fun i _ => h (σ i) i
    simpa [smul_eq_mul] using this
  have e1 : (fun s => (A s).det) = fun s => ∑ σ : Equiv.Perm n, ((Equiv.Perm.sign σ : ℤ) : ℝ) * ∏ i, A s (σ i) i := by
    funext s; rw [Matrix.det_apply']
  have e2 : ((A t).adjugate * D).trace
      = ∑ σ : Equiv.Perm n, ((Equiv.Perm.sign σ : ℤ) : ℝ) * ∑ i, (∏ j ∈ univ.erase i, A t (σ j) j) * D (σ i) i := by
    have : ∀ i, ((A t).adjugate * D) i i = ((A t).updateCol i (fun k => D k i)).det := by
      intro i
      rw [← Matrix.cramer_apply, Matrix.cramer_eq_adjugate_mulVec]
      rfl
    simp only [Matrix.trace, Matrix.diag_apply, this, Matrix.det_apply']
    rw [Finset.sum_comm]
    refine Finset.sum_congr rfl fun σ _ => ?_
    rw [Finset.mul_sum]
    refine Finset.sum_congr rfl fun i _ => ?_
    rw [← Finset.prod_erase_mul _ _ (Finset.mem_univ i)]
    congr 1
    congr 1
    · refine Finset.prod_congr rfl fun j hj => ?_
      rw [Matrix.updateCol_ne (Finset.ne_of_mem_erase hj)]
    · rw [Matrix.updateCol_self]
  rw [e1, e2]
  exact h1

/-- Entries of the adjugate are differentiable. -/
theorem differentiable_adjugate {A : ℝ → Matrix n n ℝ} {D : Matrix n n ℝ} {t : ℝ} (h : MatHasDeriv A D t) (i j : n) :
    ∃ d, HasDerivAt (fun s => (A s).adjugate i j) d t := by
  have h' : MatHasDeriv (fun s => (A s).updateRow j (Pi.single i 1)) (D.updateRow j 0) t := by
    intro a b
    by_cases ha : a = j
    · subst ha
      simp only [Matrix.updateRow_self]
      exact hasDerivAt_const _ _
    · simp only [Matrix.updateRow_ne ha]
      exact h a b
  refine ⟨_, (hasDerivAt_det h').congr_of_eventuallyEq ?_⟩
  exact Filter.Eventually.of_forall fun s => Matrix.adjugate_apply (A s) i j

/-- The derivative of the inverse. -/
theorem hasDerivAt_inv {A : ℝ → Matrix n n ℝ} {D : Matrix n n ℝ} {t : ℝ} (h : MatHasDeriv A D t)
    (hdet : (A t).det ≠ 0) : MatHasDeriv (fun s => (A s)⁻¹) (-((A t)⁻¹ * D * (A t)⁻¹)) t := by
  have hex : ∀ i j, ∃ d, HasDerivAt (fun s => (A s)⁻¹ i j) d t := by
    intro i j
    obtain ⟨d, hd⟩ := differentiable_adjugate h i j
    refine ⟨_, (((hasDerivAt_det h).inv hdet).mul hd).congr_of_eventuallyEq ?_⟩
    refine Filter.Eventually.of_forall fun s => ?_
    simp only [Matrix.inv_def, Ring.inverse_eq_inv', Matrix.smul_apply, smul_eq_mul]
    rfl
  choose X hX using hex
  have hev : ∀ᶠ s in nhds t, (A s).det ≠ 0 := (hasDerivAt_det h).continuousAt.eventually_ne hdet
  have hprod : D * (A t)⁻¹ + A t * Matrix.of X = 0 := by
    ext i j
    have h1 : HasDerivAt (fun s => ∑ k, A s i k * (A s)⁻¹ k j) (∑ k, (D i k * (A t)⁻¹ k j + A t i k * X k j)) t :=
      HasDerivAt.fun_sum fun k _ => (h i k).mul (hX k j)
    have h2 : HasDerivAt (fun s => ∑ k, A s i k * (A s)⁻¹ k j) 0 t := by
      refine (hasDerivAt_const t ((1 : Matrix n n ℝ) i j)).congr_of_eventuallyEq ?_
      filter_upwards [hev] with s hs
      rw [← Matrix.mul_apply, Matrix.mul_nonsing_inv _ hs.isUnit]
    have := h1.unique h2
    rw [Finset.sum_add_distrib] at this
    simpa [Matrix.mul_apply] using this
  have hXeq : Matrix.of X = -((A t)⁻¹ * D * (A t)⁻¹) := by
    have e := congrArg ((A t)⁻¹ * ·) hprod
    simp only [Matrix.mul_add, ← Matrix.mul_assoc, Matrix.nonsing_inv_mul _ hdet.isUnit, Matrix.one_mul,
      Matrix.mul_zero] at e
    exact eq_neg_of_add_eq_zero_right e
  intro i j
  rw [← hXeq]
  exact hX i j

/-- The derivative of the log determinant. -/
theorem hasDerivAt_logdet {A : ℝ → Matrix n n ℝ} {D : Matrix n n ℝ} {t : ℝ} (h : MatHasDeriv A D t)
    (hdet : (A t).det ≠ 0) : HasDerivAt (fun s => Real.log (A s).det) (((A t)⁻¹ * D).trace) t := by
  have := (hasDerivAt_det h).log hdet
  convert this using 1
  rw [Matrix.inv_def, Ring.inverse_eq_inv', Matrix.smul_mul, Matrix.trace_smul, smul_eq_mul, div_eq_inv_mul]

/-- The derivative of `r(t)ᵀ A(t)⁻¹ r(t)` for symmetric `A t`. -/
theorem hasDerivAt_quad {A : ℝ → Matrix n n ℝ} {D : Matrix n n ℝ} {t : ℝ} (h : MatHasDeriv A D t)
    (hdet : (A t).det ≠ 0) (hs : (A t)ᵀ = A t) {r : ℝ → n → ℝ} {r' : n → ℝ}
    (hr : ∀ i, HasDerivAt (fun s => r s i) (r' i) t) :
    HasDerivAt (fun s => r s ⬝ᵥ (A s)⁻¹ *ᵥ r s)
      (2 * (r' ⬝ᵥ (A t)⁻¹ *ᵥ r t) - ((A t)⁻¹ *ᵥ r t) ⬝ᵥ D *ᵥ ((A t)⁻¹ *ᵥ r t)) t := by
  have hI := hasDerivAt_inv h hdet
  have hsI : ((A t)⁻¹)ᵀ = (A t)⁻¹ := by rw [Matrix.transpose_nonsing_inv, hs]
  have h1 : HasDerivAt (fun s => ∑ i, r s i * ∑ j, (A s)⁻¹ i j * r s j)
      (∑ i, (r' i * ∑ j, (A t)⁻¹ i j * r t j
        + r t i * ∑ j, ((-((A t)⁻¹ * D * (A t)⁻¹)) i j * r t j + (A t)⁻¹ i j * r' j))) t :=
    HasDerivAt.fun_sum fun i _ => (hr i).mul (HasDerivAt.fun_sum fun j _ => (hI i j).mul (hr j))
  have e : ∑ i, (r' i * ∑ j, (A t)⁻¹ i j * r t j
        + r t i * ∑ j, ((-((A t)⁻¹ * D * (A t)⁻¹)) i j * r t j + (A t)⁻¹ i j * r' j))
      = r' ⬝ᵥ (A t)⁻¹ *ᵥ r t + (r t ⬝ᵥ (-((A t)⁻¹ * D * (A t)⁻¹)) *ᵥ r t + r t ⬝ᵥ (A t)⁻¹ *ᵥ r') := by
    simp only [dotProduct, Matrix.mulVec, Finset.sum_add_distrib, mul_add]
  rw [e] at h1
  have e2 : r t ⬝ᵥ (A t)⁻¹ *ᵥ r' = r' ⬝ᵥ (A t)⁻¹ *ᵥ r t := dot_symm hsI _ _
  have e3 : r t ⬝ᵥ (-((A t)⁻¹ * D * (A t)⁻¹)) *ᵥ r t
      = -(((A t)⁻¹ *ᵥ r t) ⬝ᵥ D *ᵥ ((A t)⁻¹ *ᵥ r t)) := by
    rw [Matrix.neg_mulVec, dotProduct_neg, ← Matrix.mulVec_mulVec, ← Matrix.mulVec_mulVec,
      dot_symm hsI (r t), dotProduct_comm]
  rw [e2, e3] at h1
  have e4 : 2 * (r' ⬝ᵥ (A t)⁻¹ *ᵥ r t) - ((A t)⁻¹ *ᵥ r t) ⬝ᵥ D *ᵥ ((A t)⁻¹ *ᵥ r t)
      = r' ⬝ᵥ (A t)⁻¹ *ᵥ r t + (-(((A t)⁻¹ *ᵥ r t) ⬝ᵥ D *ᵥ ((A t)⁻¹ *ᵥ r t)) + r' ⬝ᵥ (A t)⁻¹ *ᵥ r t) := by ring
  rw [e4]
  exact h1

end Verif.GP
