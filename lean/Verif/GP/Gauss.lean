import Mathlib.LinearAlgebra.Matrix.PosDef
import Mathlib.LinearAlgebra.Matrix.SchurComplement
import Mathlib.Analysis.Matrix.Order
import Mathlib.Analysis.SpecialFunctions.Log.Basic
import Mathlib.Algebra.Order.Star.Real

/-! Gaussian conditioning: specification and the facts about real matrices behind it. -/

namespace Verif.GP

open Matrix

/-! ## Specification -/

/-- Mean of the conditional distribution of `f` given `y` when `(y, f)` is jointly Gaussian with means `m`, `mx`,
`Cov y = A`, `Cov (y, f) = k`. -/
noncomputable def condMean {n p : Type*} [Fintype n] [DecidableEq n] (A : Matrix n n ℝ) (k : Matrix n p ℝ)
    (mx : p → ℝ) (m y : n → ℝ) : p → ℝ :=
  mx + kᵀ *ᵥ (A⁻¹ *ᵥ (y - m))

/-- Covariance of that conditional distribution, `Cov f = kk`. -/
noncomputable def condCov {n p : Type*} [Fintype n] [DecidableEq n] (A : Matrix n n ℝ) (k : Matrix n p ℝ)
    (kk : Matrix p p ℝ) : Matrix p p ℝ :=
  kk - kᵀ * A⁻¹ * k

/-- Logarithm of the multivariate normal density with mean `m` and covariance `A` at `y`. -/
noncomputable def logNormal {n : Type*} [Fintype n] [DecidableEq n] (A : Matrix n n ℝ) (m y : n → ℝ) : ℝ :=
  -(1 / 2) * ((y - m) ⬝ᵥ A⁻¹ *ᵥ (y - m) + Real.log A.det + Fintype.card n * Real.log (2 * Real.pi))

/-- Kullback-Leibler divergence of `N(μ₁, A₁)` from `N(μ₂, A₂)`. -/
noncomputable def klGauss {n : Type*} [Fintype n] [DecidableEq n] (μ₁ μ₂ : n → ℝ) (A₁ A₂ : Matrix n n ℝ) : ℝ :=
  1 / 2 * ((A₂⁻¹ * A₁).trace + (μ₂ - μ₁) ⬝ᵥ A₂⁻¹ *ᵥ (μ₂ - μ₁) - Fintype.card n
    + (Real.log A₂.det - Real.log A₁.det))

/-! ## Facts -/

variable {n p m : Type*} [Fintype n] [DecidableEq n] [Fintype p] [DecidableEq p] [Fintype m] [DecidableEq m]

theorem transpose_of_posDef {A : Matrix n n ℝ} (h : A.PosDef) : Aᵀ = A := by
  have := h.isHermitian
  rwa [Matrix.IsHermitian, Matrix.conjTranspose_eq_transpose_of_trivial] at this

theorem transpose_of_posSemidef {A : Matrix n n ℝ} (h : A.PosSemidef) : Aᵀ = A := by
  have := h.isHermitian
  rwa [Matrix.IsHermitian, Matrix.conjTranspose_eq_transpose_of_trivial] at this

theorem quad_nonneg {A : Matrix n n ℝ} (h : A.PosSemidef) (w : n → ℝ) : 0 ≤ w ⬝ᵥ A *ᵥ w := by
  have := h.dotProduct_mulVec_nonneg w
  simpa using this

theorem posSemidef_of_quad {A : Matrix n n ℝ} (hs : Aᵀ = A) (h : ∀ w, 0 ≤ w ⬝ᵥ A *ᵥ w) : A.PosSemidef := by
  apply Matrix.PosSemidef.of_dotProduct_mulVec_nonneg
  · rwa [Matrix.IsHermitian, Matrix.conjTranspose_eq_transpose_of_trivial]
  · intro x
    simpa using h x

theorem inv_mul_of_posDef {A : Matrix n n ℝ} (h : A.PosDef) : A⁻¹ * A = 1 :=
  Matrix.nonsing_inv_mul _ h.det_pos.ne'.isUnit

theorem mul_inv_of_posDef {A : Matrix n n ℝ} (h : A.PosDef) : A * A⁻¹ = 1 :=
  Matrix.mul_nonsing_inv _ h.det_pos.ne'.isUnit

theorem dot_symm {A : Matrix n n ℝ} (hs : Aᵀ = A) (v w : n → ℝ) : v ⬝ᵥ A *ᵥ w = w ⬝ᵥ A *ᵥ v := by
  rw [Matrix.dotProduct_mulVec, ← Matrix.mulVec_transpose, hs, dotProduct_comm]

/-- The conditional covariance of a positive semidefinite joint covariance is positive semidefinite. -/
theorem condCov_posSemidef {A : Matrix n n ℝ} (hA : A.PosDef) (k : Matrix n p ℝ) (kk : Matrix p p ℝ)
    (hj : (fromBlocks A k kᵀ kk).PosSemidef) : (condCov A k kk).PosSemidef := by
  haveI : Invertible A := Matrix.invertibleOfIsUnitDet _ hA.det_pos.ne'.isUnit
  have := (Matrix.PosDef.fromBlocks₁₁ k kk hA).1 (by
    rwa [Matrix.conjTranspose_eq_transpose_of_trivial])
  rwa [Matrix.conjTranspose_eq_transpose_of_trivial] at this

/-- Completing the square: the best linear predictor's error is a lower bound. -/
theorem quad_lower {A : Matrix n n ℝ} (hA : A.PosDef) (b w : n → ℝ) :
    -(b ⬝ᵥ A⁻¹ *ᵥ b) ≤ w ⬝ᵥ A *ᵥ w - 2 * (w ⬝ᵥ b) := by
  have hs := transpose_of_posDef hA
  have h := quad_nonneg hA.posSemidef (w - A⁻¹ *ᵥ b)
  have e1 : A *ᵥ (A⁻¹ *ᵥ b) = b := by
    rw [Matrix.mulVec_mulVec, mul_inv_of_posDef hA, Matrix.one_mulVec]
  rw [Matrix.mulVec_sub, e1, sub_dotProduct, dotProduct_sub, dotProduct_sub] at h
  have e2 : (A⁻¹ *ᵥ b) ⬝ᵥ A *ᵥ w = w ⬝ᵥ b := by rw [dot_symm hs, e1]
  have e3 : (A⁻¹ *ᵥ b) ⬝ᵥ b = b ⬝ᵥ A⁻¹ *ᵥ b := dotProduct_comm _ _
  rw [e2, e3] at h
  linarith

theorem inv_quad_nonneg {A : Matrix n n ℝ} (hA : A.PosDef) (b : n → ℝ) : 0 ≤ b ⬝ᵥ A⁻¹ *ᵥ b :=
  quad_nonneg hA.inv.posSemidef b

/-- Enlarging the matrix can only increase the explained part. -/
theorem inv_quad_mono {A : Matrix (n ⊕ m) (n ⊕ m) ℝ} (hA : A.PosDef) (b : n ⊕ m → ℝ) :
    (b ∘ Sum.inl) ⬝ᵥ (A.toBlocks₁₁)⁻¹ *ᵥ (b ∘ Sum.inl) ≤ b ⬝ᵥ A⁻¹ *ᵥ b := by
  have h11 : A.toBlocks₁₁.PosDef := hA.submatrix (e := (Sum.inl : n → n ⊕ m)) Sum.inl_injective
  set w := A.toBlocks₁₁⁻¹ *ᵥ (b ∘ Sum.inl) with hw
  have h := quad_lower hA b (Sum.elim w 0)
  have e0 : A.toBlocks₁₁ *ᵥ w = b ∘ Sum.inl := by
    rw [hw, Matrix.mulVec_mulVec, mul_inv_of_posDef h11, Matrix.one_mulVec]
  have e1 : Sum.elim w (0 : m → ℝ) ⬝ᵥ A *ᵥ Sum.elim w 0 = w ⬝ᵥ (b ∘ Sum.inl) := by
    rw [← e0]
    conv_lhs => rw [← Matrix.fromBlocks_toBlocks A]
    rw [Matrix.fromBlocks_mulVec]
    simp [dotProduct, Fintype.sum_sum_type]
  have e2 : Sum.elim w (0 : m → ℝ) ⬝ᵥ b = w ⬝ᵥ (b ∘ Sum.inl) := by
    simp [dotProduct, Fintype.sum_sum_type]
  rw [e1, e2] at h
  have e3 : (b ∘ Sum.inl) ⬝ᵥ w = w ⬝ᵥ (b ∘ Sum.inl) := dotProduct_comm _ _
  rw [e3]
  linarith

theorem condCov_diag (A : Matrix n n ℝ) (k : Matrix n p ℝ) (kk : Matrix p p ℝ) (i : p) :
    condCov A k kk i i = kk i i - (fun l => k l i) ⬝ᵥ A⁻¹ *ᵥ fun l => k l i := by
  simp only [condCov, Matrix.sub_apply]
  congr 1
  rw [Matrix.mul_assoc, Matrix.mul_apply]
  rfl

/-- Reordering the conditioning variables changes nothing. -/
theorem condMean_perm (σ : m ≃ n) (A : Matrix n n ℝ) (k : Matrix n p ℝ) (mx : p → ℝ) (v w : n → ℝ) :
    condMean (A.submatrix σ σ) (k.submatrix σ id) mx (v ∘ σ) (w ∘ σ) = condMean A k mx v w := by
  unfold condMean
  rw [Matrix.inv_submatrix_equiv]
  have e : (A⁻¹.submatrix σ σ) *ᵥ (w ∘ σ - v ∘ σ) = (A⁻¹ *ᵥ (w - v)) ∘ σ := by
    have : (w ∘ σ - v ∘ σ) = (w - v) ∘ σ := rfl
    rw [this]
    ext i
    simp only [Matrix.mulVec, dotProduct, Matrix.submatrix_apply, Function.comp]
    exact Equiv.sum_comp σ fun j => A⁻¹ (σ i) j * (w - v) j
  rw [e]
  congr 1
  ext i
  simp only [Matrix.mulVec, dotProduct, Matrix.transpose_apply, Matrix.submatrix_apply, Function.comp, id]
  exact Equiv.sum_comp σ fun j => k j i * ∑ l, A⁻¹ j l * (w - v) l

theorem condCov_perm (σ : m ≃ n) (A : Matrix n n ℝ) (k : Matrix n p ℝ) (kk : Matrix p p ℝ) :
    condCov (A.submatrix σ σ) (k.submatrix σ id) kk = condCov A k kk := by
  unfold condCov
  rw [Matrix.inv_submatrix_equiv, Matrix.transpose_submatrix, Matrix.submatrix_mul_equiv,
    Matrix.submatrix_mul_equiv]
  simp

theorem logNormal_perm (σ : m ≃ n) (A : Matrix n n ℝ) (v w : n → ℝ) :
    logNormal (A.submatrix σ σ) (v ∘ σ) (w ∘ σ) = logNormal A v w := by
  unfold logNormal
  rw [Matrix.inv_submatrix_equiv, Matrix.det_submatrix_equiv_self, Fintype.card_congr σ]
  congr 3
  have : (w ∘ σ - v ∘ σ) = (w - v) ∘ σ := rfl
  rw [this]
  simp only [dotProduct, Matrix.mulVec, Matrix.submatrix_apply, Function.comp]
  rw [← Equiv.sum_comp σ fun i => (w - v) i * ∑ j, A⁻¹ i j * (w - v) j]
  refine Finset.sum_congr rfl fun i _ => ?_
  congr 1
  exact Equiv.sum_comp σ fun j => A⁻¹ (σ i) j * (w - v) j

open scoped MatrixOrder in
theorem exists_factor {A : Matrix n n ℝ} (hA : A.PosDef) : ∃ B : Matrix n n ℝ, A = Bᵀ * B ∧ B.det ≠ 0 := by
  obtain ⟨B, hB⟩ := CStarAlgebra.nonneg_iff_eq_star_mul_self.mp hA.posSemidef.nonneg
  have e : A = Bᵀ * B := by
    rw [hB, Matrix.star_eq_conjTranspose, Matrix.conjTranspose_eq_transpose_of_trivial]
  refine ⟨B, e, fun h => ?_⟩
  have := hA.det_pos
  rw [e, Matrix.det_mul, h, mul_zero] at this
  exact lt_irrefl _ this

/-- The trace inequality behind Gibbs' inequality. -/
theorem card_le_trace {A₁ A₂ : Matrix n n ℝ} (h1 : A₁.PosDef) (h2 : A₂.PosDef) :
    (Fintype.card n : ℝ) ≤ (A₂⁻¹ * A₁).trace + (Real.log A₂.det - Real.log A₁.det) := by
  obtain ⟨B, hB, hBdet⟩ := exists_factor h2.inv
  set M := B * A₁ * Bᵀ with hM
  have hMpd : M.PosDef := by
    have := h1.mul_mul_conjTranspose_same (B := B) (by
      apply Matrix.vecMul_injective_of_isUnit
      exact (Matrix.isUnit_iff_isUnit_det _).2 hBdet.isUnit)
    rwa [Matrix.conjTranspose_eq_transpose_of_trivial] at this
  have htr : (A₂⁻¹ * A₁).trace = M.trace := by
    rw [hB, hM, Matrix.trace_mul_comm (B * A₁), ← Matrix.mul_assoc]
  have hdet : Real.log M.det = Real.log A₁.det - Real.log A₂.det := by
    have hd2 : A₂.det ≠ 0 := h2.det_pos.ne'
    have e : B.det * B.det = (A₂.det)⁻¹ := by
      have := congrArg Matrix.det hB
      rw [Matrix.det_nonsing_inv, Ring.inverse_eq_inv', Matrix.det_mul, Matrix.det_transpose] at this
      exact this.symm
    have e' : M.det = A₁.det * (A₂.det)⁻¹ := by
      rw [hM, Matrix.det_mul, Matrix.det_mul, Matrix.det_transpose, ← e]; ring
    rw [e', Real.log_mul h1.det_pos.ne' (inv_ne_zero hd2), Real.log_inv]
    ring
  have hkey : (Fintype.card n : ℝ) ≤ M.trace - Real.log M.det := by
    have hdetM := hMpd.isHermitian.det_eq_prod_eigenvalues
    have htrM := hMpd.isHermitian.trace_eq_sum_eigenvalues
    have hdetM' : M.det = ∏ i, hMpd.isHermitian.eigenvalues i := by simpa using hdetM
    have htrM' : M.trace = ∑ i, hMpd.isHermitian.eigenvalues i := by simpa using htrM
    rw [hdetM', htrM', Real.log_prod (fun i _ => (hMpd.eigenvalues_pos i).ne'), ← Finset.sum_sub_distrib]
    calc (Fintype.card n : ℝ) = ∑ _i : n, (1 : ℝ) := by simp
      _ ≤ _ := Finset.sum_le_sum fun i _ => by
        have := Real.log_le_sub_one_of_pos (hMpd.eigenvalues_pos i)
        linarith
  rw [htr]
  linarith

theorem klGauss_nonneg (μ₁ μ₂ : n → ℝ) {A₁ A₂ : Matrix n n ℝ} (h1 : A₁.PosDef) (h2 : A₂.PosDef) :
    0 ≤ klGauss μ₁ μ₂ A₁ A₂ := by
  have ht := card_le_trace h1 h2
  have hq := inv_quad_nonneg h2 (μ₂ - μ₁)
  unfold klGauss
  linarith

theorem klGauss_self (μ : n → ℝ) {A : Matrix n n ℝ} (h : A.PosDef) : klGauss μ μ A A = 0 := by
  unfold klGauss
  rw [inv_mul_of_posDef h]
  simp

end Verif.GP
