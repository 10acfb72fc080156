import Verif.GP.Gauss

/-! The Kullback-Leibler divergence of two Gaussians does not increase when coordinates are dropped. -/

namespace Verif.GP

open Matrix

variable {n m : Type*} [Fintype n] [DecidableEq n] [Fintype m] [DecidableEq m]

/-- The selection of coordinates as a matrix. -/
def sel (e : m → n) : Matrix m n ℝ := Matrix.of fun i j => if e i = j then 1 else 0

theorem sel_mulVec (e : m → n) (v : n → ℝ) : sel e *ᵥ v = v ∘ e := by
  funext i
  simp [sel, Matrix.mulVec, dotProduct]

theorem sel_mul (e : m → n) (A : Matrix n n ℝ) : sel e * A * (sel e)ᵀ = A.submatrix e e := by
  ext i j
  simp [sel, Matrix.mul_apply]

/-- The explained part of a subset of the coordinates is at most that of all. -/
theorem inv_quad_submatrix (e : m → n) (he : Function.Injective e) {A : Matrix n n ℝ} (hA : A.PosDef) (b : n → ℝ) :
    (b ∘ e) ⬝ᵥ (A.submatrix e e)⁻¹ *ᵥ (b ∘ e) ≤ b ⬝ᵥ A⁻¹ *ᵥ b := by
  have hB : (A.submatrix e e).PosDef := hA.submatrix he
  set B := A.submatrix e e with hBdef
  set u := B⁻¹ *ᵥ (b ∘ e) with hu
  have h := quad_lower hA b ((sel e)ᵀ *ᵥ u)
  have e1 : ((sel e)ᵀ *ᵥ u) ⬝ᵥ A *ᵥ ((sel e)ᵀ *ᵥ u) = u ⬝ᵥ (b ∘ e) := by
    have : u ⬝ᵥ B *ᵥ u = u ⬝ᵥ (b ∘ e) := by
      rw [hu, Matrix.mulVec_mulVec, mul_inv_of_posDef hB, Matrix.one_mulVec]
    rw [← this, hBdef, ← sel_mul, Matrix.mulVec_transpose, ← Matrix.dotProduct_mulVec, Matrix.mulVec_mulVec,
      ← Matrix.mulVec_transpose, Matrix.mulVec_mulVec]
  have e2 : ((sel e)ᵀ *ᵥ u) ⬝ᵥ b = u ⬝ᵥ (b ∘ e) := by
    rw [Matrix.mulVec_transpose, ← Matrix.dotProduct_mulVec, sel_mulVec]
  rw [e1, e2] at h
  have e3 : (b ∘ e) ⬝ᵥ u = u ⬝ᵥ (b ∘ e) := dotProduct_comm _ _
  rw [e3]
  linarith

/-- Dropping coordinates does not increase the divergence. -/
theorem klGauss_submatrix_le (e : m → n) (he : Function.Injective e) (μ₁ μ₂ : n → ℝ) {S1 S2 : Matrix n n ℝ}
    (h1 : S1.PosDef) (h2 : S2.PosDef) :
    klGauss (μ₁ ∘ e) (μ₂ ∘ e) (S1.submatrix e e) (S2.submatrix e e) ≤ klGauss μ₁ μ₂ S1 S2 := by
  have hA1 : (S1.submatrix e e).PosDef := h1.submatrix he
  have hA2 : (S2.submatrix e e).PosDef := h2.submatrix he
  have hq := inv_quad_submatrix e he h2 (μ₂ - μ₁)
  have hs1 := sel_mul e S1
  have hs2 := sel_mul e S2
  set A1 := S1.submatrix e e with hA1d
  set A2 := S2.submatrix e e with hA2d
  set P := sel e with hP
  have i1 := mul_inv_of_posDef hA1
  have i1' := inv_mul_of_posDef hA1
  have i2 := mul_inv_of_posDef hA2
  have i2' := inv_mul_of_posDef hA2
  have j2 := inv_mul_of_posDef h2
  have j2' := mul_inv_of_posDef h2
  have t1 := transpose_of_posDef hA1
  have t2 := transpose_of_posDef hA2
  have u2 := transpose_of_posDef h2
  have t2i : (A2⁻¹)ᵀ = A2⁻¹ := transpose_of_posDef hA2.inv
  set M : Matrix m m ℝ := A2⁻¹ * A1 * A2⁻¹ - A2⁻¹ with hM
  set T : Matrix n n ℝ := S2 + S2 * Pᵀ * M * P * S2 with hT
  have hMt : Mᵀ = M := by
    rw [hM, Matrix.transpose_sub, Matrix.transpose_mul, Matrix.transpose_mul, t1, t2i, Matrix.mul_assoc]
  -- the determinant
  have hdet : T.det = S2.det * (A1.det / A2.det) := by
    have f1 : T = S2 * (1 + Pᵀ * (M * P * S2)) := by
      rw [hT, Matrix.mul_add, Matrix.mul_one]; simp only [Matrix.mul_assoc]
    have f2 : 1 + M * P * S2 * Pᵀ = A2⁻¹ * A1 := by
      rw [Matrix.mul_assoc, Matrix.mul_assoc, ← Matrix.mul_assoc P, hs2, hM, Matrix.sub_mul, i2', Matrix.mul_assoc, i2']
      simp
    rw [f1, Matrix.det_mul, Matrix.det_one_add_mul_comm, f2, Matrix.det_mul, Matrix.det_nonsing_inv,
      Ring.inverse_eq_inv']
    ring
  have hdetpos : 0 < T.det := by
    rw [hdet]; exact mul_pos h2.det_pos (div_pos hA1.det_pos hA2.det_pos)
  -- the inverse
  have hinv : T⁻¹ = S2⁻¹ + Pᵀ * (A1⁻¹ - A2⁻¹) * P := by
    apply Matrix.inv_eq_left_inv
    have f3 : (A1⁻¹ - A2⁻¹) * (1 + A2 * M) = -M := by
      have : 1 + A2 * M = A1 * A2⁻¹ := by
        rw [hM, Matrix.mul_sub, ← Matrix.mul_assoc, ← Matrix.mul_assoc, i2]; simp
      rw [this, Matrix.sub_mul, ← Matrix.mul_assoc, i1', hM, ← Matrix.mul_assoc]; simp
    have f4 : Pᵀ * (A1⁻¹ - A2⁻¹) * P * T = Pᵀ * ((A1⁻¹ - A2⁻¹) * (1 + A2 * M)) * P * S2 := by
      rw [hT, ← hs2]
      simp only [Matrix.mul_add, Matrix.add_mul, Matrix.mul_assoc, Matrix.mul_one]
    have f5 : S2⁻¹ * T = 1 + Pᵀ * M * P * S2 := by
      rw [hT, Matrix.mul_add, j2]
      simp only [← Matrix.mul_assoc, j2, Matrix.one_mul]
    rw [Matrix.add_mul, f4, f5, f3]
    simp
  -- positive definite
  have hTpd : T.PosDef := by
    apply (Matrix.PosSemidef.posDef_iff_isUnit ?_).2
    · rw [Matrix.isUnit_iff_isUnit_det]; exact hdetpos.ne'.isUnit
    · apply posSemidef_of_quad
      · rw [hT]
        simp only [Matrix.transpose_add, Matrix.transpose_mul, Matrix.transpose_transpose, u2, hMt, Matrix.mul_assoc]
      · intro w
        set z := P *ᵥ (S2 *ᵥ w) with hz
        have g1 : w ⬝ᵥ T *ᵥ w = w ⬝ᵥ S2 *ᵥ w + z ⬝ᵥ M *ᵥ z := by
          rw [hT, Matrix.add_mulVec, dotProduct_add]
          congr 1
          rw [hz]
          simp only [← Matrix.mulVec_mulVec]
          rw [Matrix.dotProduct_mulVec w S2, ← Matrix.mulVec_transpose, u2, Matrix.dotProduct_mulVec _ Pᵀ,
            ← Matrix.mulVec_transpose, Matrix.transpose_transpose]
        have g2 : z ⬝ᵥ M *ᵥ z = (A2⁻¹ *ᵥ z) ⬝ᵥ A1 *ᵥ (A2⁻¹ *ᵥ z) - z ⬝ᵥ A2⁻¹ *ᵥ z := by
          rw [hM, Matrix.sub_mulVec, dotProduct_sub]
          congr 1
          simp only [← Matrix.mulVec_mulVec]
          rw [Matrix.dotProduct_mulVec z A2⁻¹, ← Matrix.mulVec_transpose, t2i]
        have g3 := inv_quad_submatrix e he h2 (S2 *ᵥ w)
        rw [← hA2d, ← sel_mulVec, ← hP, ← hz] at g3
        have g4 : S2 *ᵥ w ⬝ᵥ S2⁻¹ *ᵥ (S2 *ᵥ w) = w ⬝ᵥ S2 *ᵥ w := by
          rw [Matrix.mulVec_mulVec, j2, Matrix.one_mulVec, dotProduct_comm]
        rw [g4] at g3
        have g5 := quad_nonneg hA1.posSemidef (A2⁻¹ *ᵥ z)
        rw [g1, g2]
        linarith
  have hnn := klGauss_nonneg μ₁ μ₁ h1 hTpd
  have htr : (T⁻¹ * S1).trace = (S2⁻¹ * S1).trace + Fintype.card m - (A2⁻¹ * A1).trace := by
    rw [hinv, Matrix.add_mul, Matrix.trace_add, Matrix.mul_assoc, Matrix.mul_assoc, Matrix.trace_mul_comm Pᵀ,
      Matrix.mul_assoc, hs1, Matrix.sub_mul, i1', Matrix.trace_sub, Matrix.trace_one]
    ring
  have hlog : Real.log T.det = Real.log S2.det + Real.log A1.det - Real.log A2.det := by
    rw [hdet, Real.log_mul h2.det_pos.ne' (div_pos hA1.det_pos hA2.det_pos).ne',
      Real.log_div hA1.det_pos.ne' hA2.det_pos.ne']
    ring
  have hq' : (μ₂ ∘ e - μ₁ ∘ e) ⬝ᵥ A2⁻¹ *ᵥ (μ₂ ∘ e - μ₁ ∘ e) ≤ (μ₂ - μ₁) ⬝ᵥ S2⁻¹ *ᵥ (μ₂ - μ₁) := hq
  rw [klGauss, htr, hlog, sub_self, zero_dotProduct] at hnn
  rw [klGauss, klGauss]
  linarith

end Verif.GP
