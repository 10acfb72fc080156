import Verif.GP.Gauss

/-! Conditioning a Gaussian in two steps: facts about block matrices. -/

namespace Verif.GP

open Matrix

variable {n q p : Type*} [Fintype n] [DecidableEq n] [Fintype q] [DecidableEq q]

theorem block11_posDef {A : Matrix n n ℝ} {B : Matrix n q ℝ} {D : Matrix q q ℝ} (hj : (fromBlocks A B Bᵀ D).PosDef) :
    A.PosDef :=
  hj.submatrix (e := (Sum.inl : n → n ⊕ q)) Sum.inl_injective

theorem det_block {A : Matrix n n ℝ} (hA : A.PosDef) (B : Matrix n q ℝ) (D : Matrix q q ℝ) :
    (fromBlocks A B Bᵀ D).det = A.det * (condCov A B D).det := by
  haveI : Invertible A := Matrix.invertibleOfIsUnitDet _ hA.det_pos.ne'.isUnit
  rw [Matrix.det_fromBlocks₁₁, condCov, Matrix.invOf_eq_nonsing_inv]

theorem schur_posDef {A : Matrix n n ℝ} {B : Matrix n q ℝ} {D : Matrix q q ℝ} (hj : (fromBlocks A B Bᵀ D).PosDef) :
    (condCov A B D).PosDef := by
  have hA := block11_posDef hj
  refine (Matrix.PosSemidef.posDef_iff_isUnit (condCov_posSemidef hA B D hj.posSemidef)).2 ?_
  rw [Matrix.isUnit_iff_isUnit_det]
  have := hj.det_pos
  rw [det_block hA] at this
  exact (right_ne_zero_of_mul this.ne').isUnit

/-- Solving with a block matrix: first the upper block, then the corrected lower block. -/
theorem block_solve {A : Matrix n n ℝ} {B : Matrix n q ℝ} {D : Matrix q q ℝ} (hj : (fromBlocks A B Bᵀ D).PosDef)
    (u : n → ℝ) (w : q → ℝ) :
    (fromBlocks A B Bᵀ D)⁻¹ *ᵥ Sum.elim u w
      = Sum.elim (A⁻¹ *ᵥ (u - B *ᵥ ((condCov A B D)⁻¹ *ᵥ (w - Bᵀ *ᵥ (A⁻¹ *ᵥ u)))))
          ((condCov A B D)⁻¹ *ᵥ (w - Bᵀ *ᵥ (A⁻¹ *ᵥ u))) := by
  have hA := block11_posDef hj
  have hS := schur_posDef hj
  set z := (condCov A B D)⁻¹ *ᵥ (w - Bᵀ *ᵥ (A⁻¹ *ᵥ u)) with hz
  have hSz : condCov A B D *ᵥ z = w - Bᵀ *ᵥ (A⁻¹ *ᵥ u) := by
    rw [hz, Matrix.mulVec_mulVec, mul_inv_of_posDef hS, Matrix.one_mulVec]
  have hAi : ∀ v, A *ᵥ (A⁻¹ *ᵥ v) = v := fun v => by
    rw [Matrix.mulVec_mulVec, mul_inv_of_posDef hA, Matrix.one_mulVec]
  have key : fromBlocks A B Bᵀ D *ᵥ Sum.elim (A⁻¹ *ᵥ (u - B *ᵥ z)) z = Sum.elim u w := by
    rw [fromBlocks_mulVec]
    congr 1
    · simp only [Sum.elim_comp_inl, Sum.elim_comp_inr, hAi]
      abel
    · simp only [Sum.elim_comp_inl, Sum.elim_comp_inr]
      have e : D *ᵥ z = w - Bᵀ *ᵥ (A⁻¹ *ᵥ u) + Bᵀ *ᵥ (A⁻¹ *ᵥ (B *ᵥ z)) := by
        rw [← hSz, condCov, Matrix.sub_mulVec]
        simp only [Matrix.mulVec_mulVec, Matrix.mul_assoc]
        abel
      rw [e, Matrix.mulVec_sub, Matrix.mulVec_sub]
      abel
  rw [← key, Matrix.mulVec_mulVec, inv_mul_of_posDef hj, Matrix.one_mulVec]

/-- The inverse quadratic form splits accordingly. -/
theorem block_quad {A : Matrix n n ℝ} {B : Matrix n q ℝ} {D : Matrix q q ℝ} (hj : (fromBlocks A B Bᵀ D).PosDef)
    (a u : n → ℝ) (b w : q → ℝ) :
    Sum.elim a b ⬝ᵥ (fromBlocks A B Bᵀ D)⁻¹ *ᵥ Sum.elim u w
      = a ⬝ᵥ A⁻¹ *ᵥ u + (b - Bᵀ *ᵥ (A⁻¹ *ᵥ a)) ⬝ᵥ (condCov A B D)⁻¹ *ᵥ (w - Bᵀ *ᵥ (A⁻¹ *ᵥ u)) := by
  have hA := block11_posDef hj
  have hAs : (A⁻¹)ᵀ = A⁻¹ := transpose_of_posDef hA.inv
  rw [block_solve hj]
  set z := (condCov A B D)⁻¹ *ᵥ (w - Bᵀ *ᵥ (A⁻¹ *ᵥ u))
  have e1 : Sum.elim a b ⬝ᵥ Sum.elim (A⁻¹ *ᵥ (u - B *ᵥ z)) z = a ⬝ᵥ A⁻¹ *ᵥ (u - B *ᵥ z) + b ⬝ᵥ z := by
    simp [dotProduct, Fintype.sum_sum_type]
  have e2 : a ⬝ᵥ A⁻¹ *ᵥ (B *ᵥ z) = (Bᵀ *ᵥ (A⁻¹ *ᵥ a)) ⬝ᵥ z := by
    rw [dot_symm hAs, Matrix.mulVec_transpose, dotProduct_comm, Matrix.dotProduct_mulVec, Matrix.vecMul_eq_sum]
  rw [e1, Matrix.mulVec_sub, dotProduct_sub, e2, sub_dotProduct]
  ring

/-- Conditioning on everything at once is conditioning on the second part under the law given the first (mean). -/
theorem condMean_two_steps {A : Matrix n n ℝ} {B : Matrix n q ℝ} {D : Matrix q q ℝ} (hj : (fromBlocks A B Bᵀ D).PosDef)
    (k : Matrix n p ℝ) (k2 : Matrix q p ℝ) (mx : p → ℝ) (m y : n → ℝ) (m2 y2 : q → ℝ) :
    condMean (fromBlocks A B Bᵀ D) (Matrix.of (Sum.elim k k2)) mx (Sum.elim m m2) (Sum.elim y y2)
      = condMean (condCov A B D) (k2 - Bᵀ * A⁻¹ * k) (condMean A k mx m y) (condMean A B m2 m y) y2 := by
  have hA := block11_posDef hj
  funext i
  have e : Sum.elim y y2 - Sum.elim m m2 = Sum.elim (y - m) (y2 - m2) := by
    funext s; cases s <;> rfl
  have ek : (fun l => (Matrix.of (Sum.elim k k2) : Matrix (n ⊕ q) p ℝ) l i) = Sum.elim (fun l => k l i) fun l => k2 l i := by
    funext s; cases s <;> rfl
  have hq := block_quad hj (fun l => k l i) (y - m) (fun l => k2 l i) (y2 - m2)
  have hcol : (fun l => (k2 - Bᵀ * A⁻¹ * k) l i) = (fun l => k2 l i) - Bᵀ *ᵥ (A⁻¹ *ᵥ fun l => k l i) := by
    funext l
    rw [Matrix.mulVec_mulVec]
    rfl
  have hy : y2 - condMean A B m2 m y = y2 - m2 - Bᵀ *ᵥ (A⁻¹ *ᵥ (y - m)) := by
    rw [condMean]; abel
  simp only [condMean, Pi.add_apply]
  rw [e]
  change mx i + (fun l => (Matrix.of (Sum.elim k k2) : Matrix (n ⊕ q) p ℝ) l i) ⬝ᵥ _ = mx i + (fun l => k l i) ⬝ᵥ _
    + (fun l => (k2 - Bᵀ * A⁻¹ * k) l i) ⬝ᵥ _
  rw [ek, hq, hcol]
  have hy' : y2 - (m2 + Bᵀ *ᵥ (A⁻¹ *ᵥ (y - m))) = y2 - m2 - Bᵀ *ᵥ (A⁻¹ *ᵥ (y - m)) := by abel
  rw [hy']
  ring

theorem condCov_entry (A : Matrix n n ℝ) (k : Matrix n p ℝ) (kk : Matrix p p ℝ) (i j : p) :
    condCov A k kk i j = kk i j - (fun l => k l i) ⬝ᵥ A⁻¹ *ᵥ fun l => k l j := by
  simp only [condCov, Matrix.sub_apply]
  congr 1
  rw [Matrix.mul_assoc, Matrix.mul_apply]
  rfl

/-- The same for the covariance. -/
theorem condCov_two_steps {A : Matrix n n ℝ} {B : Matrix n q ℝ} {D : Matrix q q ℝ} (hj : (fromBlocks A B Bᵀ D).PosDef)
    (k : Matrix n p ℝ) (k2 : Matrix q p ℝ) (kk : Matrix p p ℝ) :
    condCov (fromBlocks A B Bᵀ D) (Matrix.of (Sum.elim k k2)) kk
      = condCov (condCov A B D) (k2 - Bᵀ * A⁻¹ * k) (condCov A k kk) := by
  ext i j
  have hcol : ∀ i, (fun l => (k2 - Bᵀ * A⁻¹ * k) l i) = (fun l => k2 l i) - Bᵀ *ᵥ (A⁻¹ *ᵥ fun l => k l i) := by
    intro i
    funext l
    rw [Matrix.mulVec_mulVec]
    rfl
  have ek : ∀ i, (fun l => (Matrix.of (Sum.elim k k2) : Matrix (n ⊕ q) p ℝ) l i)
      = Sum.elim (fun l => k l i) fun l => k2 l i := by
    intro i; funext s; cases s <;> rfl
  rw [condCov_entry, condCov_entry, condCov_entry, ek, ek, block_quad hj, hcol, hcol]
  ring

/-- The density of everything is the density of the first part times the conditional density of the second. -/
theorem logNormal_two_steps {A : Matrix n n ℝ} {B : Matrix n q ℝ} {D : Matrix q q ℝ} (hj : (fromBlocks A B Bᵀ D).PosDef)
    (m y : n → ℝ) (m2 y2 : q → ℝ) :
    logNormal (fromBlocks A B Bᵀ D) (Sum.elim m m2) (Sum.elim y y2)
      = logNormal A m y + logNormal (condCov A B D) (condMean A B m2 m y) y2 := by
  have hA := block11_posDef hj
  have hS := schur_posDef hj
  have e : Sum.elim y y2 - Sum.elim m m2 = Sum.elim (y - m) (y2 - m2) := by
    funext s; cases s <;> rfl
  have hy : y2 - condMean A B m2 m y = y2 - m2 - Bᵀ *ᵥ (A⁻¹ *ᵥ (y - m)) := by
    rw [condMean]; abel
  simp only [logNormal]
  rw [e, block_quad hj, hy, det_block hA, Real.log_mul hA.det_pos.ne' hS.det_pos.ne', Fintype.card_sum]
  push_cast
  ring

end Verif.GP
