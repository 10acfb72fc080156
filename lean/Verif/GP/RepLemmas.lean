import Verif.GP.Gauss

/-! Several observations of the same quantity and their average: facts about matrices. -/

namespace Verif.GP

open Matrix

variable {N n p : Type*} [Fintype N] [DecidableEq N] [Fintype n] [DecidableEq n]

/-- Row `i` of the selection matrix picks the quantity observed by observation `i`. -/
def pick (π : N → n) : Matrix N n ℝ := Matrix.of fun i l => if π i = l then 1 else 0

theorem pick_mulVec (π : N → n) (m : n → ℝ) : pick π *ᵥ m = m ∘ π := by
  funext i
  simp [pick, Matrix.mulVec, dotProduct]

theorem pick_mul (π : N → n) (k : Matrix n p ℝ) : pick π * k = k.submatrix π id := by
  ext i j
  simp [pick, Matrix.mul_apply]

theorem pick_mul_transpose (π : N → n) (K : Matrix n n ℝ) : pick π * K * (pick π)ᵀ = K.submatrix π π := by
  ext i j
  rw [pick_mul]
  simp [pick, Matrix.mul_apply]

/-- `1 / w l` is the sum of the `1 / v i` over the observations of `l`. -/
def Pooled (π : N → n) (v : N → ℝ) (w : n → ℝ) : Prop :=
  (∀ i, 0 < v i) ∧ (∀ l, 0 < w l) ∧ ∀ l, 1 / w l = ∑ i, if π i = l then 1 / v i else 0

/-- `z l` is the average of the observations of `l` with weights `w l / v i`. -/
def Averaged (π : N → n) (v : N → ℝ) (w : n → ℝ) (y : N → ℝ) (z : n → ℝ) : Prop :=
  ∀ l, z l = w l * ∑ i, if π i = l then y i / v i else 0

section
variable {π : N → n} {v : N → ℝ} {w : n → ℝ}

theorem inv_diag_pos {ι : Type*} [Fintype ι] [DecidableEq ι] {v : ι → ℝ} (hv : ∀ i, 0 < v i) :
    (Matrix.diagonal v)⁻¹ = Matrix.diagonal fun i => 1 / v i := by
  apply Matrix.inv_eq_right_inv
  rw [Matrix.diagonal_mul_diagonal, ← Matrix.diagonal_one]
  congr 1
  funext i
  exact mul_one_div_cancel (hv i).ne'

theorem pooled_gram (h : Pooled π v w) :
    (pick π)ᵀ * (Matrix.diagonal fun i => 1 / v i) * pick π = Matrix.diagonal fun l => 1 / w l := by
  ext l j
  rw [Matrix.mul_apply]
  simp only [Matrix.mul_diagonal, Matrix.transpose_apply, pick, Matrix.of_apply, Matrix.diagonal_apply]
  split_ifs with hlj
  · subst hlj
    rw [h.2.2]
    exact Finset.sum_congr rfl fun i _ => by split_ifs <;> simp
  · refine Finset.sum_eq_zero fun i _ => ?_
    by_cases h1 : π i = l
    · rw [if_neg (show ¬ π i = j from fun h2 => hlj (h1.symm.trans h2)), mul_zero]
    · rw [if_neg h1, zero_mul, zero_mul]

theorem averaged_eq {y : N → ℝ} {z : n → ℝ} (h : Averaged π v w y z) :
    z = Matrix.diagonal w *ᵥ ((pick π)ᵀ *ᵥ ((Matrix.diagonal fun i => 1 / v i) *ᵥ y)) := by
  funext l
  rw [h l, Matrix.mulVec_diagonal]
  congr 1
  simp only [Matrix.mulVec, dotProduct, Matrix.transpose_apply, pick, Matrix.of_apply]
  refine Finset.sum_congr rfl fun i _ => ?_
  have : ∑ j, Matrix.diagonal (fun i => 1 / v i) i j * y j = y i / v i := by
    rw [Finset.sum_eq_single i]
    · rw [Matrix.diagonal_apply_eq]; ring
    · intro j _ hj
      rw [Matrix.diagonal_apply_ne _ hj.symm, zero_mul]
    · simp
  rw [this]
  split_ifs <;> simp

/-- The data enter the prediction only through the averages. -/
theorem pooled_solve (h : Pooled π v w) {K : Matrix n n ℝ} (hA : (K.submatrix π π + Matrix.diagonal v).PosDef)
    (hB : (K + Matrix.diagonal w).PosDef) :
    (pick π)ᵀ * (K.submatrix π π + Matrix.diagonal v)⁻¹
      = (K + Matrix.diagonal w)⁻¹ * (Matrix.diagonal w * ((pick π)ᵀ * Matrix.diagonal fun i => 1 / v i)) := by
  have hvi : (Matrix.diagonal fun i => 1 / v i) * Matrix.diagonal v = 1 := by
    rw [Matrix.diagonal_mul_diagonal, ← Matrix.diagonal_one]
    congr 1
    funext i
    exact one_div_mul_cancel (h.1 i).ne'
  have hwi : Matrix.diagonal w * (Matrix.diagonal fun l => 1 / w l) = 1 := by
    rw [Matrix.diagonal_mul_diagonal, ← Matrix.diagonal_one]
    congr 1
    funext i
    exact mul_one_div_cancel (h.2.1 i).ne'
  have key : Matrix.diagonal w * ((pick π)ᵀ * Matrix.diagonal fun i => 1 / v i) * (K.submatrix π π + Matrix.diagonal v)
      = (K + Matrix.diagonal w) * (pick π)ᵀ := by
    rw [Matrix.mul_add, Matrix.add_mul]
    congr 1
    · rw [← pick_mul_transpose]
      calc Matrix.diagonal w * ((pick π)ᵀ * Matrix.diagonal fun i => 1 / v i) * (pick π * K * (pick π)ᵀ)
          = Matrix.diagonal w * ((pick π)ᵀ * (Matrix.diagonal fun i => 1 / v i) * pick π) * K * (pick π)ᵀ := by
            simp only [Matrix.mul_assoc]
        _ = _ := by rw [pooled_gram h, hwi, Matrix.one_mul]
    · rw [Matrix.mul_assoc, Matrix.mul_assoc, hvi, Matrix.mul_one]
  calc (pick π)ᵀ * (K.submatrix π π + Matrix.diagonal v)⁻¹
      = (K + Matrix.diagonal w)⁻¹ * ((K + Matrix.diagonal w) * (pick π)ᵀ) * (K.submatrix π π + Matrix.diagonal v)⁻¹ := by
        rw [← Matrix.mul_assoc, inv_mul_of_posDef hB, Matrix.one_mul]
    _ = _ := by
        rw [← key]
        simp only [Matrix.mul_assoc]
        rw [mul_inv_of_posDef hA, Matrix.mul_one]

theorem averaged_sub (h : Pooled π v w) {y : N → ℝ} {z : n → ℝ} (ha : Averaged π v w y z) (m : n → ℝ) :
    Averaged π v w (y - m ∘ π) (z - m) := by
  intro l
  have e : w l * ∑ i, (if π i = l then m (π i) / v i else 0) = m l := by
    have : ∑ i, (if π i = l then m (π i) / v i else 0) = m l * (1 / w l) := by
      rw [h.2.2, Finset.mul_sum]
      refine Finset.sum_congr rfl fun i _ => ?_
      split_ifs with hi
      · rw [hi]; ring
      · ring
    rw [this, mul_comm (m l), ← mul_assoc, mul_one_div_cancel (h.2.1 l).ne', one_mul]
  rw [Pi.sub_apply, ha l, ← e, ← mul_sub, ← Finset.sum_sub_distrib]
  congr 1
  refine Finset.sum_congr rfl fun i _ => ?_
  split_ifs
  · simp only [Pi.sub_apply, Function.comp]; rw [sub_div]
  · ring

theorem condMean_pooled (h : Pooled π v w) {K : Matrix n n ℝ} (hA : (K.submatrix π π + Matrix.diagonal v).PosDef)
    (hB : (K + Matrix.diagonal w).PosDef) (k : Matrix n p ℝ) (mx : p → ℝ) (m : n → ℝ) {y : N → ℝ} {z : n → ℝ}
    (ha : Averaged π v w y z) :
    condMean (K.submatrix π π + Matrix.diagonal v) (k.submatrix π id) mx (m ∘ π) y
      = condMean (K + Matrix.diagonal w) k mx m z := by
  rw [condMean, condMean, averaged_eq (averaged_sub h ha m), ← pick_mul, Matrix.transpose_mul]
  congr 1
  simp only [Matrix.mulVec_mulVec, Matrix.mul_assoc]
  rw [pooled_solve h hA hB]

theorem condCov_pooled (h : Pooled π v w) {K : Matrix n n ℝ} (hA : (K.submatrix π π + Matrix.diagonal v).PosDef)
    (hB : (K + Matrix.diagonal w).PosDef) (k : Matrix n p ℝ) (kk : Matrix p p ℝ) :
    condCov (K.submatrix π π + Matrix.diagonal v) (k.submatrix π id) kk = condCov (K + Matrix.diagonal w) k kk := by
  have hwi : Matrix.diagonal w * (Matrix.diagonal fun l => 1 / w l) = 1 := by
    rw [Matrix.diagonal_mul_diagonal, ← Matrix.diagonal_one]
    congr 1
    funext i
    exact mul_one_div_cancel (h.2.1 i).ne'
  rw [condCov, condCov, ← pick_mul, Matrix.transpose_mul]
  congr 1
  calc kᵀ * (pick π)ᵀ * (K.submatrix π π + Matrix.diagonal v)⁻¹ * (pick π * k)
      = kᵀ * ((pick π)ᵀ * (K.submatrix π π + Matrix.diagonal v)⁻¹) * (pick π * k) := by simp only [Matrix.mul_assoc]
    _ = kᵀ * (K + Matrix.diagonal w)⁻¹ * (Matrix.diagonal w * ((pick π)ᵀ * (Matrix.diagonal fun i => 1 / v i) * pick π)) * k := by
        rw [pooled_solve h hA hB]; simp only [Matrix.mul_assoc]
    _ = _ := by rw [pooled_gram h, hwi, Matrix.mul_one]

/-- What the spread of the observations around their averages contributes to the log likelihood. -/
noncomputable def spreadTerm (π : N → n) (v : N → ℝ) (w : n → ℝ) (y : N → ℝ) (z : n → ℝ) : ℝ :=
  -(1 / 2) * (∑ i, (y i - z (π i)) ^ 2 / v i + (∑ i, Real.log (v i) - ∑ l, Real.log (w l))
    + ((Fintype.card N : ℝ) - Fintype.card n) * Real.log (2 * Real.pi))

theorem det_pooled (h : Pooled π v w) (K : Matrix n n ℝ) :
    (K.submatrix π π + Matrix.diagonal v).det * (Matrix.diagonal w).det = (Matrix.diagonal v).det * (K + Matrix.diagonal w).det := by
  have hv : Matrix.diagonal v * (Matrix.diagonal fun i => 1 / v i) = 1 := by
    rw [Matrix.diagonal_mul_diagonal, ← Matrix.diagonal_one]
    congr 1
    funext i
    exact mul_one_div_cancel (h.1 i).ne'
  have hwi : Matrix.diagonal w * (Matrix.diagonal fun l => 1 / w l) = 1 := by
    rw [Matrix.diagonal_mul_diagonal, ← Matrix.diagonal_one]
    congr 1
    funext i
    exact mul_one_div_cancel (h.2.1 i).ne'
  have e1 : K.submatrix π π + Matrix.diagonal v
      = Matrix.diagonal v * (1 + ((Matrix.diagonal fun i => 1 / v i) * pick π * K) * (pick π)ᵀ) := by
    rw [Matrix.mul_add, Matrix.mul_one, ← pick_mul_transpose, add_comm]
    congr 1
    rw [← Matrix.mul_assoc, ← Matrix.mul_assoc, ← Matrix.mul_assoc, hv, Matrix.one_mul]
  have e2 : K + Matrix.diagonal w
      = Matrix.diagonal w * (1 + (pick π)ᵀ * ((Matrix.diagonal fun i => 1 / v i) * pick π * K)) := by
    rw [Matrix.mul_add, Matrix.mul_one, add_comm]
    congr 1
    rw [← Matrix.mul_assoc (pick π)ᵀ, ← Matrix.mul_assoc (pick π)ᵀ, pooled_gram h, ← Matrix.mul_assoc, hwi, Matrix.one_mul]
  rw [e1, e2, Matrix.det_mul, Matrix.det_mul, Matrix.det_one_add_mul_comm]
  ring

theorem quad_pooled (h : Pooled π v w) {K : Matrix n n ℝ} (hA : (K.submatrix π π + Matrix.diagonal v).PosDef)
    (hB : (K + Matrix.diagonal w).PosDef) {y : N → ℝ} {z : n → ℝ} (ha : Averaged π v w y z) :
    y ⬝ᵥ (K.submatrix π π + Matrix.diagonal v)⁻¹ *ᵥ y
      = z ⬝ᵥ (K + Matrix.diagonal w)⁻¹ *ᵥ z + ∑ i, (y i - z (π i)) ^ 2 / v i := by
  set D := Matrix.diagonal fun i => 1 / v i with hD
  set r := y - z ∘ π with hr
  have hwz : Averaged π v w r 0 := by
    have := averaged_sub h ha z
    rwa [sub_self] at this
  -- the spread is orthogonal to everything that depends on the averages only
  have horth : (pick π)ᵀ *ᵥ (D *ᵥ r) = 0 := by
    have h0 := averaged_eq hwz
    funext l
    have := congrFun h0 l
    rw [Matrix.mulVec_diagonal] at this
    exact ((mul_eq_zero.1 this.symm).resolve_left (h.2.1 l).ne')
  have hvD : ∀ u : N → ℝ, Matrix.diagonal v *ᵥ (D *ᵥ u) = u := fun u => by
    rw [hD, ← inv_diag_pos h.1, Matrix.mulVec_mulVec, Matrix.mul_nonsing_inv, Matrix.one_mulVec]
    rw [Matrix.det_diagonal]
    exact (Finset.prod_pos fun i _ => h.1 i).ne'.isUnit
  have hsol : (K.submatrix π π + Matrix.diagonal v) *ᵥ
      (D *ᵥ r + D *ᵥ (pick π *ᵥ (Matrix.diagonal w *ᵥ ((K + Matrix.diagonal w)⁻¹ *ᵥ z)))) = y := by
    set c := (K + Matrix.diagonal w)⁻¹ *ᵥ z with hc
    have hc' : K *ᵥ c + Matrix.diagonal w *ᵥ c = z := by
      rw [← Matrix.add_mulVec, hc, Matrix.mulVec_mulVec, mul_inv_of_posDef hB, Matrix.one_mulVec]
    have e1 : (K.submatrix π π) *ᵥ (D *ᵥ r) = 0 := by
      rw [← pick_mul_transpose, ← Matrix.mulVec_mulVec, horth, Matrix.mulVec_zero]
    have e2 : (K.submatrix π π) *ᵥ (D *ᵥ (pick π *ᵥ (Matrix.diagonal w *ᵥ c))) = pick π *ᵥ (K *ᵥ c) := by
      rw [← pick_mul_transpose]
      have : (pick π)ᵀ *ᵥ (D *ᵥ (pick π *ᵥ (Matrix.diagonal w *ᵥ c))) = c := by
        simp only [Matrix.mulVec_mulVec]
        have := pooled_gram h
        rw [← hD] at this
        rw [← Matrix.mul_assoc, ← Matrix.mul_assoc, this, Matrix.diagonal_mul_diagonal]
        have : (fun i => 1 / w i * w i) = fun _ => 1 := by
          funext i; exact one_div_mul_cancel (h.2.1 i).ne'
        rw [this, Matrix.diagonal_one, Matrix.one_mulVec]
      rw [← Matrix.mulVec_mulVec, this, ← Matrix.mulVec_mulVec]
    rw [Matrix.add_mulVec, Matrix.mulVec_add, Matrix.mulVec_add, e1, e2, hvD, hvD, zero_add]
    have : pick π *ᵥ (K *ᵥ c) + pick π *ᵥ (Matrix.diagonal w *ᵥ c) = z ∘ π := by
      rw [← Matrix.mulVec_add, hc', pick_mulVec]
    calc pick π *ᵥ (K *ᵥ c) + (r + pick π *ᵥ (Matrix.diagonal w *ᵥ c))
        = r + (pick π *ᵥ (K *ᵥ c) + pick π *ᵥ (Matrix.diagonal w *ᵥ c)) := by abel
      _ = y := by rw [this, hr]; abel
  have hinv : (K.submatrix π π + Matrix.diagonal v)⁻¹ *ᵥ y
      = D *ᵥ r + D *ᵥ (pick π *ᵥ (Matrix.diagonal w *ᵥ ((K + Matrix.diagonal w)⁻¹ *ᵥ z))) := by
    conv_lhs => rw [← hsol]
    rw [Matrix.mulVec_mulVec, inv_mul_of_posDef hA, Matrix.one_mulVec]
  have hDs : Dᵀ = D := Matrix.diagonal_transpose _
  rw [hinv, dotProduct_add, add_comm]
  congr 1
  · -- the averages
    rw [dot_symm hDs, ← Matrix.vecMul_transpose, ← Matrix.dotProduct_mulVec, ← Matrix.vecMul_transpose,
      ← Matrix.dotProduct_mulVec, Matrix.diagonal_transpose]
    rw [averaged_eq ha, dotProduct_comm]
  · -- the spread
    have hy : y = r + pick π *ᵥ z := by rw [pick_mulVec, hr]; abel
    have h1 : (pick π *ᵥ z) ⬝ᵥ D *ᵥ r = 0 := by
      rw [← Matrix.vecMul_transpose, ← Matrix.dotProduct_mulVec, horth, dotProduct_zero]
    conv_lhs => rw [hy]
    rw [add_dotProduct, h1, add_zero]
    simp only [dotProduct, hD, Matrix.mulVec_diagonal, hr, Pi.sub_apply, Function.comp]
    exact Finset.sum_congr rfl fun i _ => by ring

theorem logNormal_pooled (h : Pooled π v w) {K : Matrix n n ℝ} (hA : (K.submatrix π π + Matrix.diagonal v).PosDef)
    (hB : (K + Matrix.diagonal w).PosDef) (m : n → ℝ) {y : N → ℝ} {z : n → ℝ} (ha : Averaged π v w y z) :
    logNormal (K.submatrix π π + Matrix.diagonal v) (m ∘ π) y
      = logNormal (K + Matrix.diagonal w) m z + spreadTerm π v w y z := by
  have hd := congrArg Real.log (det_pooled h K)
  have pv : 0 < (Matrix.diagonal v).det := by rw [Matrix.det_diagonal]; exact Finset.prod_pos fun i _ => h.1 i
  have pw : 0 < (Matrix.diagonal w).det := by rw [Matrix.det_diagonal]; exact Finset.prod_pos fun i _ => h.2.1 i
  rw [Real.log_mul hA.det_pos.ne' pw.ne', Real.log_mul pv.ne' hB.det_pos.ne', Matrix.det_diagonal, Matrix.det_diagonal,
    Real.log_prod fun i _ => (h.1 i).ne', Real.log_prod fun i _ => (h.2.1 i).ne'] at hd
  have hq := quad_pooled h hA hB (averaged_sub h ha m)
  have e : ∑ i, ((y - m ∘ π) i - (z - m) (π i)) ^ 2 / v i = ∑ i, (y i - z (π i)) ^ 2 / v i :=
    Finset.sum_congr rfl fun i _ => by simp only [Pi.sub_apply, Function.comp]; ring
  rw [e] at hq
  rw [logNormal, logNormal, spreadTerm, hq]
  linear_combination (-(1 / 2) : ℝ) * hd

end

end Verif.GP
