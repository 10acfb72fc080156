import Verif.GP.KVModel
import Verif.LinAlg.CholProps

/-! What the stored factorisation means, and that `set_KV`, `update_KV`, `solve` and `logdet` respect it. -/

namespace Verif.GP

open Finset Verif.LinAlg

/-- `Pr A Pc = L U` with `L` unit lower and `U` upper triangular. -/
def LUFac.Factors {n : ℕ} (f : LUFac n) (A : Matrix (Fin n) (Fin n) ℝ) : Prop :=
  f.L * f.U = A.submatrix f.pr f.pc ∧ f.L.IsLowerTriangular ∧ (∀ i, f.L i i = 1) ∧ f.U.IsUpperTriangular

/-- What is assumed of SuperLU: it factorises every positive definite matrix, and what it returns is a
factorisation. -/
def SpluContract (e : Ext) : Prop :=
  (∀ n A f, e.splu n A = .ok f → f.Factors (toMat n A)) ∧
  (∀ n A, (toMat n A).PosDef → ∃ f, e.splu n A = .ok f)

/-- The size of the matrix the factorisation belongs to. -/
def Factor.size : Factor → ℕ
  | .chol n _ => n
  | .cholInv n _ _ => n
  | .inv n _ _ => n
  | .lu n _ => n
  | .raw n _ => n

/-- The mode a factorisation belongs to. -/
def Factor.mode : Factor → Mode
  | .chol _ _ => .chol
  | .cholInv _ _ _ => .cholInv
  | .inv _ _ _ => .inv
  | .lu _ _ => .sparseLU
  | .raw _ _ => .sparseSolve

/-- The factorisation represents the leading `f.size` block of `A`. -/
def Factor.Represents (f : Factor) (A : NMat) : Prop :=
  match f with
  | .chol n F => IsFactor n F A
  | .cholInv n F I => IsFactor n F A ∧ toMat n I = (toMat n A)⁻¹
  | .inv n KV I => toMat n KV = toMat n A ∧ toMat n I = (toMat n A)⁻¹
  | .lu n f => f.Factors (toMat n A)
  | .raw n KV => toMat n KV = toMat n A

theorem toMat_ofMat {n : ℕ} (A : Matrix (Fin n) (Fin n) ℝ) : toMat n (ofMat A) = A := by
  ext i j
  simp [toMat, ofMat]

theorem ofFin_apply {n : ℕ} (v : Fin n → ℝ) (i : Fin n) : ofFin v i = v i := by simp [ofFin]

theorem cholSolve_mulVec {n : ℕ} {F A : NMat} (hF : IsFactor n F A) (b : ℕ → ℝ) (i : Fin n) :
    cholSolve n F b i = ((toMat n A)⁻¹.mulVec fun l : Fin n => b l) i := by
  have hpd := posDef_of_factor hF
  have hA : (toMat n A).mulVec (fun i : Fin n => cholSolve n F b i) = fun l : Fin n => b l := by
    funext i
    have e2 := C16_solve_exact n F A hF b i i.2
    rw [Finset.sum_range] at e2
    simpa [Matrix.mulVec, dotProduct, toMat] using e2
  rw [← hA, Matrix.mulVec_mulVec, Matrix.nonsing_inv_mul _ hpd.det_pos.ne'.isUnit, Matrix.one_mulVec]

theorem luSolve_mulVec {n : ℕ} {f : LUFac n} {A : Matrix (Fin n) (Fin n) ℝ} (hf : f.Factors A)
    (hA : A.det ≠ 0) (b : ℕ → ℝ) (i : Fin n) :
    luSolve f b i = (A⁻¹.mulVec fun l : Fin n => b l) i := by
  rw [luSolve, ofFin_apply, Matrix.mulVec_mulVec, ← Matrix.mul_inv_rev, hf.1, Matrix.inv_submatrix_equiv]
  simp only [Matrix.mulVec, dotProduct, Matrix.submatrix_apply, Equiv.apply_symm_apply]
  exact Equiv.sum_comp f.pr fun j => A⁻¹ i j * b j

theorem lu_logdet {n : ℕ} {f : LUFac n} {A : Matrix (Fin n) (Fin n) ℝ} (hf : f.Factors A)
    (hA : A.PosDef) : ∑ i, Real.log |f.U i i| = Real.log A.det := by
  have hL : f.L.det = 1 := by
    rw [Matrix.det_of_lowerTriangular _ hf.2.1]
    exact Finset.prod_eq_one fun i _ => hf.2.2.1 i
  have hU : f.U.det = ∏ i, f.U i i := Matrix.det_of_upperTriangular hf.2.2.2
  have habs : |∏ i, f.U i i| = A.det := by
    have h := congrArg Matrix.det hf.1
    rw [Matrix.det_mul, hL, one_mul, hU] at h
    have e : A.submatrix f.pr f.pc = (A.submatrix (f.pr) id).submatrix id f.pc := by
      ext; simp
    rw [h, e, Matrix.det_permute', Matrix.det_permute]
    have s1 : ∀ σ : Equiv.Perm (Fin n), |((Equiv.Perm.sign σ : ℤ) : ℝ)| = 1 := by
      intro σ
      rcases Int.units_eq_one_or (Equiv.Perm.sign σ) with h | h <;> simp [h]
    rw [abs_mul, abs_mul, s1, s1, one_mul, one_mul, abs_of_pos hA.det_pos]
  have hne : ∀ i, f.U i i ≠ 0 := by
    intro i h0
    rw [Finset.prod_eq_zero (f := fun i => f.U i i) (mem_univ i) h0, abs_zero] at habs
    exact hA.det_pos.ne habs
  rw [← habs, Finset.abs_prod, Real.log_prod (fun i _ => abs_ne_zero.2 (hne i))]

/-- Solving with a factorisation of a positive definite matrix multiplies by its inverse. -/
theorem solve_eq {f : Factor} {A : NMat} (hf : f.Represents A) (hpd : (toMat f.size A).PosDef) (b : ℕ → ℝ)
    (i : Fin f.size) : solve f b i = ((toMat f.size A)⁻¹.mulVec fun l : Fin f.size => b l) i := by
  cases f with
  | chol n F => exact cholSolve_mulVec hf b i
  | cholInv n F I =>
    revert i
    intro (i : Fin n)
    change _ = ((toMat n A)⁻¹.mulVec fun l : Fin n => b l) i
    rw [← hf.2]
    simp [solve, Matrix.mulVec, dotProduct, toMat, Finset.sum_range]
  | inv n KV I =>
    revert i
    intro (i : Fin n)
    change _ = ((toMat n A)⁻¹.mulVec fun l : Fin n => b l) i
    rw [← hf.2]
    simp [solve, Matrix.mulVec, dotProduct, toMat, Finset.sum_range]
  | lu n f => exact luSolve_mulVec hf hpd.det_pos.ne' b i
  | raw n KV =>
    revert i
    intro (i : Fin n)
    change ofFin ((toMat n KV)⁻¹.mulVec fun i => b i) i = _
    rw [ofFin_apply]
    have : toMat n KV = toMat n A := hf
    rw [this]; rfl

/-- The log-determinant of the factorisation, in the modes that compute it exactly. -/
theorem logdet_eq (e : Ext) {f : Factor} {A : NMat} (hf : f.Represents A) (hpd : (toMat f.size A).PosDef)
    (hm : f.mode ≠ .sparseSolve) : logdet e f = Real.log (toMat f.size A).det := by
  cases f with
  | chol n F => exact C16_logdet_exact n F A hf
  | cholInv n F I => exact C16_logdet_exact n F A hf.1
  | inv n KV I =>
    change slogdet (toMat n KV) = _
    have : toMat n KV = toMat n A := hf.1
    rw [this]
    exact C15_slogdet_posDef _ hpd
  | lu n f => exact lu_logdet hf hpd
  | raw n KV => exact absurd rfl hm

theorem toMat_symm {n : ℕ} {A : NMat} (h : (toMat n A).PosDef) : ∀ i < n, ∀ j < n, A i j = A j i := by
  intro i hi j hj
  have := congrFun (congrFun h.isHermitian ⟨i, hi⟩) ⟨j, hj⟩
  simpa [Matrix.conjTranspose_apply, toMat, eq_comm] using this

theorem toMat_ext {n : ℕ} {A B : NMat} (h : ∀ i < n, ∀ j < n, A i j = B i j) : toMat n A = toMat n B := by
  ext i j
  exact h i i.2 j j.2

theorem IsFactor.congr {n : ℕ} {F A B : NMat} (h : IsFactor n F A) (hAB : toMat n A = toMat n B) :
    IsFactor n F B := by
  refine ⟨h.1, fun i hi j hj => ?_⟩
  rw [h.2 i hi j hj]
  exact congrFun (congrFun hAB ⟨i, hi⟩) ⟨j, hj⟩

/-- Only the block of the factorisation's size matters. -/
theorem Factor.Represents.congr {f : Factor} {A B : NMat} (h : f.Represents A)
    (hAB : toMat f.size A = toMat f.size B) : f.Represents B := by
  cases f with
  | chol n F => exact IsFactor.congr h hAB
  | cholInv n F I => exact ⟨IsFactor.congr h.1 hAB, by rw [h.2]; exact congrArg _ hAB⟩
  | inv n KV I => exact ⟨h.1.trans hAB, by rw [h.2]; exact congrArg _ hAB⟩
  | lu n f =>
    have e : toMat n A = toMat n B := hAB
    change f.Factors (toMat n A) at h
    change f.Factors (toMat n B)
    rwa [e] at h
  | raw n KV => exact Eq.trans h hAB

/-- `set_KV` succeeds for a positive definite matrix and stores a factorisation of it. -/
theorem setKV_ok (e : Ext) (he : SpluContract e) (mode : Mode) (n : ℕ) (A : NMat) (hpd : (toMat n A).PosDef) :
    ∃ f, setKV e mode n A = .ok f ∧ f.size = n ∧ f.mode = mode ∧ f.Represents A := by
  cases mode with
  | chol =>
    obtain ⟨F, hF, hfac⟩ := (C12_from_scratch_iff_posDef n A e.junk (toMat_symm hpd)).2 hpd
    exact ⟨.chol n F, by simp [setKV, hF, bind, Except.bind], rfl, rfl, hfac⟩
  | cholInv =>
    obtain ⟨F, hF, hfac⟩ := (C12_from_scratch_iff_posDef n A e.junk (toMat_symm hpd)).2 hpd
    exact ⟨.cholInv n F (invFromChol n F), by simp [setKV, hF, bind, Except.bind], rfl, rfl, hfac,
      C16_inverse_exact n F A hfac⟩
  | inv =>
    refine ⟨.inv n A (ofMat (toMat n A)⁻¹), ?_, rfl, rfl, rfl, toMat_ofMat _⟩
    simp [setKV, npInv, hpd.det_pos.ne', bind, Except.bind]
  | sparseLU =>
    obtain ⟨f, hf⟩ := he.2 n A hpd
    exact ⟨.lu n f, by simp [setKV, hf, bind, Except.bind], rfl, rfl, he.1 n A f hf⟩
  | sparseSolve => exact ⟨.raw n A, rfl, rfl, rfl, rfl⟩

theorem splitMat_posDef {n p : ℕ} {A : NMat} (h : (toMat (n + p) A).PosDef) : (splitMat n p A).PosDef := by
  have e : splitMat n p A = (toMat (n + p) A).submatrix finSumFinEquiv finSumFinEquiv := by
    ext a b
    rcases a with a | a <;> rcases b with b | b <;> simp [splitMat, toMat]
  rw [e]
  exact h.submatrix finSumFinEquiv.injective

theorem splitMat_block {n p : ℕ} (A : NMat) : (splitMat n p A).toBlocks₁₁ = toMat n A := by
  ext a b
  simp [splitMat, toMat, Matrix.toBlocks₁₁]

theorem toMat_joinMat {n p : ℕ} (M : Matrix (Fin n ⊕ Fin p) (Fin n ⊕ Fin p) ℝ) :
    toMat (n + p) (joinMat n p M) = M.submatrix finSumFinEquiv.symm finSumFinEquiv.symm := by
  have ix : ∀ i : Fin (n + p), (if h : (i : ℕ) < n then some (Sum.inl (⟨i, h⟩ : Fin n))
    else if h' : (i : ℕ) - n < p then some (Sum.inr (⟨i - n, h'⟩ : Fin p)) else none)
      = some (finSumFinEquiv.symm i) := by
    intro i
    induction i using Fin.addCases with
    | left i => simp
    | right i => simp
  ext i j
  simp only [toMat, joinMat, Matrix.of_apply, ix, Matrix.submatrix_apply]

/-- `update_KV` succeeds for a positive definite matrix and stores a factorisation of it, provided the stored
factorisation belongs to its leading block (or the matrix did not grow). -/
theorem updateKV_ok (e : Ext) (he : SpluContract e) (f : Factor) (N : ℕ) (A : NMat) (hpd : (toMat N A).PosDef)
    (hf : f.size < N → f.Represents A) :
    ∃ f', updateKV e f N A = .ok f' ∧ f'.size = N ∧ f'.mode = f.mode ∧ f'.Represents A := by
  have chol : ∀ n F, (n < N → IsFactor n F A) →
      ∃ F', (if N ≤ n then cholFactor e.junk N A else updateChol n F N A) = .ok F' ∧ IsFactor N F' A := by
    intro n F hF
    by_cases h : N ≤ n
    · rw [if_pos h]
      exact (C12_from_scratch_iff_posDef N A e.junk (toMat_symm hpd)).2 hpd
    · rw [if_neg h]
      exact C11_update_gives_factor n N F A (by omega) (toMat_symm hpd) (hF (by omega)) hpd
  cases f with
  | chol n F =>
    obtain ⟨F', h, hfac⟩ := chol n F hf
    exact ⟨.chol N F', by
      by_cases hN : N ≤ n <;> simp only [hN, if_true, if_false] at h <;> simp [updateKV, hN, h, bind, Except.bind], rfl, rfl, hfac⟩
  | cholInv n F I =>
    obtain ⟨F', h, hfac⟩ := chol n F fun h => (hf h).1
    exact ⟨.cholInv N F' (invFromChol N F'), by
      by_cases hN : N ≤ n <;> simp only [hN, if_true, if_false] at h <;> simp [updateKV, hN, h, bind, Except.bind], rfl, rfl, hfac,
      C16_inverse_exact N F' A hfac⟩
  | inv n KV I =>
    by_cases h : N ≤ n
    · refine ⟨.inv N A (ofMat (toMat N A)⁻¹), ?_, rfl, rfl, rfl, toMat_ofMat _⟩
      simp [updateKV, h, npInv, hpd.det_pos.ne', bind, Except.bind]
    · obtain ⟨p, rfl⟩ := Nat.exists_eq_add_of_le (show n ≤ N by omega)
      have hI : toMat n I = (toMat n A)⁻¹ := (hf (by simp only [Factor.size]; omega)).2
      have hsp := splitMat_posDef hpd
      have hlead := posDef_leading hpd (show n ≤ n + p by omega)
      have hup := C14_update_inv_exact (splitMat n p A) (by
          have := hsp.isHermitian
          rwa [Matrix.IsHermitian, Matrix.conjTranspose_eq_transpose_of_trivial] at this)
        (by rw [splitMat_block]; exact hlead.det_pos.ne') hsp.det_pos.ne'
      rw [splitMat_block, ← hI] at hup
      refine ⟨.inv (n + p) A (joinMat n p (splitMat n p A)⁻¹), ?_, rfl, rfl, rfl, ?_⟩
      · simp only [updateKV, if_neg h]
        generalize hq : n + p - n = q
        have : q = p := by omega
        subst this
        rw [hup]; rfl
      · rw [toMat_joinMat, ← Matrix.inv_submatrix_equiv]
        congr 1
        ext i j
        have hix : ∀ i : Fin (n + p), (finSumFinEquiv.symm i).elim (fun i : Fin n => (i : ℕ))
            (fun i : Fin p => n + (i : ℕ)) = (i : ℕ) := by
          intro i
          induction i using Fin.addCases with
          | left i => simp
          | right i => simp
        simp only [splitMat, Matrix.submatrix_apply, Matrix.of_apply, hix, toMat]
  | lu n g =>
    obtain ⟨f, hf⟩ := he.2 N A hpd
    exact ⟨.lu N f, by simp [updateKV, hf, bind, Except.bind], rfl, rfl, he.1 N A f hf⟩
  | raw n KV => exact ⟨.raw N A, rfl, rfl, rfl, rfl⟩

/-! ## SuperLU's contract can be met -/

/-- A factorisation of positive definite matrices obtained from Cholesky: `L = F D⁻¹`, `U = D Fᵀ`. -/
noncomputable def cholExt : Ext where
  junk := fun _ _ => 0
  splu n A := open Classical in
    if h : ∃ f : LUFac n, f.Factors (toMat n A) then .ok h.choose else .error "singular"
  randomLogdet := fun _ _ => 0

theorem cholExt_contract : SpluContract cholExt := by
  constructor
  · intro n A f h
    simp only [cholExt] at h
    split at h
    · rename_i hex
      simp only [Except.ok.injEq] at h
      rw [← h]
      exact hex.choose_spec
    · simp at h
  · intro n A hpd
    obtain ⟨F, -, hfac⟩ := (C12_from_scratch_iff_posDef n A (fun _ _ => 0) (toMat_symm hpd)).2 hpd
    have hne : ∀ i : Fin n, F i i ≠ 0 := fun i => (hfac.1 i i.2).ne'
    let D : Fin n → ℝ := fun i => F i i
    have hex : ∃ f : LUFac n, f.Factors (toMat n A) := by
      refine ⟨⟨1, 1, toMat n (low F) * Matrix.diagonal (fun i => (D i)⁻¹),
        Matrix.diagonal D * (toMat n (low F)).transpose⟩, ?_, ?_, ?_, ?_⟩
      · simp only
        rw [Matrix.mul_assoc, ← Matrix.mul_assoc (Matrix.diagonal _), Matrix.diagonal_mul_diagonal]
        have : (Matrix.diagonal fun i => (D i)⁻¹ * D i) = 1 := by
          rw [← Matrix.diagonal_one]
          congr 1
          funext i
          exact inv_mul_cancel₀ (hne i)
        rw [this, Matrix.one_mul, ← toMat_eq_mul hfac]
        ext i j
        simp
      · intro i j hij
        simp only [Matrix.mul_diagonal]
        rw [toMat_low_tri n F hij, zero_mul]
      · intro i
        simp only [Matrix.mul_diagonal, toMat, Matrix.of_apply, low, le_refl, if_true]
        exact mul_inv_cancel₀ (hne i)
      · intro i j hij
        simp only [Matrix.diagonal_mul, Matrix.transpose_apply]
        rw [toMat_low_tri n F (by simpa using hij), mul_zero]
    exact ⟨hex.choose, by simp only [cholExt]; rw [dif_pos hex]⟩

end Verif.GP
