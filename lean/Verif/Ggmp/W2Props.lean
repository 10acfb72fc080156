import Verif.Ggmp.W2Model
import Mathlib.LinearAlgebra.Matrix.PosDef
import Mathlib.LinearAlgebra.Matrix.Charpoly.Basic
import Mathlib.LinearAlgebra.Matrix.Block
import Mathlib.Data.Matrix.ColumnRowPartitioned
import Mathlib.Analysis.Matrix.Order
import Mathlib.Data.Real.StarOrdered

/-!
C110: the squared Wasserstein distance of two Gaussians.
-/

namespace Verif.Ggmp

open Matrix

variable {d : ℕ}

/-- What `np.linalg.eigh` returns for a symmetric matrix. -/
def EighContract (e : Eigh d) : Prop :=
  ∀ a : Matrix (Fin d) (Fin d) ℝ, aᵀ = a → (e.vecs a)ᵀ * e.vecs a = 1 ∧ e.vecs a * diagonal (e.vals a) * (e.vecs a)ᵀ = a

/-- `C` is a possible cross-covariance of random vectors with covariances `A` and `B`. -/
def Coupling (A B C : Matrix (Fin d) (Fin d) ℝ) : Prop := (fromBlocks A C Cᵀ B).PosSemidef

/-- `E ‖X - Y‖²` for random vectors with the given means, covariances and cross-covariance. -/
noncomputable def meanSquare (ma mb : Fin d → ℝ) (A B C : Matrix (Fin d) (Fin d) ℝ) : ℝ :=
  ∑ i, (ma i - mb i) ^ 2 + ∑ i, (A i i + B i i - 2 * C i i)

theorem symPsd_of_symm {a : Matrix (Fin d) (Fin d) ℝ} (h : aᵀ = a) : symPsd a = a := by
  unfold symPsd
  rw [h, ← two_smul ℝ a, smul_smul]
  norm_num

theorem symPsd_symm (a : Matrix (Fin d) (Fin d) ℝ) : (symPsd a)ᵀ = symPsd a := by
  unfold symPsd
  rw [transpose_smul, transpose_add, transpose_transpose, add_comm]

theorem psd_symm {a : Matrix (Fin d) (Fin d) ℝ} (h : a.PosSemidef) : aᵀ = a := by
  have := h.1
  rwa [IsHermitian, conjTranspose_eq_transpose_of_trivial] at this

theorem above_symm {a : Matrix (Fin d) (Fin d) ℝ} {c : ℝ} (h : (a - c • 1).PosSemidef) : aᵀ = a := by
  have := psd_symm h
  rw [transpose_sub, transpose_smul, transpose_one] at this
  exact sub_left_injective this

/-- A function of a symmetric matrix through an orthogonal diagonalisation. -/
theorem spectral_mul {V : Matrix (Fin d) (Fin d) ℝ} (hV : Vᵀ * V = 1) (f g : Fin d → ℝ) :
    V * diagonal f * Vᵀ * (V * diagonal g * Vᵀ) = V * diagonal (fun i => f i * g i) * Vᵀ := by
  have : V * diagonal f * Vᵀ * (V * diagonal g * Vᵀ) = V * diagonal f * (Vᵀ * V) * diagonal g * Vᵀ := by
    simp only [Matrix.mul_assoc]
  rw [this, hV, Matrix.mul_one, Matrix.mul_assoc V, diagonal_mul_diagonal]

theorem spectral_symm (V : Matrix (Fin d) (Fin d) ℝ) (f : Fin d → ℝ) : (V * diagonal f * Vᵀ)ᵀ = V * diagonal f * Vᵀ := by
  simp [transpose_mul, Matrix.mul_assoc]

theorem orth_right {V : Matrix (Fin d) (Fin d) ℝ} (hV : Vᵀ * V = 1) : V * Vᵀ = 1 := mul_eq_one_comm.1 hV

/-- Eigenvalues are at least `c` if the matrix is. -/
theorem spectral_above {V a : Matrix (Fin d) (Fin d) ℝ} {f : Fin d → ℝ} (hV : Vᵀ * V = 1) (ha : V * diagonal f * Vᵀ = a)
    {c : ℝ} (h : (a - c • 1).PosSemidef) (i : Fin d) : c ≤ f i := by
  have h1 := h.conjTranspose_mul_mul_same V
  have e : Vᴴ * (a - c • 1) * V = diagonal fun i => f i - c := by
    rw [conjTranspose_eq_transpose_of_trivial, ← ha, Matrix.mul_sub, Matrix.sub_mul]
    have h2 : Vᵀ * (V * diagonal f * Vᵀ) * V = (Vᵀ * V) * diagonal f * (Vᵀ * V) := by simp only [Matrix.mul_assoc]
    rw [h2, hV, Matrix.mul_smul, Matrix.smul_mul, Matrix.mul_one Vᵀ, hV, Matrix.one_mul, Matrix.mul_one]
    ext j k
    by_cases hjk : j = k <;> simp [hjk, diagonal_apply, one_apply]
  rw [e, posSemidef_diagonal_iff] at h1
  have := h1 i
  linarith

/-- The square root and a square root of it. -/
theorem sqrtm_spec {e : Eigh d} (he : EighContract e) {a : Matrix (Fin d) (Fin d) ℝ} (h : (a - sqrtEps • 1).PosSemidef) :
    ∃ W : Matrix (Fin d) (Fin d) ℝ, Wᵀ = W ∧ sqrtmPsd e a = W * W ∧ W * W * (W * W) = a ∧ IsUnit W.det := by
  have hs := above_symm h
  obtain ⟨hV, hA⟩ := he a hs
  have hpos : ∀ i, sqrtEps ≤ e.vals a i := spectral_above hV hA h
  have hp : ∀ i, 0 < e.vals a i := fun i => lt_of_lt_of_le (by unfold sqrtEps; positivity) (hpos i)
  have hw : ∀ i, √(√(e.vals a i)) * √(√(e.vals a i)) = √(e.vals a i) := fun i => Real.mul_self_sqrt (Real.sqrt_nonneg _)
  have hw2 : ∀ i, √(e.vals a i) * √(e.vals a i) = e.vals a i := fun i => Real.mul_self_sqrt (hp i).le
  refine ⟨e.vecs a * diagonal (fun i => √(√(e.vals a i))) * (e.vecs a)ᵀ, spectral_symm _ _, ?_, ?_, ?_⟩
  · rw [spectral_mul hV]
    unfold sqrtmPsd
    simp only [symPsd_of_symm hs, hw, max_eq_left (hpos _)]
  · rw [spectral_mul hV, spectral_mul hV]
    simp only [hw, hw2]
    exact hA
  · rw [isUnit_iff_ne_zero, det_mul, det_mul, det_transpose, det_diagonal]
    have hd : (e.vecs a).det ≠ 0 := by
      intro h0
      have := congrArg det hV
      rw [det_mul, h0, mul_zero, det_one] at this
      exact zero_ne_one this
    refine mul_ne_zero (mul_ne_zero hd (Finset.prod_ne_zero_iff.2 fun i _ => ?_)) hd
    exact (Real.sqrt_pos.2 (Real.sqrt_pos.2 (hp i))).ne'

/-- The inequality behind the optimality. -/
theorem coupling_trace {A B C : Matrix (Fin d) (Fin d) ℝ} (h : Coupling A B C) (P Q : Matrix (Fin d) (Fin d) ℝ) :
    2 * trace (Pᵀ * C * Q) ≤ trace (Pᵀ * A * P) + trace (Qᵀ * B * Q) := by
  have h1 := (PosSemidef.conjTranspose_mul_mul_same h (fromRows P (-Q))).trace_nonneg
  rw [conjTranspose_fromRows_eq_fromCols_conjTranspose, fromCols_mul_fromBlocks, fromCols_mul_fromRows] at h1
  simp only [conjTranspose_eq_transpose_of_trivial, transpose_neg, Matrix.neg_mul, Matrix.mul_neg, Matrix.add_mul,
    trace_add, trace_neg] at h1
  have h2 : trace (Qᵀ * Cᵀ * P) = trace (Pᵀ * C * Q) := by
    rw [← trace_transpose (Pᵀ * C * Q)]
    simp [transpose_mul, Matrix.mul_assoc]
  rw [h2] at h1
  linarith

theorem meanSquare_eq (ma mb : Fin d → ℝ) (A B C : Matrix (Fin d) (Fin d) ℝ) :
    meanSquare ma mb A B C = (ma - mb) ⬝ᵥ (ma - mb) + trace (A + B - (2 : ℝ) • C) := by
  unfold meanSquare trace
  simp [dotProduct, sq]

theorem meanSquare_nonneg {ma mb : Fin d → ℝ} {A B C : Matrix (Fin d) (Fin d) ℝ} (h : Coupling A B C) :
    0 ≤ trace (A + B - (2 : ℝ) • C) := by
  have := coupling_trace h 1 1
  simp only [transpose_one, Matrix.one_mul, Matrix.mul_one] at this
  rw [trace_sub, trace_add, trace_smul, smul_eq_mul]
  linarith

theorem optimal_trace {e : Eigh d} (he : EighContract e) {A B : Matrix (Fin d) (Fin d) ℝ}
    (hA : (A - (1 / 10 ^ 6 : ℝ) • 1).PosSemidef) (hB : (B - (1 / 10 ^ 6 : ℝ) • 1).PosSemidef) :
    let R := sqrtmPsd e (symPsd (sqrtmPsd e A * B * sqrtmPsd e A))
    (∃ C, Coupling A B C ∧ trace C = trace R) ∧ ∀ C, Coupling A B C → trace C ≤ trace R := by
  intro R
  have h12 : ∀ {X : Matrix (Fin d) (Fin d) ℝ}, (X - (1 / 10 ^ 6 : ℝ) • 1).PosSemidef → (X - sqrtEps • 1).PosSemidef := by
    intro X hX
    have h1 : ((1 / 10 ^ 6 - sqrtEps : ℝ) • (1 : Matrix (Fin d) (Fin d) ℝ)).PosSemidef :=
      PosSemidef.smul PosSemidef.one (by unfold sqrtEps; norm_num)
    have := hX.add h1
    convert this using 1
    rw [sub_smul]; abel
  have hBs := above_symm hB
  obtain ⟨U, hUs, hU1, hU2, hUu⟩ := sqrtm_spec he (h12 hA)
  set S := sqrtmPsd e A with hS
  have hSs : Sᵀ = S := by rw [hU1, transpose_mul, hUs]
  have hSS : S * S = A := by rw [hU1]; exact hU2
  have hSu : IsUnit S.det := by rw [hU1, det_mul]; exact hUu.mul hUu
  have hms : (S * B * S)ᵀ = S * B * S := by rw [transpose_mul, transpose_mul, hSs, hBs, Matrix.mul_assoc]
  have hmid : (S * B * S - sqrtEps • 1).PosSemidef := by
    have h1 := hB.conjTranspose_mul_mul_same S
    have h2 := PosSemidef.smul hA (show (0 : ℝ) ≤ 1 / 10 ^ 6 by positivity)
    have := h1.add h2
    convert this using 1
    rw [conjTranspose_eq_transpose_of_trivial, hSs, Matrix.mul_sub, Matrix.sub_mul, Matrix.mul_smul, Matrix.smul_mul,
      Matrix.mul_one, hSS, smul_sub, smul_smul]
    have : (1 / 10 ^ 6 * (1 / 10 ^ 6) : ℝ) = sqrtEps := by unfold sqrtEps; norm_num
    rw [this]; abel
  obtain ⟨W, hWs, hW1, hW2, hWu⟩ := sqrtm_spec he hmid
  have hR : R = W * W := by rw [← hW1]; show sqrtmPsd e (symPsd (S * B * S)) = _; rw [symPsd_of_symm hms]
  have hSi := Matrix.mul_nonsing_inv S hSu
  have hSi' := Matrix.nonsing_inv_mul S hSu
  have hWi := Matrix.mul_nonsing_inv W hWu
  have hWi' := Matrix.nonsing_inv_mul W hWu
  have hSit : S⁻¹ᵀ = S⁻¹ := by rw [transpose_nonsing_inv, hSs]
  have hWit : W⁻¹ᵀ = W⁻¹ := by rw [transpose_nonsing_inv, hWs]
  have hRs : Rᵀ = R := by rw [hR, transpose_mul, hWs]
  have hRR : R * R = S * B * S := by rw [hR]; exact hW2
  constructor
  · refine ⟨S * (R * S⁻¹), ?_, ?_⟩
    · have hN : fromBlocks A (S * (R * S⁻¹)) (S * (R * S⁻¹))ᵀ B = fromRows S (S⁻¹ * R) * (fromRows S (S⁻¹ * R))ᴴ := by
        rw [conjTranspose_fromRows_eq_fromCols_conjTranspose, fromRows_mul_fromCols]
        simp only [conjTranspose_eq_transpose_of_trivial, transpose_mul, hSs, hSit, hRs]
        congr 1
        · exact hSS.symm
        · have : S⁻¹ * R * (R * S⁻¹) = S⁻¹ * (R * R) * S⁻¹ := by simp only [Matrix.mul_assoc]
          rw [this, hRR]
          have : S⁻¹ * (S * B * S) * S⁻¹ = (S⁻¹ * S) * B * (S * S⁻¹) := by simp only [Matrix.mul_assoc]
          rw [this, hSi, hSi', Matrix.one_mul, Matrix.mul_one]
      unfold Coupling
      rw [hN]
      exact posSemidef_self_mul_conjTranspose _
    · rw [trace_mul_comm, Matrix.mul_assoc, hSi', Matrix.mul_one]
  · intro C hC
    have h := coupling_trace hC (S⁻¹ * W) (S * W⁻¹)
    have e1 : trace ((S⁻¹ * W)ᵀ * C * (S * W⁻¹)) = trace C := by
      rw [transpose_mul, hSit, hWs, Matrix.mul_assoc, trace_mul_comm]
      have : C * (S * W⁻¹) * (W * S⁻¹) = C * (S * (W⁻¹ * W) * S⁻¹) := by simp only [Matrix.mul_assoc]
      rw [this, hWi', Matrix.mul_one, hSi, Matrix.mul_one]
    have e2 : (S⁻¹ * W)ᵀ * A * (S⁻¹ * W) = R := by
      rw [transpose_mul, hSit, hWs, ← hSS, hR]
      have : W * S⁻¹ * (S * S) * (S⁻¹ * W) = W * (S⁻¹ * S) * (S * S⁻¹) * W := by simp only [Matrix.mul_assoc]
      rw [this, hSi, hSi', Matrix.mul_one, Matrix.mul_one]
    have e3 : (S * W⁻¹)ᵀ * B * (S * W⁻¹) = R := by
      rw [transpose_mul, hSs, hWit, hR]
      have : W⁻¹ * S * B * (S * W⁻¹) = W⁻¹ * (S * B * S) * W⁻¹ := by simp only [Matrix.mul_assoc]
      rw [this, ← hW2]
      have : W⁻¹ * (W * W * (W * W)) * W⁻¹ = (W⁻¹ * W) * W * W * (W * W⁻¹) := by simp only [Matrix.mul_assoc]
      rw [this, hWi, hWi', Matrix.one_mul, Matrix.mul_one]
    rw [e1, e2, e3] at h
    linarith

/-- For covariances not smaller than `1e-6` the result is the squared Wasserstein distance: the least mean squared distance of
random vectors with the given means and covariances. -/
theorem C110_exact_partial {e : Eigh d} (he : EighContract e) (ma mb : Fin d → ℝ) {A B : Matrix (Fin d) (Fin d) ℝ}
    (hA : (A - (1 / 10 ^ 6 : ℝ) • 1).PosSemidef) (hB : (B - (1 / 10 ^ 6 : ℝ) • 1).PosSemidef) :
    IsLeast {v | ∃ C, Coupling A B C ∧ v = meanSquare ma mb A B C} (gaussianW2 e ma A mb B) := by
  obtain ⟨⟨C, hC, hCt⟩, hle⟩ := optimal_trace he hA hB
  have hv : gaussianW2 e ma A mb B = meanSquare ma mb A B C := by
    rw [meanSquare_eq]
    have h0 := meanSquare_nonneg (ma := ma) (mb := mb) hC
    unfold gaussianW2
    simp only [symPsd_of_symm (above_symm hA), symPsd_of_symm (above_symm hB)]
    rw [trace_sub, trace_add, trace_smul, hCt] at h0
    rw [trace_sub, trace_add, trace_smul, max_eq_left h0, trace_sub, trace_add, trace_smul, hCt]
  refine ⟨⟨C, hC, hv⟩, ?_⟩
  rintro v ⟨C', hC', rfl⟩
  rw [hv, meanSquare_eq, meanSquare_eq]
  have := hle C' hC'
  rw [← hCt] at this
  simp only [trace_sub, trace_smul, smul_eq_mul]
  linarith

theorem coupling_swap {A B C : Matrix (Fin d) (Fin d) ℝ} (h : Coupling A B C) : Coupling B A Cᵀ := by
  have := h.submatrix (Sum.swap : Fin d ⊕ Fin d → Fin d ⊕ Fin d)
  unfold Coupling
  convert this using 1
  ext i j
  rcases i with i | i <;> rcases j with j | j <;> rfl

/-- The order of the arguments does not matter. -/
theorem C110_symmetric {e : Eigh d} (he : EighContract e) (ma mb : Fin d → ℝ) {A B : Matrix (Fin d) (Fin d) ℝ}
    (hA : (A - (1 / 10 ^ 6 : ℝ) • 1).PosSemidef) (hB : (B - (1 / 10 ^ 6 : ℝ) • 1).PosSemidef) :
    gaussianW2 e ma A mb B = gaussianW2 e mb B ma A := by
  have key : ∀ (ma mb : Fin d → ℝ) (A B C : Matrix (Fin d) (Fin d) ℝ), meanSquare ma mb A B C = meanSquare mb ma B A Cᵀ := by
    intro ma mb A B C
    unfold meanSquare
    congr 1
    · exact Finset.sum_congr rfl fun i _ => by ring
    · exact Finset.sum_congr rfl fun i _ => by rw [transpose_apply]; ring
  have h1 := C110_exact_partial he ma mb hA hB
  have h2 := C110_exact_partial he mb ma hB hA
  have hset : {v | ∃ C, Coupling A B C ∧ v = meanSquare ma mb A B C} = {v | ∃ C, Coupling B A C ∧ v = meanSquare mb ma B A C} := by
    ext v
    constructor
    · rintro ⟨C, hC, rfl⟩; exact ⟨Cᵀ, coupling_swap hC, key _ _ _ _ _⟩
    · rintro ⟨C, hC, rfl⟩; exact ⟨Cᵀ, coupling_swap hC, key _ _ _ _ _⟩
  rw [hset] at h1
  exact h1.unique h2

/-- Components with different moments are told apart. -/
theorem C110_separates {e : Eigh d} (he : EighContract e) (ma mb : Fin d → ℝ) {A B : Matrix (Fin d) (Fin d) ℝ}
    (hA : (A - (1 / 10 ^ 6 : ℝ) • 1).PosSemidef) (hB : (B - (1 / 10 ^ 6 : ℝ) • 1).PosSemidef) (h : gaussianW2 e ma A mb B = 0) :
    ma = mb ∧ A = B := by
  obtain ⟨⟨C, hC, hv⟩, -⟩ := C110_exact_partial he ma mb hA hB
  rw [h, meanSquare_eq] at hv
  have h0 := meanSquare_nonneg (ma := ma) (mb := mb) hC
  have h1 : 0 ≤ (ma - mb) ⬝ᵥ (ma - mb) := Finset.sum_nonneg fun i _ => mul_self_nonneg _
  have hm : (ma - mb) ⬝ᵥ (ma - mb) = 0 := by linarith
  have ht : trace (A + B - (2 : ℝ) • C) = 0 := by linarith
  refine ⟨?_, ?_⟩
  · have := (Finset.sum_eq_zero_iff_of_nonneg fun i _ => mul_self_nonneg ((ma - mb) i)).1 hm
    funext i
    have := mul_self_eq_zero.1 (this i (Finset.mem_univ i))
    simpa [sub_eq_zero] using this
  · -- `M (P, -P)` vanishes
    have hps := PosSemidef.conjTranspose_mul_mul_same hC (fromRows (1 : Matrix (Fin d) (Fin d) ℝ) (-1))
    have hexp : (fromRows (1 : Matrix (Fin d) (Fin d) ℝ) (-1))ᴴ * fromBlocks A C Cᵀ B * fromRows 1 (-1) = A + B - C - Cᵀ := by
      rw [conjTranspose_fromRows_eq_fromCols_conjTranspose, fromCols_mul_fromBlocks, fromCols_mul_fromRows]
      simp only [conjTranspose_eq_transpose_of_trivial, transpose_neg, transpose_one, Matrix.neg_mul, Matrix.mul_neg,
        Matrix.one_mul, Matrix.mul_one]
      abel
    have hz : (A + B - C - Cᵀ).trace = 0 := by
      simp only [trace_sub, trace_add, trace_smul, smul_eq_mul, trace_transpose] at ht ⊢
      linarith
    have hd : ∀ i, (A + B - C - Cᵀ) i i = 0 := by
      intro i
      rw [hexp] at hps
      exact (Finset.sum_eq_zero_iff_of_nonneg fun j _ => hps.diag_nonneg).1 hz i (Finset.mem_univ i)
    have hvec : ∀ i, fromBlocks A C Cᵀ B *ᵥ Sum.elim (Pi.single i 1) (-Pi.single i 1) = 0 := by
      intro i
      have := (PosSemidef.dotProduct_mulVec_zero_iff hC (Sum.elim (Pi.single i 1) (-Pi.single i 1))).1
      apply this
      have h2 := hd i
      simp only [star_trivial, fromBlocks_mulVec, dotProduct, Fintype.sum_sum_type, Sum.elim_inl, Sum.elim_inr]
      simp [mulVec_neg, Pi.single_apply] at h2 ⊢
      linarith
    have hrow : ∀ i j, A i j = C i j ∧ Cᵀ i j = B i j := by
      intro i j
      have h2 := hvec j
      have h3 := congrFun h2 (Sum.inl i)
      have h4 := congrFun h2 (Sum.inr i)
      simp [fromBlocks_mulVec, mulVec_neg] at h3 h4
      constructor
      · linarith
      · rw [transpose_apply]; linarith
    have hAs := above_symm hA
    ext i j
    rw [← (hrow i j).2, transpose_apply, ← (hrow j i).1, ← transpose_apply A, hAs]

/-- Two orthogonal diagonalisations have the same eigenvalues. -/
theorem spectral_unique {U V : Matrix (Fin d) (Fin d) ℝ} {f g : Fin d → ℝ} (hU : Uᵀ * U = 1) (hV : Vᵀ * V = 1)
    (h : U * diagonal f * Uᵀ = V * diagonal g * Vᵀ) (φ : ℝ → ℝ) : ∑ i, φ (f i) = ∑ i, φ (g i) := by
  have key : ∀ {X : Matrix (Fin d) (Fin d) ℝ} (k : Fin d → ℝ), Xᵀ * X = 1 →
      (X * diagonal k * Xᵀ).charpoly.roots = Finset.univ.val.map k := by
    intro X k hX
    rw [Matrix.mul_assoc, charpoly_mul_comm, Matrix.mul_assoc, hX, Matrix.mul_one, charpoly_diagonal]
    have : ∏ i, (Polynomial.X - Polynomial.C (k i)) = ((Finset.univ.val.map k).map fun a => Polynomial.X - Polynomial.C a).prod := by
      rw [Multiset.map_map]; rfl
    rw [this, Polynomial.roots_multiset_prod_X_sub_C]
  have h1 := (key f hU).symm.trans ((congrArg (fun X => X.charpoly.roots) h).trans (key g hV))
  have h2 := congrArg (fun m => (Multiset.map φ m).sum) h1
  simp only [Multiset.map_map] at h2
  exact h2

theorem trace_spectral {V : Matrix (Fin d) (Fin d) ℝ} (hV : Vᵀ * V = 1) (f : Fin d → ℝ) :
    trace (V * diagonal f * Vᵀ) = ∑ i, f i := by
  rw [trace_mul_comm, ← Matrix.mul_assoc, hV, Matrix.one_mul, trace_diagonal]

/-- The distance of a Gaussian from itself is zero, for every covariance, also a singular one. -/
theorem C110_self {e : Eigh d} (he : EighContract e) (m : Fin d → ℝ) {A : Matrix (Fin d) (Fin d) ℝ} (hA : A.PosSemidef) :
    gaussianW2 e m A m A = 0 := by
  have hs := psd_symm hA
  obtain ⟨hV, hVA⟩ := he A hs
  have hl : ∀ i, 0 ≤ e.vals A i := spectral_above hV hVA (by simpa using hA)
  unfold gaussianW2
  simp only [symPsd_of_symm hs, sub_self, zero_dotProduct, zero_add]
  refine max_eq_right ?_
  set mid := symPsd (sqrtmPsd e A * A * sqrtmPsd e A) with hmid
  have hmm : e.vecs A * diagonal (fun i => max (e.vals A i) sqrtEps * e.vals A i) * (e.vecs A)ᵀ = mid := by
    have h1 : sqrtmPsd e A * A * sqrtmPsd e A = e.vecs A * diagonal (fun i => max (e.vals A i) sqrtEps * e.vals A i) * (e.vecs A)ᵀ := by
      unfold sqrtmPsd
      simp only [symPsd_of_symm hs]
      have hgen : ∀ X, e.vecs A * diagonal (e.vals A) * (e.vecs A)ᵀ = X →
          e.vecs A * diagonal (fun i => √(max (e.vals A i) sqrtEps)) * (e.vecs A)ᵀ * X *
            (e.vecs A * diagonal (fun i => √(max (e.vals A i) sqrtEps)) * (e.vecs A)ᵀ) =
          e.vecs A * diagonal (fun i => max (e.vals A i) sqrtEps * e.vals A i) * (e.vecs A)ᵀ := by
        intro X hX
        rw [← hX, spectral_mul hV, spectral_mul hV]
        congr 3
        funext i
        have := Real.mul_self_sqrt ((hl i).trans (le_max_left _ sqrtEps))
        calc √(max (e.vals A i) sqrtEps) * e.vals A i * √(max (e.vals A i) sqrtEps)
            = √(max (e.vals A i) sqrtEps) * √(max (e.vals A i) sqrtEps) * e.vals A i := by ring
          _ = _ := by rw [this]
      exact hgen A hVA
    rw [hmid, h1, symPsd_of_symm (spectral_symm _ _)]
  have hms : midᵀ = mid := symPsd_symm _
  obtain ⟨hW, hWm⟩ := he mid hms
  have htr : trace (sqrtmPsd e mid) = ∑ i, √(max (max (e.vals A i) sqrtEps * e.vals A i) sqrtEps) := by
    unfold sqrtmPsd
    simp only [symPsd_of_symm hms]
    rw [trace_spectral hW]
    exact spectral_unique hW hV (hWm.trans hmm.symm) fun t => √(max t sqrtEps)
  have hta : trace A = ∑ i, e.vals A i := by rw [← trace_spectral hV, hVA]
  rw [trace_sub, trace_add, trace_smul, smul_eq_mul, htr, hta]
  have : ∑ i, e.vals A i ≤ ∑ i, √(max (max (e.vals A i) sqrtEps * e.vals A i) sqrtEps) := by
    refine Finset.sum_le_sum fun i _ => Real.le_sqrt_of_sq_le ?_
    refine le_max_of_le_left ?_
    rw [sq]
    exact mul_le_mul_of_nonneg_right (le_max_left _ _) (hl i)
  linarith

/-- The result is never negative. -/
theorem C110_nonneg (e : Eigh d) (ma mb : Fin d → ℝ) (A B : Matrix (Fin d) (Fin d) ℝ) : 0 ≤ gaussianW2 e ma A mb B :=
  add_nonneg (Finset.sum_nonneg fun _ _ => mul_self_nonneg _) (le_max_right _ _)

theorem sqrtm_one {e : Eigh 1} (he : EighContract e) (a : ℝ) : sqrtmPsd e (a • 1) = √(max a sqrtEps) • 1 := by
  have hs : (a • (1 : Matrix (Fin 1) (Fin 1) ℝ))ᵀ = a • 1 := by simp
  obtain ⟨hV, hVA⟩ := he _ hs
  have hval : e.vals (a • 1) 0 = a := by
    have := congrArg trace hVA
    rw [trace_spectral hV] at this
    simpa using this
  have h1 : trace (sqrtmPsd e (a • 1)) = √(max a sqrtEps) := by
    unfold sqrtmPsd
    simp only [symPsd_of_symm hs]
    rw [trace_spectral hV]
    simp [hval]
  ext i j
  rw [Subsingleton.elim i 0, Subsingleton.elim j 0]
  simpa [trace] using h1

/-- For a singular covariance the clipping of eigenvalues makes the result smaller than the distance. -/
theorem C110_singular_violated {e : Eigh 1} (he : EighContract e) :
    ∀ C, Coupling (0 : Matrix (Fin 1) (Fin 1) ℝ) 1 C → gaussianW2 e 0 0 0 1 < meanSquare 0 0 0 1 C := by
  intro C hC
  have h1 := coupling_trace hC ((10 : ℝ) ^ 6 • 1) 1
  have hsq : √sqrtEps = 1 / 10 ^ 6 := by
    rw [Real.sqrt_eq_iff_mul_self_eq (by unfold sqrtEps; positivity) (by positivity)]
    unfold sqrtEps; norm_num
  have h0 : sqrtmPsd e 0 = (1 / 10 ^ 6 : ℝ) • 1 := by
    have := sqrtm_one he 0
    rw [zero_smul, max_eq_right (by unfold sqrtEps; positivity), hsq] at this
    exact this
  have hm : sqrtmPsd e (symPsd ((1 / 10 ^ 6 : ℝ) • 1 * 1 * (1 / 10 ^ 6 : ℝ) • 1)) = (1 / 10 ^ 6 : ℝ) • 1 := by
    have e1 : symPsd ((1 / 10 ^ 6 : ℝ) • (1 : Matrix (Fin 1) (Fin 1) ℝ) * 1 * (1 / 10 ^ 6 : ℝ) • 1) = sqrtEps • 1 := by
      rw [symPsd_of_symm (by simp)]
      rw [Matrix.mul_one, Matrix.smul_mul, Matrix.one_mul, smul_smul]
      congr 1
      unfold sqrtEps; norm_num
    rw [e1, sqrtm_one he, max_self, hsq]
  have hv : gaussianW2 e 0 0 0 1 = 1 - 2 / 10 ^ 6 := by
    unfold gaussianW2
    simp only [symPsd_of_symm (transpose_zero), symPsd_of_symm (transpose_one), h0, hm]
    simp [trace]
    norm_num
  rw [hv]
  unfold meanSquare
  simp [trace, mul_apply] at h1 ⊢
  norm_num at h1 ⊢
  linarith

/-- There is such a routine. -/
theorem eigh_exists : ∃ e : Eigh d, EighContract e := by
  have h : ∀ a : Matrix (Fin d) (Fin d) ℝ, ∃ p : (Fin d → ℝ) × Matrix (Fin d) (Fin d) ℝ, aᵀ = a →
      p.2ᵀ * p.2 = 1 ∧ p.2 * diagonal p.1 * p.2ᵀ = a := by
    intro a
    by_cases ha : aᵀ = a
    · have hH : a.IsHermitian := by rw [IsHermitian, conjTranspose_eq_transpose_of_trivial, ha]
      refine ⟨(hH.eigenvalues, hH.eigenvectorUnitary.1), fun _ => ⟨?_, ?_⟩⟩
      · have := hH.eigenvectorUnitary.2.1
        rwa [star_eq_conjTranspose, conjTranspose_eq_transpose_of_trivial] at this
      · have := hH.spectral_theorem
        rw [Unitary.conjStarAlgAut_apply, star_eq_conjTranspose, conjTranspose_eq_transpose_of_trivial] at this
        exact this.symm
    · exact ⟨(0, 0), fun h => absurd h ha⟩
  choose f hf using h
  exact ⟨⟨fun a => (f a).1, fun a => (f a).2⟩, hf⟩

/-- Two planar Gaussians that meet the hypotheses. -/
example : ((diagonal ![2, 3] : Matrix (Fin 2) (Fin 2) ℝ) - (1 / 10 ^ 6 : ℝ) • 1).PosSemidef := by
  have : (diagonal ![2, 3] : Matrix (Fin 2) (Fin 2) ℝ) - (1 / 10 ^ 6 : ℝ) • 1 = diagonal ![2 - 1 / 10 ^ 6, 3 - 1 / 10 ^ 6] := by
    ext i j
    fin_cases i <;> fin_cases j <;> simp
  rw [this, posSemidef_diagonal_iff]
  intro i
  fin_cases i <;> norm_num

end Verif.Ggmp
