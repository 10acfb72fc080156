import Verif.GP.InfoModel
import Verif.GP.LikProps

/-! Properties C34 (information measures) and C35 (posterior probability). -/

namespace Verif.GP

open Finset Verif.LinAlg Matrix

variable {α H : Type}

section Matrices

variable {n p : Type} [Fintype n] [DecidableEq n] [Fintype p] [DecidableEq p]

theorem npSolve_posDef {m : Type} (lstsq : Matrix n n ℝ → Matrix n m ℝ → Matrix n m ℝ) {A : Matrix n n ℝ}
    (h : A.PosDef) (b : Matrix n m ℝ) : npSolve lstsq A b = A⁻¹ * b := by
  rw [npSolve, if_pos h.det_pos.ne']

/-- `kl_div` computes the Kullback-Leibler divergence of two Gaussians; the `abs` does nothing. -/
theorem klDiv_eq (lstsq : {m : Type} → Matrix n n ℝ → Matrix n m ℝ → Matrix n m ℝ) (mu1 mu2 : n → ℝ)
    {S1 S2 : Matrix n n ℝ} (h1 : S1.PosDef) (h2 : S2.PosDef) :
    klDiv lstsq mu1 mu2 S1 S2 = klGauss mu1 mu2 S1 S2 := by
  have e : 1 / 2 * ((npSolve lstsq S2 S1).trace
      + ((npSolve lstsq S2 (Matrix.of fun (i : n) (_ : Unit) => mu2 i - mu1 i))ᵀ
          * Matrix.of fun (i : n) (_ : Unit) => mu2 i - mu1 i) () ()
      - (Fintype.card n : ℝ) + (slogdet S2 - slogdet S1)) = klGauss mu1 mu2 S1 S2 := by
    rw [npSolve_posDef _ h2, npSolve_posDef _ h2, C15_slogdet_posDef _ h1, C15_slogdet_posDef _ h2, klGauss]
    congr 4
    rw [Matrix.mul_apply, dotProduct]
    refine Finset.sum_congr rfl fun i _ => ?_
    rw [Matrix.transpose_apply, Matrix.mul_apply, mul_comm]
    rfl
  show |_| = _
  rw [← abs_of_nonneg (klGauss_nonneg mu1 mu2 h1 h2), ← e]

/-- **C34** (KL divergence). For positive definite covariances the returned value is the Kullback-Leibler divergence,
it is non-negative although `abs` is applied (the value under `abs` is already that), and it is zero for equal
distributions. -/
theorem C34_kl_div (lstsq : {m : Type} → Matrix n n ℝ → Matrix n m ℝ → Matrix n m ℝ) (mu1 mu2 : n → ℝ)
    (S1 S2 : Matrix n n ℝ) (h1 : S1.PosDef) (h2 : S2.PosDef) :
    klDiv lstsq mu1 mu2 S1 S2
      = 1 / 2 * ((S2⁻¹ * S1).trace + (mu2 - mu1) ⬝ᵥ S2⁻¹ *ᵥ (mu2 - mu1) - Fintype.card n
          + (Real.log S2.det - Real.log S1.det)) ∧
    0 ≤ 1 / 2 * ((S2⁻¹ * S1).trace + (mu2 - mu1) ⬝ᵥ S2⁻¹ *ᵥ (mu2 - mu1) - Fintype.card n
          + (Real.log S2.det - Real.log S1.det)) ∧
    klDiv lstsq mu1 mu1 S1 S1 = 0 :=
  ⟨klDiv_eq lstsq mu1 mu2 h1 h2, klGauss_nonneg mu1 mu2 h1 h2, by rw [klDiv_eq lstsq mu1 mu1 h1 h1, klGauss_self mu1 h1]⟩

example : klDiv (n := Fin 2) (fun _ b => b) (fun _ => 1) (fun _ => 1) (Matrix.diagonal fun _ => 2)
    (Matrix.diagonal fun _ => 2) = 0 :=
  (C34_kl_div (fun _ b => b) (fun _ => 1) (fun _ => 1) (Matrix.diagonal fun _ => 2) (Matrix.diagonal fun _ => 2)
    (Matrix.PosDef.diagonal fun _ => by norm_num) (Matrix.PosDef.diagonal fun _ => by norm_num)).2.2

theorem trace_fromBlocks' (A : Matrix n n ℝ) (B : Matrix n p ℝ) (C : Matrix p n ℝ) (D : Matrix p p ℝ) :
    (fromBlocks A B C D).trace = A.trace + D.trace := by
  simp [Matrix.trace, Fintype.sum_sum_type]

theorem blockDiag_posDef {A : Matrix n n ℝ} {B : Matrix p p ℝ} (hA : A.PosDef) (hB : B.PosDef) :
    (fromBlocks A 0 0 B).PosDef := by
  haveI : Invertible A := Matrix.invertibleOfIsUnitDet _ hA.det_pos.ne'.isUnit
  apply Matrix.PosSemidef.posDef_iff_isUnit ?_ |>.2
  · rw [Matrix.isUnit_iff_isUnit_det, Matrix.det_fromBlocks_zero₂₁]
    exact (mul_pos hA.det_pos hB.det_pos).ne'.isUnit
  · apply posSemidef_of_quad
    · rw [fromBlocks_transpose, transpose_of_posDef hA, transpose_of_posDef hB]; simp
    · intro w
      rw [fromBlocks_mulVec]
      have h1 := quad_nonneg hA.posSemidef (w ∘ Sum.inl)
      have h2 := quad_nonneg hB.posSemidef (w ∘ Sum.inr)
      have := add_nonneg h1 h2
      simpa [dotProduct, Fintype.sum_sum_type] using this

/-- Fischer's inequality, from the non-negativity of the divergence. -/
theorem fischer {A : Matrix n n ℝ} {B : Matrix n p ℝ} {D : Matrix p p ℝ} (hj : (fromBlocks A B Bᵀ D).PosDef) :
    Real.log (fromBlocks A B Bᵀ D).det ≤ Real.log A.det + Real.log D.det := by
  have hA : A.PosDef := by
    have := hj.submatrix (e := (Sum.inl : n → n ⊕ p)) Sum.inl_injective
    exact this
  have hD : D.PosDef := by
    have := hj.submatrix (e := (Sum.inr : p → n ⊕ p)) Sum.inr_injective
    exact this
  have h := klGauss_nonneg (0 : n ⊕ p → ℝ) 0 hj (blockDiag_posDef hA hD)
  rw [klGauss] at h
  have hinv : (fromBlocks A 0 0 D)⁻¹ = fromBlocks A⁻¹ 0 0 D⁻¹ := by
    apply Matrix.inv_eq_right_inv
    rw [fromBlocks_multiply]
    simp [mul_inv_of_posDef hA, mul_inv_of_posDef hD]
  have htr : ((fromBlocks A 0 0 D)⁻¹ * fromBlocks A B Bᵀ D).trace = Fintype.card (n ⊕ p) := by
    rw [hinv, fromBlocks_multiply, trace_fromBlocks']
    simp [inv_mul_of_posDef hA, inv_mul_of_posDef hD]
  have hdet : Real.log (fromBlocks A 0 0 D).det = Real.log A.det + Real.log D.det := by
    rw [Matrix.det_fromBlocks_zero₂₁, Real.log_mul hA.det_pos.ne' hD.det_pos.ne']
  rw [htr, hdet] at h
  simp at h
  linarith

/-- **C34** (mutual information, matrices). For a positive definite joint covariance the mutual information of its two
diagonal blocks is `½ (log det A + log det D - log det joint)` and non-negative. -/
theorem C34_mutual_information (A : Matrix n n ℝ) (B : Matrix n p ℝ) (D : Matrix p p ℝ)
    (hj : (fromBlocks A B Bᵀ D).PosDef) :
    mutualInformation (fromBlocks A B Bᵀ D) D A
      = 1 / 2 * (Real.log A.det + Real.log D.det - Real.log (fromBlocks A B Bᵀ D).det) ∧
    0 ≤ mutualInformation (fromBlocks A B Bᵀ D) D A := by
  have hA : A.PosDef := hj.submatrix (e := (Sum.inl : n → n ⊕ p)) Sum.inl_injective
  have hD : D.PosDef := hj.submatrix (e := (Sum.inr : p → n ⊕ p)) Sum.inr_injective
  have e : mutualInformation (fromBlocks A B Bᵀ D) D A
      = 1 / 2 * (Real.log A.det + Real.log D.det - Real.log (fromBlocks A B Bᵀ D).det) := by
    rw [mutualInformation, entropy, entropy, entropy, C15_slogdet_posDef _ hA, C15_slogdet_posDef _ hD,
      C15_slogdet_posDef _ hj, Fintype.card_sum, Nat.cast_add]
    ring
  refine ⟨e, ?_⟩
  rw [e]
  have := fischer hj
  linarith

example : 0 ≤ mutualInformation (fromBlocks (1 : Matrix (Fin 1) (Fin 1) ℝ) 0 (0 : Matrix (Fin 1) (Fin 2) ℝ)ᵀ
    (1 : Matrix (Fin 2) (Fin 2) ℝ)) (1 : Matrix (Fin 2) (Fin 2) ℝ) (1 : Matrix (Fin 1) (Fin 1) ℝ) :=
  (C34_mutual_information 1 0 1 (by
    rw [Matrix.transpose_zero, fromBlocks_one]; exact Matrix.PosDef.one)).2

end Matrices

/-! ### The measures of a GP -/

theorem jitter_pos : 0 < jitter := by norm_num [jitter]

/-- The noise at prediction points does not destroy positivity. -/
def NoiseOK (gp : GP α H) (xs : List α) : Prop :=
  match calcV gp.cfg gp.data gp.hps xs with
  | .diag _ w => ∀ i < xs.length, 0 ≤ w i
  | .dense r c W => r = xs.length → c = xs.length → (toMat xs.length W).PosSemidef
  | .sparse _ _ _ => False

theorem addNoise_ok {gp : GP α H} {xs : List α} (hn : NoiseOK gp xs) (v : ℕ → ℝ) (S : NMat) :
    ∃ v' S', addNoise gp xs v (some S) = .ok (v', some S') ∧
      ∃ E : Matrix (Fin xs.length) (Fin xs.length) ℝ, E.PosSemidef ∧ toMat xs.length S' = toMat xs.length S + E := by
  unfold NoiseOK at hn
  unfold addNoise
  split
  · rename_i len w hV
    rw [hV] at hn
    split
    · refine ⟨_, _, rfl, Matrix.diagonal fun i : Fin xs.length => w i, ?_, ?_⟩
      · rw [Matrix.posSemidef_diagonal_iff]
        exact fun i => hn i i.2
      · ext i j
        by_cases hij : i = j
        · subst hij; simp [toMat]
        · have : (i : ℕ) ≠ j := fun h => hij (Fin.ext h)
          simp [toMat, hij, this]
    · exact ⟨_, _, rfl, 0, Matrix.PosSemidef.zero, by rw [add_zero]⟩
  · rename_i r c W hV
    rw [hV] at hn
    split
    · rename_i h
      exact ⟨_, _, rfl, toMat xs.length W, hn h.1 h.2, by ext i j; simp [toMat]⟩
    · exact ⟨_, _, rfl, 0, Matrix.PosSemidef.zero, by rw [add_zero]⟩
  · rename_i hV
    rw [hV] at hn
    exact absurd hn id

theorem smul_one_posDef {n : Type} [Fintype n] [DecidableEq n] {c : ℝ} (hc : 0 < c) :
    (c • (1 : Matrix n n ℝ)).PosDef := by
  rw [← Matrix.diagonal_one, ← Matrix.diagonal_smul]
  exact Matrix.PosDef.diagonal fun i => by simpa using hc

theorem jointParts_ok {gp : GP α H} (hc : Consistent gp) (hk : IsPSDKernel (gp.cfg.kernel gp.hps)) (xs : List α)
    (noisy : Bool) (hn : noisy = true → NoiseOK gp xs) :
    ∃ K k kk, jointParts gp xs noisy = .ok (K, k, kk) ∧ (fromBlocks K k kᵀ kk).PosDef := by
  have h1 := kernelMat_posSemidef hk (Sum.elim (fun i : Fin gp.data.x.length => gp.data.x[i])
    fun i : Fin xs.length => xs[i])
  have hbase : ∀ E : Matrix (Fin xs.length) (Fin xs.length) ℝ, E.PosSemidef →
      (fromBlocks (toMat gp.data.x.length gp.K + jitter • (1 : Matrix _ _ ℝ))
        (Matrix.of fun (i : Fin gp.data.x.length) (j : Fin xs.length) =>
          gram (gp.cfg.kernel gp.hps) gp.data.x xs i j)
        (Matrix.of fun (i : Fin gp.data.x.length) (j : Fin xs.length) =>
          gram (gp.cfg.kernel gp.hps) gp.data.x xs i j)ᵀ
        (toMat xs.length (fun i j => gram (gp.cfg.kernel gp.hps) xs xs i j + if i = j then jitter else 0) + E)).PosDef := by
    intro E hE
    have h2 : (fromBlocks (0 : Matrix (Fin gp.data.x.length) (Fin gp.data.x.length) ℝ) 0 0 E).PosSemidef := by
      apply posSemidef_of_quad
      · rw [fromBlocks_transpose, transpose_of_posSemidef hE]; simp
      · intro w
        have := quad_nonneg hE (w ∘ Sum.inr)
        rw [fromBlocks_mulVec]
        simpa [dotProduct, Fintype.sum_sum_type] using this
    have h3 := Matrix.PosDef.posSemidef_add (h1.add h2)
      (smul_one_posDef (n := Fin gp.data.x.length ⊕ Fin xs.length) jitter_pos)
    convert h3 using 1
    rw [hc.K_eq]
    ext i j
    rcases i with i | i <;> rcases j with j | j
    · simp [Kmat, Matrix.one_apply]
    · simp [gram_apply, Kmat]
    · simp [gram_apply, Kmat, hk.1]
    · by_cases hij : i = j
      · subst hij; simp [toMat, gram]; ring
      · have : (i : ℕ) ≠ j := fun h => hij (Fin.ext h)
        simp [toMat, gram, hij, this]
  cases noisy with
  | false =>
    refine ⟨_, _, _, rfl, ?_⟩
    have := hbase 0 Matrix.PosSemidef.zero
    rwa [add_zero] at this
  | true =>
    obtain ⟨v', S', hadd, E, hE, hS'⟩ := addNoise_ok (hn rfl)
      (fun i => gram (gp.cfg.kernel gp.hps) xs xs i i + jitter)
      (fun i j => gram (gp.cfg.kernel gp.hps) xs xs i j + if i = j then jitter else 0)
    refine ⟨_, _, _, by simp only [jointParts, if_true, hadd, bind, Except.bind]; rfl, ?_⟩
    simp only [Option.getD_some]
    rw [hS']
    exact hbase E hE

/-- **C34** (GP mutual information and total correlation). For a constructed GP with positive semidefinite kernel, in
every direct mode, with or without added noise, both calls succeed and the values are non-negative. -/
theorem C34_gp_measures (c : Config α H) (d : Data α) (h : H) (he : SpluContract c.ext) (ha : Admissible c d h)
    (hk : IsPSDKernel (c.kernel h)) (lstsq : {n m : Type} → Matrix n n ℝ → Matrix n m ℝ → Matrix n m ℝ) :
    ∃ gp, init c d h = .ok gp ∧ ∀ (xs : List α) (noisy : Bool), (noisy = true → NoiseOK gp xs) →
      (∃ r, gpMutualInformation gp xs noisy = .ok r ∧ 0 ≤ r) ∧
      (∃ K k kk, jointParts gp xs noisy = .ok (K, k, kk) ∧
        gpTotalCorrelation gp lstsq xs noisy
          = .ok (1 / 2 * (Real.log K.det + ∑ i, Real.log (kk i i) - Real.log (fromBlocks K k kᵀ kk).det)) ∧
        0 ≤ 1 / 2 * (Real.log K.det + ∑ i, Real.log (kk i i) - Real.log (fromBlocks K k kᵀ kk).det)) := by
  obtain ⟨gp, hgp, hc, rfl, rfl, rfl⟩ := init_ok c d h he ha
  refine ⟨gp, hgp, fun xs noisy hn => ?_⟩
  obtain ⟨K, k, kk, hparts, hpd⟩ := jointParts_ok hc hk xs noisy hn
  refine ⟨⟨_, by simp only [gpMutualInformation, hparts, bind, Except.bind],
    (C34_mutual_information K k kk hpd).2⟩, K, k, kk, hparts, ?_⟩
  have hK : K.PosDef := hpd.submatrix (e := Sum.inl) Sum.inl_injective
  have hkk : kk.PosDef := hpd.submatrix (e := Sum.inr) Sum.inr_injective
  have hdiag : ∀ i, 0 < kk i i := fun i => hkk.diag_pos
  have hD : (Matrix.of fun i j => kk i j * (1 : Matrix _ _ ℝ) i j) = Matrix.diagonal fun i => kk i i := by
    ext i j
    by_cases hij : i = j
    · subst hij; simp
    · simp [hij]
  have hprod : (fromBlocks K 0 0 (Matrix.diagonal fun i => kk i i)).PosDef :=
    blockDiag_posDef hK (Matrix.PosDef.diagonal hdiag)
  have hval : klGauss (0 : Fin gp.data.x.length ⊕ Fin xs.length → ℝ) 0 (fromBlocks K k kᵀ kk) (fromBlocks K 0 0 (Matrix.diagonal fun i => kk i i))
      = 1 / 2 * (Real.log K.det + ∑ i, Real.log (kk i i) - Real.log (fromBlocks K k kᵀ kk).det) := by
    rw [klGauss]
    have hinv : (fromBlocks K 0 0 (Matrix.diagonal fun i => kk i i))⁻¹
        = fromBlocks K⁻¹ 0 0 (Matrix.diagonal fun i => (kk i i)⁻¹) := by
      apply Matrix.inv_eq_right_inv
      rw [fromBlocks_multiply]
      have : (fun i => kk i i * (kk i i)⁻¹) = fun _ => 1 := by
        funext i; exact mul_inv_cancel₀ (hdiag i).ne'
      simp [mul_inv_of_posDef hK, Matrix.diagonal_mul_diagonal, this]
    have htr : ((fromBlocks K 0 0 (Matrix.diagonal fun i => kk i i))⁻¹ * fromBlocks K k kᵀ kk).trace
        = Fintype.card (Fin gp.data.x.length ⊕ Fin xs.length) := by
      rw [hinv, fromBlocks_multiply, trace_fromBlocks']
      have : (Matrix.diagonal (fun i => (kk i i)⁻¹) * kk).trace = (xs.length : ℝ) := by
        simp only [Matrix.trace, Matrix.diag_apply, Matrix.diagonal_mul]
        rw [Finset.sum_congr rfl fun i _ => inv_mul_cancel₀ (hdiag i).ne']
        simp
      simp [inv_mul_of_posDef hK, this]
    have hdet : Real.log (fromBlocks K 0 0 (Matrix.diagonal fun i => kk i i)).det
        = Real.log K.det + ∑ i, Real.log (kk i i) := by
      rw [Matrix.det_fromBlocks_zero₂₁, Matrix.det_diagonal,
        Real.log_mul hK.det_pos.ne' (Finset.prod_pos fun i _ => hdiag i).ne', Real.log_prod (fun i _ => (hdiag i).ne')]
    rw [htr, hdet]
    simp
  refine ⟨?_, hval ▸ klGauss_nonneg _ _ hpd hprod⟩
  simp only [gpTotalCorrelation, hparts, bind, Except.bind, zero_smul, hD]
  rw [klDiv_eq _ _ _ hpd hprod, hval]

example (mode : Mode) (lstsq : {n m : Type} → Matrix n n ℝ → Matrix n m ℝ → Matrix n m ℝ) :
    ∃ gp, init (exCfg mode) exData 2 = .ok gp ∧ ∀ (xs : List ℝ),
      (∃ r, gpMutualInformation gp xs false = .ok r ∧ 0 ≤ r) := by
  obtain ⟨gp, h1, h2⟩ := C34_gp_measures (exCfg mode) exData 2 cholExt_contract (exAdmissible mode 2) (exKernel_psd 2) lstsq
  exact ⟨gp, h1, fun xs => (h2 xs false (by simp)).1⟩

/-- **C34** (relative information entropy and `gp_kl_div`). For a constructed GP with positive semidefinite kernel and
noise the calls succeed and return the KL divergence between prior and posterior, respectively between the posterior
and the given distribution (each with the jitter added); it is non-negative. -/
theorem C34_gp_kl (c : Config α H) (d : Data α) (h : H) (he : SpluContract c.ext) (ha : Admissible c d h)
    (hk : IsPSDKernel (c.kernel h)) (hV : ((calcV c d h d.x).mat d.x.length).PosSemidef)
    (lstsq : {n m : Type} → Matrix n n ℝ → Matrix n m ℝ → Matrix n m ℝ) :
    ∃ gp, init c d h = .ok gp ∧ ∀ (xs : List α) (chunk : ℕ) (junk : NMat),
      (∃ r, gpRIE gp lstsq xs false chunk junk = .ok r ∧ 0 ≤ r ∧
        r = klGauss (meanAt c d h xs) (specMean c d h xs 0) (Kmat (c.kernel h) xs xs + jitter • (1 : Matrix _ _ ℝ))
          (specCov c d h xs + jitter • (1 : Matrix _ _ ℝ))) ∧
      ∀ compMean compCov, compCov.PosSemidef → ∃ r, gpKlDiv gp lstsq xs compMean compCov chunk junk = .ok r ∧ 0 ≤ r ∧
        r = klGauss (specMean c d h xs 0) compMean (specCov c d h xs + jitter • (1 : Matrix _ _ ℝ))
          (compCov + jitter • (1 : Matrix _ _ ℝ)) := by
  obtain ⟨gp, hgp, hc, rfl, rfl, rfl⟩ := init_ok c d h he ha
  obtain ⟨gp', hgp', hall⟩ := C27_covariance_psd _ _ _ he ha hk hV
  rw [hgp] at hgp'
  simp only [Except.ok.injEq] at hgp'
  subst hgp'
  refine ⟨gp, hgp, fun xs chunk junk => ?_⟩
  obtain ⟨v, S, hcov, hS, hpsd, -, -⟩ := hall xs chunk junk
  have hpost : (specCov gp.cfg gp.data gp.hps xs + jitter • (1 : Matrix _ _ ℝ)).PosDef :=
    Matrix.PosDef.posSemidef_add (hS ▸ hpsd) (smul_one_posDef jitter_pos)
  have hprior : (Kmat (gp.cfg.kernel gp.hps) xs xs + jitter • (1 : Matrix _ _ ℝ)).PosDef :=
    Matrix.PosDef.posSemidef_add (Kmat_posSemidef hk xs) (smul_one_posDef jitter_pos)
  have hm : (fun i : Fin xs.length => posteriorMean gp xs i 0) = specMean gp.cfg gp.data gp.hps xs 0 := by
    funext i; exact consistent_mean hc ha.posDef xs i 0
  have hp : (fun i : Fin xs.length => evalAt (meanFn gp.cfg gp.data gp.hps) xs i) = meanAt gp.cfg gp.data gp.hps xs := by
    funext i; rw [evalAt_apply]; rfl
  constructor
  · refine ⟨_, ?_, klGauss_nonneg _ _ hprior hpost, rfl⟩
    simp only [gpRIE, hcov, bind, Except.bind]
    rw [toMat_gram, hS, hm, hp, klDiv_eq _ _ _ hprior hpost]
  · intro compMean compCov hcomp
    have hcmp : (compCov + jitter • (1 : Matrix _ _ ℝ)).PosDef :=
      Matrix.PosDef.posSemidef_add hcomp (smul_one_posDef jitter_pos)
    refine ⟨_, ?_, klGauss_nonneg _ _ hpost hcmp, rfl⟩
    simp only [gpKlDiv, hcov, bind, Except.bind]
    rw [hS, hm, klDiv_eq _ _ _ hpost hcmp]

example (mode : Mode) (lstsq : {n m : Type} → Matrix n n ℝ → Matrix n m ℝ → Matrix n m ℝ) :
    ∃ gp, init (exCfg mode) exData 2 = .ok gp ∧ ∀ (xs : List ℝ) (chunk : ℕ) (junk : NMat),
      ∃ r, gpRIE gp lstsq xs false chunk junk = .ok r ∧ 0 ≤ r := by
  obtain ⟨gp, h1, h2⟩ := C34_gp_kl (exCfg mode) exData 2 cholExt_contract (exAdmissible mode 2) (exKernel_psd 2)
    (exNoise_posDef mode 2).posSemidef lstsq
  refine ⟨gp, h1, fun xs chunk junk => ?_⟩
  obtain ⟨r, hr, h0, -⟩ := (h2 xs chunk junk).1
  exact ⟨r, hr, h0⟩

/-! ## C35 -/

section Overlap

variable {n : Type} [Fintype n] [DecidableEq n]

/-- **C35** (the two Gaussians). For positive definite covariances the computation succeeds and
* the product of the two densities is the returned probability times the density with the returned mean and
  covariance, at every point,
* the returned probability is the density of `N(0, S1 + S2)` at `mu1 - mu2`,
* covariance and mean are `(S1⁻¹ + S2⁻¹)⁻¹` and the precision-weighted mean. -/
theorem C35_overlap (mu1 mu2 : n → ℝ) (S1 S2 : Matrix n n ℝ) (h1 : S1.PosDef) (h2 : S2.PosDef) :
    ∃ r, overlap mu1 S1 mu2 S2 = .ok r ∧
      (∀ x, normalDensity S1 mu1 x * normalDensity S2 mu2 x = r.probability * normalDensity r.cov r.mu x) ∧
      r.probability = normalDensity (S1 + S2) 0 (mu1 - mu2) ∧
      r.cov = (S1⁻¹ + S2⁻¹)⁻¹ ∧ r.cov⁻¹ *ᵥ r.mu = S1⁻¹ *ᵥ mu1 + S2⁻¹ *ᵥ mu2 := by
  set P1 := S1⁻¹ with hP1
  set P2 := S2⁻¹ with hP2
  have hp1 : P1.PosDef := h1.inv
  have hp2 : P2.PosDef := h2.inv
  have hp : (P1 + P2).PosDef := hp1.add hp2
  set C := (P1 + P2)⁻¹ with hC
  have hCpd : C.PosDef := hp.inv
  have t1 : P1ᵀ = P1 := transpose_of_posDef hp1
  have t2 : P2ᵀ = P2 := transpose_of_posDef hp2
  have tC : Cᵀ = C := transpose_of_posDef hCpd
  have hCinv : C⁻¹ = P1 + P2 := by rw [hC, Matrix.nonsing_inv_nonsing_inv _ hp.det_pos.ne'.isUnit]
  have hCP : C * (P1 + P2) = 1 := inv_mul_of_posDef hp
  have hPC : (P1 + P2) * C = 1 := mul_inv_of_posDef hp
  set g := P1 *ᵥ mu1 + P2 *ᵥ mu2 with hg
  have hmu : (C * P1) *ᵥ mu1 + (C * P2) *ᵥ mu2 = C *ᵥ g := by
    rw [hg, Matrix.mulVec_add, Matrix.mulVec_mulVec, Matrix.mulVec_mulVec]
  have v1 : mu1 ᵥ* P1 = P1 *ᵥ mu1 := by rw [← Matrix.mulVec_transpose, t1]
  have v2 : mu2 ᵥ* P2 = P2 *ᵥ mu2 := by rw [← Matrix.mulVec_transpose, t2]
  have vC : g ᵥ* C = C *ᵥ g := by rw [← Matrix.mulVec_transpose, tC]
  have hpi : Real.log ((2 * Real.pi) ^ ((Fintype.card n : ℝ) / 2)) = (Fintype.card n : ℝ) / 2 * Real.log (2 * Real.pi) :=
    Real.log_rpow Real.two_pi_pos _
  set r : ProbResult n := ⟨C *ᵥ g, C, Real.exp ((1 / 2 * (g ⬝ᵥ C *ᵥ g - (mu1 ⬝ᵥ P1 *ᵥ mu1 + mu2 ⬝ᵥ P2 *ᵥ mu2))
    + 1 / 2 * Real.log C.det) - ((Fintype.card n : ℝ) / 2 * Real.log (2 * Real.pi)
      + 1 / 2 * (Real.log S1.det + Real.log S2.det)))⟩ with hr
  refine ⟨r, ?_, ?_, ?_, rfl, ?_⟩
  · simp only [overlap, npInv, ne_eq, h1.det_pos.ne', h2.det_pos.ne', not_false_eq_true, if_true, bind, Except.bind]
    rw [← hP1, ← hP2]
    simp only [hp.det_pos.ne', not_false_eq_true, if_true]
    rw [← hC, hmu, v1, v2, ← hg, vC, hpi, C15_slogdet_posDef _ h1, C15_slogdet_posDef _ h2, C15_slogdet_posDef _ hCpd, hr]
    rw [dotProduct_comm (C *ᵥ g), dotProduct_comm (P1 *ᵥ mu1), dotProduct_comm (P2 *ᵥ mu2)]
  · intro x
    have key : (x - mu1) ⬝ᵥ P1 *ᵥ (x - mu1) + (x - mu2) ⬝ᵥ P2 *ᵥ (x - mu2)
        = (x - C *ᵥ g) ⬝ᵥ (P1 + P2) *ᵥ (x - C *ᵥ g) + (mu1 ⬝ᵥ P1 *ᵥ mu1 + mu2 ⬝ᵥ P2 *ᵥ mu2 - g ⬝ᵥ C *ᵥ g) := by
      have e1 : (P1 + P2) *ᵥ (C *ᵥ g) = g := by rw [Matrix.mulVec_mulVec, hPC, Matrix.one_mulVec]
      have e2 : (C *ᵥ g) ⬝ᵥ (P1 + P2) *ᵥ x = x ⬝ᵥ g := by
        rw [dot_symm (transpose_of_posDef hp), e1]
      have e3 : (C *ᵥ g) ⬝ᵥ g = g ⬝ᵥ C *ᵥ g := dotProduct_comm _ _
      have e4 : mu1 ⬝ᵥ P1 *ᵥ x = x ⬝ᵥ P1 *ᵥ mu1 := dot_symm t1 _ _
      have e5 : mu2 ⬝ᵥ P2 *ᵥ x = x ⬝ᵥ P2 *ᵥ mu2 := dot_symm t2 _ _
      have e6 : x ⬝ᵥ g = x ⬝ᵥ P1 *ᵥ mu1 + x ⬝ᵥ P2 *ᵥ mu2 := by rw [hg, dotProduct_add]
      have e7 : x ⬝ᵥ (P1 + P2) *ᵥ x = x ⬝ᵥ P1 *ᵥ x + x ⬝ᵥ P2 *ᵥ x := by rw [Matrix.add_mulVec, dotProduct_add]
      simp only [Matrix.mulVec_sub, sub_dotProduct, dotProduct_sub, e1, e2, e3, e4, e5, e6, e7]
      ring
    have hpos : ∀ {A : Matrix n n ℝ} (m y : n → ℝ), A.PosDef → 0 < normalDensity A m y := by
      intro A m y hA
      exact mul_pos (inv_pos.2 (Real.sqrt_pos.2 (mul_pos (pow_pos Real.two_pi_pos _) hA.det_pos))) (Real.exp_pos _)
    have hexp : ∀ {A : Matrix n n ℝ} (m y : n → ℝ), A.PosDef → normalDensity A m y = Real.exp (logNormal A m y) := by
      intro A m y hA
      rw [← log_normalDensity hA, Real.exp_log (hpos m y hA)]
    rw [hexp _ _ h1, hexp _ _ h2, hr]
    simp only
    rw [hexp _ _ hCpd, ← Real.exp_add, ← Real.exp_add]
    congr 1
    simp only [logNormal]
    rw [hCinv, ← hP1, ← hP2]
    linarith
  · have hexp : ∀ {A : Matrix n n ℝ} (m y : n → ℝ), A.PosDef → normalDensity A m y = Real.exp (logNormal A m y) := by
      intro A m y hA
      rw [← log_normalDensity hA, Real.exp_log]
      exact mul_pos (inv_pos.2 (Real.sqrt_pos.2 (mul_pos (pow_pos Real.two_pi_pos _) hA.det_pos))) (Real.exp_pos _)
    have hS : S1 + S2 = S1 * (P1 + P2) * S2 := by
      rw [Matrix.mul_add, hP1, mul_inv_of_posDef h1, Matrix.add_mul, Matrix.one_mul, Matrix.mul_assoc, hP2,
        inv_mul_of_posDef h2, Matrix.mul_one, add_comm]
    have hSinv : (S1 + S2)⁻¹ = P2 * C * P1 := by
      rw [hS, Matrix.mul_inv_rev, Matrix.mul_inv_rev, ← hP1, ← hP2, ← hC, Matrix.mul_assoc]
    have hdet : Real.log (S1 + S2).det = Real.log S1.det + Real.log S2.det - Real.log C.det := by
      have : C.det = (P1 + P2).det⁻¹ := by rw [hC, Matrix.det_nonsing_inv, Ring.inverse_eq_inv']
      rw [hS, Matrix.det_mul, Matrix.det_mul, Real.log_mul (mul_pos h1.det_pos hp.det_pos).ne' h2.det_pos.ne',
        Real.log_mul h1.det_pos.ne' hp.det_pos.ne', this, Real.log_inv]
      ring
    have w21 : P2 * C * P1 = P2 - P2 * C * P2 := by
      have : P2 * C * (P1 + P2) = P2 := by rw [Matrix.mul_assoc, hCP, Matrix.mul_one]
      rw [Matrix.mul_add] at this
      exact eq_sub_of_add_eq this
    have w12 : P1 * C * P2 = P1 - P1 * C * P1 := by
      have : P1 * C * (P1 + P2) = P1 := by rw [Matrix.mul_assoc, hCP, Matrix.mul_one]
      rw [Matrix.mul_add] at this
      exact eq_sub_of_add_eq' this
    have wsym : P1 * C * P2 = P2 * C * P1 := by
      have hs := transpose_of_posDef (h1.add h2).inv
      rw [hSinv, Matrix.transpose_mul, Matrix.transpose_mul, t1, t2, tC, ← Matrix.mul_assoc] at hs
      exact hs
    have hq : (mu1 - mu2) ⬝ᵥ (S1 + S2)⁻¹ *ᵥ (mu1 - mu2)
        = mu1 ⬝ᵥ P1 *ᵥ mu1 + mu2 ⬝ᵥ P2 *ᵥ mu2 - g ⬝ᵥ C *ᵥ g := by
      have q1 : mu1 ⬝ᵥ (P2 * C * P1) *ᵥ mu1 = mu1 ⬝ᵥ P1 *ᵥ mu1 - mu1 ⬝ᵥ (P1 * C * P1) *ᵥ mu1 := by
        rw [← wsym, w12, Matrix.sub_mulVec, dotProduct_sub]
      have q2 : mu2 ⬝ᵥ (P2 * C * P1) *ᵥ mu2 = mu2 ⬝ᵥ P2 *ᵥ mu2 - mu2 ⬝ᵥ (P2 * C * P2) *ᵥ mu2 := by
        rw [w21, Matrix.sub_mulVec, dotProduct_sub]
      have q3 : g ⬝ᵥ C *ᵥ g = mu1 ⬝ᵥ (P1 * C * P1) *ᵥ mu1 + mu1 ⬝ᵥ (P1 * C * P2) *ᵥ mu2
          + mu2 ⬝ᵥ (P2 * C * P1) *ᵥ mu1 + mu2 ⬝ᵥ (P2 * C * P2) *ᵥ mu2 := by
        have m1 : ∀ w, (P1 *ᵥ mu1) ⬝ᵥ w = mu1 ⬝ᵥ P1 *ᵥ w := fun w => by
          rw [dotProduct_comm, dot_symm t1]
        have m2 : ∀ w, (P2 *ᵥ mu2) ⬝ᵥ w = mu2 ⬝ᵥ P2 *ᵥ w := fun w => by
          rw [dotProduct_comm, dot_symm t2]
        rw [hg, add_dotProduct, Matrix.mulVec_add, dotProduct_add, dotProduct_add, m1, m1, m2, m2]
        simp only [Matrix.mulVec_mulVec, Matrix.mul_assoc]
        ring
      rw [hSinv, Matrix.mulVec_sub, sub_dotProduct, dotProduct_sub, dotProduct_sub, q1, q2, q3, wsym]
      ring
    rw [hexp _ _ (h1.add h2), hr]
    simp only
    congr 1
    simp only [logNormal, sub_zero]
    rw [hq, hdet]
    ring
  · rw [hr]
    simp only
    rw [hCinv, Matrix.mulVec_mulVec, hPC, Matrix.one_mulVec]

example : ∃ r, overlap (fun _ : Fin 2 => (1 : ℝ)) (Matrix.diagonal fun _ => 2) (fun _ => 3) (Matrix.diagonal fun _ => 1)
    = .ok r ∧ r.probability = normalDensity (Matrix.diagonal (fun _ => 2) + Matrix.diagonal fun _ => 1) 0
      ((fun _ : Fin 2 => (1 : ℝ)) - fun _ => 3) := by
  obtain ⟨r, h, -, hp, -⟩ := C35_overlap (fun _ : Fin 2 => (1 : ℝ)) (fun _ => 3) (Matrix.diagonal fun _ => 2)
    (Matrix.diagonal fun _ => 1) (Matrix.PosDef.diagonal fun _ => by norm_num)
    (Matrix.PosDef.diagonal fun _ => by norm_num)
  exact ⟨r, h, hp⟩

end Overlap

/-- The noise at the prediction points is an array of the right size. -/
def NoiseFits (gp : GP α H) (xs : List α) : Prop :=
  match calcV gp.cfg gp.data gp.hps xs with
  | .diag len _ => len = xs.length
  | .dense r c _ => r = xs.length ∧ c = xs.length
  | .sparse _ _ _ => False

theorem addNoise_fits {gp : GP α H} {xs : List α} (hn : NoiseFits gp xs) (v : ℕ → ℝ) (S : NMat) :
    ∃ v' S', addNoise gp xs v (some S) = .ok (v', some S') ∧
      toMat xs.length S' = toMat xs.length S + (calcV gp.cfg gp.data gp.hps xs).mat xs.length := by
  unfold NoiseFits at hn
  unfold addNoise
  split
  · rename_i len w hV
    rw [hV] at hn ⊢
    rw [if_pos hn]
    refine ⟨_, _, rfl, ?_⟩
    ext i j
    by_cases hij : i = j
    · subst hij; simp [toMat, Noise.mat]
    · have : (i : ℕ) ≠ j := fun h => hij (Fin.ext h)
      simp [toMat, hij, this, Noise.mat]
  · rename_i r c W hV
    rw [hV] at hn ⊢
    rw [if_pos hn]
    exact ⟨_, _, rfl, by ext i j; simp [toMat, Noise.mat]⟩
  · rename_i hV
    rw [hV] at hn
    exact absurd hn id

/-- **C35** (posterior probability of a GP). For a constructed GP with positive semidefinite kernel and noise, a
number of prediction points other than one, positive definite noise there and a positive definite covariance to compare
with, the call succeeds; with `G` the noisy posterior covariance and `m` the posterior mean the returned probability is
the density of `N(0, G + comp_cov)` at `m - comp_mean`, i.e. the overlap integral of the two densities, and the returned
mean and covariance are those of the normalised product.
What is missing: one prediction point, see `C35_single_point_violated`. -/
theorem C35_posterior_probability_partial (c : Config α H) (d : Data α) (h : H) (he : SpluContract c.ext)
    (ha : Admissible c d h) (hk : IsPSDKernel (c.kernel h)) (hV : ((calcV c d h d.x).mat d.x.length).PosSemidef) :
    ∃ gp, init c d h = .ok gp ∧ ∀ (xs : List α) (chunk : ℕ) (junk : NMat) (compMean : Fin xs.length → ℝ)
      (compCov : Matrix (Fin xs.length) (Fin xs.length) ℝ), xs.length ≠ 1 → NoiseFits gp xs →
      ((calcV c d h xs).mat xs.length).PosDef → compCov.PosDef →
      ∃ r, posteriorProbability gp xs compMean compCov chunk junk = .ok r ∧
        r.probability = normalDensity (specCov c d h xs + (calcV c d h xs).mat xs.length + compCov) 0
          (specMean c d h xs 0 - compMean) ∧
        ∀ x, normalDensity (specCov c d h xs + (calcV c d h xs).mat xs.length) (specMean c d h xs 0) x
          * normalDensity compCov compMean x = r.probability * normalDensity r.cov r.mu x := by
  obtain ⟨gp, hgp, hc, rfl, rfl, rfl⟩ := init_ok c d h he ha
  obtain ⟨gp', hgp', hall⟩ := C27_covariance_psd _ _ _ he ha hk hV
  rw [hgp] at hgp'
  simp only [Except.ok.injEq] at hgp'
  subst hgp'
  refine ⟨gp, hgp, fun xs chunk junk compMean compCov hlen hfit hE hcomp => ?_⟩
  obtain ⟨v, S, hcov, hS, hpsd, -, -⟩ := hall xs chunk junk
  obtain ⟨v', S', hadd, hS'⟩ := addNoise_fits hfit v S
  have hclip : clippedCovariance gp xs false chunk junk = (v, some S) := by
    simpa [posteriorCovariance] using hcov
  have hcov' : posteriorCovariance gp xs false true chunk junk = .ok (v', some S') := by
    simp only [posteriorCovariance, if_true, hclip]
    exact hadd
  have hm : (fun i : Fin xs.length => posteriorMean gp xs i 0) = specMean gp.cfg gp.data gp.hps xs 0 := by
    funext i; exact consistent_mean hc ha.posDef xs i 0
  have hG : (specCov gp.cfg gp.data gp.hps xs + (calcV gp.cfg gp.data gp.hps xs).mat xs.length).PosDef :=
    Matrix.PosDef.posSemidef_add (hS ▸ hpsd) hE
  obtain ⟨r, hr, hprod, hp, -, -⟩ := C35_overlap (specMean gp.cfg gp.data gp.hps xs 0) compMean _ compCov hG hcomp
  refine ⟨r, ?_, hp, hprod⟩
  simp only [posteriorProbability, hcov', bind, Except.bind]
  rw [if_neg hlen, hS', hS, hm, hr]

/-- The call raises for a single prediction point, whatever the GP and the comparison. -/
theorem C35_single_point_violated (gp : GP α H) (x : α) (compMean : Fin [x].length → ℝ)
    (compCov : Matrix (Fin [x].length) (Fin [x].length) ℝ) (chunk : ℕ) (junk : NMat) :
    ∃ e, posteriorProbability gp [x] compMean compCov chunk junk = .error e := by
  unfold posteriorProbability
  cases h : posteriorCovariance gp [x] false true chunk junk with
  | error e => exact ⟨e, by simp [bind, Except.bind]⟩
  | ok vS =>
    cases h2 : vS.2 with
    | none => exact ⟨"AssertionError: A must be np.ndarray for matrix inversion", by simp [bind, Except.bind, h2]⟩
    | some S =>
      exact ⟨"ValueError: matmul: Input operand 1 does not have enough dimensions", by simp [bind, Except.bind, h2]⟩

example (mode : Mode) (chunk : ℕ) (junk : NMat) : ∃ gp, init (exCfg mode) exData 2 = .ok gp ∧
    ∃ r, posteriorProbability gp [0, 3] (fun _ => 1) (Matrix.diagonal fun _ => 2) chunk junk = .ok r := by
  obtain ⟨gp, h1, h2⟩ := C35_posterior_probability_partial (exCfg mode) exData 2 cholExt_contract (exAdmissible mode 2)
    (exKernel_psd 2) (exNoise_posDef mode 2).posSemidef
  have hV : calcV (exCfg mode) exData 2 [0, 3] = .diag 2 fun _ => (1 + 1 / 2 + 1) / 3 := by
    simp [calcV, exCfg, exData]; norm_num
  have hgp : gp.cfg = exCfg mode ∧ gp.data = exData ∧ gp.hps = 2 := by
    obtain ⟨gp', e, -, e1, e2, e3⟩ := init_ok (exCfg mode) exData 2 cholExt_contract (exAdmissible mode 2)
    rw [h1] at e
    cases e
    exact ⟨e1, e2, e3⟩
  obtain ⟨r, hr, -⟩ := h2 [0, 3] chunk junk (fun _ => 1) (Matrix.diagonal fun _ => 2) (by simp)
    (by rw [NoiseFits, hgp.1, hgp.2.1, hgp.2.2, hV]; rfl)
    (by rw [hV]; exact Matrix.PosDef.diagonal fun _ => by norm_num)
    (Matrix.PosDef.diagonal fun _ => by norm_num)
  exact ⟨gp, h1, r, hr⟩

end Verif.GP
