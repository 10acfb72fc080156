import Verif.GP.RieModel
import Verif.GP.RieLemmas
import Verif.GP.InfoProps

/-! Property C145 (information about several prediction points). -/

namespace Verif.GP

open Finset Verif.LinAlg Matrix

variable {α H : Type}

/-- `ys` consists of entries of `xs`, each position used at most once, in any order. -/
def PartOf (ys xs : List α) : Prop :=
  ∃ e : Fin ys.length → Fin xs.length, Function.Injective e ∧ ∀ i, ys[i] = xs[e i]

theorem PartOf.single {xs : List α} {i : ℕ} (hi : i < xs.length) : PartOf [xs[i]] xs :=
  ⟨fun _ => ⟨i, hi⟩, fun a b _ => Subsingleton.elim (α := Fin 1) a b, fun j => by
    have : j = (0 : Fin 1) := Subsingleton.elim (α := Fin 1) _ _
    subst this; rfl⟩

theorem partOf_perm {a b : List α} (hab : a.Perm b) : PartOf a b := by
  classical
  obtain ⟨σ, hσ⟩ : ∃ σ : Fin a.length ≃ Fin b.length, ∀ i, a[i] = b[σ i] := by
    induction hab with
    | nil => exact ⟨Equiv.refl _, fun i => i.elim0⟩
    | cons x _ ih =>
      obtain ⟨σ, hσ⟩ := ih
      refine ⟨(finSuccEquiv _).trans ((Equiv.optionCongr σ).trans (finSuccEquiv _).symm), fun i => ?_⟩
      refine Fin.cases ?_ (fun i => ?_) i
      · simp
      · simpa using hσ i
    | swap x y l =>
      refine ⟨Equiv.swap ⟨0, by simp⟩ ⟨1, by simp⟩, fun i => ?_⟩
      rcases i with ⟨i, hi⟩
      match i, hi with
      | 0, _ => simp
      | 1, _ => simp
      | i + 2, hi =>
        have h : Equiv.swap (⟨0, by simp⟩ : Fin (y :: x :: l).length) ⟨1, by simp⟩ ⟨i + 2, hi⟩ = ⟨i + 2, hi⟩ :=
          Equiv.swap_apply_of_ne_of_ne (by simp [Fin.ext_iff]) (by simp [Fin.ext_iff])
        exact (congrArg (fun j : Fin (y :: x :: l).length => (x :: y :: l)[j]) h).symm
    | trans _ _ ih1 ih2 =>
      obtain ⟨σ, hσ⟩ := ih1
      obtain ⟨τ, hτ⟩ := ih2
      exact ⟨σ.trans τ, fun i => (hσ i).trans (hτ (σ i))⟩
  exact ⟨σ, σ.injective, hσ⟩

theorem jitter_submatrix {n m : Type*} [DecidableEq n] [DecidableEq m] {e : m → n} (he : Function.Injective e)
    (A : Matrix n n ℝ) (c : ℝ) :
    (A + c • (1 : Matrix n n ℝ)).submatrix e e = A.submatrix e e + c • (1 : Matrix m m ℝ) := by
  ext i j
  simp [Matrix.one_apply, he.eq_iff]

theorem specCov_part {c : Config α H} {d : Data α} {h : H} {xs ys : List α} (e : Fin ys.length → Fin xs.length)
    (hxy : ∀ i, ys[i] = xs[e i]) : (specCov c d h xs).submatrix e e = specCov c d h ys := by
  ext i j
  simp only [specCov, condCov, Matrix.submatrix_apply, Matrix.sub_apply, Matrix.mul_apply, Matrix.transpose_apply, Kmat,
    Matrix.of_apply, hxy]

theorem specMean_part {c : Config α H} {d : Data α} {h : H} {xs ys : List α} (e : Fin ys.length → Fin xs.length)
    (hxy : ∀ i, ys[i] = xs[e i]) (j : ℕ) : specMean c d h xs j ∘ e = specMean c d h ys j := by
  funext i
  simp only [specMean, condMean, meanAt, Function.comp, Pi.add_apply, Matrix.mulVec, dotProduct, Matrix.transpose_apply,
    Kmat, Matrix.of_apply, hxy]

theorem rie_part {c : Config α H} {d : Data α} {h : H} (ha : Admissible c d h) (hk : IsPSDKernel (c.kernel h))
    (hV : ((calcV c d h d.x).mat d.x.length).PosSemidef) {xs ys : List α} (hp : PartOf ys xs) :
    klGauss (meanAt c d h ys) (specMean c d h ys 0) (Kmat (c.kernel h) ys ys + jitter • (1 : Matrix _ _ ℝ))
        (specCov c d h ys + jitter • (1 : Matrix _ _ ℝ))
      ≤ klGauss (meanAt c d h xs) (specMean c d h xs 0) (Kmat (c.kernel h) xs xs + jitter • (1 : Matrix _ _ ℝ))
        (specCov c d h xs + jitter • (1 : Matrix _ _ ℝ)) := by
  obtain ⟨e, he, hxy⟩ := hp
  have hpost : (specCov c d h xs + jitter • (1 : Matrix _ _ ℝ)).PosDef :=
    Matrix.PosDef.posSemidef_add (specCov_posSemidef hk hV ha.posDef xs) (smul_one_posDef jitter_pos)
  have hprior : (Kmat (c.kernel h) xs xs + jitter • (1 : Matrix _ _ ℝ)).PosDef :=
    Matrix.PosDef.posSemidef_add (Kmat_posSemidef hk xs) (smul_one_posDef jitter_pos)
  have := klGauss_submatrix_le e he (meanAt c d h xs) (specMean c d h xs 0) hprior hpost
  rw [jitter_submatrix he, jitter_submatrix he, specCov_part e hxy, specMean_part e hxy] at this
  have e1 : meanAt c d h xs ∘ e = meanAt c d h ys := by
    funext i; simp only [meanAt, Function.comp, hxy]
  have e2 : (Kmat (c.kernel h) xs xs).submatrix e e = Kmat (c.kernel h) ys ys := by
    ext i j; simp only [Kmat, Matrix.submatrix_apply, Matrix.of_apply, hxy]
  rwa [e1, e2] at this

/-- The relative information at a single point, written out: `k`, `s` are the prior and posterior variances, `d` is
the shift of the mean. -/
noncomputable def rieScalar (k s d : ℝ) : ℝ :=
  1 / 2 * ((k + 1e-9) / (s + 1e-9) + d ^ 2 / (s + 1e-9) - 1 + Real.log ((s + 1e-9) / (k + 1e-9)))

theorem klGauss_single (μ₁ μ₂ : Fin 1 → ℝ) (A₁ A₂ : Matrix (Fin 1) (Fin 1) ℝ) (h1 : 0 < A₁ 0 0) (h2 : 0 < A₂ 0 0) :
    klGauss μ₁ μ₂ A₁ A₂ = 1 / 2 * (A₁ 0 0 / A₂ 0 0 + (μ₂ 0 - μ₁ 0) ^ 2 / A₂ 0 0 - 1 + Real.log (A₂ 0 0 / A₁ 0 0)) := by
  have hi : A₂⁻¹ 0 0 = (A₂ 0 0)⁻¹ := by
    have : A₂⁻¹ = Matrix.diagonal fun _ => (A₂ 0 0)⁻¹ := by
      apply Matrix.inv_eq_left_inv
      ext i j
      rw [Subsingleton.elim i 0, Subsingleton.elim j 0]
      simp [h2.ne']
    rw [this]; simp
  rw [klGauss, Real.log_div h2.ne' h1.ne', Matrix.det_fin_one, Matrix.det_fin_one]
  simp only [Matrix.trace, Matrix.diag_apply, Matrix.mul_apply, Finset.univ_unique, Fin.default_eq_zero, sum_singleton,
    hi, dotProduct, Matrix.mulVec, Pi.sub_apply, Fintype.card_fin, Nat.cast_one]
  field_simp

theorem rieLoop_ok {gp : GP α H} {lstsq : {n m : Type} → Matrix n n ℝ → Matrix n m ℝ → Matrix n m ℝ} {noisy : Bool}
    {chunk : ℕ} {junk : ℕ → NMat} {f : α → ℝ} (hf : ∀ x i, gpRIE gp lstsq [x] noisy chunk (junk i) = .ok (f x))
    (i : ℕ) (xs : List α) : rieLoop gp lstsq true noisy chunk junk i xs = .ok (xs.map f) := by
  induction xs generalizing i with
  | nil => rfl
  | cons x xs ih => simp only [rieLoop, if_true, hf, ih, bind, Except.bind, List.map_cons]

/-- **C145** (relative information). For a constructed GP with positive semidefinite kernel and noise, `add_noise`
off:
* the value of a part of the prediction points, in any order, is at most the value of all of them,
* rearranging the points does not change the value,
* the per-point call returns one number per point, the divergence written out for the prior and posterior variances
  and means of that point, and none of them exceeds the value of the whole set. -/
theorem C145_relative_information (c : Config α H) (d : Data α) (h : H) (he : SpluContract c.ext)
    (ha : Admissible c d h) (hk : IsPSDKernel (c.kernel h)) (hV : ((calcV c d h d.x).mat d.x.length).PosSemidef)
    (lstsq : {n m : Type} → Matrix n n ℝ → Matrix n m ℝ → Matrix n m ℝ) :
    ∃ gp, init c d h = .ok gp ∧ ∀ (xs : List α) (chunk : ℕ) (junk : NMat), ∃ r,
      gpRIE gp lstsq xs false chunk junk = .ok r ∧
      (∀ ys chunk' junk', PartOf ys xs → ∃ r', gpRIE gp lstsq ys false chunk' junk' = .ok r' ∧ 0 ≤ r' ∧ r' ≤ r) ∧
      (∀ ys chunk' junk', ys.Perm xs → gpRIE gp lstsq ys false chunk' junk' = .ok r) ∧
      ∀ chunk' (junk' : ℕ → NMat), ∃ rs, gpRIESet gp lstsq xs true false chunk' junk' = .ok rs ∧
        rs = xs.map (fun x => rieScalar (c.kernel h x x)
          (specCov c d h [x] ⟨0, Nat.one_pos⟩ ⟨0, Nat.one_pos⟩)
          (specMean c d h [x] 0 ⟨0, Nat.one_pos⟩ - meanFn c d h x)) ∧
        ∀ q ∈ rs, 0 ≤ q ∧ q ≤ r := by
  obtain ⟨gp, hgp, hall⟩ := C34_gp_kl c d h he ha hk hV lstsq
  refine ⟨gp, hgp, fun xs chunk junk => ?_⟩
  obtain ⟨r, hr, -, hrv⟩ := (hall xs chunk junk).1
  have hsub : ∀ ys chunk' junk', PartOf ys xs →
      ∃ r', gpRIE gp lstsq ys false chunk' junk' = .ok r' ∧ 0 ≤ r' ∧ r' ≤ r := by
    intro ys chunk' junk' hp
    obtain ⟨r', hr', h0, hv⟩ := (hall ys chunk' junk').1
    exact ⟨r', hr', h0, by rw [hv, hrv]; exact rie_part ha hk hV hp⟩
  refine ⟨r, hr, hsub, ?_, ?_⟩
  · intro ys chunk' junk' hperm
    obtain ⟨r', hr', -, hv⟩ := (hall ys chunk' junk').1
    rw [hr', Except.ok.injEq, hv, hrv]
    exact le_antisymm (rie_part ha hk hV (partOf_perm hperm)) (rie_part ha hk hV (partOf_perm hperm.symm))
  · intro chunk' junk'
    have hone : ∀ x i, gpRIE gp lstsq [x] false chunk' (junk' i) = .ok (rieScalar (c.kernel h x x)
          (specCov c d h [x] ⟨0, Nat.one_pos⟩ ⟨0, Nat.one_pos⟩)
          (specMean c d h [x] 0 ⟨0, Nat.one_pos⟩ - meanFn c d h x)) := by
      intro x i
      obtain ⟨r', hr', -, hv⟩ := (hall [x] chunk' (junk' i)).1
      rw [hr', Except.ok.injEq, hv]
      have hpost : (specCov c d h [x] + jitter • (1 : Matrix _ _ ℝ)).PosDef :=
        Matrix.PosDef.posSemidef_add (specCov_posSemidef hk hV ha.posDef [x]) (smul_one_posDef jitter_pos)
      have hprior : (Kmat (c.kernel h) [x] [x] + jitter • (1 : Matrix _ _ ℝ)).PosDef :=
        Matrix.PosDef.posSemidef_add (Kmat_posSemidef hk [x]) (smul_one_posDef jitter_pos)
      refine (klGauss_single _ _ _ _ hprior.diag_pos hpost.diag_pos).trans ?_
      rw [rieScalar, Matrix.add_apply, Matrix.add_apply, Matrix.smul_apply, Matrix.one_apply_eq]
      simp only [smul_eq_mul, mul_one, jitter]
      rfl
    refine ⟨_, rieLoop_ok hone 0 xs, rfl, fun q hq => ?_⟩
    obtain ⟨x, hx, rfl⟩ := List.mem_map.1 hq
    obtain ⟨i, hi, rfl⟩ := List.getElem_of_mem hx
    obtain ⟨r', hr', h0, hle⟩ := hsub [xs[i]] chunk' (junk' 0) (PartOf.single hi)
    rw [hone, Except.ok.injEq] at hr'
    rw [hr']
    exact ⟨h0, hle⟩

example (mode : Mode) (lstsq : {n m : Type} → Matrix n n ℝ → Matrix n m ℝ → Matrix n m ℝ) (chunk : ℕ) (junk : NMat) :
    ∃ gp, init (exCfg mode) exData 2 = .ok gp ∧ ∃ r r', gpRIE gp lstsq [0, 3, 5] false chunk junk = .ok r ∧
      gpRIE gp lstsq [5, 0] false chunk junk = .ok r' ∧ r' ≤ r := by
  obtain ⟨gp, h1, h2⟩ := C145_relative_information (exCfg mode) exData 2 cholExt_contract (exAdmissible mode 2)
    (exKernel_psd 2) (exNoise_posDef mode 2).posSemidef lstsq
  obtain ⟨r, hr, hsub, -⟩ := h2 [0, 3, 5] chunk junk
  obtain ⟨r', hr', -, hle⟩ := hsub [5, 0] chunk junk ⟨![2, 0], by decide, by
    intro i; fin_cases i <;> rfl⟩
  exact ⟨gp, h1, r, r', hr, hr', hle⟩

/-! ### Mutual information and total correlation -/

theorem jointParts_part {gp : GP α H} {xs ys : List α} (e : Fin ys.length → Fin xs.length)
    (he : Function.Injective e) (hxy : ∀ i, ys[i] = xs[e i]) {K k kk}
    (h : jointParts gp xs false = .ok (K, k, kk)) :
    jointParts gp ys false = .ok (K, k.submatrix id e, kk.submatrix e e) := by
  simp only [jointParts, Bool.false_eq_true, if_false, Except.ok.injEq, Prod.mk.injEq] at h ⊢
  obtain ⟨rfl, rfl, rfl⟩ := h
  refine ⟨rfl, ?_, ?_⟩
  · ext i j
    simp only [Matrix.of_apply, Matrix.submatrix_apply, id]
    rw [gram_apply, gram_apply]
    simp only [Kmat, Matrix.of_apply, hxy]
  · ext i j
    simp only [Matrix.submatrix_apply, toMat, Matrix.of_apply]
    rw [gram_apply, gram_apply]
    simp only [Kmat, Matrix.of_apply, hxy]
    have : ((i : ℕ) = (j : ℕ)) ↔ ((e i : ℕ) = (e j : ℕ)) := by
      rw [← Fin.ext_iff, ← Fin.ext_iff, he.eq_iff]
    simp only [this]

theorem mutualInformation_eq {n p : Type} [Fintype n] [DecidableEq n] [Fintype p] [DecidableEq p] {A : Matrix n n ℝ}
    {B : Matrix n p ℝ} {D : Matrix p p ℝ} (hj : (fromBlocks A B Bᵀ D).PosDef) :
    mutualInformation (fromBlocks A B Bᵀ D) D A = klGauss (0 : n ⊕ p → ℝ) 0 (fromBlocks A B Bᵀ D) (fromBlocks A 0 0 D) := by
  have hA : A.PosDef := hj.submatrix (e := (Sum.inl : n → n ⊕ p)) Sum.inl_injective
  have hD : D.PosDef := hj.submatrix (e := (Sum.inr : p → n ⊕ p)) Sum.inr_injective
  have hinv : (fromBlocks A 0 0 D)⁻¹ = fromBlocks A⁻¹ 0 0 D⁻¹ := by
    apply Matrix.inv_eq_right_inv
    rw [fromBlocks_multiply]
    simp [mul_inv_of_posDef hA, mul_inv_of_posDef hD]
  have htr : ((fromBlocks A 0 0 D)⁻¹ * fromBlocks A B Bᵀ D).trace = Fintype.card (n ⊕ p) := by
    rw [hinv, fromBlocks_multiply, trace_fromBlocks']
    simp [inv_mul_of_posDef hA, inv_mul_of_posDef hD]
  have hdet : Real.log (fromBlocks A 0 0 D).det = Real.log A.det + Real.log D.det := by
    rw [Matrix.det_fromBlocks_zero₂₁, Real.log_mul hA.det_pos.ne' hD.det_pos.ne']
  rw [(C34_mutual_information A B D hj).1, klGauss, htr, hdet]
  simp

theorem totalCorrelation_eq {gp : GP α H} {lstsq : {n m : Type} → Matrix n n ℝ → Matrix n m ℝ → Matrix n m ℝ}
    {xs : List α} {noisy : Bool} {K k kk} (h : jointParts gp xs noisy = .ok (K, k, kk))
    (hj : (fromBlocks K k kᵀ kk).PosDef) :
    (fromBlocks K 0 0 (Matrix.diagonal fun i => kk i i)).PosDef ∧
    gpTotalCorrelation gp lstsq xs noisy = .ok (klGauss 0 0 (fromBlocks K k kᵀ kk)
      (fromBlocks K 0 0 (Matrix.diagonal fun i => kk i i))) := by
  have hK : K.PosDef := hj.submatrix (e := Sum.inl) Sum.inl_injective
  have hkk : kk.PosDef := hj.submatrix (e := Sum.inr) Sum.inr_injective
  have hprod := blockDiag_posDef hK (Matrix.PosDef.diagonal fun i => hkk.diag_pos (i := i))
  have hD : (Matrix.of fun i j => kk i j * (1 : Matrix _ _ ℝ) i j) = Matrix.diagonal fun i => kk i i := by
    ext i j
    by_cases hij : i = j
    · subst hij; simp
    · simp [hij]
  refine ⟨hprod, ?_⟩
  simp only [gpTotalCorrelation, h, bind, Except.bind, zero_smul, hD]
  rw [klDiv_eq _ _ _ hj hprod]

/-- **C145** (mutual information and total correlation). For a constructed GP with positive semidefinite kernel,
`add_noise` off, the mutual information between the data values and a part of the prediction points is at most that of
all of them; the same holds for the total correlation. -/
theorem C145_mutual_information (c : Config α H) (d : Data α) (h : H) (he : SpluContract c.ext) (ha : Admissible c d h)
    (hk : IsPSDKernel (c.kernel h)) (lstsq : {n m : Type} → Matrix n n ℝ → Matrix n m ℝ → Matrix n m ℝ) :
    ∃ gp, init c d h = .ok gp ∧ ∀ xs ys : List α, PartOf ys xs →
      (∃ r r', gpMutualInformation gp xs false = .ok r ∧ gpMutualInformation gp ys false = .ok r' ∧
        0 ≤ r' ∧ r' ≤ r) ∧
      (∃ r r', gpTotalCorrelation gp lstsq xs false = .ok r ∧ gpTotalCorrelation gp lstsq ys false = .ok r' ∧
        0 ≤ r' ∧ r' ≤ r) := by
  obtain ⟨gp, hgp, hc, rfl, rfl, rfl⟩ := init_ok c d h he ha
  refine ⟨gp, hgp, fun xs ys hp => ?_⟩
  obtain ⟨e, hinj, hxy⟩ := hp
  obtain ⟨K, k, kk, hx, hpx⟩ := jointParts_ok hc hk xs false (by simp)
  have hy := jointParts_part e hinj hxy hx
  have hmap : Function.Injective (Sum.map id e : Fin gp.data.x.length ⊕ Fin ys.length → _) :=
    Function.injective_id.sumMap hinj
  have hsub : (fromBlocks K k kᵀ kk).submatrix (Sum.map id e) (Sum.map id e)
      = fromBlocks K (k.submatrix id e) (k.submatrix id e)ᵀ (kk.submatrix e e) := by
    ext i j
    rcases i with i | i <;> rcases j with j | j <;> simp
  have hpy : (fromBlocks K (k.submatrix id e) (k.submatrix id e)ᵀ (kk.submatrix e e)).PosDef :=
    hsub ▸ hpx.submatrix hmap
  have hK : K.PosDef := hpx.submatrix (e := Sum.inl) Sum.inl_injective
  have hkk : kk.PosDef := hpx.submatrix (e := Sum.inr) Sum.inr_injective
  constructor
  · have ex : gpMutualInformation gp xs false = .ok (mutualInformation (fromBlocks K k kᵀ kk) kk K) := by
      simp only [gpMutualInformation, hx, bind, Except.bind]
    have ey : gpMutualInformation gp ys false = .ok (mutualInformation (fromBlocks K (k.submatrix id e)
        (k.submatrix id e)ᵀ (kk.submatrix e e)) (kk.submatrix e e) K) := by
      simp only [gpMutualInformation, hy, bind, Except.bind]
    refine ⟨_, _, ex, ey, (C34_mutual_information _ _ _ hpy).2, ?_⟩
    rw [mutualInformation_eq hpx, mutualInformation_eq hpy]
    have := klGauss_submatrix_le (Sum.map id e) hmap (0 : Fin gp.data.x.length ⊕ Fin xs.length → ℝ) 0 hpx
      (blockDiag_posDef hK hkk)
    rw [hsub] at this
    have hs2 : (fromBlocks K 0 0 kk).submatrix (Sum.map id e) (Sum.map id e) = fromBlocks K 0 0 (kk.submatrix e e) := by
      ext i j
      rcases i with i | i <;> rcases j with j | j <;> simp
    rw [hs2] at this
    exact this
  · obtain ⟨hprx, htx⟩ := totalCorrelation_eq (lstsq := lstsq) hx hpx
    obtain ⟨hpry, hty⟩ := totalCorrelation_eq (lstsq := lstsq) hy hpy
    refine ⟨_, _, htx, hty, klGauss_nonneg _ _ hpy hpry, ?_⟩
    have := klGauss_submatrix_le (Sum.map id e) hmap (0 : Fin gp.data.x.length ⊕ Fin xs.length → ℝ) 0 hpx hprx
    rw [hsub] at this
    have hs2 : (fromBlocks K 0 0 (Matrix.diagonal fun i => kk i i)).submatrix (Sum.map id e) (Sum.map id e)
        = fromBlocks K 0 0 (Matrix.diagonal fun i => (kk.submatrix e e) i i) := by
      ext i j
      rcases i with i | i <;> rcases j with j | j <;> simp [Matrix.diagonal_apply, hinj.eq_iff]
    rw [hs2] at this
    exact this

example (mode : Mode) (lstsq : {n m : Type} → Matrix n n ℝ → Matrix n m ℝ → Matrix n m ℝ) :
    ∃ gp, init (exCfg mode) exData 2 = .ok gp ∧ ∃ r r', gpMutualInformation gp [0, 3, 5] false = .ok r ∧
      gpMutualInformation gp [5, 0] false = .ok r' ∧ 0 ≤ r' ∧ r' ≤ r := by
  obtain ⟨gp, h1, h2⟩ := C145_mutual_information (exCfg mode) exData 2 cholExt_contract (exAdmissible mode 2)
    (exKernel_psd 2) lstsq
  exact ⟨gp, h1, (h2 [0, 3, 5] [5, 0] ⟨![2, 0], by decide, by intro i; fin_cases i <;> rfl⟩).1⟩

/-! ### Points the data say nothing about -/

theorem specCov_uninformed {c : Config α H} {d : Data α} {h : H} {xs : List α}
    (h0 : ∀ a ∈ d.x, ∀ b ∈ xs, c.kernel h a b = 0) : specCov c d h xs = Kmat (c.kernel h) xs xs := by
  have : Kmat (c.kernel h) d.x xs = 0 := by
    ext i j
    exact h0 _ (List.getElem_mem _) _ (List.getElem_mem _)
  rw [specCov, condCov, this]
  simp

theorem specMean_uninformed {c : Config α H} {d : Data α} {h : H} {xs : List α}
    (h0 : ∀ a ∈ d.x, ∀ b ∈ xs, c.kernel h a b = 0) (j : ℕ) : specMean c d h xs j = meanAt c d h xs := by
  have : Kmat (c.kernel h) d.x xs = 0 := by
    ext i j
    exact h0 _ (List.getElem_mem _) _ (List.getElem_mem _)
  rw [specMean, condMean, this]
  simp

/-- **C145** (no information). With `add_noise` off, prediction points that have no prior correlation with the data
have relative information zero. -/
theorem C145_uninformed (c : Config α H) (d : Data α) (h : H) (he : SpluContract c.ext) (ha : Admissible c d h)
    (hk : IsPSDKernel (c.kernel h)) (hV : ((calcV c d h d.x).mat d.x.length).PosSemidef)
    (lstsq : {n m : Type} → Matrix n n ℝ → Matrix n m ℝ → Matrix n m ℝ) :
    ∃ gp, init c d h = .ok gp ∧ ∀ (xs : List α) (chunk : ℕ) (junk : NMat),
      (∀ a ∈ d.x, ∀ b ∈ xs, c.kernel h a b = 0) → gpRIE gp lstsq xs false chunk junk = .ok 0 := by
  obtain ⟨gp, hgp, hall⟩ := C34_gp_kl c d h he ha hk hV lstsq
  refine ⟨gp, hgp, fun xs chunk junk h0 => ?_⟩
  obtain ⟨r, hr, -, hv⟩ := (hall xs chunk junk).1
  rw [hr, Except.ok.injEq, hv, specCov_uninformed h0, specMean_uninformed h0]
  exact klGauss_self _ (Matrix.PosDef.posSemidef_add (Kmat_posSemidef hk xs) (smul_one_posDef jitter_pos))

/-- Two uncorrelated points with prior variance one. -/
noncomputable def rieCfg (mode : Mode) : Config Bool ℝ where
  kernel _ a b := if a = b then 1 else 0
  mean := some fun _ _ => 0
  noise := .measured
  mode := mode
  sparseK := false
  ext := cholExt

/-- One measurement, at the first point. -/
noncomputable def rieData : Data Bool where
  x := [true]
  y := [[1]]
  cols := 1
  noiseVar := some [1]

theorem rieKernel_psd (mode : Mode) (h : ℝ) : IsPSDKernel ((rieCfg mode).kernel h) := by
  refine ⟨fun a b => by simp [rieCfg, eq_comm], fun n x w => ?_⟩
  have e : ∀ i j, w i * w j * (rieCfg mode).kernel h (x i) (x j)
      = (if x i = true then w i else 0) * (if x j = true then w j else 0)
        + (if x i = false then w i else 0) * (if x j = false then w j else 0) := by
    intro i j
    cases hi : x i <;> cases hj : x j <;> simp [rieCfg]
  simp only [e, Finset.sum_add_distrib, ← Finset.mul_sum, ← Finset.sum_mul]
  exact add_nonneg (mul_self_nonneg _) (mul_self_nonneg _)

theorem rie_index (i j : Fin rieData.x.length) : i = ⟨0, Nat.one_pos⟩ ∧ j = ⟨0, Nat.one_pos⟩ := by
  have hi := i.2
  have hj := j.2
  simp only [rieData, List.length_cons, List.length_nil] at hi hj
  exact ⟨Fin.ext (show (i : ℕ) = 0 by omega), Fin.ext (show (j : ℕ) = 0 by omega)⟩

theorem rieKV (mode : Mode) (h : ℝ) : KVmat (rieCfg mode) rieData h = Matrix.diagonal fun _ => 2 := by
  ext i j
  obtain ⟨rfl, rfl⟩ := rie_index i j
  norm_num [KVmat, Kmat, rieCfg, rieData, calcV, Noise.mat]

theorem rieNoise (mode : Mode) (h : ℝ) :
    ((calcV (rieCfg mode) rieData h rieData.x).mat rieData.x.length).PosSemidef := by
  have : (calcV (rieCfg mode) rieData h rieData.x).mat rieData.x.length = Matrix.diagonal fun _ => 1 := by
    ext i j
    obtain ⟨rfl, rfl⟩ := rie_index i j
    norm_num [rieCfg, rieData, calcV, Noise.mat]
  rw [this, Matrix.posSemidef_diagonal_iff]
  exact fun _ => zero_le_one

theorem rieAdmissible (mode : Mode) (h : ℝ) : Admissible (rieCfg mode) rieData h where
  fits := by simp [calcV, rieCfg, rieData, Noise.Fits]
  posDef := by rw [rieKV]; exact Matrix.PosDef.diagonal fun _ => by norm_num

example (mode : Mode) (lstsq : {n m : Type} → Matrix n n ℝ → Matrix n m ℝ → Matrix n m ℝ) (chunk : ℕ) (junk : NMat) :
    ∃ gp, init (rieCfg mode) rieData 1 = .ok gp ∧ gpRIE gp lstsq [false] false chunk junk = .ok 0 := by
  obtain ⟨gp, h1, h2⟩ := C145_uninformed (rieCfg mode) rieData 1 cholExt_contract (rieAdmissible mode 1)
    (rieKernel_psd mode 1) (rieNoise mode 1) lstsq
  exact ⟨gp, h1, h2 [false] chunk junk (by simp [rieCfg, rieData])⟩

theorem rieScalar_pos {k s d : ℝ} (hk : 0 ≤ k) (hs : 0 ≤ s) (h : k ≠ s ∨ d ≠ 0) : 0 < rieScalar k s d := by
  have hk' : 0 < k + 1e-9 := by norm_num; linarith
  have hs' : 0 < s + 1e-9 := by norm_num; linarith
  have hl : Real.log ((s + 1e-9) / (k + 1e-9)) = - Real.log ((k + 1e-9) / (s + 1e-9)) := by
    rw [← Real.log_inv, inv_div]
  have hq : 0 ≤ d ^ 2 / (s + 1e-9) := by positivity
  rw [rieScalar, hl]
  rcases h with h | h
  · have : Real.log ((k + 1e-9) / (s + 1e-9)) < (k + 1e-9) / (s + 1e-9) - 1 := by
      apply Real.log_lt_sub_one_of_pos (div_pos hk' hs')
      rw [Ne, div_eq_one_iff_eq hs'.ne']
      intro e; apply h; linarith
    linarith
  · have h1 := Real.log_le_sub_one_of_pos (div_pos hk' hs')
    have : 0 < d ^ 2 / (s + 1e-9) := div_pos (by positivity) hs'
    linarith

/-- **C145 violated** (information "predicted to be gained through observing"). The value ranks points by what the data
already say about them: at the uncorrelated point, where the posterior variance is largest and an observation would
tell the most, it is zero, and at the point already measured it is positive. -/
theorem C145_gain_violated (mode : Mode) (lstsq : {n m : Type} → Matrix n n ℝ → Matrix n m ℝ → Matrix n m ℝ)
    (chunk : ℕ) (junk : ℕ → NMat) :
    ∃ gp, init (rieCfg mode) rieData 1 = .ok gp ∧ ∃ q,
      gpRIESet gp lstsq [true, false] true false chunk junk = .ok [q, 0] ∧ 0 < q ∧
      ∃ v S, posteriorCovariance gp [true, false] false false chunk (junk 0) = .ok (v, S) ∧ v 0 = 1 / 2 ∧ v 1 = 1 := by
  obtain ⟨gp, hgp, hall⟩ := C145_relative_information (rieCfg mode) rieData 1 cholExt_contract (rieAdmissible mode 1)
    (rieKernel_psd mode 1) (rieNoise mode 1) lstsq
  obtain ⟨gp', hgp', hcov⟩ := C27_covariance_psd (rieCfg mode) rieData 1 cholExt_contract (rieAdmissible mode 1)
    (rieKernel_psd mode 1) (rieNoise mode 1)
  rw [hgp, Except.ok.injEq] at hgp'
  subst hgp'
  obtain ⟨r, hr, -, -, hset⟩ := hall [true, false] chunk (junk 0)
  obtain ⟨rs, hrs, hval, -⟩ := hset chunk junk
  have hKV := rieKV mode 1
  have hinv : (KVmat (rieCfg mode) rieData 1)⁻¹ = Matrix.diagonal fun _ => (2 : ℝ)⁻¹ := by
    rw [hKV]
    apply Matrix.inv_eq_left_inv
    rw [Matrix.diagonal_mul_diagonal]
    norm_num
  have hu : ∀ a ∈ rieData.x, ∀ b ∈ [false], (rieCfg mode).kernel 1 a b = 0 := by simp [rieCfg, rieData]
  have hf : specCov (rieCfg mode) rieData 1 [false] ⟨0, Nat.one_pos⟩ ⟨0, Nat.one_pos⟩ = 1 := by
    rw [specCov_uninformed hu]; simp [Kmat, rieCfg]
  have hfm : specMean (rieCfg mode) rieData 1 [false] 0 ⟨0, Nat.one_pos⟩ = 0 := by
    rw [specMean_uninformed hu]; simp [meanAt, meanFn, rieCfg]
  have hcovEntry : ∀ (xs : List Bool) (i : Fin xs.length),
      specCov (rieCfg mode) rieData 1 xs i i = 1 - if xs[i] = true then 1 / 2 else 0 := by
    intro xs i
    have e1 : ∀ l, Kmat ((rieCfg mode).kernel 1) rieData.x xs l i = if xs[i] = true then 1 else 0 := by
      intro l
      obtain ⟨rfl, -⟩ := rie_index l l
      show (if true = xs[i] then (1 : ℝ) else 0) = _
      cases xs[i] <;> simp
    rw [specCov, condCov, hinv, Matrix.sub_apply, Matrix.mul_apply]
    simp only [Matrix.mul_diagonal, Matrix.transpose_apply, e1]
    rw [show Kmat ((rieCfg mode).kernel 1) xs xs i i = 1 by simp [Kmat, rieCfg]]
    rw [show (Finset.univ : Finset (Fin rieData.x.length)) = {⟨0, by simp [rieData]⟩} from rfl, sum_singleton]
    split <;> norm_num
  have ht : specCov (rieCfg mode) rieData 1 [true] ⟨0, Nat.one_pos⟩ ⟨0, Nat.one_pos⟩ = 1 / 2 := by
    rw [hcovEntry]; norm_num
  refine ⟨gp, hgp, rieScalar 1 (1 / 2) (specMean (rieCfg mode) rieData 1 [true] 0 ⟨0, Nat.one_pos⟩
    - meanFn (rieCfg mode) rieData 1 true), ?_, ?_, ?_⟩
  · rw [hrs, hval, Except.ok.injEq]
    simp only [List.map_cons, List.map_nil, hf, hfm, ht]
    have e1 : ∀ a, (rieCfg mode).kernel 1 a a = 1 := by simp [rieCfg]
    rw [e1, e1]
    congr 2
    have : meanFn (rieCfg mode) rieData 1 false = 0 := by simp [meanFn, rieCfg]
    rw [this, rieScalar]
    norm_num
  · exact rieScalar_pos (by norm_num) (by norm_num) (Or.inl (by norm_num))
  · obtain ⟨v, S, hvS, -, -, hv, -⟩ := hcov [true, false] chunk (junk 0)
    refine ⟨v, some S, hvS, ?_, ?_⟩
    · have := hv ⟨0, by simp⟩
      rw [hcovEntry] at this
      norm_num at this
      norm_num [this]
    · have := hv ⟨1, by simp⟩
      rw [hcovEntry] at this
      norm_num at this
      exact this

/-- **C145 violated** (`add_noise=True`). The noise goes into the posterior covariance but not into the prior one, so
the value is positive at a point about which the data say nothing. -/
theorem C145_noise_violated (mode : Mode) (lstsq : {n m : Type} → Matrix n n ℝ → Matrix n m ℝ → Matrix n m ℝ)
    (chunk : ℕ) (junk : NMat) :
    ∃ gp, init (rieCfg mode) rieData 1 = .ok gp ∧ gpRIE gp lstsq [false] false chunk junk = .ok 0 ∧
      ∃ q, gpRIE gp lstsq [false] true chunk junk = .ok q ∧ 0 < q := by
  obtain ⟨gp0, hgp0, hz⟩ := C145_uninformed (rieCfg mode) rieData 1 cholExt_contract (rieAdmissible mode 1)
    (rieKernel_psd mode 1) (rieNoise mode 1) lstsq
  obtain ⟨gp, hgp, hc, h1, h2, h3⟩ := init_ok (rieCfg mode) rieData 1 cholExt_contract (rieAdmissible mode 1)
  rw [hgp, Except.ok.injEq] at hgp0
  subst hgp0
  have hu : ∀ a ∈ rieData.x, ∀ b ∈ [false], (rieCfg mode).kernel 1 a b = 0 := by simp [rieCfg, rieData]
  refine ⟨gp, hgp, hz [false] chunk junk hu, ?_⟩
  have hpd : (KVmat gp.cfg gp.data gp.hps).PosDef := by rw [h1, h2, h3]; exact (rieAdmissible mode 1).posDef
  obtain ⟨v, S, hcov, -, hS, -⟩ := posteriorCovariance_eq hc hpd [false] false chunk junk
  obtain ⟨T, rfl, hT⟩ := hS rfl
  have hm := consistent_mean hc hpd [false] ⟨0, Nat.one_pos⟩ 0
  have hV : calcV gp.cfg gp.data gp.hps [false] = .diag 1 fun i => [(1 : ℝ)].getD i 0 := by
    rw [h1, h2, h3]; simp [calcV, rieCfg, rieData]
  have hclip : clippedCovariance gp [false] false chunk junk = (v, some T) := by
    simpa [posteriorCovariance] using hcov
  have hnoise : posteriorCovariance gp [false] false true chunk junk
      = .ok (fun i => v i + [(1 : ℝ)].getD i 0, some fun i j => T i j + if i = j then [(1 : ℝ)].getD i 0 else 0) := by
    simp only [posteriorCovariance, if_true, hclip, addNoise, hV, List.length_cons, List.length_nil, Nat.zero_add,
      Option.map_some]
  have hT0 : T 0 0 = 1 := by
    have := hT ⟨0, Nat.one_pos⟩ ⟨0, Nat.one_pos⟩
    rw [if_pos rfl, h1, h2, h3, specCov_uninformed hu] at this
    rw [this]
    simp [Kmat, rieCfg]
  have hval : gpRIE gp lstsq [false] true chunk junk = .ok (rieScalar 1 2 0) := by
    simp only [gpRIE, hnoise, bind, Except.bind, Except.ok.injEq]
    have hk0 : (toMat [false].length (gram (gp.cfg.kernel gp.hps) [false] [false]) + jitter • (1 : Matrix _ _ ℝ))
        = Matrix.diagonal fun _ : Fin 1 => 1 + jitter := by
      ext i j
      have hi : i = (0 : Fin 1) := Subsingleton.elim (α := Fin 1) _ _
      have hj : j = (0 : Fin 1) := Subsingleton.elim (α := Fin 1) _ _
      subst hi hj
      simp [toMat, gram, h1, rieCfg]
    have hs0 : (toMat [false].length (fun i j => T i j + if i = j then [(1 : ℝ)].getD i 0 else 0)
        + jitter • (1 : Matrix _ _ ℝ)) = Matrix.diagonal fun _ : Fin 1 => 2 + jitter := by
      ext i j
      have hi : i = (0 : Fin 1) := Subsingleton.elim (α := Fin 1) _ _
      have hj : j = (0 : Fin 1) := Subsingleton.elim (α := Fin 1) _ _
      subst hi hj
      simp [toMat, hT0]
      norm_num
    rw [hk0, hs0]
    have hj := jitter_pos
    have d1 : (Matrix.diagonal fun _ : Fin 1 => 1 + jitter).PosDef := Matrix.PosDef.diagonal fun _ => by linarith
    have d2 : (Matrix.diagonal fun _ : Fin 1 => 2 + jitter).PosDef := Matrix.PosDef.diagonal fun _ => by linarith
    refine (klDiv_eq lstsq _ _ d1 d2).trans ((klGauss_single _ _ _ _ d1.diag_pos d2.diag_pos).trans ?_)
    have m1 : posteriorMean gp [false] 0 0 = 0 := by
      refine hm.trans ?_
      rw [h1, h2, h3, specMean_uninformed hu]
      simp [meanAt, meanFn, rieCfg]
    have m2 : evalAt (meanFn gp.cfg gp.data gp.hps) [false] 0 = 0 := by
      simp [evalAt, meanFn, h1, rieCfg]
    simp only [Fin.val_zero, m1, m2, Matrix.diagonal_apply_eq, rieScalar, jitter]
    norm_num
  exact ⟨_, hval, rieScalar_pos (by norm_num) (by norm_num) (Or.inl (by norm_num))⟩

/-- **C145 violated** (lists). The per-point call is documented for lists of non-Euclidean inputs; the collective call
accepts them, the per-point call raises for every non-empty list. -/
theorem C145_list_violated (c : Config α H) (d : Data α) (h : H) (he : SpluContract c.ext)
    (ha : Admissible c d h) (hk : IsPSDKernel (c.kernel h)) (hV : ((calcV c d h d.x).mat d.x.length).PosSemidef)
    (lstsq : {n m : Type} → Matrix n n ℝ → Matrix n m ℝ → Matrix n m ℝ) :
    ∃ gp, init c d h = .ok gp ∧ ∀ (xs : List α) (noisy : Bool) (chunk : ℕ) (junk : ℕ → NMat), xs ≠ [] →
      (∃ r, gpRIE gp lstsq xs false chunk (junk 0) = .ok r) ∧
      gpRIESet gp lstsq xs false noisy chunk junk = .error "AttributeError: object has no attribute 'reshape'" := by
  obtain ⟨gp, hgp, hall⟩ := C34_gp_kl c d h he ha hk hV lstsq
  refine ⟨gp, hgp, fun xs noisy chunk junk hne => ⟨?_, ?_⟩⟩
  · obtain ⟨r, hr, -⟩ := (hall xs chunk (junk 0)).1
    exact ⟨r, hr⟩
  · cases xs with
    | nil => exact absurd rfl hne
    | cons x xs => rfl

end Verif.GP
