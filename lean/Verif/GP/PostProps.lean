import Verif.GP.CovLemmas

/-!
Properties C25, C26, C27, C28, C31, C36: what the posterior methods return.

Every theorem is about a GP object built by the constructor (`init`), in every direct linear algebra mode
(`c.mode` is arbitrary), with SuperLU and LAPACK behaving as stated by `SpluContract` and `cholFactor`.
-/

namespace Verif.GP

open Finset Verif.LinAlg Matrix

variable {α H : Type}

/-! ## A concrete GP used as an instance of the hypotheses -/

/-- Kernel `h² (1 + a b)`, mean `a`, measured noise. -/
noncomputable def exCfg (mode : Mode) : Config ℝ ℝ where
  kernel h a b := h ^ 2 * (1 + a * b)
  mean := some fun _ a => a
  noise := .measured
  mode := mode
  sparseK := false
  ext := cholExt

/-- Three points, two of them equal. -/
noncomputable def exData : Data ℝ where
  x := [1, 2, 2]
  y := [[1], [3], [4]]
  cols := 1
  noiseVar := some [1, 1 / 2, 1]

theorem exKernel_psd (h : ℝ) : IsPSDKernel fun a b : ℝ => h ^ 2 * (1 + a * b) := by
  refine ⟨fun a b => by ring, fun n x w => ?_⟩
  have : ∑ i, ∑ j, w i * w j * (h ^ 2 * (1 + x i * x j))
      = h ^ 2 * ((∑ i, w i) * (∑ i, w i) + (∑ i, w i * x i) * (∑ i, w i * x i)) := by
    rw [Finset.sum_mul_sum, Finset.sum_mul_sum, ← Finset.sum_add_distrib, Finset.mul_sum]
    refine Finset.sum_congr rfl fun i _ => ?_
    rw [← Finset.sum_add_distrib, Finset.mul_sum]
    exact Finset.sum_congr rfl fun j _ => by ring
  rw [this]
  exact mul_nonneg (sq_nonneg h) (add_nonneg (mul_self_nonneg _) (mul_self_nonneg _))

theorem exNoise_posDef (mode : Mode) (h : ℝ) :
    ((calcV (exCfg mode) exData h exData.x).mat exData.x.length).PosDef := by
  have : calcV (exCfg mode) exData h exData.x = .diag 3 fun i => ([1, 1 / 2, 1] : List ℝ).getD i 0 := by
    simp [calcV, exCfg, exData]
  rw [this]
  refine Matrix.PosDef.diagonal ?_
  rintro ⟨i, hi⟩
  have hi' : i < 3 := hi
  interval_cases i <;> norm_num

theorem exAdmissible (mode : Mode) (h : ℝ) : Admissible (exCfg mode) exData h where
  fits := by simp [calcV, exCfg, exData, Noise.Fits]
  posDef := KVmat_posDef (exKernel_psd h) (exNoise_posDef mode h)

/-! ## C25 -/

/-- **C25** (mean). In every direct mode the posterior mean of a constructed GP is the conditional mean
`m(x*) + kᵀ (K+V)⁻¹ (y - m)`, for every output column. -/
theorem C25_posterior_mean (c : Config α H) (d : Data α) (h : H) (he : SpluContract c.ext)
    (ha : Admissible c d h) :
    ∃ gp, init c d h = .ok gp ∧ ∀ (xs : List α) (i : Fin xs.length) (j : ℕ),
      posteriorMean gp xs i j = specMean c d h xs j i := by
  obtain ⟨gp, hgp, hc, rfl, rfl, rfl⟩ := init_ok c d h he ha
  exact ⟨gp, hgp, fun xs i j => consistent_mean hc ha.posDef xs i j⟩

example (mode : Mode) : ∃ gp, init (exCfg mode) exData 2 = .ok gp ∧ ∀ (xs : List ℝ) (i : Fin xs.length) (j : ℕ),
    posteriorMean gp xs i j = specMean (exCfg mode) exData 2 xs j i :=
  C25_posterior_mean _ _ _ cholExt_contract (exAdmissible mode 2)

/-- **C25** (covariance). In every direct mode, for every chunk size and whatever `np.empty` contains, the returned
covariance is `k(x*,x*) - kᵀ (K+V)⁻¹ k` and the returned variances are its diagonal, where negative diagonal
entries are replaced by zero. -/
theorem C25_posterior_covariance (c : Config α H) (d : Data α) (h : H) (he : SpluContract c.ext)
    (ha : Admissible c d h) :
    ∃ gp, init c d h = .ok gp ∧ ∀ (xs : List α) (chunk : ℕ) (junk : NMat),
      ∃ v S, posteriorCovariance gp xs false false chunk junk = .ok (v, some S) ∧
        ∀ i : Fin xs.length, v i = max 0 (specCov c d h xs i i) ∧ S i i = v i ∧
          ∀ j, i ≠ j → S i j = specCov c d h xs i j := by
  obtain ⟨gp, hgp, hc, rfl, rfl, rfl⟩ := init_ok c d h he ha
  refine ⟨gp, hgp, fun xs chunk junk => ?_⟩
  obtain ⟨v, S, hcov, hv, hS, -⟩ := posteriorCovariance_eq hc ha.posDef xs false chunk junk
  obtain ⟨T, rfl, hT⟩ := hS rfl
  refine ⟨v, T, hcov, fun i => ⟨hv i, ?_, fun j hij => ?_⟩⟩
  · rw [hT, if_pos rfl, hv]
  · rw [hT, if_neg hij]

example (mode : Mode) : ∃ gp, init (exCfg mode) exData 2 = .ok gp ∧ ∀ (xs : List ℝ) (chunk : ℕ) (junk : NMat),
      ∃ v S, posteriorCovariance gp xs false false chunk junk = .ok (v, some S) ∧
        ∀ i : Fin xs.length, v i = max 0 (specCov (exCfg mode) exData 2 xs i i) ∧ S i i = v i ∧
          ∀ j, i ≠ j → S i j = specCov (exCfg mode) exData 2 xs i j :=
  C25_posterior_covariance _ _ _ cholExt_contract (exAdmissible mode 2)

theorem diagNoise_fits {V : Noise} {n : ℕ} (h : V.Fits n false) : (diagNoise V).Fits n false := by
  cases V with
  | diag len v => exact ⟨h, h, rfl⟩
  | dense r c V => exact h
  | sparse r c V => exact h

theorem diagNoise_mat (V : Noise) (n : ℕ) : (diagNoise V).mat n = V.mat n := by
  cases V with
  | diag len v =>
    ext i j
    by_cases hij : i = j
    · subst hij; simp [diagNoise, Noise.mat]
    · have : (i : ℕ) ≠ j := fun h => hij (Fin.ext h)
      simp [diagNoise, Noise.mat, hij, this]
  | dense r c V => rfl
  | sparse r c V => rfl

theorem computeNewKVinvY_ok (e : Ext) (he : SpluContract e) (mode : Mode) (n : ℕ) (KV : NMat)
    (hpd : (toMat n KV).PosDef) (y : NMat) (m : ℕ → ℝ) :
    ∃ a, computeNewKVinvY e mode n KV y m = .ok a ∧ ∀ (i : Fin n) (j : ℕ),
      a i j = ((toMat n KV)⁻¹.mulVec fun l : Fin n => y l j - m l) i := by
  cases mode with
  | chol =>
    obtain ⟨F, hF, hfac⟩ := (C12_from_scratch_iff_posDef n KV e.junk (toMat_symm hpd)).2 hpd
    exact ⟨_, by simp only [computeNewKVinvY, hF, bind, Except.bind]; rfl, fun i j => cholSolve_mulVec hfac _ i⟩
  | cholInv =>
    obtain ⟨F, hF, hfac⟩ := (C12_from_scratch_iff_posDef n KV e.junk (toMat_symm hpd)).2 hpd
    exact ⟨_, by simp only [computeNewKVinvY, hF, bind, Except.bind]; rfl, fun i j => cholSolve_mulVec hfac _ i⟩
  | inv =>
    refine ⟨_, by simp only [computeNewKVinvY, npInv, ne_eq, hpd.det_pos.ne', not_false_eq_true, if_true, bind,
      Except.bind]; rfl,
      fun i j => ?_⟩
    simp only [Finset.sum_range, Matrix.mulVec, dotProduct]
    refine Finset.sum_congr rfl fun l _ => ?_
    have := congrFun (congrFun (toMat_ofMat (toMat n KV)⁻¹) i) l
    rw [← this]
    rfl
  | sparseLU =>
    obtain ⟨f, hf⟩ := he.2 n KV hpd
    exact ⟨_, by simp only [computeNewKVinvY, hf, bind, Except.bind]; rfl,
      fun i j => luSolve_mulVec (he.1 n KV f hf) hpd.det_pos.ne' _ i⟩
  | sparseSolve => exact ⟨_, rfl, fun i j => ofFin_apply _ i⟩

/-- **C25** (other hyperparameters, partial). `posterior_mean(x, hyperparameters=h')` is the posterior mean of a GP
with hyperparameters `h'`, whatever the state was built with. Missing: gp2Scale (`sparseK`), where the call fails,
see `C25_hyperparameters_gp2Scale_violated`. -/
theorem C25_posterior_mean_hyperparameters_partial (gp : GP α H) (h' : H) (he : SpluContract gp.cfg.ext)
    (hsp : gp.cfg.sparseK = false) (ha : Admissible gp.cfg gp.data h') (xs : List α) :
    ∃ M, posteriorMeanAt gp h' xs = .ok M ∧ ∀ (i : Fin xs.length) (j : ℕ),
      M i j = specMean gp.cfg gp.data h' xs j i := by
  have hfit := ha.fits
  rw [hsp] at hfit
  obtain ⟨KV, hKV, hmat⟩ := addKV_ok (diagNoise_fits hfit) (gram (gp.cfg.kernel h') gp.data.x gp.data.x)
  have hmat' : toMat gp.data.x.length KV = KVmat gp.cfg gp.data h' := by
    rw [hmat, diagNoise_mat, toMat_gram]; rfl
  have hpd := ha.posDef
  rw [← hmat'] at hpd
  obtain ⟨a, hA, ha'⟩ := computeNewKVinvY_ok gp.cfg.ext he gp.cfg.mode _ KV hpd gp.data.yMat
    (evalAt (meanFn gp.cfg gp.data h') gp.data.x)
  refine ⟨_, by simp only [posteriorMeanAt, hsp, hKV, hA, bind, Except.bind]; rfl, fun i j => ?_⟩
  rw [evalAt_apply, Finset.sum_range, specMean, condMean, Pi.add_apply]
  congr 1
  simp only [Matrix.mulVec, dotProduct, Matrix.transpose_apply]
  refine Finset.sum_congr rfl fun l _ => ?_
  rw [gram_apply, ha', hmat']
  congr 1
  simp only [Matrix.mulVec, dotProduct]
  refine Finset.sum_congr rfl fun b _ => ?_
  rw [evalAt_apply]
  rfl

example (mode : Mode) (gp : GP ℝ ℝ) (_ : init (exCfg mode) exData 2 = .ok gp) (h1 : gp.cfg = exCfg mode)
    (h2 : gp.data = exData) : ∃ M, posteriorMeanAt gp 5 [0, 7] = .ok M ∧ ∀ (i : Fin ([0, 7] : List ℝ).length) (j : ℕ),
      M i j = specMean gp.cfg gp.data 5 [0, 7] j i :=
  C25_posterior_mean_hyperparameters_partial gp 5 (h1 ▸ cholExt_contract) (h1 ▸ rfl)
    (h1 ▸ h2 ▸ exAdmissible mode 5) _

/-- **C25** (disagreement). Under gp2Scale (sparse `K`) with one-dimensional noise, which is what the default and the
measured noise functions return, the constructor succeeds but `posterior_mean` with a `hyperparameters` argument always
raises: `np.diag(V)` makes the noise a dense matrix, which `addKV` rejects. -/
theorem C25_hyperparameters_gp2Scale_violated (gp : GP α H) (h' : H) (xs : List α) (hsp : gp.cfg.sparseK = true)
    (len : ℕ) (v : ℕ → ℝ) (hV : calcV gp.cfg gp.data h' gp.data.x = .diag len v) :
    ∃ msg, posteriorMeanAt gp h' xs = .error msg := by
  refine ⟨_, by simp only [posteriorMeanAt, hV, diagNoise, addKV, hsp, ne_eq, not_true_eq_false, if_false, if_true,
    bind, Except.bind]; rfl⟩

/-- The concrete gp2Scale GP: construction succeeds, prediction with explicit (even the current) hyperparameters
raises. -/
example : ∃ gp, init { exCfg .chol with sparseK := true } exData 2 = .ok gp ∧
    ∃ msg, posteriorMeanAt gp 2 [0, 7] = .error msg := by
  have ha : Admissible { exCfg .chol with sparseK := true } exData 2 :=
    ⟨by simp [calcV, exCfg, exData, Noise.Fits], (exAdmissible .chol 2).posDef⟩
  obtain ⟨gp, hgp, -, h1, h2, -⟩ := init_ok { exCfg .chol with sparseK := true } exData 2 cholExt_contract ha
  refine ⟨gp, hgp, C25_hyperparameters_gp2Scale_violated gp 2 _ (by rw [h1]) 3
    (fun i => ([1, 1 / 2, 1] : List ℝ).getD i 0) ?_⟩
  rw [h1, h2]
  simp [calcV, exCfg, exData]

/-! ## C26, C27 -/

/-- **C26**. For a positive semidefinite kernel and positive semidefinite noise the returned variance lies between
zero and the prior variance, with `variance_only` and without, in every direct mode. -/
theorem C26_variance_between (c : Config α H) (d : Data α) (h : H) (he : SpluContract c.ext)
    (ha : Admissible c d h) (hk : IsPSDKernel (c.kernel h)) (vo : Bool) :
    ∃ gp, init c d h = .ok gp ∧ ∀ (xs : List α) (chunk : ℕ) (junk : NMat),
      ∃ v S, posteriorCovariance gp xs vo false chunk junk = .ok (v, S) ∧
        ∀ i : Fin xs.length, 0 ≤ v i ∧ v i ≤ c.kernel h xs[i] xs[i] := by
  obtain ⟨gp, hgp, hc, rfl, rfl, rfl⟩ := init_ok c d h he ha
  refine ⟨gp, hgp, fun xs chunk junk => ?_⟩
  obtain ⟨v, S, hcov, hv, -, -⟩ := posteriorCovariance_eq hc ha.posDef xs vo chunk junk
  refine ⟨v, S, hcov, fun i => ⟨by rw [hv]; exact le_max_left _ _, ?_⟩⟩
  rw [hv]
  apply max_le
  · have := hk.2 1 (fun _ => xs[i]) (fun _ => 1)
    simpa using this
  · rw [specCov, condCov_diag]
    have := inv_quad_nonneg ha.posDef fun l => Kmat (gp.cfg.kernel gp.hps) gp.data.x xs l i
    have e : Kmat (gp.cfg.kernel gp.hps) xs xs i i = gp.cfg.kernel gp.hps xs[i] xs[i] := rfl
    linarith

example (mode : Mode) (vo : Bool) : ∃ gp, init (exCfg mode) exData 2 = .ok gp ∧
    ∀ (xs : List ℝ) (chunk : ℕ) (junk : NMat),
      ∃ v S, posteriorCovariance gp xs vo false chunk junk = .ok (v, S) ∧
        ∀ i : Fin xs.length, 0 ≤ v i ∧ v i ≤ 2 ^ 2 * (1 + xs[i] * xs[i]) :=
  C26_variance_between _ _ _ cholExt_contract (exAdmissible mode 2) (exKernel_psd 2) vo

/-- **C27**. For a positive semidefinite kernel and positive semidefinite noise (with `K+V` positive definite) the
returned covariance is exactly the conditional covariance, that is the clipping of negative variances does nothing, and
it is symmetric positive semidefinite; the variance returned beside it is its diagonal. -/
theorem C27_covariance_psd (c : Config α H) (d : Data α) (h : H) (he : SpluContract c.ext)
    (ha : Admissible c d h) (hk : IsPSDKernel (c.kernel h))
    (hV : ((calcV c d h d.x).mat d.x.length).PosSemidef) :
    ∃ gp, init c d h = .ok gp ∧ ∀ (xs : List α) (chunk : ℕ) (junk : NMat),
      ∃ v S, posteriorCovariance gp xs false false chunk junk = .ok (v, some S) ∧
        toMat xs.length S = specCov c d h xs ∧ (toMat xs.length S).PosSemidef ∧
        (∀ i : Fin xs.length, v i = specCov c d h xs i i) ∧
        ∀ w : Fin xs.length → ℝ, 0 ≤ ∑ i, ∑ j, w i * w j * S i j := by
  obtain ⟨gp, hgp, hc, rfl, rfl, rfl⟩ := init_ok c d h he ha
  refine ⟨gp, hgp, fun xs chunk junk => ?_⟩
  obtain ⟨v, S, hcov, hv, hS, -⟩ := posteriorCovariance_eq hc ha.posDef xs false chunk junk
  obtain ⟨T, rfl, hT⟩ := hS rfl
  have hpsd := specCov_posSemidef hk hV ha.posDef xs
  have hd : ∀ i, max 0 (specCov gp.cfg gp.data gp.hps xs i i) = specCov gp.cfg gp.data gp.hps xs i i :=
    fun i => max_eq_right (hpsd.diag_nonneg)
  have hmat : toMat xs.length T = specCov gp.cfg gp.data gp.hps xs := by
    ext i j
    change T i j = _
    rw [hT]
    split
    · rename_i hij; subst hij; exact hd i
    · rfl
  refine ⟨v, T, hcov, hmat, hmat ▸ hpsd, fun i => by rw [hv, hd], fun w => ?_⟩
  have := quad_nonneg hpsd w
  rw [← hmat] at this
  refine le_of_le_of_eq this ?_
  simp only [dotProduct, Matrix.mulVec, toMat, Matrix.of_apply, Finset.mul_sum]
  exact Finset.sum_congr rfl fun i _ => Finset.sum_congr rfl fun j _ => by ring

example (mode : Mode) : ∃ gp, init (exCfg mode) exData 2 = .ok gp ∧ ∀ (xs : List ℝ) (chunk : ℕ) (junk : NMat),
      ∃ v S, posteriorCovariance gp xs false false chunk junk = .ok (v, some S) ∧
        toMat xs.length S = specCov (exCfg mode) exData 2 xs ∧ (toMat xs.length S).PosSemidef ∧
        (∀ i : Fin xs.length, v i = specCov (exCfg mode) exData 2 xs i i) ∧
        ∀ w : Fin xs.length → ℝ, 0 ≤ ∑ i, ∑ j, w i * w j * S i j :=
  C27_covariance_psd _ _ _ cholExt_contract (exAdmissible mode 2) (exKernel_psd 2)
    (exNoise_posDef mode 2).posSemidef

/-! ## C28 -/

/-- **C28**. `_cross_solve_product` computes the full product `kᵀ S` where `S` solves every column, for every chunk
size, number of prediction points and initial content of the result array. -/
theorem C28_chunking (f : Factor) (n p : ℕ) (k : NMat) (chunk : ℕ) (junk : NMat) (i j : ℕ) (hj : j < p) :
    crossSolveProduct f n p k chunk junk i j = ∑ l ∈ range n, k l i * solve f (fun l => k l j) l :=
  crossSolveProduct_eq f n p k chunk junk i j hj

example : crossSolveProduct (.raw 1 fun _ _ => 1) 1 3 (fun _ j => j) 2 (fun _ _ => 77) 2 2
    = ∑ l ∈ range 1, (2 : ℕ) * solve (.raw 1 fun _ _ => 1) (fun _ => (2 : ℕ)) l :=
  C28_chunking _ _ _ _ _ _ _ _ (by norm_num)

/-- **C28** (consequence). The whole covariance call returns the same numbers for two chunk sizes, in any state. -/
theorem C28_covariance_chunk_independent (gp : GP α H) (xs : List α) (vo : Bool) (chunk₁ chunk₂ : ℕ)
    (junk₁ junk₂ : NMat) :
    ∃ v₁ S₁ v₂ S₂, posteriorCovariance gp xs vo false chunk₁ junk₁ = .ok (v₁, S₁) ∧
      posteriorCovariance gp xs vo false chunk₂ junk₂ = .ok (v₂, S₂) ∧
      (∀ i < xs.length, v₁ i = v₂ i) ∧ (S₁.isSome = S₂.isSome) ∧
      ∀ T₁ T₂, S₁ = some T₁ → S₂ = some T₂ → ∀ i < xs.length, ∀ j < xs.length, T₁ i j = T₂ i j := by
  classical
  have hx : ∀ i j, j < xs.length →
      crossSolveProduct gp.kv.factor gp.data.x.length xs.length (gram (gp.cfg.kernel gp.hps) gp.data.x xs)
        chunk₁ junk₁ i j
      = crossSolveProduct gp.kv.factor gp.data.x.length xs.length (gram (gp.cfg.kernel gp.hps) gp.data.x xs)
        chunk₂ junk₂ i j := fun i j hj => by
    rw [crossSolveProduct_eq _ _ _ _ _ _ _ _ hj, crossSolveProduct_eq _ _ _ _ _ _ _ _ hj]
  unfold posteriorCovariance clippedCovariance
  simp only [Bool.false_eq_true, if_false]
  split
  · exact ⟨_, _, _, _, rfl, rfl, fun _ _ => rfl, rfl, fun T₁ T₂ h1 h2 => by
      rw [h1] at h2; simp only [Option.some.injEq] at h2; subst h2; exact fun _ _ _ _ => rfl⟩
  · generalize crossSolveProduct gp.kv.factor gp.data.x.length xs.length (gram (gp.cfg.kernel gp.hps) gp.data.x xs)
      chunk₁ junk₁ = P₁ at hx ⊢
    generalize crossSolveProduct gp.kv.factor gp.data.x.length xs.length (gram (gp.cfg.kernel gp.hps) gp.data.x xs)
      chunk₂ junk₂ = P₂ at hx ⊢
    have hneg : (∃ i < xs.length, gram (gp.cfg.kernel gp.hps) xs xs i i - P₁ i i < 0)
        ↔ (∃ i < xs.length, gram (gp.cfg.kernel gp.hps) xs xs i i - P₂ i i < 0) := by
      constructor
      · rintro ⟨i, hi, h⟩; exact ⟨i, hi, by rwa [← hx i i hi]⟩
      · rintro ⟨i, hi, h⟩; exact ⟨i, hi, by rwa [hx i i hi]⟩
    refine ⟨_, _, _, _, rfl, rfl, ?_, ?_, ?_⟩
    · intro i hi
      by_cases hn : ∃ i < xs.length, gram (gp.cfg.kernel gp.hps) xs xs i i - P₁ i i < 0
      · rw [if_pos hn, if_pos (hneg.1 hn)]; simp only [hx i i hi]
      · rw [if_neg hn, if_neg (fun h => hn (hneg.2 h))]; simp only [hx i i hi]
    · have hsome : ∀ (c : Prop) [Decidable c] (a b : NMat), (if c then some a else some b).isSome = true :=
        fun c _ a b => by split <;> rfl
      simp only [Option.map_some]
      rw [hsome, hsome]
    · intro T₁ T₂ h1 h2 i hi j hj
      by_cases hn : ∃ i < xs.length, gram (gp.cfg.kernel gp.hps) xs xs i i - P₁ i i < 0
      · have hn2 := hneg.1 hn
        cases vo
        · simp only [hn, hn2, and_self, if_true, Option.map_some, Option.some.injEq] at h1 h2
          rw [← h1, ← h2]
          simp only [hx i i hi, hx i j hj]
        · simp only [Bool.true_eq_false, and_false, if_false, Option.some.injEq] at h1 h2
          rw [← h1, ← h2]
          simp only [hx i j hj]
      · have hn2 : ¬ _ := fun h => hn (hneg.2 h)
        simp only [hn, hn2, false_and, if_false, Option.some.injEq] at h1 h2
        rw [← h1, ← h2]
        simp only [hx i j hj]

/-! ## C31 -/

/-- **C31**. With zero noise and a positive definite prior covariance the posterior mean at a training point is the
observed value, and the posterior variance there is zero, wherever the point occurs among the prediction points. -/
theorem C31_interpolation (c : Config α H) (d : Data α) (h : H) (he : SpluContract c.ext)
    (ha : Admissible c d h) (hV : (calcV c d h d.x).mat d.x.length = 0) :
    ∃ gp, init c d h = .ok gp ∧ ∀ (xs : List α) (i : Fin xs.length) (l : Fin d.x.length), xs[i] = d.x[l] →
      (∀ j, posteriorMean gp xs i j = d.yMat l j) ∧
      ∀ (vo : Bool) (chunk : ℕ) (junk : NMat),
        ∃ v S, posteriorCovariance gp xs vo false chunk junk = .ok (v, S) ∧ v i = 0 := by
  obtain ⟨gp, hgp, hc, rfl, rfl, rfl⟩ := init_ok c d h he ha
  refine ⟨gp, hgp, fun xs i l hil => ?_⟩
  have hpd := ha.posDef
  have hKV : KVmat gp.cfg gp.data gp.hps = Kmat (gp.cfg.kernel gp.hps) gp.data.x gp.data.x := by
    rw [KVmat, hV, add_zero]
  have hcol : (fun a => Kmat (gp.cfg.kernel gp.hps) gp.data.x xs a i)
      = KVmat gp.cfg gp.data gp.hps *ᵥ Pi.single l 1 := by
    rw [Matrix.mulVec_single_one, hKV]
    ext a
    simp only [Kmat, Matrix.of_apply, Matrix.col_apply]
    rw [hil]
  have hmul : (KVmat gp.cfg gp.data gp.hps)⁻¹ *ᵥ (fun a => Kmat (gp.cfg.kernel gp.hps) gp.data.x xs a i)
      = Pi.single l 1 := by
    rw [hcol, Matrix.mulVec_mulVec, inv_mul_of_posDef hpd, Matrix.one_mulVec]
  constructor
  · intro j
    rw [consistent_mean hc hpd, specMean, condMean, Pi.add_apply]
    have : ((Kmat (gp.cfg.kernel gp.hps) gp.data.x xs)ᵀ *ᵥ ((KVmat gp.cfg gp.data gp.hps)⁻¹ *ᵥ
        (yCol gp.data j - meanAt gp.cfg gp.data gp.hps gp.data.x))) i
        = (yCol gp.data j - meanAt gp.cfg gp.data gp.hps gp.data.x) l := by
      change (fun a => Kmat (gp.cfg.kernel gp.hps) gp.data.x xs a i) ⬝ᵥ _ = _
      rw [dot_symm (transpose_of_posDef hpd.inv), hmul, dotProduct_single, mul_one]
    rw [this]
    simp only [meanAt, yCol, Pi.sub_apply]
    rw [hil]
    ring
  · intro vo chunk junk
    obtain ⟨v, S, hcov, hv, -, -⟩ := posteriorCovariance_eq hc hpd xs vo chunk junk
    refine ⟨v, S, hcov, ?_⟩
    rw [hv, specCov, condCov_diag, hmul, dotProduct_single, mul_one]
    have : Kmat (gp.cfg.kernel gp.hps) xs xs i i = Kmat (gp.cfg.kernel gp.hps) gp.data.x xs l i := by
      simp only [Kmat, Matrix.of_apply]
      rw [hil]
    rw [this, sub_self, max_self]

/-- A kernel with positive definite covariance on distinct points (the unit covariance) and a user noise of zero. -/
noncomputable def exCfg0 (mode : Mode) : Config ℝ ℝ where
  kernel h a b := open Classical in if a = b then h ^ 2 else 0
  mean := none
  noise := .user fun _ xs => .diag xs.length fun _ => 0
  mode := mode
  sparseK := false
  ext := cholExt

noncomputable def exData0 : Data ℝ := ⟨[1, 2], [[1], [3]], 1, none⟩

theorem exAdmissible0 (mode : Mode) : Admissible (exCfg0 mode) exData0 3 where
  fits := by simp [calcV, exCfg0, exData0, Noise.Fits]
  posDef := by
    have : KVmat (exCfg0 mode) exData0 3 = Matrix.diagonal fun _ => 9 := by
      ext ⟨i, hi⟩ ⟨j, hj⟩
      have hi' : i < 2 := hi
      have hj' : j < 2 := hj
      interval_cases i <;> interval_cases j <;>
        norm_num [KVmat, Kmat, calcV, exCfg0, exData0, Noise.mat, Matrix.diagonal]
    rw [this]
    exact Matrix.PosDef.diagonal fun _ => by norm_num

example (mode : Mode) : ∃ gp, init (exCfg0 mode) exData0 3 = .ok gp ∧
    ∀ (xs : List ℝ) (i : Fin xs.length) (l : Fin exData0.x.length), xs[i] = exData0.x[l] →
      (∀ j, posteriorMean gp xs i j = exData0.yMat l j) ∧
      ∀ (vo : Bool) (chunk : ℕ) (junk : NMat),
        ∃ v S, posteriorCovariance gp xs vo false chunk junk = .ok (v, S) ∧ v i = 0 :=
  C31_interpolation _ _ _ cholExt_contract (exAdmissible0 mode) (by
    ext i j; simp [calcV, exCfg0, Noise.mat])

/-! ## C36 -/

/-- **C36**. `variance_only=True` returns the same variances as the full covariance (`add_noise` on or off), through
the explicit-inverse shortcut and through the generic path; both calls succeed or fail together. -/
theorem C36_variance_only (c : Config α H) (d : Data α) (h : H) (he : SpluContract c.ext)
    (ha : Admissible c d h) (noisy : Bool) :
    ∃ gp, init c d h = .ok gp ∧ ∀ (xs : List α) (chunk₁ chunk₂ : ℕ) (junk₁ junk₂ : NMat),
      (∃ msg, posteriorCovariance gp xs true noisy chunk₁ junk₁ = .error msg ∧
        posteriorCovariance gp xs false noisy chunk₂ junk₂ = .error msg) ∨
      ∃ v₁ S₁ v₂ S₂, posteriorCovariance gp xs true noisy chunk₁ junk₁ = .ok (v₁, S₁) ∧
        posteriorCovariance gp xs false noisy chunk₂ junk₂ = .ok (v₂, some S₂) ∧
        ∀ i < xs.length, v₁ i = v₂ i ∧ S₂ i i = v₂ i := by
  obtain ⟨gp, hgp, hc, rfl, rfl, rfl⟩ := init_ok c d h he ha
  refine ⟨gp, hgp, fun xs chunk₁ chunk₂ junk₁ junk₂ => ?_⟩
  obtain ⟨v₁, S₁, h1, hv1, -, -⟩ := posteriorCovariance_eq hc ha.posDef xs true chunk₁ junk₁
  obtain ⟨v₂, S₂, h2, hv2, hS2, -⟩ := posteriorCovariance_eq hc ha.posDef xs false chunk₂ junk₂
  obtain ⟨T, rfl, hT⟩ := hS2 rfl
  have hv : ∀ i < xs.length, v₁ i = v₂ i ∧ T i i = v₂ i := fun i hi => by
    have a := hv1 ⟨i, hi⟩
    have b := hv2 ⟨i, hi⟩
    have c := hT ⟨i, hi⟩ ⟨i, hi⟩
    rw [if_pos rfl] at c
    exact ⟨a.trans b.symm, c.trans b.symm⟩
  cases noisy with
  | false => exact Or.inr ⟨v₁, S₁, v₂, T, h1, h2, hv⟩
  | true =>
    have e1 : posteriorCovariance gp xs true true chunk₁ junk₁ = addNoise gp xs v₁ S₁ := by
      simp only [posteriorCovariance, Bool.false_eq_true, if_false, Except.ok.injEq, if_true] at h1 ⊢
      rw [h1]
    have e2 : posteriorCovariance gp xs false true chunk₂ junk₂ = addNoise gp xs v₂ (some T) := by
      simp only [posteriorCovariance, Bool.false_eq_true, if_false, Except.ok.injEq, if_true] at h2 ⊢
      rw [h2]
    rw [e1, e2]
    unfold addNoise
    split
    · split
      · refine Or.inr ⟨_, _, _, _, rfl, rfl, fun i hi => ?_⟩
        simp [(hv i hi).1, (hv i hi).2]
      · exact Or.inr ⟨_, _, _, _, rfl, rfl, hv⟩
    · split
      · refine Or.inr ⟨_, _, _, _, rfl, rfl, fun i hi => ?_⟩
        simp [(hv i hi).1, (hv i hi).2]
      · exact Or.inr ⟨_, _, _, _, rfl, rfl, hv⟩
    · exact Or.inl ⟨_, rfl, rfl⟩

example (mode : Mode) : ∃ gp, init (exCfg mode) exData 2 = .ok gp ∧
    ∀ (xs : List ℝ) (chunk₁ chunk₂ : ℕ) (junk₁ junk₂ : NMat),
      (∃ msg, posteriorCovariance gp xs true true chunk₁ junk₁ = .error msg ∧
        posteriorCovariance gp xs false true chunk₂ junk₂ = .error msg) ∨
      ∃ v₁ S₁ v₂ S₂, posteriorCovariance gp xs true true chunk₁ junk₁ = .ok (v₁, S₁) ∧
        posteriorCovariance gp xs false true chunk₂ junk₂ = .ok (v₂, some S₂) ∧
        ∀ i < xs.length, v₁ i = v₂ i ∧ S₂ i i = v₂ i :=
  C36_variance_only _ _ _ cholExt_contract (exAdmissible mode 2) true

end Verif.GP
