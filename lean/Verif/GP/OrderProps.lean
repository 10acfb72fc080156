import Verif.GP.LikProps
import Mathlib.Algebra.BigOperators.Fin

/-! Properties C32 (order of the data) and C33 (more data). -/

namespace Verif.GP

open Finset Verif.LinAlg Matrix

variable {α H : Type}

/-! ## C32 -/

/-- `d'` is `d` with its points (and their values and noise variances) reordered by the bijection `e`. -/
structure Reordered (d d' : Data α) (e : Fin d'.x.length ≃ Fin d.x.length) : Prop where
  x : ∀ i : Fin d'.x.length, d'.x[i] = d.x[e i]
  ylen : d.y.length = d.x.length
  ylen' : d'.y.length = d'.x.length
  y : ∀ i : Fin d'.x.length, d'.y.getD i [] = d.y.getD (e i) []
  cols : d'.cols = d.cols
  noise : ∀ nv, d.noiseVar = some nv → nv.length = d.x.length ∧ ∃ nv', d'.noiseVar = some nv' ∧
    nv'.length = d'.x.length ∧ ∀ i : Fin d'.x.length, nv'.getD i 0 = nv.getD (e i) 0

theorem sum_rows (f : List ℝ → ℝ) (y : List (List ℝ)) (n : ℕ) (h : y.length = n) :
    (y.map f).sum = ∑ i : Fin n, f (y.getD i []) := by
  subst h
  rw [← Fin.sum_univ_fun_getElem]
  exact Finset.sum_congr rfl fun i _ => by simp

theorem Reordered.sum_eq {d d' : Data α} {e : Fin d'.x.length ≃ Fin d.x.length} (hr : Reordered d d' e)
    (f : List ℝ → ℝ) : (d'.y.map f).sum = (d.y.map f).sum := by
  rw [sum_rows f d.y _ hr.ylen, sum_rows f d'.y _ hr.ylen', ← Equiv.sum_comp e]
  exact Finset.sum_congr rfl fun i _ => by rw [hr.y]

theorem Reordered.length_eq {d d' : Data α} {e : Fin d'.x.length ≃ Fin d.x.length} (_ : Reordered d d' e) :
    d'.x.length = d.x.length := by
  simpa using Fintype.card_congr e

theorem Reordered.meanFn_eq {d d' : Data α} {e : Fin d'.x.length ≃ Fin d.x.length} (hr : Reordered d d' e)
    (c : Config α H) (h : H) : meanFn c d' h = meanFn c d h := by
  funext a
  unfold meanFn
  cases c.mean with
  | some f => rfl
  | none => simp only [Data.yMean]; rw [hr.sum_eq, hr.length_eq, hr.cols]

/-- The noise matrix is reordered too. A user noise function has to be compatible with the reordering; the default and
the measured noise are. -/
theorem Reordered.noise_mat {d d' : Data α} {e : Fin d'.x.length ≃ Fin d.x.length} (hr : Reordered d d' e)
    (c : Config α H) (h : H) (hm : c.noise = .measured → d.noiseVar.isSome)
    (hu : ∀ f, c.noise = .user f → (f h d'.x).Fits d'.x.length c.sparseK ∧
      (f h d'.x).mat d'.x.length = ((f h d.x).mat d.x.length).submatrix e e) :
    (calcV c d' h d'.x).Fits d'.x.length c.sparseK ∧
    (calcV c d' h d'.x).mat d'.x.length = ((calcV c d h d.x).mat d.x.length).submatrix e e := by
  unfold calcV
  have hdiag : ∀ (v : ℕ → ℝ) (w : ℕ → ℝ), (∀ i : Fin d'.x.length, w i = v (e i)) →
      Matrix.diagonal (fun i : Fin d'.x.length => w i)
        = (Matrix.diagonal fun i : Fin d.x.length => v i).submatrix e e := by
    intro v w hvw
    ext i j
    by_cases hij : i = j
    · subst hij; simp [hvw]
    · simp [hij]
  cases hn : c.noise with
  | user f => exact hu f hn
  | measured =>
    obtain ⟨nv, hnv⟩ := Option.isSome_iff_exists.1 (hm hn)
    obtain ⟨hl, nv', hnv', hl', hi⟩ := hr.noise nv hnv
    simp only [hnv, hnv', Option.getD_some, hl, hl', if_true]
    exact ⟨rfl, hdiag (fun i => nv.getD i 0) (fun i => nv'.getD i 0) hi⟩
  | default =>
    refine ⟨rfl, hdiag (fun _ => (d.yAbsMean / 100) ^ 2) (fun _ => (d'.yAbsMean / 100) ^ 2) fun i => ?_⟩
    simp only [Data.yAbsMean]
    rw [hr.sum_eq, hr.length_eq, hr.cols]

theorem Reordered.KV_eq {d d' : Data α} {e : Fin d'.x.length ≃ Fin d.x.length} (hr : Reordered d d' e)
    (c : Config α H) (h : H)
    (hV : (calcV c d' h d'.x).mat d'.x.length = ((calcV c d h d.x).mat d.x.length).submatrix e e) :
    KVmat c d' h = (KVmat c d h).submatrix e e := by
  rw [KVmat, KVmat, hV]
  ext i j
  simp only [Matrix.add_apply, Matrix.submatrix_apply, Kmat, Matrix.of_apply]
  rw [hr.x, hr.x]

/-- **C32**. Reordering the training points changes neither the posterior mean nor the posterior covariance nor the log
marginal likelihood, in every direct mode; the reordered data set is accepted exactly like the original. -/
theorem C32_order_of_data (c : Config α H) (d d' : Data α) (h : H) (e : Fin d'.x.length ≃ Fin d.x.length)
    (he : SpluContract c.ext) (ha : Admissible c d h) (hr : Reordered d d' e)
    (hm : c.noise = .measured → d.noiseVar.isSome)
    (hu : ∀ f, c.noise = .user f → (f h d'.x).Fits d'.x.length c.sparseK ∧
      (f h d'.x).mat d'.x.length = ((f h d.x).mat d.x.length).submatrix e e) :
    ∃ gp gp', init c d h = .ok gp ∧ init c d' h = .ok gp' ∧
      (∀ (xs : List α) (i : Fin xs.length) (j : ℕ), posteriorMean gp' xs i j = posteriorMean gp xs i j) ∧
      (∀ (xs : List α) (chunk : ℕ) (junk : NMat), ∃ v S v' S',
        posteriorCovariance gp xs false false chunk junk = .ok (v, some S) ∧
        posteriorCovariance gp' xs false false chunk junk = .ok (v', some S') ∧
        ∀ i < xs.length, v' i = v i ∧ ∀ j < xs.length, S' i j = S i j) ∧
      (c.mode ≠ .sparseSolve → 1 ≤ d.cols → logLikelihood gp' = logLikelihood gp) := by
  obtain ⟨hfit', hV⟩ := hr.noise_mat c h hm hu
  have hKV := hr.KV_eq c h hV
  have hpd' : (KVmat c d' h).PosDef := by rw [hKV]; exact ha.posDef.submatrix e.injective
  obtain ⟨gp, hgp, hc, h1, h2, h3⟩ := init_ok c d h he ha
  obtain ⟨gp', hgp', hc', h1', h2', h3'⟩ := init_ok c d' h he ⟨hfit', hpd'⟩
  have hmean : ∀ xs, meanAt c d' h xs = meanAt c d h xs := fun xs => by
    funext i; simp only [meanAt]; rw [hr.meanFn_eq]
  have hmeanX : meanAt c d' h d'.x = meanAt c d h d.x ∘ e := by
    funext i
    simp only [meanAt, Function.comp]
    rw [hr.meanFn_eq, hr.x]
  have hy : ∀ j, yCol d' j = yCol d j ∘ e := fun j => by
    funext i
    simp only [yCol, Data.yMat, Function.comp]
    rw [hr.y]
  have hK : ∀ xs, Kmat (c.kernel h) d'.x xs = (Kmat (c.kernel h) d.x xs).submatrix e id := fun xs => by
    ext i j
    simp only [Kmat, Matrix.of_apply, Matrix.submatrix_apply, id]
    rw [hr.x]
  have hcov : ∀ xs, specCov c d' h xs = specCov c d h xs := fun xs => by
    rw [specCov, specCov, hKV, hK, condCov_perm]
  refine ⟨gp, gp', hgp, hgp', fun xs i j => ?_, fun xs chunk junk => ?_, fun hmode hcols => ?_⟩
  · rw [consistent_mean hc' (by rw [h1', h2', h3']; exact hpd'), consistent_mean hc (by rw [h1, h2, h3]; exact ha.posDef),
      h1, h2, h3, h1', h2', h3', specMean, specMean, hKV, hK, hmean, hmeanX, hy, condMean_perm]
  · obtain ⟨v, S, hv0, hv, hS, -⟩ := posteriorCovariance_eq hc (by rw [h1, h2, h3]; exact ha.posDef) xs false chunk junk
    obtain ⟨v', S', hv0', hv', hS', -⟩ :=
      posteriorCovariance_eq hc' (by rw [h1', h2', h3']; exact hpd') xs false chunk junk
    obtain ⟨T, rfl, hT⟩ := hS rfl
    obtain ⟨T', rfl, hT'⟩ := hS' rfl
    refine ⟨v, T, v', T', hv0, hv0', fun i hi => ⟨?_, fun j hj => ?_⟩⟩
    · have a := hv ⟨i, hi⟩
      have b := hv' ⟨i, hi⟩
      rw [h1', h2', h3', hcov] at b
      rw [h1, h2, h3] at a
      exact b.trans a.symm
    · have a := hT ⟨i, hi⟩ ⟨j, hj⟩
      have b := hT' ⟨i, hi⟩ ⟨j, hj⟩
      rw [h1', h2', h3', hcov] at b
      rw [h1, h2, h3] at a
      exact b.trans a.symm
  · rw [consistent_loglik hc' (by rw [h1', h2', h3']; exact hpd') (by rw [h1']; exact hmode) (by rw [h2']; exact hr.ylen')
      (by rw [h2', hr.cols]; exact hcols),
      consistent_loglik hc (by rw [h1, h2, h3]; exact ha.posDef) (by rw [h1]; exact hmode) (by rw [h2]; exact hr.ylen)
      (by rw [h2]; exact hcols), h1, h2, h3, h1', h2', h3', specLogLik, specLogLik, hr.cols]
    congr 1
    refine Finset.sum_congr rfl fun j _ => ?_
    rw [log_normalDensity hpd', log_normalDensity ha.posDef, hKV, hmeanX, hy, logNormal_perm]

/-- The example data with the last two points exchanged. -/
noncomputable def exData' : Data ℝ where
  x := [1, 2, 2]
  y := [[1], [4], [3]]
  cols := 1
  noiseVar := some [1, 1, 1 / 2]

theorem exReordered : Reordered exData exData' (Equiv.swap (1 : Fin 3) 2 : Fin 3 ≃ Fin 3) where
  x := by intro (i : Fin 3); fin_cases i <;> rfl
  ylen := rfl
  ylen' := rfl
  y := by intro (i : Fin 3); fin_cases i <;> rfl
  cols := rfl
  noise := by
    intro nv hnv
    have : nv = [1, 1 / 2, 1] := by
      have := hnv.symm
      simpa [exData] using this
    subst this
    refine ⟨rfl, [1, 1, 1 / 2], rfl, rfl, ?_⟩
    intro (i : Fin 3)
    fin_cases i <;> rfl

example (mode : Mode) : ∃ gp gp', init (exCfg mode) exData 2 = .ok gp ∧ init (exCfg mode) exData' 2 = .ok gp' ∧
      (∀ (xs : List ℝ) (i : Fin xs.length) (j : ℕ), posteriorMean gp' xs i j = posteriorMean gp xs i j) := by
  obtain ⟨gp, gp', h1, h2, h3, -⟩ := C32_order_of_data (exCfg mode) exData exData' 2 _ cholExt_contract
    (exAdmissible mode 2) exReordered (fun _ => rfl) (by intro f hf; cases hf)
  exact ⟨gp, gp', h1, h2, h3⟩

/-! ## C33 -/

/-- **C33**. If the data set is extended (the old points stay in front) and the noise on the old points is unchanged,
the variance at no prediction point increases. `Admissible` of the smaller data set follows. -/
theorem C33_more_data (c : Config α H) (d d' : Data α) (h : H) (he : SpluContract c.ext) (x2 : List α)
    (hx : d'.x = d.x ++ x2) (hfit : (calcV c d h d.x).Fits d.x.length c.sparseK) (ha' : Admissible c d' h)
    (hV : ∀ (i j : Fin d.x.length) (i' j' : Fin d'.x.length), (i' : ℕ) = i → (j' : ℕ) = j →
      (calcV c d' h d'.x).mat d'.x.length i' j' = (calcV c d h d.x).mat d.x.length i j) (vo : Bool) :
    ∃ gp gp', init c d h = .ok gp ∧ init c d' h = .ok gp' ∧ ∀ (xs : List α) (chunk : ℕ) (junk : NMat),
      ∃ v S v' S', posteriorCovariance gp xs vo false chunk junk = .ok (v, S) ∧
        posteriorCovariance gp' xs vo false chunk junk = .ok (v', S') ∧ ∀ i < xs.length, v' i ≤ v i := by
  have hlen : d.x.length + x2.length = d'.x.length := by rw [hx, List.length_append]
  let e : Fin d.x.length ⊕ Fin x2.length ≃ Fin d'.x.length := finSumFinEquiv.trans (finCongr hlen)
  have hel : ∀ i : Fin d.x.length, ((e (Sum.inl i) : Fin d'.x.length) : ℕ) = i := fun i => by simp [e]
  have hget : ∀ i : Fin d.x.length, d'.x[e (Sum.inl i)] = d.x[i] := fun i => by
    have h1 : d'.x[e (Sum.inl i)]? = some d.x[i] := by
      rw [Fin.getElem?_fin, hel, hx, List.getElem?_append_left i.2]
      simp
    have h2 : d'.x[e (Sum.inl i)]? = some d'.x[e (Sum.inl i)] := by simp
    rw [h2] at h1
    exact Option.some.inj h1
  have hblock : ((KVmat c d' h).submatrix e e).toBlocks₁₁ = KVmat c d h := by
    ext i j
    simp only [Matrix.toBlocks₁₁, Matrix.of_apply, Matrix.submatrix_apply, KVmat, Matrix.add_apply, Kmat]
    rw [hget, hget, hV i j _ _ (hel i) (hel j)]
  have hpdS : ((KVmat c d' h).submatrix e e).PosDef := ha'.posDef.submatrix e.injective
  have hpd : (KVmat c d h).PosDef := by
    rw [← hblock]
    exact hpdS.submatrix (e := (Sum.inl : Fin d.x.length → Fin d.x.length ⊕ Fin x2.length)) Sum.inl_injective
  obtain ⟨gp, hgp, hc, h1, h2, h3⟩ := init_ok c d h he ⟨hfit, hpd⟩
  obtain ⟨gp', hgp', hc', h1', h2', h3'⟩ := init_ok c d' h he ha'
  refine ⟨gp, gp', hgp, hgp', fun xs chunk junk => ?_⟩
  obtain ⟨v, S, hv0, hv, -, -⟩ := posteriorCovariance_eq hc (by rw [h1, h2, h3]; exact hpd) xs vo chunk junk
  obtain ⟨v', S', hv0', hv', -, -⟩ :=
    posteriorCovariance_eq hc' (by rw [h1', h2', h3']; exact ha'.posDef) xs vo chunk junk
  refine ⟨v, S, v', S', hv0, hv0', fun i hi => ?_⟩
  have a := hv ⟨i, hi⟩
  have b := hv' ⟨i, hi⟩
  rw [h1', h2', h3'] at b
  rw [h1, h2, h3] at a
  change v i = _ at a
  change v' i = _ at b
  rw [a, b]
  refine max_le_max le_rfl ?_
  have hcov : specCov c d' h xs = condCov ((KVmat c d' h).submatrix e e) ((Kmat (c.kernel h) d'.x xs).submatrix e id)
      (Kmat (c.kernel h) xs xs) := by
    rw [condCov_perm, specCov]
  rw [hcov, specCov, condCov_diag, condCov_diag]
  have := inv_quad_mono hpdS fun l => (Kmat (c.kernel h) d'.x xs).submatrix e id l ⟨i, hi⟩
  rw [hblock] at this
  have hcol : (fun l => (Kmat (c.kernel h) d'.x xs).submatrix e id l ⟨i, hi⟩) ∘ Sum.inl
      = fun l : Fin d.x.length => Kmat (c.kernel h) d.x xs l ⟨i, hi⟩ := by
    funext l
    simp only [Function.comp, Matrix.submatrix_apply, Kmat, Matrix.of_apply, id]
    rw [hget]
  rw [hcol] at this
  linarith

noncomputable def exDataSmall : Data ℝ where
  x := [1, 2]
  y := [[1], [3]]
  cols := 1
  noiseVar := some [1, 1 / 2]

example (mode : Mode) (vo : Bool) : ∃ gp gp', init (exCfg mode) exDataSmall 2 = .ok gp ∧
    init (exCfg mode) exData 2 = .ok gp' ∧ ∀ (xs : List ℝ) (chunk : ℕ) (junk : NMat),
      ∃ v S v' S', posteriorCovariance gp xs vo false chunk junk = .ok (v, S) ∧
        posteriorCovariance gp' xs vo false chunk junk = .ok (v', S') ∧ ∀ i < xs.length, v' i ≤ v i := by
  refine C33_more_data (exCfg mode) exDataSmall exData 2 cholExt_contract [2] rfl
    (by simp [calcV, exCfg, exDataSmall, Noise.Fits]) (exAdmissible mode 2) ?_ vo
  intro (i : Fin 2) (j : Fin 2) (i' : Fin 3) (j' : Fin 3) hi hj
  have h1 : calcV (exCfg mode) exDataSmall 2 exDataSmall.x = .diag 2 fun i => ([1, 1 / 2] : List ℝ).getD i 0 := by
    simp [calcV, exCfg, exDataSmall]
  have h2 : calcV (exCfg mode) exData 2 exData.x = .diag 3 fun i => ([1, 1 / 2, 1] : List ℝ).getD i 0 := by
    simp [calcV, exCfg, exData]
  rw [h1, h2]
  change Matrix.diagonal (fun i : Fin 3 => ([1, 1 / 2, 1] : List ℝ).getD i 0) i' j'
    = Matrix.diagonal (fun i : Fin 2 => ([1, 1 / 2] : List ℝ).getD i 0) i j
  fin_cases i <;> fin_cases j <;> fin_cases i' <;> fin_cases j' <;> simp_all [Matrix.diagonal]

end Verif.GP
