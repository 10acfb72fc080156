import Verif.GP.SeqLemmas
import Verif.GP.LikProps
import Verif.GP.InfoProps
import Verif.GP.DeltaKernel

/-! Property C149: learning from the data in two steps is learning from all of it. -/

namespace Verif.GP

open Finset Verif.LinAlg Matrix

variable {α H : Type}

/-- Position of an old (left) or new (right) point in the list of all points. -/
def position (n : ℕ) {q : ℕ} : Fin n ⊕ Fin q → ℕ := Sum.elim (fun i => i) fun i => n + i

/-- Column `j` of a list of rows. -/
def colOf (y : List (List ℝ)) (j : ℕ) {q : ℕ} : Fin q → ℝ := fun i => (y.getD i []).getD j 0

/-- `d'` is `d` with the observations `y2` at `x2` behind it. The prior mean does not depend on the data, and the errors of the
new observations are independent of the old ones, with the covariance the noise function gives for `x2`. -/
structure Appended (c : Config α H) (h : H) (d d' : Data α) (x2 : List α) (y2 : List (List ℝ)) : Prop where
  x : d'.x = d.x ++ x2
  y : d'.y = d.y ++ y2
  cols : d'.cols = d.cols
  len : d.y.length = d.x.length
  len2 : y2.length = x2.length
  mean : ∀ a, meanFn c d' h a = meanFn c d h a
  noise : ∀ (u v : Fin d.x.length ⊕ Fin x2.length) (i j : Fin d'.x.length), (i : ℕ) = position _ u → (j : ℕ) = position _ v →
    (calcV c d' h d'.x).mat d'.x.length i j
      = fromBlocks ((calcV c d h d.x).mat d.x.length) 0 0 ((calcV c d h x2).mat x2.length) u v

namespace Appended

variable {c : Config α H} {h : H} {d d' : Data α} {x2 : List α} {y2 : List (List ℝ)}

theorem length (hd : Appended c h d d' x2 y2) : d.x.length + x2.length = d'.x.length := by
  rw [hd.x, List.length_append]

/-- The numbering of all points. -/
def equiv (hd : Appended c h d d' x2 y2) : Fin d.x.length ⊕ Fin x2.length ≃ Fin d'.x.length :=
  finSumFinEquiv.trans (finCongr hd.length)

theorem equiv_val (hd : Appended c h d d' x2 y2) (u : Fin d.x.length ⊕ Fin x2.length) :
    ((hd.equiv u : Fin d'.x.length) : ℕ) = position _ u := by
  rcases u with u | u <;> simp [equiv, position]

theorem get (hd : Appended c h d d' x2 y2) (u : Fin d.x.length ⊕ Fin x2.length) :
    d'.x[hd.equiv u] = Sum.elim (fun i => d.x[i]) (fun i => x2[i]) u := by
  have h1 : d'.x[hd.equiv u]? = some (Sum.elim (fun i => d.x[i]) (fun i => x2[i]) u) := by
    rw [Fin.getElem?_fin, hd.equiv_val, hd.x]
    rcases u with u | u
    · simp [position, List.getElem?_append_left u.2]
    · simp [position]
  have h2 : d'.x[hd.equiv u]? = some d'.x[hd.equiv u] := by simp
  rw [h2] at h1
  exact Option.some.inj h1

theorem KV (hd : Appended c h d d' x2 y2) (hs : ∀ a b, c.kernel h a b = c.kernel h b a) :
    (KVmat c d' h).submatrix hd.equiv hd.equiv = fromBlocks (KVmat c d h) (Kmat (c.kernel h) d.x x2)
      (Kmat (c.kernel h) d.x x2)ᵀ (Kmat (c.kernel h) x2 x2 + (calcV c d h x2).mat x2.length) := by
  ext u v
  simp only [Matrix.submatrix_apply, KVmat, Matrix.add_apply, Kmat, Matrix.of_apply]
  rw [hd.get, hd.get, hd.noise u v _ _ (hd.equiv_val u) (hd.equiv_val v)]
  rcases u with u | u <;> rcases v with v | v <;> simp [hs]

theorem cross (hd : Appended c h d d' x2 y2) (xs : List α) :
    (Kmat (c.kernel h) d'.x xs).submatrix hd.equiv id
      = Matrix.of (Sum.elim (Kmat (c.kernel h) d.x xs) (Kmat (c.kernel h) x2 xs)) := by
  ext u v
  simp only [Matrix.submatrix_apply, Kmat, Matrix.of_apply, id]
  rw [hd.get]
  rcases u with u | u <;> rfl

theorem means (hd : Appended c h d d' x2 y2) :
    meanAt c d' h d'.x ∘ hd.equiv = Sum.elim (meanAt c d h d.x) (meanAt c d h x2) := by
  funext u
  simp only [Function.comp, meanAt]
  rw [hd.get, hd.mean]
  rcases u with u | u <;> rfl

theorem values (hd : Appended c h d d' x2 y2) (j : ℕ) :
    yCol d' j ∘ hd.equiv = Sum.elim (yCol d j) (colOf y2 j) := by
  funext u
  simp only [Function.comp, yCol, Data.yMat, hd.equiv_val, hd.y]
  rcases u with u | u
  · have : (u : ℕ) < d.y.length := by rw [hd.len]; exact u.2
    simp [position, yCol, Data.yMat, List.getD_eq_getElem?_getD, List.getElem?_append_left this]
  · have : d.y.length ≤ d.x.length + u := by rw [hd.len]; omega
    simp [position, colOf, List.getD_eq_getElem?_getD, List.getElem?_append_right this, hd.len]

end Appended

/-- What follows about the parts if all the data together are admissible. -/
theorem Appended.parts {c : Config α H} {h : H} {d d' : Data α} {x2 : List α} {y2 : List (List ℝ)}
    (hd : Appended c h d d' x2 y2) (hs : ∀ a b, c.kernel h a b = c.kernel h b a) (hpd : (KVmat c d' h).PosDef) :
    (fromBlocks (KVmat c d h) (Kmat (c.kernel h) d.x x2) (Kmat (c.kernel h) d.x x2)ᵀ
      (Kmat (c.kernel h) x2 x2 + (calcV c d h x2).mat x2.length)).PosDef := by
  rw [← hd.KV hs]
  exact hpd.submatrix hd.equiv.injective

/-- Covariance of the new observations given the old ones. -/
theorem schur_eq (c : Config α H) (d : Data α) (h : H) (x2 : List α) (V : Matrix (Fin x2.length) (Fin x2.length) ℝ) :
    condCov (KVmat c d h) (Kmat (c.kernel h) d.x x2) (Kmat (c.kernel h) x2 x2 + V) = specCov c d h x2 + V := by
  rw [specCov, condCov, condCov]
  abel

theorem specMean_restrict {c : Config α H} {d : Data α} {h : H} {xs ys : List α} (e : Fin ys.length → Fin xs.length)
    (hxy : ∀ i, ys[i] = xs[e i]) (j : ℕ) : specMean c d h xs j ∘ e = specMean c d h ys j := by
  funext i
  simp only [specMean, condMean, meanAt, Function.comp, Pi.add_apply, Matrix.mulVec, dotProduct, Matrix.transpose_apply,
    Kmat, Matrix.of_apply, hxy]

/-- A constructed GP returns, with a positive semidefinite kernel, the posterior covariance unclipped. -/
theorem covariance_unclipped {gp : GP α H} (hc : Consistent gp) (hpd : (KVmat gp.cfg gp.data gp.hps).PosDef)
    (hk : IsPSDKernel (gp.cfg.kernel gp.hps))
    (hV : ((calcV gp.cfg gp.data gp.hps gp.data.x).mat gp.data.x.length).PosSemidef) (xs : List α) (chunk : ℕ) (junk : NMat) :
    ∃ v S, posteriorCovariance gp xs false false chunk junk = .ok (v, some S) ∧
      toMat xs.length S = specCov gp.cfg gp.data gp.hps xs := by
  obtain ⟨v, S, h1, -, h2, -⟩ := posteriorCovariance_eq hc hpd xs false chunk junk
  obtain ⟨T, rfl, hT⟩ := h2 rfl
  refine ⟨v, T, h1, ?_⟩
  ext i j
  have hnn : 0 ≤ specCov gp.cfg gp.data gp.hps xs i i := (specCov_posSemidef hk hV hpd xs).diag_nonneg
  simp only [toMat, Matrix.of_apply]
  rw [hT]
  split_ifs with hij
  · rw [max_eq_right hnn, hij]
  · rfl

/-- With noise. -/
theorem noisy_covariance {gp : GP α H} (hc : Consistent gp) (hpd : (KVmat gp.cfg gp.data gp.hps).PosDef)
    (hk : IsPSDKernel (gp.cfg.kernel gp.hps))
    (hV : ((calcV gp.cfg gp.data gp.hps gp.data.x).mat gp.data.x.length).PosSemidef) (xs : List α) (hn : NoiseFits gp xs)
    (chunk : ℕ) (junk : NMat) :
    ∃ v S, posteriorCovariance gp xs false true chunk junk = .ok (v, some S) ∧
      toMat xs.length S = specCov gp.cfg gp.data gp.hps xs + (calcV gp.cfg gp.data gp.hps xs).mat xs.length := by
  obtain ⟨v, S, h1, h2⟩ := covariance_unclipped hc hpd hk hV xs chunk junk
  simp only [posteriorCovariance, Bool.false_eq_true, if_false, Except.ok.injEq] at h1
  obtain ⟨v', S', h3, h4⟩ := addNoise_fits hn v S
  refine ⟨v', S', ?_, by rw [h4, h2]⟩
  simp only [posteriorCovariance, if_true]
  rw [h1]
  exact h3

/-- **C149** (likelihood). The log likelihood of all observations is the log likelihood of the first ones plus the log density
that the GP of the first ones, asked with `add_noise=True`, predicts for the others (averaged over the output columns). -/
theorem C149_chain_rule (c : Config α H) (d d' : Data α) (h : H) (x2 : List α) (y2 : List (List ℝ)) (he : SpluContract c.ext)
    (hmode : c.mode ≠ .sparseSolve) (hd : Appended c h d d' x2 y2) (hk : IsPSDKernel (c.kernel h))
    (hfit : (calcV c d h d.x).Fits d.x.length c.sparseK) (hfit2 : (calcV c d h x2).Fits x2.length false)
    (hns : ∀ r s W, calcV c d h x2 ≠ .sparse r s W)
    (hV : ((calcV c d h d.x).mat d.x.length).PosSemidef) (ha' : Admissible c d' h) (hcols : 1 ≤ d.cols) :
    ∃ gp gp', init c d h = .ok gp ∧ init c d' h = .ok gp' ∧ ∀ (chunk : ℕ) (junk : NMat),
      ∃ v S, posteriorCovariance gp x2 false true chunk junk = .ok (v, some S) ∧
        logLikelihood gp' = logLikelihood gp + (∑ j ∈ range d.cols, Real.log (normalDensity (toMat x2.length S)
          (fun i => posteriorMean gp x2 i j) (colOf y2 j))) / d.cols := by
  have hj := hd.parts hk.1 ha'.posDef
  have hpd : (KVmat c d h).PosDef := block11_posDef hj
  obtain ⟨gp, hgp, hc, h1, h2, h3⟩ := init_ok c d h he ⟨hfit, hpd⟩
  obtain ⟨gp', hgp', hc', h1', h2', h3'⟩ := init_ok c d' h he ha'
  refine ⟨gp, gp', hgp, hgp', fun chunk junk => ?_⟩
  have hnf : NoiseFits gp x2 := by
    unfold NoiseFits
    rw [h1, h2, h3]
    revert hfit2 hns
    cases calcV c d h x2 with
    | diag len w => exact fun h _ => h
    | dense r s W => exact fun h _ => ⟨h.1, h.2.1⟩
    | sparse r s W => exact fun _ hh => hh r s W rfl
  obtain ⟨v, S, hS, hSm⟩ := noisy_covariance hc (by rw [h1, h2, h3]; exact hpd) (by rw [h1, h3]; exact hk)
    (by rw [h1, h2, h3]; exact hV) x2 hnf chunk junk
  refine ⟨v, S, hS, ?_⟩
  rw [h1, h2, h3] at hSm
  have hl : logLikelihood gp = specLogLik c d h := by
    rw [consistent_loglik hc (by rw [h1, h2, h3]; exact hpd) (by rw [h1]; exact hmode) (by rw [h2]; exact hd.len)
      (by rw [h2]; exact hcols), h1, h2, h3]
  have hl' : logLikelihood gp' = specLogLik c d' h := by
    rw [consistent_loglik hc' (by rw [h1', h2', h3']; exact ha'.posDef) (by rw [h1']; exact hmode)
      (by rw [h2', hd.y, hd.x, List.length_append, List.length_append, hd.len, hd.len2])
      (by rw [h2', hd.cols]; exact hcols), h1', h2', h3']
  have hSpd : (specCov c d h x2 + (calcV c d h x2).mat x2.length).PosDef := by
    rw [← schur_eq]
    exact schur_posDef hj
  rw [hl, hl', specLogLik, specLogLik, hd.cols, ← add_div, ← Finset.sum_add_distrib]
  congr 1
  refine Finset.sum_congr rfl fun j _ => ?_
  have hm : (fun i : Fin x2.length => posteriorMean gp x2 i j) = specMean c d h x2 j := by
    funext i
    rw [consistent_mean hc (by rw [h1, h2, h3]; exact hpd), h1, h2, h3]
  rw [hSm, hm, log_normalDensity ha'.posDef, log_normalDensity hpd, log_normalDensity hSpd,
    ← logNormal_perm hd.equiv (KVmat c d' h), hd.KV hk.1, hd.means, hd.values, logNormal_two_steps hj, schur_eq]
  rfl

/-- **C149** (predictions). Predictions of the GP of all observations are those of the GP of the first ones conditioned on the
others: its posterior mean and covariance at `x2` and `xs` together serve as prior, and the observations `y2` at `x2`, with
the noise there, as data. -/
theorem C149_two_steps (c : Config α H) (d d' : Data α) (h : H) (x2 : List α) (y2 : List (List ℝ)) (he : SpluContract c.ext)
    (hd : Appended c h d d' x2 y2) (hk : IsPSDKernel (c.kernel h)) (hfit : (calcV c d h d.x).Fits d.x.length c.sparseK)
    (hV : ((calcV c d h d.x).mat d.x.length).PosSemidef) (hV' : ((calcV c d' h d'.x).mat d'.x.length).PosSemidef)
    (ha' : Admissible c d' h) :
    ∃ gp gp', init c d h = .ok gp ∧ init c d' h = .ok gp' ∧ ∀ (xs : List α) (chunk chunk' : ℕ) (junk junk' : NMat),
      ∃ v S v' S', posteriorCovariance gp (x2 ++ xs) false false chunk junk = .ok (v, some S) ∧
        posteriorCovariance gp' xs false false chunk' junk' = .ok (v', some S') ∧
        ∀ (A : Matrix (Fin x2.length) (Fin x2.length) ℝ) (B : Matrix (Fin x2.length) (Fin xs.length) ℝ)
          (C : Matrix (Fin xs.length) (Fin xs.length) ℝ),
          (∀ i j, A i j = S i j + (calcV c d h x2).mat x2.length i j) → (∀ i j, B i j = S i (x2.length + j)) →
          (∀ i j, C i j = S (x2.length + i) (x2.length + j)) →
          (∀ (i : Fin xs.length) (j : ℕ), posteriorMean gp' xs i j = condMean A B
            (fun i => posteriorMean gp (x2 ++ xs) (x2.length + i) j) (fun i => posteriorMean gp (x2 ++ xs) i j) (colOf y2 j) i) ∧
          ∀ i j : Fin xs.length, S' i j = condCov A B C i j := by
  have hj := hd.parts hk.1 ha'.posDef
  have hpd : (KVmat c d h).PosDef := block11_posDef hj
  obtain ⟨gp, hgp, hc, h1, h2, h3⟩ := init_ok c d h he ⟨hfit, hpd⟩
  obtain ⟨gp', hgp', hc', h1', h2', h3'⟩ := init_ok c d' h he ha'
  refine ⟨gp, gp', hgp, hgp', fun xs chunk chunk' junk junk' => ?_⟩
  have hpd1 : (KVmat gp.cfg gp.data gp.hps).PosDef := by rw [h1, h2, h3]; exact hpd
  have hpd1' : (KVmat gp'.cfg gp'.data gp'.hps).PosDef := by rw [h1', h2', h3']; exact ha'.posDef
  obtain ⟨v, S, hS, hSm⟩ := covariance_unclipped hc hpd1 (by rw [h1, h3]; exact hk) (by rw [h1, h2, h3]; exact hV) (x2 ++ xs)
    chunk junk
  obtain ⟨v', S', hS', hSm'⟩ := covariance_unclipped hc' hpd1' (by rw [h1', h3']; exact hk) (by rw [h1', h2', h3']; exact hV') xs
    chunk' junk'
  rw [h1, h2, h3] at hSm
  rw [h1', h2', h3'] at hSm'
  refine ⟨v, S, v', S', hS, hS', fun A B C hA hB hC => ?_⟩
  -- positions of the two parts in `x2 ++ xs`
  let l : Fin x2.length → Fin (x2 ++ xs).length := fun i => ⟨i, by rw [List.length_append]; omega⟩
  let r : Fin xs.length → Fin (x2 ++ xs).length := fun i => ⟨x2.length + i, by rw [List.length_append]; omega⟩
  have hl : ∀ i, (x2 ++ xs)[l i] = x2[i] := fun i => by simp [l]
  have hr : ∀ i, (x2 ++ xs)[r i] = xs[i] := fun i => by simp [r]
  have hSe : ∀ i j : Fin (x2 ++ xs).length, S i j = specCov c d h (x2 ++ xs) i j := fun i j => by
    rw [← hSm]; rfl
  have eA : A = condCov (KVmat c d h) (Kmat (c.kernel h) d.x x2)
      (Kmat (c.kernel h) x2 x2 + (calcV c d h x2).mat x2.length) := by
    ext i j
    have := hSe (l i) (l j)
    change S i j = _ at this
    rw [hA, schur_eq, Matrix.add_apply, this, specCov, specCov, condCov_entry, condCov_entry]
    simp only [Kmat, Matrix.of_apply, hl]
  have eB : B = Kmat (c.kernel h) x2 xs - (Kmat (c.kernel h) d.x x2)ᵀ * (KVmat c d h)⁻¹ * Kmat (c.kernel h) d.x xs := by
    ext i j
    have := hSe (l i) (r j)
    change S i (x2.length + j) = _ at this
    rw [hB, this, specCov, condCov, Matrix.sub_apply, Matrix.sub_apply, Matrix.mul_assoc, Matrix.mul_assoc, Matrix.mul_apply,
      Matrix.mul_apply]
    simp only [Kmat, Matrix.of_apply, hl, hr, Matrix.transpose_apply, Matrix.mul_apply]
  have eC : C = condCov (KVmat c d h) (Kmat (c.kernel h) d.x xs) (Kmat (c.kernel h) xs xs) := by
    ext i j
    have := hSe (r i) (r j)
    change S (x2.length + i) (x2.length + j) = _ at this
    rw [hC, this, specCov, condCov_entry, condCov_entry]
    simp only [Kmat, Matrix.of_apply, hr]
  have em : ∀ j, (fun i : Fin x2.length => posteriorMean gp (x2 ++ xs) i j) = specMean c d h x2 j := fun j => by
    rw [← specMean_restrict (xs := x2 ++ xs) l fun i => (hl i).symm]
    funext i
    have := consistent_mean hc hpd1 (x2 ++ xs) (l i) j
    rw [h1, h2, h3] at this
    exact this
  have em' : ∀ j, (fun i : Fin xs.length => posteriorMean gp (x2 ++ xs) (x2.length + i) j) = specMean c d h xs j := fun j => by
    rw [← specMean_restrict (xs := x2 ++ xs) r fun i => (hr i).symm]
    funext i
    have := consistent_mean hc hpd1 (x2 ++ xs) (r i) j
    rw [h1, h2, h3] at this
    exact this
  constructor
  · intro i j
    rw [consistent_mean hc' hpd1', h1', h2', h3', em, em', eA, eB, specMean, ← condMean_perm hd.equiv (KVmat c d' h),
      hd.KV hk.1, hd.cross, hd.means, hd.values, condMean_two_steps hj]
    have : meanAt c d' h xs = meanAt c d h xs := by funext i; exact hd.mean _
    rw [this]
    rfl
  · intro i j
    have : S' i j = specCov c d' h xs i j := by rw [← hSm']; rfl
    rw [this, specCov, ← condCov_perm hd.equiv (KVmat c d' h), hd.KV hk.1, hd.cross, condCov_two_steps hj, eA, eB, eC]

/-! ### Example and violation -/

/-- A noise function with variance one everywhere. -/
noncomputable def seqCfg (k : ℝ → ℝ → ℝ) (mean : Option (ℝ → ℝ → ℝ)) (mode : Mode) : Config ℝ ℝ where
  kernel _ := k
  mean := mean
  noise := .user fun _ xs => .diag xs.length fun _ => 1
  mode := mode
  sparseK := false
  ext := cholExt

noncomputable def seqOld : Data ℝ := ⟨[1, 2], [[1], [3]], 1, none⟩

noncomputable def seqAll : Data ℝ := ⟨[1, 2, 5], [[1], [3], [4]], 1, none⟩

theorem seqNoise (k : ℝ → ℝ → ℝ) (mean : Option (ℝ → ℝ → ℝ)) (mode : Mode) (d : Data ℝ) (h : ℝ) (xs : List ℝ) :
    (calcV (seqCfg k mean mode) d h xs).mat xs.length = 1 := by
  simp [calcV, seqCfg, Noise.mat]

theorem seqAdmissible {k : ℝ → ℝ → ℝ} (hk : IsPSDKernel k) (mean : Option (ℝ → ℝ → ℝ)) (mode : Mode) (d : Data ℝ) (h : ℝ) :
    Admissible (seqCfg k mean mode) d h where
  fits := by simp [calcV, seqCfg, Noise.Fits]
  posDef := KVmat_posDef hk (by rw [seqNoise]; exact Matrix.PosDef.one)

theorem seqAppended (k : ℝ → ℝ → ℝ) (mean : ℝ → ℝ → ℝ) (mode : Mode) (h : ℝ) :
    Appended (seqCfg k (some mean) mode) h seqOld seqAll [5] [[4]] where
  x := rfl
  y := rfl
  cols := rfl
  len := rfl
  len2 := rfl
  mean _ := rfl
  noise u v i j hi hj := by
    rw [seqNoise, seqNoise, seqNoise, fromBlocks_one]
    have hinj : Function.Injective (position 2 : Fin 2 ⊕ Fin 1 → ℕ) := by
      rintro (a | a) (b | b) hab <;> simp [position] at hab <;> first | omega | (congr 1; omega)
    have : i = j ↔ u = v := by
      rw [Fin.ext_iff, hi, hj]
      exact hinj.eq_iff
    simp only [Matrix.one_apply, this]

example (mode : Mode) (hm : mode ≠ .sparseSolve) : ∃ gp gp',
    init (seqCfg (fun a b => 3 ^ 2 * (1 + a * b)) (some fun _ a => a) mode) seqOld 0 = .ok gp ∧
    init (seqCfg (fun a b => 3 ^ 2 * (1 + a * b)) (some fun _ a => a) mode) seqAll 0 = .ok gp' ∧
    ∀ (chunk : ℕ) (junk : NMat), ∃ v S, posteriorCovariance gp [5] false true chunk junk = .ok (v, some S) ∧
      logLikelihood gp' = logLikelihood gp + (∑ j ∈ range 1, Real.log (normalDensity (toMat 1 S)
        (fun i => posteriorMean gp [5] i j) (colOf [[4]] j))) / (1 : ℕ) :=
  C149_chain_rule _ seqOld seqAll 0 [5] [[4]] cholExt_contract hm (seqAppended _ _ mode 0) (exKernel_psd 3)
    (seqAdmissible (exKernel_psd 3) _ mode _ 0).fits (by simp [calcV, seqCfg, Noise.Fits]) (by simp [calcV, seqCfg])
    (by rw [seqNoise]; exact Matrix.PosSemidef.one) (seqAdmissible (exKernel_psd 3) _ mode _ 0) le_rfl

example (mode : Mode) : ∃ gp gp',
    init (seqCfg (fun a b => 3 ^ 2 * (1 + a * b)) (some fun _ a => a) mode) seqOld 0 = .ok gp ∧
    init (seqCfg (fun a b => 3 ^ 2 * (1 + a * b)) (some fun _ a => a) mode) seqAll 0 = .ok gp' := by
  obtain ⟨gp, gp', h1, h2, -⟩ := C149_two_steps _ seqOld seqAll 0 [5] [[4]] cholExt_contract (seqAppended _ (fun _ a => a) mode 0)
    (exKernel_psd 3) (seqAdmissible (exKernel_psd 3) _ mode _ 0).fits (by rw [seqNoise]; exact Matrix.PosSemidef.one)
    (by rw [seqNoise]; exact Matrix.PosSemidef.one) (seqAdmissible (exKernel_psd 3) _ mode _ 0)
  exact ⟨gp, gp', h1, h2⟩

theorem deltaKV (mean : Option (ℝ → ℝ → ℝ)) (mode : Mode) (d : Data ℝ) (hx : d.x.Nodup) (h : ℝ) :
    KVmat (seqCfg deltaKernel mean mode) d h = Matrix.diagonal fun _ => 2 := by
  ext i j
  rw [KVmat, Matrix.add_apply, seqNoise]
  have : d.x[i] = d.x[j] ↔ i = j := ⟨fun e => Fin.ext ((List.Nodup.getElem_inj_iff hx).1 e), fun e => by rw [e]⟩
  by_cases hij : i = j
  · subst hij
    simp [Kmat, seqCfg, deltaKernel]
    norm_num
  · have hne : ¬ d.x[(i : ℕ)] = d.x[(j : ℕ)] := fun e => hij (this.1 e)
    simp [Kmat, seqCfg, deltaKernel, hij, hne]

theorem logNormal_diag2 {n : Type*} [Fintype n] [DecidableEq n] (m y : n → ℝ) :
    logNormal (Matrix.diagonal fun _ : n => (2 : ℝ)) m y
      = -(1 / 2) * ((∑ i, (y i - m i) ^ 2) / 2 + Fintype.card n * Real.log 2 + Fintype.card n * Real.log (2 * Real.pi)) := by
  have hinv : (Matrix.diagonal fun _ : n => (2 : ℝ))⁻¹ = Matrix.diagonal fun _ => 1 / 2 := by
    apply Matrix.inv_eq_right_inv
    rw [Matrix.diagonal_mul_diagonal]
    norm_num
  rw [logNormal, hinv, Matrix.det_diagonal]
  simp only [Finset.prod_const, Finset.card_univ, Real.log_pow, Matrix.mulVec_diagonal, dotProduct, Pi.sub_apply, Finset.sum_div]
  congr 3
  refine Finset.sum_congr rfl fun i _ => by ring

noncomputable def meanOld : Data ℝ := ⟨[0], [[0]], 1, none⟩

noncomputable def meanAll : Data ℝ := ⟨[0, 1], [[0], [2]], 1, none⟩

/-- **C149** is violated by the default prior mean, the average of all observed values: it changes with the new observations,
so the log likelihood is not the sum of predicted log densities. Here it is larger by one half. -/
theorem C149_default_mean_violated (mode : Mode) (hm : mode ≠ .sparseSolve) :
    ∃ gp gp', init (seqCfg deltaKernel none mode) meanOld 0 = .ok gp ∧ init (seqCfg deltaKernel none mode) meanAll 0 = .ok gp' ∧
      ∀ (chunk : ℕ) (junk : NMat), ∃ v S, posteriorCovariance gp [1] false true chunk junk = .ok (v, some S) ∧
        logLikelihood gp' = logLikelihood gp + Real.log (normalDensity (toMat 1 S) (fun i => posteriorMean gp [1] i 0)
          (colOf [[2]] 0)) + 1 / 2 := by
  set c := seqCfg deltaKernel none mode with hcdef
  have ha : ∀ d, Admissible c d 0 := fun d => seqAdmissible deltaKernel_psd _ mode d 0
  obtain ⟨gp, hgp, hc, h1, h2, h3⟩ := init_ok c meanOld 0 cholExt_contract (ha _)
  obtain ⟨gp', hgp', hc', h1', h2', h3'⟩ := init_ok c meanAll 0 cholExt_contract (ha _)
  refine ⟨gp, gp', hgp, hgp', fun chunk junk => ?_⟩
  have hpd : (KVmat gp.cfg gp.data gp.hps).PosDef := by rw [h1, h2, h3]; exact (ha _).posDef
  have hnf : NoiseFits gp [1] := by
    rw [NoiseFits, h1, h2, h3, hcdef]
    simp [calcV, seqCfg]
  obtain ⟨v, S, hS, hSm⟩ := noisy_covariance hc hpd (by rw [h1, h3]; exact deltaKernel_psd)
    (by rw [h1, h2, h3, hcdef, seqNoise]; exact Matrix.PosSemidef.one) [1] hnf chunk junk
  refine ⟨v, S, hS, ?_⟩
  rw [h1, h2, h3, hcdef, seqNoise] at hSm
  have hk0 : Kmat (c.kernel 0) meanOld.x [1] = 0 := by
    ext i j
    have : i = (0 : Fin 1) := Subsingleton.elim (α := Fin 1) _ _
    have : j = (0 : Fin 1) := Subsingleton.elim (α := Fin 1) _ _
    subst_vars
    simp [Kmat, hcdef, seqCfg, deltaKernel, meanOld]
    rfl
  have hSm2 : toMat 1 S = Matrix.diagonal fun _ => 2 := by
    change toMat 1 S = _ at hSm
    rw [hSm, specCov, condCov, ← hcdef, hk0]
    ext i j
    have : i = (0 : Fin 1) := Subsingleton.elim (α := Fin 1) _ _
    have : j = (0 : Fin 1) := Subsingleton.elim (α := Fin 1) _ _
    subst_vars
    simp [Kmat, hcdef, seqCfg, deltaKernel]
    norm_num
  have hm0 : (fun i : Fin 1 => posteriorMean gp [1] i 0) = fun _ => 0 := by
    funext i
    have := consistent_mean hc hpd [1] i 0
    rw [h1, h2, h3, specMean, condMean, hk0, Matrix.transpose_zero, Matrix.zero_mulVec, add_zero] at this
    change posteriorMean gp [1] i 0 = _ at this
    rw [this]
    simp [meanAt, meanFn, hcdef, seqCfg, Data.yMean, meanOld]
  have hl : logLikelihood gp = specLogLik c meanOld 0 := by
    rw [consistent_loglik hc hpd (by rw [h1]; exact hm) (by rw [h2]; rfl) (by rw [h2]; exact le_rfl), h1, h2, h3]
  have hl' : logLikelihood gp' = specLogLik c meanAll 0 := by
    rw [consistent_loglik hc' (by rw [h1', h2', h3']; exact (ha _).posDef) (by rw [h1']; exact hm) (by rw [h2']; rfl)
      (by rw [h2']; exact le_rfl), h1', h2', h3']
  have hpd2 : (Matrix.diagonal fun _ : Fin 1 => (2 : ℝ)).PosDef := Matrix.PosDef.diagonal fun _ => by norm_num
  rw [hl, hl', specLogLik, specLogLik, hSm2, hm0, log_normalDensity hpd2, logNormal_diag2]
  change (∑ j ∈ range 1, _) / ((1 : ℕ) : ℝ) = (∑ j ∈ range 1, _) / ((1 : ℕ) : ℝ) + _ + _
  rw [Finset.sum_range_one, Finset.sum_range_one, log_normalDensity (ha _).posDef, log_normalDensity (ha _).posDef,
    hcdef, deltaKV none mode meanOld (by simp [meanOld]) 0, deltaKV none mode meanAll (by simp [meanAll]) 0, logNormal_diag2, logNormal_diag2]
  have e1 : ∑ i : Fin meanOld.x.length, (yCol meanOld 0 i - meanAt (seqCfg deltaKernel none mode) meanOld 0 meanOld.x i) ^ 2 = 0 := by
    change ∑ i : Fin 1, _ = _
    rw [Fin.sum_univ_one]
    simp [yCol, Data.yMat, meanAt, meanFn, seqCfg, Data.yMean, meanOld]
  have e2 : ∑ i : Fin meanAll.x.length, (yCol meanAll 0 i - meanAt (seqCfg deltaKernel none mode) meanAll 0 meanAll.x i) ^ 2 = 2 := by
    change ∑ i : Fin 2, _ = _
    rw [Fin.sum_univ_two]
    simp [yCol, Data.yMat, meanAt, meanFn, seqCfg, Data.yMean, meanAll]
    norm_num
  have e3 : ∑ i : Fin 1, (colOf [[2]] 0 i - 0 : ℝ) ^ 2 = 4 := by
    rw [Fin.sum_univ_one]
    simp [colOf]
    norm_num
  rw [e1, e2, e3]
  simp only [Fintype.card_fin]
  change -(1 / 2) * ((2 : ℝ) / 2 + ((2 : ℕ) : ℝ) * _ + ((2 : ℕ) : ℝ) * _) / _
    = -(1 / 2) * ((0 : ℝ) / 2 + ((1 : ℕ) : ℝ) * _ + ((1 : ℕ) : ℝ) * _) / _ + _ + _
  push_cast
  ring

end Verif.GP
