import Verif.GP.RepLemmas
import Verif.GP.LikProps
import Verif.GP.DeltaKernel

/-! Property C150: measuring a point several times is measuring the average once. -/

namespace Verif.GP

open Finset Verif.LinAlg Matrix

variable {α H : Type}

/-- `a` is `d` with the observations of each point replaced by their average: observation `i` of `d` is of point `π i` of `a`, the
noise variances `v`, `w` are pooled by adding precisions, and each column of values is averaged with these weights. -/
structure Replicates (d a : Data α) (π : Fin d.x.length → Fin a.x.length) (v w : List ℝ) : Prop where
  x : ∀ i, d.x[i] = a.x[π i]
  cols : a.cols = d.cols
  len : d.y.length = d.x.length
  alen : a.y.length = a.x.length
  noise : d.noiseVar = some v
  anoise : a.noiseVar = some w
  vlen : v.length = d.x.length
  wlen : w.length = a.x.length
  pooled : Pooled π (fun i => v.getD i 0) fun l => w.getD l 0
  averaged : ∀ j, Averaged π (fun i => v.getD i 0) (fun l => w.getD l 0) (yCol d j) (yCol a j)

namespace Replicates

variable {c : Config α H} {h : H} {d a : Data α} {π : Fin d.x.length → Fin a.x.length} {v w : List ℝ}

theorem KV (hr : Replicates d a π v w) (hc : c.noise = .measured) :
    KVmat c d h = (Kmat (c.kernel h) a.x a.x).submatrix π π + Matrix.diagonal fun i : Fin d.x.length => v.getD i 0 := by
  ext i j
  simp only [KVmat, Matrix.add_apply, Kmat, Matrix.of_apply, Matrix.submatrix_apply, calcV, hc, hr.noise, Option.getD_some,
    hr.vlen, if_true, Noise.mat, hr.x]

theorem aKV (hr : Replicates d a π v w) (hc : c.noise = .measured) :
    KVmat c a h = Kmat (c.kernel h) a.x a.x + Matrix.diagonal fun i : Fin a.x.length => w.getD i 0 := by
  ext i j
  simp only [KVmat, Matrix.add_apply, calcV, hc, hr.anoise, Option.getD_some, hr.wlen, if_true, Noise.mat]

theorem admissible (hr : Replicates d a π v w) (hc : c.noise = .measured) (hk : IsPSDKernel (c.kernel h)) :
    Admissible c d h ∧ Admissible c a h := by
  constructor
  · refine ⟨by simp [calcV, hc, hr.noise, hr.vlen, Noise.Fits], ?_⟩
    rw [hr.KV hc]
    exact Matrix.PosDef.posSemidef_add ((Kmat_posSemidef hk a.x).submatrix π) (Matrix.PosDef.diagonal hr.pooled.1)
  · refine ⟨by simp [calcV, hc, hr.anoise, hr.wlen, Noise.Fits], ?_⟩
    rw [hr.aKV hc]
    exact Matrix.PosDef.posSemidef_add (Kmat_posSemidef hk a.x) (Matrix.PosDef.diagonal hr.pooled.2.1)

theorem cross (hr : Replicates d a π v w) (xs : List α) :
    Kmat (c.kernel h) d.x xs = (Kmat (c.kernel h) a.x xs).submatrix π id := by
  ext i j
  simp only [Kmat, Matrix.of_apply, Matrix.submatrix_apply, id, hr.x]

theorem means (hr : Replicates d a π v w) {g : H → α → ℝ} (hg : c.mean = some g) :
    meanAt c d h d.x = meanAt c a h a.x ∘ π := by
  funext i
  simp only [meanAt, meanFn, hg, Function.comp, hr.x]

end Replicates

/-- **C150** (predictions). With a given prior mean and measured noise, a GP of repeated measurements predicts the same mean and
covariance everywhere as the GP of their averages. -/
theorem C150_predictions (c : Config α H) (hc : c.noise = .measured) {g : H → α → ℝ} (hg : c.mean = some g) (he : SpluContract c.ext)
    (d a : Data α) (π : Fin d.x.length → Fin a.x.length) (v w : List ℝ) (hr : Replicates d a π v w) (h : H)
    (hk : IsPSDKernel (c.kernel h)) :
    ∃ gp ga, init c d h = .ok gp ∧ init c a h = .ok ga ∧ ∀ (xs : List α) (chunk chunk' : ℕ) (junk junk' : NMat),
      (∀ (i : Fin xs.length) (j : ℕ), posteriorMean gp xs i j = posteriorMean ga xs i j) ∧
      ∃ s S t T, posteriorCovariance gp xs false false chunk junk = .ok (s, some S) ∧
        posteriorCovariance ga xs false false chunk' junk' = .ok (t, some T) ∧
        ∀ i j : Fin xs.length, s i = t i ∧ S i j = T i j := by
  obtain ⟨ha, haa⟩ := hr.admissible hc hk
  obtain ⟨gp, hgp, hcons, h1, h2, h3⟩ := init_ok c d h he ha
  obtain ⟨ga, hga, hcons', h1', h2', h3'⟩ := init_ok c a h he haa
  have hpd := ha.posDef
  have hpd' := haa.posDef
  have p1 : (KVmat gp.cfg gp.data gp.hps).PosDef := by rw [h1, h2, h3]; exact hpd
  have p2 : (KVmat ga.cfg ga.data ga.hps).PosDef := by rw [h1', h2', h3']; exact hpd'
  refine ⟨gp, ga, hgp, hga, fun xs chunk chunk' junk junk' => ⟨fun i j => ?_, ?_⟩⟩
  · rw [consistent_mean hcons p1, consistent_mean hcons' p2, h1, h2, h3, h1', h2', h3']
    rw [hr.KV hc] at hpd
    rw [hr.aKV hc] at hpd'
    rw [specMean, specMean, hr.KV hc, hr.aKV hc, hr.cross, hr.means hg, condMean_pooled hr.pooled hpd hpd' _ _ _ (hr.averaged j)]
    have hm : meanAt c d h xs = meanAt c a h xs := by
      funext i
      simp only [meanAt, meanFn, hg]
    rw [hm]
  · obtain ⟨s, S, e1, e2, e3, -⟩ := posteriorCovariance_eq hcons p1 xs false chunk junk
    obtain ⟨t, T, f1, f2, f3, -⟩ := posteriorCovariance_eq hcons' p2 xs false chunk' junk'
    obtain ⟨S, rfl, e4⟩ := e3 rfl
    obtain ⟨T, rfl, f4⟩ := f3 rfl
    refine ⟨s, S, t, T, e1, f1, fun i j => ?_⟩
    have hcov : specCov c d h xs = specCov c a h xs := by
      rw [hr.KV hc] at hpd
      rw [hr.aKV hc] at hpd'
      rw [specCov, specCov, hr.KV hc, hr.aKV hc, hr.cross, condCov_pooled hr.pooled hpd hpd']
    rw [e2, e4, f2, f4, h1, h2, h3, h1', h2', h3', hcov]
    exact ⟨rfl, rfl⟩

/-- **C150** (training). The two log likelihoods differ by a number that does not depend on the hyperparameters, so they are
maximised by the same ones. -/
theorem C150_likelihood (c : Config α H) (hc : c.noise = .measured) {g : H → α → ℝ} (hg : c.mean = some g) (he : SpluContract c.ext)
    (hmode : c.mode ≠ .sparseSolve) (d a : Data α) (π : Fin d.x.length → Fin a.x.length) (v w : List ℝ)
    (hr : Replicates d a π v w) (hcols : 1 ≤ d.cols) :
    ∃ r : ℝ, ∀ h, IsPSDKernel (c.kernel h) → ∃ gp ga, init c d h = .ok gp ∧ init c a h = .ok ga ∧
      logLikelihood gp = logLikelihood ga + r := by
  refine ⟨(∑ j ∈ range d.cols, spreadTerm π (fun i => v.getD i 0) (fun l => w.getD l 0) (yCol d j) (yCol a j)) / d.cols,
    fun h hk => ?_⟩
  obtain ⟨ha, haa⟩ := hr.admissible hc hk
  obtain ⟨gp, hgp, hcons, h1, h2, h3⟩ := init_ok c d h he ha
  obtain ⟨ga, hga, hcons', h1', h2', h3'⟩ := init_ok c a h he haa
  have hpd := ha.posDef
  have hpd' := haa.posDef
  refine ⟨gp, ga, hgp, hga, ?_⟩
  rw [consistent_loglik hcons (by rw [h1, h2, h3]; exact hpd) (by rw [h1]; exact hmode) (by rw [h2]; exact hr.len)
    (by rw [h2]; exact hcols), consistent_loglik hcons' (by rw [h1', h2', h3']; exact hpd') (by rw [h1']; exact hmode)
    (by rw [h2']; exact hr.alen) (by rw [h2', hr.cols]; exact hcols), h1, h2, h3, h1', h2', h3', specLogLik, specLogLik, hr.cols,
    ← add_div, ← Finset.sum_add_distrib]
  congr 1
  refine Finset.sum_congr rfl fun j _ => ?_
  rw [log_normalDensity hpd, log_normalDensity hpd', hr.KV hc, hr.aKV hc, hr.means hg]
  rw [hr.KV hc] at hpd
  rw [hr.aKV hc] at hpd'
  exact logNormal_pooled hr.pooled hpd hpd' _ (hr.averaged j)

/-- Consequently the best hyperparameters in any set are the same. -/
theorem C150_same_optimum (c : Config α H) (hc : c.noise = .measured) {g : H → α → ℝ} (hg : c.mean = some g)
    (he : SpluContract c.ext) (hmode : c.mode ≠ .sparseSolve) (d a : Data α) (π : Fin d.x.length → Fin a.x.length) (v w : List ℝ)
    (hr : Replicates d a π v w) (hcols : 1 ≤ d.cols) (box : Set H) (hk : ∀ h ∈ box, IsPSDKernel (c.kernel h)) (best : H)
    (hb : best ∈ box) :
    (∀ h ∈ box, ∃ gp gb, init c d h = .ok gp ∧ init c d best = .ok gb ∧ logLikelihood gp ≤ logLikelihood gb) ↔
      ∀ h ∈ box, ∃ gp gb, init c a h = .ok gp ∧ init c a best = .ok gb ∧ logLikelihood gp ≤ logLikelihood gb := by
  obtain ⟨r, H⟩ := C150_likelihood c hc hg he hmode d a π v w hr hcols
  refine forall₂_congr fun h hh => ?_
  obtain ⟨g1, a1, e1, f1, l1⟩ := H h (hk h hh)
  obtain ⟨g2, a2, e2, f2, l2⟩ := H best (hk best hb)
  constructor
  · rintro ⟨p, q, hp, hq, hle⟩
    rw [e1] at hp; rw [e2] at hq
    cases hp; cases hq
    exact ⟨a1, a2, f1, f2, by linarith⟩
  · rintro ⟨p, q, hp, hq, hle⟩
    rw [f1] at hp; rw [f2] at hq
    cases hp; cases hq
    exact ⟨g1, g2, e1, e2, by linarith⟩

/-! ### Example and violation -/

noncomputable def repCfg (k : ℝ → ℝ → ℝ) (mean : Option (ℝ → ℝ → ℝ)) (mode : Mode) : Config ℝ ℝ where
  kernel _ := k
  mean := mean
  noise := .measured
  mode := mode
  sparseK := false
  ext := cholExt

/-- The point 0 measured twice with different precision, the point 1 once. -/
noncomputable def repData : Data ℝ := ⟨[0, 0, 1], [[2], [-1], [3]], 1, some [1, 1 / 2, 1]⟩

/-- The average at 0 has the value `(2 - 2) / 3` and the variance `1 / 3`. -/
noncomputable def avgData : Data ℝ := ⟨[0, 1], [[0], [3]], 1, some [1 / 3, 1]⟩

theorem repReplicates : Replicates repData avgData ((![0, 0, 1] : Fin 3 → Fin 2) : Fin 3 → Fin 2) [1, 1 / 2, 1] [1 / 3, 1] where
  x i := by
    have : ∀ i : Fin 3, ([0, 0, 1] : List ℝ)[(i : ℕ)] = ([0, 1] : List ℝ)[(((![0, 0, 1] : Fin 3 → Fin 2) i : Fin 2) : ℕ)] := by
      intro i; fin_cases i <;> rfl
    exact this i
  cols := rfl
  len := rfl
  alen := rfl
  noise := rfl
  anoise := rfl
  vlen := rfl
  wlen := rfl
  pooled := by
    refine ⟨?_, ?_, ?_⟩
    · intro (i : Fin 3)
      fin_cases i <;> norm_num
    · intro (i : Fin 2)
      fin_cases i <;> norm_num
    · intro (l : Fin 2)
      change 1 / ([1 / 3, 1] : List ℝ).getD l 0
        = ∑ i : Fin 3, if (![0, 0, 1] : Fin 3 → Fin 2) i = l then 1 / ([1, 1 / 2, 1] : List ℝ).getD i 0 else 0
      rw [Fin.sum_univ_three]
      fin_cases l <;> norm_num <;> decide
  averaged j := by
    intro (l : Fin 2)
    change _ = _ * ∑ i : Fin 3, _
    rw [Fin.sum_univ_three]
    rcases j with _ | j <;> fin_cases l <;> simp [yCol, Data.yMat, repData, avgData]

example (mode : Mode) (h : ℝ) : ∃ gp ga, init (repCfg (fun a b => 3 ^ 2 * (1 + a * b)) (some fun _ a => a) mode) repData h = .ok gp ∧
    init (repCfg (fun a b => 3 ^ 2 * (1 + a * b)) (some fun _ a => a) mode) avgData h = .ok ga ∧
    ∀ i : Fin 2, posteriorMean gp [4, 7] i 0 = posteriorMean ga [4, 7] i 0 := by
  obtain ⟨gp, ga, h1, h2, h3⟩ := C150_predictions (repCfg (fun a b => 3 ^ 2 * (1 + a * b)) (some fun _ a => a) mode) rfl rfl
    cholExt_contract repData avgData _ _ _ repReplicates h (exKernel_psd 3)
  exact ⟨gp, ga, h1, h2, fun i => (h3 [4, 7] 1 1 (fun _ _ => 0) fun _ _ => 0).1 i 0⟩

/-- **C150** is violated by the default prior mean: the average of all observed values counts a point as often as it was
measured. Far from all data the two GPs predict 4/3 and 3/2. -/
theorem C150_default_mean_violated (mode : Mode) : ∃ gp ga, init (repCfg deltaKernel none mode) repData 0 = .ok gp ∧
    init (repCfg deltaKernel none mode) avgData 0 = .ok ga ∧ posteriorMean gp [5] 0 0 = 4 / 3 ∧ posteriorMean ga [5] 0 0 = 3 / 2 := by
  set c := repCfg deltaKernel none mode with hcdef
  obtain ⟨ha, haa⟩ := repReplicates.admissible (c := c) (h := 0) rfl deltaKernel_psd
  obtain ⟨gp, hgp, hc, h1, h2, h3⟩ := init_ok c repData 0 cholExt_contract ha
  obtain ⟨ga, hga, hc', h1', h2', h3'⟩ := init_ok c avgData 0 cholExt_contract haa
  have hk0 : ∀ x : List ℝ, (5 : ℝ) ∉ x → Kmat (c.kernel 0) x [5] = 0 := by
    intro x hx
    ext i j
    have hj : j = (0 : Fin 1) := Subsingleton.elim (α := Fin 1) _ _
    subst hj
    have : x[i] ≠ 5 := fun e => hx (e ▸ List.getElem_mem _)
    show deltaKernel x[i] 5 = 0
    simp only [deltaKernel, if_neg this]
  refine ⟨gp, ga, hgp, hga, ?_, ?_⟩
  · have := consistent_mean hc (by rw [h1, h2, h3]; exact ha.posDef) [5] (0 : Fin 1) 0
    rw [h1, h2, h3, specMean, condMean, hk0 _ (by simp [repData]), Matrix.transpose_zero, Matrix.zero_mulVec, add_zero] at this
    change posteriorMean gp [5] 0 0 = _ at this
    rw [this]
    simp [meanAt, meanFn, hcdef, repCfg, Data.yMean, repData]
    norm_num
  · have := consistent_mean hc' (by rw [h1', h2', h3']; exact haa.posDef) [5] (0 : Fin 1) 0
    rw [h1', h2', h3', specMean, condMean, hk0 _ (by simp [avgData]), Matrix.transpose_zero, Matrix.zero_mulVec, add_zero] at this
    change posteriorMean ga [5] 0 0 = _ at this
    rw [this]
    simp [meanAt, meanFn, hcdef, repCfg, Data.yMean, avgData]

end Verif.GP
