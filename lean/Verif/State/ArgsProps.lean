import Verif.State.ArgsModel
import Verif.State.UpdateProps

/-! Property C132: replacing `args`. -/

namespace Verif.State

open Finset Verif.GP Verif.LinAlg

variable {α H A : Type}

/-! ## Specification -/

/-- What a sequence of operations does to data, hyperparameters and `args`. -/
def argStep (s : Spec α H × A) : ArgOp A α H → Spec α H × A
  | .setArgs a => (s.1, a)
  | .op p => (s.1.step p, s.2)

/-- Every update of a sequence fits the data it is applied to. -/
def FitRun (eu : Bool) (s : Spec α H × A) : List (ArgOp A α H) → Prop
  | [] => True
  | .op (.update u) :: ps => u.Fits eu s.1 ∧ FitRun eu (argStep s (.op (.update u))) ps
  | p :: ps => FitRun eu (argStep s p) ps

/-! ## The invariant that survives `set_args` -/

/-- Data, hyperparameters and `args` are the specified ones; the cached covariances, noise and factorisation may be
anything of the right mode. -/
structure Sane (c : Config α H) (f : ArgFns A α H) (eu : Bool) (s : Spec α H × A) (o : Obj α H) : Prop where
  cfg : o.cfg = withArgs c f s.2
  eu : o.data.euclidean = eu
  data : o.data.cur = s.1.data
  width : o.data.width = s.1.width
  hps : o.hps = s.1.hps
  nan : o.data.nan = false
  count : o.data.pointNumber = s.1.data.x.length
  len : s.1.data.y.length = s.1.data.x.length
  mode : o.kv.factor.mode = c.mode

theorem setKV_mode {e : Ext} {m : Mode} {n : ℕ} {KV : NMat} {f : Factor} (h : setKV e m n KV = .ok f) : f.mode = m := by
  cases m with
  | chol =>
    simp only [setKV, bind, Except.bind] at h
    split at h <;> simp at h; rw [← h]; rfl
  | cholInv =>
    simp only [setKV, bind, Except.bind] at h
    split at h <;> simp at h; rw [← h]; rfl
  | inv =>
    simp only [setKV, bind, Except.bind] at h
    split at h <;> simp at h; rw [← h]; rfl
  | sparseLU =>
    simp only [setKV, bind, Except.bind] at h
    split at h <;> simp at h; rw [← h]; rfl
  | sparseSolve => simp only [setKV, Except.ok.injEq] at h; rw [← h]; rfl

theorem updateKV_mode {e : Ext} {g : Factor} {n : ℕ} {KV : NMat} {f : Factor} (h : updateKV e g n KV = .ok f) :
    f.mode = g.mode := by
  cases g with
  | chol m F =>
    simp only [updateKV, bind, Except.bind] at h
    by_cases hn : n ≤ m
    · rw [if_pos hn] at h
      split at h <;> simp at h; rw [← h]; rfl
    · rw [if_neg hn] at h
      split at h <;> simp at h; rw [← h]; rfl
  | cholInv m F I =>
    simp only [updateKV, bind, Except.bind] at h
    by_cases hn : n ≤ m
    · rw [if_pos hn] at h
      split at h <;> simp at h; rw [← h]; rfl
    · rw [if_neg hn] at h
      split at h <;> simp at h; rw [← h]; rfl
  | inv m F I =>
    simp only [updateKV, bind, Except.bind] at h
    by_cases hn : n ≤ m
    · rw [if_pos hn] at h
      split at h <;> simp at h; rw [← h]; rfl
    · rw [if_neg hn] at h
      split at h <;> simp at h; rw [← h]; rfl
  | lu m F =>
    simp only [updateKV, bind, Except.bind] at h
    split at h <;> simp at h; rw [← h]; rfl
  | raw m F => simp only [updateKV, Except.ok.injEq] at h; rw [← h]; rfl

theorem refresh_mode {o o' : Obj α H} {r : Bool} (hm : o.kv.factor.mode = o.cfg.mode)
    (h : refresh o r = (o', .ok ())) : o'.kv.factor.mode = o.cfg.mode := by
  unfold refresh at h
  split at h
  · simp at h
  · split at h
    · simp at h
    · rename_i fac hf
      have hfac : fac.mode = o.cfg.mode := by
        cases r with
        | true => rw [if_pos rfl] at hf; rw [updateKV_mode hf, hm]
        | false => rw [if_neg (by simp)] at hf; exact setKV_mode hf
      split at h
      · simp at h
      · simp only [Prod.mk.injEq, and_true] at h
        rw [← h]
        exact hfac

theorem withArgs_mode (c : Config α H) (f : ArgFns A α H) (a : A) : (withArgs c f a).mode = c.mode := rfl

theorem withArgs_ext (c : Config α H) (f : ArgFns A α H) (a : A) : (withArgs c f a).ext = c.ext := rfl

/-- An operation that raises nothing keeps data, hyperparameters and `args` as specified. -/
theorem sane_step (c : Config α H) (f : ArgFns A α H) (eu : Bool) (s : Spec α H × A) (o o' : Obj α H)
    (g : Sane c f eu s o) (p : ArgOp A α H) (hp : ∀ u, p = .op (.update u) → u.Fits eu s.1)
    (h : applyArgs c f o p = (o', .ok ())) : Sane c f eu (argStep s p) o' := by
  have hmo : o.kv.factor.mode = o.cfg.mode := by rw [g.mode, g.cfg]; rfl
  cases p with
  | setArgs a =>
    simp only [applyArgs, Prod.mk.injEq, and_true] at h
    rw [← h]
    exact ⟨rfl, g.eu, g.data, g.width, g.hps, g.nan, g.count, g.len, g.mode⟩
  | op p =>
    cases p with
    | setHps x =>
      change setHyperparameters o x = (o', .ok ()) at h
      obtain ⟨h1, h2⟩ := setHyperparameters_data h
      unfold setHyperparameters at h
      have h3 := (refresh_data _ _ _ _ h).2.2
      have h4 := refresh_mode (by simpa only [updateNoise, recomputePrior] using hmo) h
      simp only [updateNoise, recomputePrior] at h3 h4
      exact ⟨h3.trans g.cfg, by rw [h1]; exact g.eu, by rw [h1]; exact g.data, by rw [h1]; exact g.width, h2,
        by rw [h1]; exact g.nan, by rw [h1]; exact g.count, g.len, by rw [h4, g.cfg]; rfl⟩
    | update u =>
      change updateGpData o u = (o', .ok ()) at h
      have hfit := hp u rfl
      obtain ⟨d, hd, e1, e2, e3, e4, e5, -⟩ := updateData_ok eu s.1 o.data u g.eu g.data g.width g.nan hfit
      obtain ⟨hl, hd', hh⟩ := updateGpData_success h
      have hdd : o'.data = d := by rw [hd] at hd'; exact (Prod.mk.injEq _ _ _ _ ▸ hd').1.symm
      have key : o'.cfg = o.cfg ∧ o'.kv.factor.mode = o.cfg.mode := by
        unfold updateGpData at h
        rw [if_neg (by simpa using hl), hd] at h
        simp only at h
        by_cases ha : u.append = true
        · rw [if_pos ha] at h
          rcases hq : augmentPrior { o with data := d } with ⟨o2, e | ⟨⟩⟩
          · rw [hq] at h; simp at h
          · rw [hq] at h
            simp only at h
            have c1 := (augmentPrior_data _ _ _ hq).2.2
            have c2 := (refresh_data _ _ _ _ h).2.2
            have kv : o2.kv = o.kv := by
              unfold augmentPrior at hq
              simp only at hq
              split at hq
              · simp at hq
              · simp only [Prod.mk.injEq, and_true] at hq
                rw [← hq]
            simp only [updateNoise] at c2
            simp only at c1
            have c3 := refresh_mode (by simp only [updateNoise]; rw [kv, c1]; exact hmo) h
            simp only [updateNoise] at c3
            exact ⟨c2.trans c1, by rw [c3, c1]⟩
        · rw [if_neg ha] at h
          simp only at h
          have c2 := (refresh_data _ _ _ _ h).2.2
          have c3 := refresh_mode (by simpa only [updateNoise, recomputePrior] using hmo) h
          exact ⟨c2, c3⟩
      have hlen : (specData s.1.data u).y.length = (specData s.1.data u).x.length := by
        unfold specData
        split <;> simp [hfit.len, g.len]
      refine ⟨key.1.trans g.cfg, by rw [hdd]; exact e1, by rw [hdd]; exact e2, by rw [hdd]; exact e3, hh.trans g.hps,
        by rw [hdd]; exact e4, by rw [hdd]; exact e5, hlen, by rw [key.2, g.cfg]; rfl⟩

theorem sane_run (c : Config α H) (f : ArgFns A α H) (eu : Bool) (ps : List (ArgOp A α H)) :
    ∀ (s : Spec α H × A) (o o' : Obj α H), Sane c f eu s o → FitRun eu s ps → runArgs c f o ps = (o', .ok ()) →
      Sane c f eu (ps.foldl argStep s) o' := by
  induction ps with
  | nil =>
    intro s o o' g _ h
    simp only [runArgs, Prod.mk.injEq, and_true] at h
    rw [← h]; exact g
  | cons p ps ih =>
    intro s o o' g hf h
    rw [runArgs] at h
    rcases hop : applyArgs c f o p with ⟨o1, e | ⟨⟩⟩
    · rw [hop] at h; simp at h
    rw [hop] at h
    simp only at h
    have hfit : ∀ u, p = .op (.update u) → u.Fits eu s.1 := by
      intro u hu
      subst hu
      exact hf.1
    have hrest : FitRun eu (argStep s p) ps := by
      cases p with
      | setArgs a => exact hf
      | op q => cases q with
        | setHps x => exact hf
        | update u => exact hf.2
    exact ih _ o1 o' (sane_step c f eu s o o1 g p hfit hop) hrest h

theorem good_sane {c : Config α H} {f : ArgFns A α H} {eu : Bool} {s : Spec α H × A} {o : Obj α H}
    (g : Good (withArgs c f s.2) eu s.1 o) : Sane c f eu s o := by
  have := g.con.mode_eq
  simp only [Obj.toGP] at this
  exact ⟨g.cfg, g.eu, g.data, g.width, g.hps, g.nan, g.count, g.len, by rw [this, g.cfg]; rfl⟩

/-- `set_hyperparameters` puts everything in order again. -/
theorem sane_flush (c : Config α H) (he : SpluContract c.ext) (f : ArgFns A α H) (eu : Bool) (s : Spec α H × A)
    (o : Obj α H) (g : Sane c f eu s o) (h : H) (ha : Admissible (withArgs c f s.2) s.1.data h) :
    ∃ o', setHyperparameters o h = (o', .ok ()) ∧ Good (withArgs c f s.2) eu { s.1 with hps := h } o' := by
  unfold setHyperparameters
  refine refresh_good (withArgs c f s.2) he eu { s.1 with hps := h } _ false g.cfg g.eu g.data g.width rfl g.nan g.count
    ?_ ?_ g.len ha ?_ ?_ ?_ ?_ (by simp)
  · simp only [updateNoise, recomputePrior]; rw [g.data]
  · simp only [updateNoise, recomputePrior]; rw [g.data]
  · simp only [updateNoise, recomputePrior]; rw [g.data, g.cfg]
  · simp only [updateNoise, recomputePrior]; rw [g.data, g.cfg]; exact toMat_gram _ _
  · simp only [updateNoise, recomputePrior]; rw [g.data, g.cfg]
  · simp only [updateNoise, recomputePrior]; rw [g.mode]; rfl

/-- So does overwriting the data. -/
theorem sane_overwrite (c : Config α H) (he : SpluContract c.ext) (f : ArgFns A α H) (eu : Bool) (s : Spec α H × A)
    (o : Obj α H) (g : Sane c f eu s o) (u : Update α) (hu : u.append = false) (hfit : u.Fits eu s.1)
    (ha : Admissible (withArgs c f s.2) (specData s.1.data u) s.1.hps) :
    ∃ o', updateGpData o u = (o', .ok ()) ∧ Good (withArgs c f s.2) eu (s.1.step (.update u)) o' := by
  obtain ⟨d, hd, e1, e2, e3, e4, e5, -⟩ := updateData_ok eu s.1 o.data u g.eu g.data g.width g.nan hfit
  have heff : u.effective = false := by
    unfold Update.effective
    rw [hu]
    cases u.rankN.getD false <;> rfl
  have hlen : (specData s.1.data u).y.length = (specData s.1.data u).x.length := by
    unfold specData
    split <;> simp [hfit.len, g.len]
  unfold updateGpData
  rw [if_neg (by simp [hfit.len]), hd]
  simp only
  rw [hu, if_neg (by simp)]
  simp only
  rw [heff]
  refine refresh_good (withArgs c f s.2) he eu (s.1.step (.update u)) _ false g.cfg e1 e2 ?_ g.hps e4 e5
    ?_ ?_ hlen ha ?_ ?_ ?_ ?_ (by simp)
  · simp only [updateNoise, recomputePrior, e3, Spec.step]
  · simp only [updateNoise, recomputePrior]; rw [e2]; rfl
  · simp only [updateNoise, recomputePrior]; rw [e2]; rfl
  · simp only [updateNoise, recomputePrior]; rw [e2, g.cfg, g.hps]; rfl
  · simp only [updateNoise, recomputePrior]; rw [e2, g.cfg, g.hps]; exact toMat_gram _ _
  · simp only [updateNoise, recomputePrior]; rw [e2, g.cfg, g.hps]; rfl
  · simp only [updateNoise, recomputePrior]; rw [g.mode]; rfl

/-! ## C132 -/

/-- C132: however often `set_args` has been called between updates and hyperparameter changes (also between a call of
`set_args` and appends that mixed old and new `args`), if nothing raised then `set_hyperparameters` makes the GP
indistinguishable from one freshly built with the current data, hyperparameters and the last `args`. -/
theorem C132_flush (c : Config α H) (he : SpluContract c.ext) (f : ArgFns A α H) (eu : Bool) (s : Spec α H × A)
    (hlen : s.1.data.y.length = s.1.data.x.length) (hadm : Admissible (withArgs c f s.2) s.1.data s.1.hps)
    (ps : List (ArgOp A α H)) (hfit : FitRun eu s ps) (h : H)
    (hend : Admissible (withArgs c f (ps.foldl argStep s).2) (ps.foldl argStep s).1.data h) :
    ∃ o, build (withArgs c f s.2) s.1.data eu s.1.width s.1.hps = .ok o ∧
      ∀ o₁, runArgs c f o ps = (o₁, .ok ()) →
        ∃ o₂ fresh, setHyperparameters o₁ h = (o₂, .ok ()) ∧
          build (withArgs c f (ps.foldl argStep s).2) (ps.foldl argStep s).1.data eu (ps.foldl argStep s).1.width h
            = .ok fresh ∧ Same o₂ fresh := by
  obtain ⟨o, ho, g⟩ := build_good (withArgs c f s.2) he eu s.1 hlen hadm
  refine ⟨o, ho, fun o₁ h₁ => ?_⟩
  have sn := sane_run c f eu ps s o o₁ (good_sane g) hfit h₁
  obtain ⟨o₂, h₂, g₂⟩ := sane_flush c he f eu _ o₁ sn h hend
  obtain ⟨fr, hfr, gf⟩ := build_good (withArgs c f (ps.foldl argStep s).2) he eu
    { (ps.foldl argStep s).1 with hps := h } sn.len hend
  exact ⟨o₂, fr, h₂, hfr, good_same g₂ gf⟩

/-- C132: so does overwriting the data (`append=False`), whatever `rank_n_update` is. -/
theorem C132_overwrite (c : Config α H) (he : SpluContract c.ext) (f : ArgFns A α H) (eu : Bool) (s : Spec α H × A)
    (hlen : s.1.data.y.length = s.1.data.x.length) (hadm : Admissible (withArgs c f s.2) s.1.data s.1.hps)
    (ps : List (ArgOp A α H)) (hfit : FitRun eu s ps) (u : Update α) (hu : u.append = false)
    (hfu : u.Fits eu (ps.foldl argStep s).1)
    (hend : Admissible (withArgs c f (ps.foldl argStep s).2) (specData (ps.foldl argStep s).1.data u)
      (ps.foldl argStep s).1.hps) :
    ∃ o, build (withArgs c f s.2) s.1.data eu s.1.width s.1.hps = .ok o ∧
      ∀ o₁, runArgs c f o ps = (o₁, .ok ()) →
        ∃ o₂ fresh, updateGpData o₁ u = (o₂, .ok ()) ∧
          build (withArgs c f (ps.foldl argStep s).2) ⟨u.x, u.y, u.cols, u.noise⟩ eu u.width
            (ps.foldl argStep s).1.hps = .ok fresh ∧ Same o₂ fresh := by
  obtain ⟨o, ho, g⟩ := build_good (withArgs c f s.2) he eu s.1 hlen hadm
  refine ⟨o, ho, fun o₁ h₁ => ?_⟩
  have sn := sane_run c f eu ps s o o₁ (good_sane g) hfit h₁
  obtain ⟨o₂, h₂, g₂⟩ := sane_overwrite c he f eu _ o₁ sn u hu hfu hend
  have e : (ps.foldl argStep s).1.step (.update u) = ⟨⟨u.x, u.y, u.cols, u.noise⟩, u.width, (ps.foldl argStep s).1.hps⟩ := by
    simp [Spec.step, specData, hu]
  rw [e] at g₂
  obtain ⟨fr, hfr, gf⟩ := build_good (withArgs c f (ps.foldl argStep s).2) he eu
    ⟨⟨u.x, u.y, u.cols, u.noise⟩, u.width, (ps.foldl argStep s).1.hps⟩ hfu.len.symm (by
      simpa [specData, hu] using hend)
  exact ⟨o₂, fr, h₂, hfr, good_same g₂ gf⟩

/-- C132: a posterior mean with an explicit `hyperparameters` argument only uses the new `args` (gp2Scale excepted,
where that call fails, C25). -/
theorem C132_explicit_hyperparameters_partial (c : Config α H) (he : SpluContract c.ext) (hsp : c.sparseK = false)
    (f : ArgFns A α H) (o : Obj α H) (a : A) (h : H) (ha : Admissible (withArgs c f a) o.data.cur h) (xs : List α) :
    ∃ M, posteriorMeanAt (setArgs c f a o).toGP h xs = .ok M ∧ ∀ (i : Fin xs.length) (j : ℕ),
      M i j = specMean (withArgs c f a) o.data.cur h xs j i :=
  C25_posterior_mean_hyperparameters_partial (setArgs c f a o).toGP h he hsp ha xs

/-- The noise that, added to the new covariance, gives an old `K + V` (a device for `C132_until_flushed_partial`). -/
noncomputable def mixNoise (k : α → α → ℝ) (d : Data α) (M : Matrix (Fin d.x.length) (Fin d.x.length) ℝ) : Noise :=
  .dense d.x.length d.x.length (ofMat (M - Kmat k d.x d.x))

/-- C132 (the documentation says that new `args` are only picked up by the calls of the theorems above; partial because
they are picked up by predictions as well): until then the stored state is the old one, but a posterior mean or
covariance without explicit hyperparameters combines both: cross-covariance, prior covariance and prior mean at the
prediction points are those of the new `args` `b`, while `K + V` and the prior mean at the data are those of the old
`args` `a`. -/
theorem C132_until_flushed_partial (c : Config α H) (he : SpluContract c.ext) (f : ArgFns A α H) (eu : Bool) (s : Spec α H)
    (a b : A) (hlen : s.data.y.length = s.data.x.length) (hadm : Admissible (withArgs c f a) s.data s.hps) :
    ∃ o, build (withArgs c f a) s.data eu s.width s.hps = .ok o ∧
      (∀ (xs : List α) (i : Fin xs.length) (j : ℕ), posteriorMean (setArgs c f b o).toGP xs i j
        = condMean (KVmat (withArgs c f a) s.data s.hps) (Kmat (f.kernel b s.hps) s.data.x xs)
            (meanAt (withArgs c f b) s.data s.hps xs) (meanAt (withArgs c f a) s.data s.hps s.data.x) (yCol s.data j) i) ∧
      ∀ (xs : List α) (vo : Bool) (chunk : ℕ) (junk : NMat), ∃ v S,
        posteriorCovariance (setArgs c f b o).toGP xs vo false chunk junk = .ok (v, S) ∧
        ∀ i : Fin xs.length, v i = max 0 (condCov (KVmat (withArgs c f a) s.data s.hps)
          (Kmat (f.kernel b s.hps) s.data.x xs) (Kmat (f.kernel b s.hps) xs xs) i i) := by
  obtain ⟨o, ho, g⟩ := build_good (withArgs c f a) he eu s hlen hadm
  obtain ⟨cfg, d, hh, mLen, m, kSize, K, V, kv⟩ := o
  obtain ⟨gcfg, -, gdata, -, ghps, -, -, -, -, -, con, -⟩ := g
  obtain ⟨dcur, deu, dw, dn, d1, d2, d3, d4, d5, d6, dp⟩ := d
  simp only at gcfg gdata ghps
  subst gcfg gdata ghps
  refine ⟨_, ho, fun xs i j => ?_, fun xs vo chunk junk => ?_⟩
  · have hs := consistent_solve con hadm.posDef
    have hk := con.kvinvY_eq
    have hm := con.m_eq
    simp only [Obj.toGP] at hs hk hm
    rw [posteriorMean, evalAt_apply, Finset.sum_range, condMean, Pi.add_apply]
    congr 1
    simp only [Matrix.mulVec, dotProduct, Matrix.transpose_apply, setArgs, Obj.toGP]
    refine Finset.sum_congr rfl fun l _ => ?_
    rw [gram_apply, hk, solveY, hs, hm]
    congr 1
    simp only [Matrix.mulVec, dotProduct]
    refine Finset.sum_congr rfl fun z _ => ?_
    rw [evalAt_apply]
    rfl
  · -- the same call on a GP whose own `K + V` is the old one
    let M := KVmat (withArgs c f a) s.data s.hps
    let cm : Config α H := { withArgs c f b with noise := .user fun _ _ => mixNoise (f.kernel b s.hps) s.data M }
    have hKV : KVmat cm s.data s.hps = M := by
      show Kmat (f.kernel b s.hps) s.data.x s.data.x + (mixNoise (f.kernel b s.hps) s.data M).mat s.data.x.length = M
      have : (mixNoise (f.kernel b s.hps) s.data M).mat s.data.x.length = M - Kmat (f.kernel b s.hps) s.data.x s.data.x := by
        ext i j
        simp [mixNoise, Noise.mat, ofMat]
      rw [this]
      abel
    let gm : GP α H := ⟨cm, s.data, s.hps, evalAt (meanFn cm s.data s.hps) s.data.x, gram (f.kernel b s.hps) s.data.x s.data.x,
      mixNoise (f.kernel b s.hps) s.data M,
      ⟨kv.factor, solveY kv.factor s.data.yMat (evalAt (meanFn cm s.data s.hps) s.data.x), logdet c.ext kv.factor⟩⟩
    have hcon : Consistent gm := by
      refine ⟨rfl, toMat_gram _ _, rfl, con.size_eq, con.mode_eq, ?_, rfl, rfl⟩
      obtain ⟨KV, hr, hKV'⟩ := con.repr
      exact ⟨KV, hr, hKV'.trans hKV.symm⟩
    obtain ⟨v, S, h1, h2, -, -⟩ := posteriorCovariance_eq hcon (by
      show (KVmat cm s.data s.hps).PosDef
      rw [hKV]; exact hadm.posDef) xs vo chunk junk
    refine ⟨v, S, h1, fun i => ?_⟩
    rw [h2 i]
    show max 0 (condCov (KVmat cm s.data s.hps) (Kmat (f.kernel b s.hps) s.data.x xs) (Kmat (f.kernel b s.hps) xs xs) i i) = _
    rw [hKV]

/-- C132: what an append after `set_args` works with: the covariances among the old points are those of the old `args`
`a`, all others those of the new `args` `b`; the noise is that of the new `args`. -/
theorem C132_append_mixture (c : Config α H) (f : ArgFns A α H) (eu : Bool) (s : Spec α H) (a b : A) (o : Obj α H)
    (g : Good (withArgs c f a) eu s o) (u : Update α) (hu : u.append = true) (hfit : u.Fits eu s) :
    ∃ p : Obj α H, updateGpData (setArgs c f b o) u = refresh p u.effective ∧ p.cfg = withArgs c f b ∧ p.kv = o.kv ∧
      p.kSize = s.data.x.length + u.x.length ∧ p.mLen = s.data.x.length + u.x.length ∧
      p.data.cur = specData s.data u ∧
      p.V = calcV (withArgs c f b) (specData s.data u) s.hps (specData s.data u).x ∧
      (∀ i j : Fin s.data.x.length, p.K i j = f.kernel a s.hps s.data.x[i] s.data.x[j]) ∧
      (∀ (i : Fin s.data.x.length) (j : Fin u.x.length), p.K i (s.data.x.length + j) = f.kernel b s.hps s.data.x[i] u.x[j] ∧
        p.K (s.data.x.length + j) i = f.kernel b s.hps s.data.x[i] u.x[j]) ∧
      ∀ i j : Fin u.x.length, p.K (s.data.x.length + i) (s.data.x.length + j) = f.kernel b s.hps u.x[i] u.x[j] := by
  obtain ⟨d', hd', heu, hcur, hw, hnan, hcount, hold⟩ := updateData_ok eu s o.data u g.eu g.data g.width g.nan hfit
  obtain ⟨ho, hn⟩ := hold hu
  have hx : (specData s.data u).x = s.data.x ++ u.x := by simp [specData, hu]
  have hKK := g.con.K_eq
  simp only [Obj.toGP] at hKK
  rw [g.data, g.cfg, g.hps] at hKK
  unfold updateGpData
  rw [if_neg (by simp [hfit.len])]
  simp only [setArgs]
  rw [hd']
  simp only
  rw [if_pos hu]
  simp only [augmentPrior]
  rw [ho, hn, if_neg (by simp [g.kSize])]
  simp only [Option.getD_some]
  refine ⟨_, rfl, rfl, rfl, by simp only [updateNoise, g.kSize], ?_, hcur, ?_, ?_, ?_, ?_⟩
  · simp only [updateNoise]
    cases hmean : (withArgs c f b).mean with
    | none => simp only [hcur, hx, List.length_append]
    | some m => simp only [g.mLen]
  · simp only [updateNoise, hcur, g.hps]
  · intro i j
    simp only [updateNoise, g.kSize, i.2, j.2, if_true]
    exact congrFun (congrFun hKK i) j
  · intro i j
    simp only [updateNoise, g.kSize, i.2, if_true, g.hps]
    have e : ¬ s.data.x.length + (j : ℕ) < s.data.x.length := by omega
    simp only [e, if_false, Nat.add_sub_cancel_left]
    exact ⟨gram_apply _ _ _ _ _, gram_apply _ _ _ _ _⟩
  · intro i j
    simp only [updateNoise, g.kSize, g.hps]
    have e : ∀ k : Fin u.x.length, ¬ s.data.x.length + (k : ℕ) < s.data.x.length := by intro k; omega
    simp only [e, if_false, Nat.add_sub_cancel_left]
    exact gram_apply _ _ _ _ _

/-! ### A constant kernel whose variance is read from `args` -/

/-- Measured noise, Cholesky mode. -/
noncomputable def kCfg : Config ℕ ℝ where
  kernel _ _ _ := 0
  mean := none
  noise := .measured
  mode := .chol
  sparseK := false
  ext := cholExt

/-- `kernel(x1, x2, hps, args) = args * hps`, `mean = 0`. -/
noncomputable def kFns : ArgFns ℝ ℕ ℝ := ⟨fun a h _ _ => a * h, some fun _ _ _ => 0, none⟩

/-- One value `2` with noise variance `1`. -/
noncomputable def kData : Data ℕ := ⟨[0], [[2]], 1, some [1]⟩

/-- A second one is appended. -/
noncomputable def kUp : Update ℕ := ⟨[1], 1, [[2]], 1, some [1], false, true, none⟩

theorem kAdm (a : ℝ) (ha : 0 ≤ a) (d : Data ℕ) (v : List ℝ) (hv : d.noiseVar = some v) (hl : v.length = d.x.length)
    (hpos : ∀ x ∈ v, 0 < x) : Admissible (withArgs kCfg kFns a) d 1 := by
  refine measured_admissible _ rfl d 1 ⟨fun _ _ => rfl, fun n x w => ?_⟩ v hv hl hpos
  have : ∑ i, ∑ j, w i * w j * (withArgs kCfg kFns a).kernel 1 (x i) (x j) = a * ((∑ i, w i) * ∑ j, w j) := by
    rw [Finset.sum_mul_sum, Finset.mul_sum]
    refine Finset.sum_congr rfl fun i _ => ?_
    rw [Finset.mul_sum]
    refine Finset.sum_congr rfl fun j _ => ?_
    simp only [withArgs, kFns]
    ring
  rw [this]
  exact mul_nonneg ha (mul_self_nonneg _)

theorem kKV (a : ℝ) : KVmat (withArgs kCfg kFns a) kData 1 = Matrix.diagonal fun _ => a + 1 := by
  ext i j
  have hi : i = j := Subsingleton.elim (α := Fin 1) _ _
  subst hi
  rw [Matrix.diagonal_apply_eq, KVmat, Matrix.add_apply]
  have hV : (calcV (withArgs kCfg kFns a) kData 1 kData.x).mat kData.x.length i i = 1 := by
    simp only [calcV, withArgs, kCfg, kFns, kData, Noise.mat]
    have : (i : ℕ) = 0 := by have := i.isLt; simp [kData] at this; omega
    refine (Matrix.diagonal_apply_eq _ _).trans ?_
    simp [this]
  rw [hV]
  simp [Kmat, withArgs, kFns]

/-- The only data point and the only prediction point. -/
def kz : Fin kData.x.length := ⟨0, by simp [kData]⟩
def pz : Fin ([0] : List ℕ).length := ⟨0, by simp⟩

/-- The mean and variance at the data point that combine `K + V` of `a` with the prior of `b`. -/
theorem kPred (a b : ℝ) (ha : 0 ≤ a) :
    condMean (KVmat (withArgs kCfg kFns a) kData 1) (Kmat (kFns.kernel b 1) kData.x [0])
      (meanAt (withArgs kCfg kFns b) kData 1 [0]) (meanAt (withArgs kCfg kFns a) kData 1 kData.x) (yCol kData 0)
      pz = b * 2 / (a + 1) ∧
    condCov (KVmat (withArgs kCfg kFns a) kData 1) (Kmat (kFns.kernel b 1) kData.x [0]) (Kmat (kFns.kernel b 1) [0] [0])
      pz pz = b - b * b / (a + 1) := by
  have h0 : a + 1 ≠ 0 := by positivity
  have hinv : (KVmat (withArgs kCfg kFns a) kData 1)⁻¹ = Matrix.diagonal fun _ => (a + 1)⁻¹ := by
    rw [kKV]
    refine Matrix.inv_eq_right_inv ?_
    rw [Matrix.diagonal_mul_diagonal]
    ext i j
    simp [Matrix.diagonal_apply, Matrix.one_apply, h0]
  unfold condMean condCov
  rw [hinv]
  have hu : ∀ F : Fin kData.x.length → ℝ, ∑ i, F i = F kz := fun F => Fin.sum_univ_one F
  constructor
  · rw [Pi.add_apply]
    simp only [Matrix.mulVec, dotProduct, hu, Matrix.transpose_apply, Pi.sub_apply]
    rw [Matrix.diagonal_apply_eq]
    simp only [meanAt, meanFn, withArgs, kFns, Kmat, yCol, Data.yMat, Matrix.of_apply]
    simp [kData, kz]
    field_simp
  · rw [Matrix.sub_apply, Matrix.mul_apply]
    simp only [Matrix.mul_apply, hu, Matrix.transpose_apply]
    rw [Matrix.diagonal_apply_eq]
    simp only [kFns, Kmat, Matrix.of_apply]
    field_simp

/-- C132 is violated by predictions: the documentation lists the calls at which new `args` are picked up, and a
posterior call without explicit hyperparameters is not among them; but it evaluates the kernel between data and
prediction points. With the kernel variance in `args` raised from `1` to `4`, a single value `2` with noise variance
`1` is predicted at its own location as `4`, with variance `0`: the posterior mean overshoots the data and the (clipped)
variance claims certainty, where the old `args` give `1` with variance `1/2` and the new ones `8/5` with
variance `4/5`. -/
theorem C132_prediction_violated :
    ∃ o, build (withArgs kCfg kFns 1) kData true 1 1 = .ok o ∧
      posteriorMean (setArgs kCfg kFns 4 o).toGP [0] 0 0 = 4 ∧
      (∀ vo chunk junk, ∃ v S, posteriorCovariance (setArgs kCfg kFns 4 o).toGP [0] vo false chunk junk = .ok (v, S) ∧
        v 0 = 0) ∧
      ∀ a : ℝ, 0 ≤ a → ∃ p, build (withArgs kCfg kFns a) kData true 1 1 = .ok p ∧
        posteriorMean p.toGP [0] 0 0 = a * 2 / (a + 1) ∧
        ∀ vo chunk junk, ∃ v S, posteriorCovariance p.toGP [0] vo false chunk junk = .ok (v, S) ∧
          v 0 = a / (a + 1) := by
  have adm : ∀ a : ℝ, 0 ≤ a → Admissible (withArgs kCfg kFns a) kData 1 := fun a ha =>
    kAdm a ha kData [1] rfl rfl (by simp)
  obtain ⟨o, ho, hm, hv⟩ := C132_until_flushed_partial kCfg cholExt_contract kFns true ⟨kData, 1, 1⟩ 1 4 rfl (adm 1 (by norm_num))
  refine ⟨o, ho, ?_, fun vo chunk junk => ?_, fun a ha => ?_⟩
  · refine (hm [0] pz 0).trans ?_
    refine ((kPred 1 4 (by norm_num)).1).trans (by norm_num)
  · obtain ⟨v, S, h1, h2⟩ := hv [0] vo chunk junk
    refine ⟨v, S, h1, (h2 pz).trans ?_⟩
    refine (congrArg (max 0) (kPred 1 4 (by norm_num)).2).trans (by norm_num)
  · obtain ⟨p, hp, hm, hv⟩ := C132_until_flushed_partial kCfg cholExt_contract kFns true ⟨kData, 1, 1⟩ a a rfl (adm a ha)
    obtain ⟨p', hp', gp⟩ := build_good (withArgs kCfg kFns a) cholExt_contract true ⟨kData, 1, 1⟩ rfl (adm a ha)
    have e : p' = p := Except.ok.inj (hp'.symm.trans hp)
    subst e
    have es : setArgs kCfg kFns a p' = p' := by
      unfold setArgs
      rw [← gp.cfg]
    rw [es] at hm hv
    refine ⟨p', hp, (hm [0] pz 0).trans (kPred a a ha).1, fun vo chunk junk => ?_⟩
    obtain ⟨v, S, h1, h2⟩ := hv [0] vo chunk junk
    refine ⟨v, S, h1, (h2 pz).trans ?_⟩
    refine (congrArg (max 0) (kPred a a ha).2).trans ?_
    have h0 : a + 1 ≠ 0 := by positivity
    rw [show a - a * a / (a + 1) = a / (a + 1) by field_simp; ring]
    exact max_eq_right (by positivity)

/-- C132 is violated by appends: they combine old and new `args` in one covariance matrix, which then need not be
positive definite. In the same example appending a second value raises `NonPositiveDefiniteError`, although GPs built
on the two values with the old or the new `args` are fine; the object is left with the new data and the old
factorisation (C41). -/
theorem C132_append_violated :
    ∃ o o', build (withArgs kCfg kFns 1) kData true 1 1 = .ok o ∧
      updateGpData (setArgs kCfg kFns 4 o) kUp = (o', .error "NonPositiveDefiniteError") ∧
      o'.data.cur = specData kData kUp ∧ o'.kv.factor = o.kv.factor ∧
      ∀ a : ℝ, 0 ≤ a → ∃ p, build (withArgs kCfg kFns a) (specData kData kUp) true 1 1 = .ok p := by
  obtain ⟨o, ho, g⟩ := build_good (withArgs kCfg kFns 1) cholExt_contract true ⟨kData, 1, 1⟩ rfl
    (kAdm 1 (by norm_num) kData [1] rfl rfl (by simp))
  obtain ⟨p, hp, h1, hkv, hk, hml, hd, hV, hA, hB, hC⟩ := C132_append_mixture kCfg kFns true ⟨kData, 1, 1⟩ 1 4 o g kUp rfl
    ⟨rfl, rfl, rfl, fun _ => rfl, fun _ _ => rfl⟩
  have hsz := g.con.size_eq
  have hmo := g.con.mode_eq
  obtain ⟨KV, hr, hKV⟩ := g.con.repr
  simp only [Obj.toGP] at hsz hmo hr hKV
  rw [g.data, g.cfg, g.hps, kKV] at hKV
  rw [g.data] at hsz
  rw [g.cfg] at hmo
  obtain ⟨F, hF⟩ : ∃ F, o.kv.factor = .chol 1 F := by
    cases hfac : o.kv.factor with
    | chol n F =>
      rw [hfac] at hsz
      have : n = 1 := hsz
      exact ⟨F, by rw [this]⟩
    | cholInv n F I => rw [hfac] at hmo; simp [Factor.mode, withArgs, kCfg] at hmo
    | inv n F I => rw [hfac] at hmo; simp [Factor.mode, withArgs, kCfg] at hmo
    | lu n F => rw [hfac] at hmo; simp [Factor.mode, withArgs, kCfg] at hmo
    | raw n F => rw [hfac] at hmo; simp [Factor.mode, withArgs, kCfg] at hmo
  rw [hF] at hr
  have hKV0 : KV 0 0 = 2 := by
    have := congrFun (congrFun hKV kz) kz
    rw [Matrix.diagonal_apply_eq] at this
    exact this.trans (by norm_num)
  have hF0 : F 0 0 * F 0 0 = 2 := by
    have := hr.2 0 (by norm_num) 0 (by norm_num)
    simpa [hKV0, low] using this
  have hVe : p.V = .diag 2 fun i => ([1, 1] : List ℝ).getD i 0 := by
    rw [hV]
    simp [calcV, withArgs, kCfg, kFns, specData, kUp, kData]
  have hk2 : p.kSize = 2 := hk
  obtain ⟨KV', hKV', e10, e11⟩ : ∃ KV', addKV false 2 2 p.K (.diag 2 fun i => ([1, 1] : List ℝ).getD i 0) = .ok KV' ∧
      KV' 1 0 = 4 ∧ KV' 1 1 = 5 := by
    refine ⟨_, by simp [addKV]; rfl, ?_, ?_⟩
    · have hb' : p.K 1 0 = 4 := ((hB kz kz).2).trans (by simp [kFns])
      simp [hb']
    · have hb' : p.K 1 1 = 4 := (hC kz kz).trans (by simp [kFns])
      simp [hb']; norm_num
  have hup : updateChol 1 F 2 KV' = .error "NonPositiveDefiniteError" := by
    simp only [updateChol, rankN, bind, Except.bind, rank1]
    rw [if_pos]
    simp only [Nat.add_zero, e11, Finset.sum_range_one]
    rw [fsub]
    simp [e10]
    have hne : F 0 0 ≠ 0 := by
      intro h; rw [h] at hF0; norm_num at hF0
    have : (4 / F 0 0) * (4 / F 0 0) = 8 := by
      rw [div_mul_div_comm, hF0]; norm_num
    rw [this]; norm_num
  have hrefresh : refresh p kUp.effective
      = ({ p with kv := { p.kv with factor := .chol 1 F } }, .error "NonPositiveDefiniteError") := by
    unfold refresh
    rw [h1, hk2, hVe, show (withArgs kCfg kFns 4).sparseK = false from rfl, hKV']
    simp only [show kUp.effective = true from rfl, if_true, hkv, hF, updateKV, bind, Except.bind]
    rw [if_neg (show ¬ 2 ≤ 1 by decide), hup]
    rfl
  refine ⟨o, _, ho, hp.trans hrefresh, hd, hF.symm, fun a ha => ?_⟩
  obtain ⟨q, hq, -⟩ := build_good (withArgs kCfg kFns a) cholExt_contract true ⟨specData kData kUp, 1, 1⟩ rfl
    (kAdm a ha _ [1, 1] rfl rfl (by simp))
  exact ⟨q, hq⟩

/-- `set_args`, a change of hyperparameters (which flushes), an overwrite and `set_args` again. -/
example : ∃ o, build (withArgs kCfg kFns 1) kData true 1 1 = .ok o ∧
    ∀ o₁, runArgs kCfg kFns o [.setArgs 4, .op (.update ⟨[5, 6], 1, [[1], [3]], 1, some [1, 2], false, false, none⟩), .setArgs 2]
        = (o₁, .ok ()) →
      ∃ o₂ fresh, setHyperparameters o₁ 1 = (o₂, .ok ()) ∧
        build (withArgs kCfg kFns 2) ⟨[5, 6], [[1], [3]], 1, some [1, 2]⟩ true 1 1 = .ok fresh ∧ Same o₂ fresh :=
  C132_flush kCfg cholExt_contract kFns true (⟨kData, 1, 1⟩, 1) rfl (kAdm 1 (by norm_num) kData [1] rfl rfl (by simp))
    [.setArgs 4, .op (.update ⟨[5, 6], 1, [[1], [3]], 1, some [1, 2], false, false, none⟩), .setArgs 2]
    ⟨⟨rfl, rfl, rfl, fun h => by simp at h, fun h => by simp at h⟩, trivial⟩ 1
    (kAdm 2 (by norm_num) _ [1, 2] rfl rfl (by simp))

/-- The sequence does run. -/
example : ∃ o o₁, build (withArgs kCfg kFns 1) kData true 1 1 = .ok o ∧
    runArgs kCfg kFns o [.setArgs 4, .op (.update ⟨[5, 6], 1, [[1], [3]], 1, some [1, 2], false, false, none⟩), .setArgs 2]
      = (o₁, .ok ()) := by
  obtain ⟨o, ho, h⟩ := C132_overwrite kCfg cholExt_contract kFns true (⟨kData, 1, 1⟩, 1) rfl
    (kAdm 1 (by norm_num) kData [1] rfl rfl (by simp)) [.setArgs 4] trivial
    ⟨[5, 6], 1, [[1], [3]], 1, some [1, 2], false, false, none⟩ rfl
    ⟨rfl, rfl, rfl, fun h => by simp at h, fun h => by simp at h⟩ (kAdm 4 (by norm_num) _ [1, 2] rfl rfl (by simp))
  obtain ⟨o₂, -, h2, -⟩ := h _ rfl
  refine ⟨o, setArgs kCfg kFns 2 o₂, ho, ?_⟩
  simp only [runArgs, applyArgs, apply, h2]

example (o : Obj ℕ ℝ) (h : o.data.cur = kData) : ∃ M, posteriorMeanAt (setArgs kCfg kFns 4 o).toGP 1 [0, 3] = .ok M ∧
    ∀ (i : Fin ([0, 3] : List ℕ).length) (j : ℕ), M i j = specMean (withArgs kCfg kFns 4) o.data.cur 1 [0, 3] j i :=
  C132_explicit_hyperparameters_partial kCfg cholExt_contract rfl kFns o 4 1
    (by rw [h]; exact kAdm 4 (by norm_num) kData [1] rfl rfl (by simp)) [0, 3]

end Verif.State
