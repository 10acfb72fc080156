import Verif.State.RecoverModel
import Verif.State.ArgsProps

/-! Property C162: carrying on after an exception. -/

namespace Verif.State

open Finset Verif.GP Verif.LinAlg

variable {α H : Type}

/-! ## Specification -/

/-- The hyperparameters of the last `set_hyperparameters` call, whether or not it raised. -/
def lastHps (h : H) : List (Op α H) → H
  | [] => h
  | .setHps h' :: ops => lastHps h' ops
  | .update _ :: ops => lastHps h ops

/-- Every update fits the data as they would be if all the updates before it had been carried out. -/
def FitOps (eu : Bool) (s : Spec α H) : List (Op α H) → Prop
  | [] => True
  | .setHps h :: ops => FitOps eu (s.step (.setHps h)) ops
  | .update u :: ops => u.Fits eu s ∧ FitOps eu (s.step (.update u)) ops

/-- The call asks for appending, or changes the hyperparameters. -/
def Op.Keeps : Op α H → Prop
  | .setHps _ => True
  | .update u => u.append = true

/-! ## What every operation keeps, however it ends -/

theorem refresh_frame (o : Obj α H) (r : Bool) :
    (refresh o r).1.data = o.data ∧ (refresh o r).1.hps = o.hps ∧ (refresh o r).1.cfg = o.cfg ∧
      (refresh o r).1.mLen = o.mLen ∧ (refresh o r).1.kSize = o.kSize ∧
      (o.kv.factor.mode = o.cfg.mode → (refresh o r).1.kv.factor.mode = o.cfg.mode) := by
  unfold refresh
  split
  · exact ⟨rfl, rfl, rfl, rfl, rfl, id⟩
  · split
    · refine ⟨rfl, rfl, rfl, rfl, rfl, fun h => ?_⟩
      rw [← h]
      simp only [afterFailure]
      split <;> simp_all [Factor.mode]
    · rename_i fac hf
      have hfac : o.kv.factor.mode = o.cfg.mode → fac.mode = o.cfg.mode := by
        intro hm
        cases r with
        | true => rw [if_pos rfl] at hf; rw [updateKV_mode hf, hm]
        | false => rw [if_neg (by simp)] at hf; exact setKV_mode hf
      simp only
      split <;> exact ⟨rfl, rfl, rfl, rfl, rfl, hfac⟩

theorem refresh_error_kv (o : Obj α H) (r : Bool) (e : String) (h : (refresh o r).2 = .error e) :
    (refresh o r).1.kv.kvinvY = o.kv.kvinvY ∧ (refresh o r).1.kv.logdetKV = o.kv.logdetKV := by
  unfold refresh at h ⊢
  split
  · exact ⟨rfl, rfl⟩
  rename_i KV hKV
  rw [hKV] at h
  simp only at h
  split
  · exact ⟨rfl, rfl⟩
  rename_i f hf
  rw [hf] at h
  simp only at h ⊢
  by_cases hl : o.data.cur.y.length ≠ o.mLen
  · rw [if_pos hl]; exact ⟨rfl, rfl⟩
  · rw [if_neg hl] at h; simp at h

theorem refresh_error_chol (o : Obj α H) (r : Bool) (e : String) (n : ℕ) (F : NMat) (hy : o.data.cur.y.length = o.mLen)
    (hF : o.kv.factor = .chol n F) (h : (refresh o r).2 = .error e) : (refresh o r).1.kv.factor = .chol n F := by
  unfold refresh at h ⊢
  split
  · exact hF
  rename_i KV hKV
  rw [hKV] at h
  simp only at h
  split
  · simp only [hF, afterFailure]
  rename_i f hf
  rw [hf] at h
  simp only at h ⊢
  rw [if_neg (by simp [hy])] at h
  simp at h

theorem augmentPrior_frame (o : Obj α H) :
    (augmentPrior o).1.data = o.data ∧ (augmentPrior o).1.hps = o.hps ∧ (augmentPrior o).1.cfg = o.cfg ∧
      (augmentPrior o).1.kv = o.kv := by
  unfold augmentPrior
  simp only
  split <;> exact ⟨rfl, rfl, rfl, rfl⟩

theorem updateData_frame (d : DataObj α) (u : Update α) :
    (updateData d u).1.euclidean = d.euclidean ∧ (updateData d u).1.cur.noiseVar.isSome = d.cur.noiseVar.isSome := by
  unfold updateData
  split
  · exact ⟨rfl, rfl⟩
  split
  · exact ⟨rfl, rfl⟩
  split
  · refine ⟨rfl, ?_⟩
    simp only
    cases h1 : u.noise <;> cases h2 : d.cur.noiseVar <;> simp_all
  simp only
  split
  · exact ⟨rfl, rfl⟩
  split
  · exact ⟨rfl, rfl⟩
  cases u.noise <;> simp

theorem updateGpData_frame (o : Obj α H) (u : Update α) (hm : o.kv.factor.mode = o.cfg.mode) :
    (updateGpData o u).1.cfg = o.cfg ∧ (updateGpData o u).1.hps = o.hps ∧
      (updateGpData o u).1.kv.factor.mode = o.cfg.mode ∧
      ((updateGpData o u).1.data = o.data ∨ (updateGpData o u).1.data = (updateData o.data u).1) ∧
      (u.x.length = u.y.length → (updateGpData o u).1.data = (updateData o.data u).1) := by
  unfold updateGpData
  split
  · rename_i hl
    exact ⟨rfl, rfl, hm, .inl rfl, fun h => absurd h hl⟩
  split
  · rename_i d e hd
    rw [hd]
    exact ⟨rfl, rfl, hm, .inr rfl, fun _ => rfl⟩
  rename_i d hd
  rw [hd]
  simp only
  by_cases ha : u.append = true
  · rw [if_pos ha]
    obtain ⟨a1, a2, a3, a4⟩ := augmentPrior_frame { o with data := d }
    rcases hq : augmentPrior { o with data := d } with ⟨o2, e | ⟨⟩⟩
    · rw [hq] at a1 a2 a3 a4
      simp only at a1 a2 a3 a4 ⊢
      exact ⟨a3, a2, by rw [a4]; exact hm, .inr a1, fun _ => a1⟩
    · rw [hq] at a1 a2 a3 a4
      simp only at a1 a2 a3 a4 ⊢
      obtain ⟨r1, r2, r3, -, -, r6⟩ := refresh_frame (updateNoise o2) u.effective
      simp only [updateNoise] at r1 r2 r3 r6
      refine ⟨r3.trans a3, r2.trans a2, ?_, .inr (r1.trans a1), fun _ => r1.trans a1⟩
      refine (r6 ?_).trans (by rw [a3])
      rw [a4, a3]; exact hm
  · rw [if_neg ha]
    simp only
    obtain ⟨r1, r2, r3, -, -, r6⟩ := refresh_frame (updateNoise (recomputePrior { o with data := d })) u.effective
    exact ⟨r3, r2, r6 hm, .inr r1, fun _ => r1⟩

theorem setHyperparameters_frame (o : Obj α H) (h : H) (hm : o.kv.factor.mode = o.cfg.mode) :
    (setHyperparameters o h).1.cfg = o.cfg ∧ (setHyperparameters o h).1.hps = h ∧
      (setHyperparameters o h).1.kv.factor.mode = o.cfg.mode ∧ (setHyperparameters o h).1.data = o.data := by
  unfold setHyperparameters
  obtain ⟨r1, r2, r3, -, -, r6⟩ := refresh_frame (updateNoise (recomputePrior { o with hps := h })) false
  exact ⟨r3, r2, r6 hm, r1⟩

/-- What no history can destroy. -/
structure Alive (c : Config α H) (eu noise : Bool) (h : H) (o : Obj α H) : Prop where
  cfg : o.cfg = c
  eu : o.data.euclidean = eu
  noise : o.data.cur.noiseVar.isSome = noise
  hps : o.hps = h
  mode : o.kv.factor.mode = c.mode

theorem alive_run (c : Config α H) (eu noise : Bool) (ops : List (Op α H)) : ∀ (h : H) (o : Obj α H),
    Alive c eu noise h o → Alive c eu noise (lastHps h ops) (runCaught o ops).1 := by
  induction ops with
  | nil => intro h o g; exact g
  | cons op ops ih =>
    intro h o g
    have hm : o.kv.factor.mode = o.cfg.mode := by rw [g.mode, g.cfg]
    cases op with
    | setHps h' =>
      obtain ⟨a1, a2, a3, a4⟩ := setHyperparameters_frame o h' hm
      exact ih h' _ ⟨a1.trans g.cfg, by simp only [apply]; rw [a4]; exact g.eu, by simp only [apply]; rw [a4]; exact g.noise, a2,
        a3.trans (by rw [g.cfg])⟩
    | update u =>
      obtain ⟨a1, a2, a3, a4, -⟩ := updateGpData_frame o u hm
      obtain ⟨d1, d2⟩ := updateData_frame o.data u
      refine ih h _ ⟨a1.trans g.cfg, ?_, ?_, a2.trans g.hps, a3.trans (by rw [g.cfg])⟩
      · simp only [apply]
        rcases a4 with a | a <;> rw [a]
        · exact g.eu
        · exact d1.trans g.eu
      · simp only [apply]
        rcases a4 with a | a <;> rw [a]
        · exact g.noise
        · exact d2.trans g.noise

theorem good_mode {c : Config α H} {eu : Bool} {s : Spec α H} {o : Obj α H} (g : Good c eu s o) : o.kv.factor.mode = c.mode := by
  have := g.con.mode_eq
  simp only [Obj.toGP] at this
  rw [this, g.cfg]

/-- Overwriting the data of whatever object has survived. -/
theorem alive_overwrite (c : Config α H) (he : SpluContract c.ext) (eu noise : Bool) (h : H) (o : Obj α H)
    (g : Alive c eu noise h o) (u : Update α) (hu : u.append = false) (hl : u.x.length = u.y.length) (hn : u.noise.isSome = noise)
    (hnan : u.nan = false) (ha : Admissible c ⟨u.x, u.y, u.cols, u.noise⟩ h) :
    ∃ o', updateGpData o u = (o', .ok ()) ∧ Good c eu ⟨⟨u.x, u.y, u.cols, u.noise⟩, u.width, h⟩ o' := by
  have hnn := g.noise
  rw [← hn] at hnn
  have hd : ∃ d, updateData o.data u = (d, .ok ()) ∧ d.euclidean = eu ∧ d.cur = ⟨u.x, u.y, u.cols, u.noise⟩ ∧ d.width = u.width ∧
      d.nan = false ∧ d.pointNumber = u.x.length := by
    unfold updateData
    rw [if_neg (by rw [hnn]; cases u.noise <;> simp), if_neg (by
      cases h1 : u.noise <;> cases h2 : o.data.cur.noiseVar <;> simp [h1, h2] at hnn ⊢), if_pos hu]
    exact ⟨_, Prod.ext rfl (by simp [checkNaN, hnan]), g.eu, rfl, rfl, hnan, rfl⟩
  obtain ⟨d, hd, e1, e2, e3, e4, e5⟩ := hd
  have heff : u.effective = false := by
    unfold Update.effective
    rw [hu]
    cases u.rankN.getD false <;> rfl
  unfold updateGpData
  rw [if_neg (by simp [hl]), hd]
  simp only
  rw [hu, if_neg (by simp)]
  simp only
  rw [heff]
  refine refresh_good c he eu ⟨⟨u.x, u.y, u.cols, u.noise⟩, u.width, h⟩ _ false g.cfg e1 e2 e3 g.hps e4 e5
    ?_ ?_ hl.symm ha ?_ ?_ ?_ ?_ (by simp)
  · simp only [updateNoise, recomputePrior]; rw [e2]
  · simp only [updateNoise, recomputePrior]; rw [e2]
  · simp only [updateNoise, recomputePrior]; rw [e2, g.cfg, g.hps]
  · simp only [updateNoise, recomputePrior]; rw [e2, g.cfg, g.hps]; exact toMat_gram _ _
  · simp only [updateNoise, recomputePrior]; rw [e2, g.cfg, g.hps]
  · simp only [updateNoise, recomputePrior]; exact g.mode

/-- **C162** (the way out that always works). Whatever calls have been made before — with arguments that fit or not, each of them successful or
not —, overwriting the data (`append=False`) with a complete dataset without NaN, with noise variances iff there were some at construction,
that is admissible for the hyperparameters of the last `set_hyperparameters` call, succeeds and leaves a GP that cannot be told apart from one
newly built on that dataset with those hyperparameters. -/
theorem C162_overwrite_repairs (c : Config α H) (he : SpluContract c.ext) (eu : Bool) (s : Spec α H)
    (hlen : s.data.y.length = s.data.x.length) (hadm : Admissible c s.data s.hps) :
    ∃ o, build c s.data eu s.width s.hps = .ok o ∧ ∀ (ops : List (Op α H)) (u : Update α), u.append = false →
      u.x.length = u.y.length → u.noise.isSome = s.data.noiseVar.isSome → u.nan = false →
      Admissible c ⟨u.x, u.y, u.cols, u.noise⟩ (lastHps s.hps ops) →
      ∃ o' fresh, updateGpData (runCaught o ops).1 u = (o', .ok ()) ∧
        build c ⟨u.x, u.y, u.cols, u.noise⟩ eu u.width (lastHps s.hps ops) = .ok fresh ∧ Same o' fresh := by
  obtain ⟨o, ho, g⟩ := build_good c he eu s hlen hadm
  refine ⟨o, ho, fun ops u hu hl hn hnan ha => ?_⟩
  have al := alive_run c eu s.data.noiseVar.isSome ops s.hps o ⟨g.cfg, g.eu, by rw [g.data], g.hps, good_mode g⟩
  obtain ⟨o', h1, g1⟩ := alive_overwrite c he eu _ _ _ al u hu hl hn hnan ha
  obtain ⟨fr, h2, g2⟩ := build_good c he eu ⟨⟨u.x, u.y, u.cols, u.noise⟩, u.width, lastHps s.hps ops⟩ hl.symm ha
  exact ⟨o', fr, h1, h2, good_same g1 g2⟩

/-- A history with a call that raises (`C162_failed_set_violated`), then two points in place of the old one. -/
example : ∃ o, build (withArgs kCfg kFns 1) kData true 1 1 = .ok o ∧ ∃ o' fresh,
    updateGpData (runCaught o [.setHps (-5), .update kUp, .setHps 1]).1 ⟨[3, 4], 1, [[0], [1]], 1, some [1, 2], false, false, none⟩
      = (o', .ok ()) ∧
    build (withArgs kCfg kFns 1) ⟨[3, 4], [[0], [1]], 1, some [1, 2]⟩ true 1 1 = .ok fresh ∧ Same o' fresh := by
  obtain ⟨o, ho, h⟩ := C162_overwrite_repairs (withArgs kCfg kFns 1) cholExt_contract true ⟨kData, 1, 1⟩ rfl
    (kAdm 1 (by norm_num) kData [1] rfl rfl (by simp))
  exact ⟨o, ho, h [.setHps (-5), .update kUp, .setHps 1] ⟨[3, 4], 1, [[0], [1]], 1, some [1, 2], false, false, none⟩ rfl rfl rfl rfl
    (kAdm 1 (by norm_num) _ [1, 2] rfl rfl (by simp))⟩

/-! ## Failures of the factorisation only -/

/-- Data and hyperparameters are the specified ones, the cached quantities may be anything. -/
structure Kept (c : Config α H) (eu : Bool) (s : Spec α H) (o : Obj α H) : Prop where
  cfg : o.cfg = c
  eu : o.data.euclidean = eu
  data : o.data.cur = s.data
  width : o.data.width = s.width
  hps : o.hps = s.hps
  nan : o.data.nan = false
  count : o.data.pointNumber = s.data.x.length
  len : s.data.y.length = s.data.x.length
  mode : o.kv.factor.mode = c.mode

theorem kept_run (c : Config α H) (eu : Bool) (ops : List (Op α H)) : ∀ (s : Spec α H) (o : Obj α H), Kept c eu s o → FitOps eu s ops →
    Kept c eu (ops.foldl Spec.step s) (runCaught o ops).1 := by
  induction ops with
  | nil => intro s o g _; exact g
  | cons op ops ih =>
    intro s o g hf
    have hm : o.kv.factor.mode = o.cfg.mode := by rw [g.mode, g.cfg]
    cases op with
    | setHps h =>
      obtain ⟨a1, a2, a3, a4⟩ := setHyperparameters_frame o h hm
      refine ih (s.step (.setHps h)) _ ⟨a1.trans g.cfg, ?_, ?_, ?_, a2, ?_, ?_, g.len, a3.trans (by rw [g.cfg])⟩ hf <;>
        (simp only [apply]; rw [a4])
      exacts [g.eu, g.data, g.width, g.nan, g.count]
    | update u =>
      obtain ⟨hu, hf⟩ := hf
      obtain ⟨a1, a2, a3, -, a5⟩ := updateGpData_frame o u hm
      obtain ⟨d, hd, e1, e2, e3, e4, e5, -⟩ := updateData_ok eu s o.data u g.eu g.data g.width g.nan hu
      have a4 := a5 hu.len
      rw [hd] at a4
      have hlen : (specData s.data u).y.length = (specData s.data u).x.length := by
        unfold specData
        split <;> simp [hu.len, g.len]
      refine ih (s.step (.update u)) _ ⟨a1.trans g.cfg, ?_, ?_, ?_, a2.trans g.hps, ?_, ?_, hlen, a3.trans (by rw [g.cfg])⟩ hf <;>
        (simp only [apply]; rw [a4])
      exacts [e1, e2, e3, e4, e5]

theorem kept_flush (c : Config α H) (he : SpluContract c.ext) (eu : Bool) (s : Spec α H) (o : Obj α H) (g : Kept c eu s o) (h : H)
    (ha : Admissible c s.data h) : ∃ o', setHyperparameters o h = (o', .ok ()) ∧ Good c eu { s with hps := h } o' := by
  unfold setHyperparameters
  refine refresh_good c he eu { s with hps := h } _ false g.cfg g.eu g.data g.width rfl g.nan g.count
    ?_ ?_ g.len ha ?_ ?_ ?_ ?_ (by simp)
  · simp only [updateNoise, recomputePrior]; rw [g.data]
  · simp only [updateNoise, recomputePrior]; rw [g.data]
  · simp only [updateNoise, recomputePrior]; rw [g.data, g.cfg]
  · simp only [updateNoise, recomputePrior]; rw [g.data, g.cfg]; exact toMat_gram _ _
  · simp only [updateNoise, recomputePrior]; rw [g.data, g.cfg]
  · simp only [updateNoise, recomputePrior]; exact g.mode

/-- **C162** (the way out after a failed factorisation; partial because the updates have to fit the data, see `C162_columns_permanent`). If the
arguments of all updates fit, then whichever calls raised, the stored data contain the data of **all** updates, also of those that raised, and
`set_hyperparameters` with hyperparameters admissible for these data succeeds and leaves a GP that cannot be told apart from one newly built
on all of them. -/
theorem C162_hyperparameters_repair_partial (c : Config α H) (he : SpluContract c.ext) (eu : Bool) (s : Spec α H)
    (hlen : s.data.y.length = s.data.x.length) (hadm : Admissible c s.data s.hps) :
    ∃ o, build c s.data eu s.width s.hps = .ok o ∧ ∀ ops : List (Op α H), FitOps eu s ops →
      (runCaught o ops).1.data.cur = specRun s.data ops ∧ (runCaught o ops).1.hps = lastHps s.hps ops ∧
      ∀ h, Admissible c (specRun s.data ops) h →
        ∃ o' fresh, setHyperparameters (runCaught o ops).1 h = (o', .ok ()) ∧
          build c (specRun s.data ops) eu (ops.foldl Spec.step s).width h = .ok fresh ∧ Same o' fresh := by
  obtain ⟨o, ho, g⟩ := build_good c he eu s hlen hadm
  refine ⟨o, ho, fun ops hf => ?_⟩
  have k := kept_run c eu ops s o ⟨g.cfg, g.eu, g.data, g.width, g.hps, g.nan, g.count, g.len, good_mode g⟩ hf
  have al := alive_run c eu s.data.noiseVar.isSome ops s.hps o ⟨g.cfg, g.eu, by rw [g.data], g.hps, good_mode g⟩
  have e : ∀ (ops : List (Op α H)) (s : Spec α H), (ops.foldl Spec.step s).data = specRun s.data ops := by
    intro ops
    induction ops with
    | nil => intro s; rfl
    | cons op ops ih => intro s; cases op <;> exact ih _
  refine ⟨k.data.trans (e ops s), al.hps, fun h ha => ?_⟩
  rw [← e ops s] at ha ⊢
  obtain ⟨o', h1, g1⟩ := kept_flush c he eu _ _ k h ha
  obtain ⟨fr, h2, g2⟩ := build_good c he eu { ops.foldl Spec.step s with hps := h } k.len ha
  exact ⟨o', fr, h1, h2, good_same g1 g2⟩

/-- The same history, put in order by the old hyperparameter; the appended point is part of the data. -/
example : ∃ o, build (withArgs kCfg kFns 1) kData true 1 1 = .ok o ∧
    (runCaught o [.setHps (-5), .update kUp]).1.data.cur = ⟨[0, 1], [[2], [2]], 1, some [1, 1]⟩ ∧ ∃ o' fresh,
    setHyperparameters (runCaught o [.setHps (-5), .update kUp]).1 1 = (o', .ok ()) ∧
    build (withArgs kCfg kFns 1) ⟨[0, 1], [[2], [2]], 1, some [1, 1]⟩ true 1 1 = .ok fresh ∧ Same o' fresh := by
  obtain ⟨o, ho, h⟩ := C162_hyperparameters_repair_partial (withArgs kCfg kFns 1) cholExt_contract true ⟨kData, 1, 1⟩ rfl
    (kAdm 1 (by norm_num) kData [1] rfl rfl (by simp))
  obtain ⟨h1, -, h3⟩ := h [.setHps (-5), .update kUp] ⟨⟨rfl, rfl, rfl, fun _ => rfl, fun _ _ => rfl⟩, trivial⟩
  have e : specRun kData [.setHps (-5 : ℝ), .update kUp] = ⟨[0, 1], [[2], [2]], 1, some [1, 1]⟩ := by
    simp [specRun, specData, kUp, kData]
  simp only at h1 h3
  rw [e] at h1 h3
  exact ⟨o, ho, h1, h3 1 (kAdm 1 (by norm_num) _ [1, 1] rfl rfl (by simp))⟩

/-! ## More inputs than values -/

theorem updateData_append_lengths (d : DataObj α) (u : Update α) (ha : u.append = true) (hl : u.x.length = u.y.length)
    (h : d.cur.y.length < d.cur.x.length) : (updateData d u).1.cur.y.length < (updateData d u).1.cur.x.length ∧
      ((updateData d u).2 = .ok () → (updateData d u).1.xOld = some d.cur.x ∧ (updateData d u).1.xNew = some u.x ∧
        (updateData d u).1.cur.x = d.cur.x ++ u.x) := by
  unfold updateData
  split
  · exact ⟨h, by simp⟩
  split
  · exact ⟨h, by simp⟩
  rw [if_neg (by simp [ha])]
  simp only
  split
  · exact ⟨h, by simp⟩
  split
  · refine ⟨?_, by simp⟩
    simp only [List.length_append]
    omega
  cases u.noise <;> (refine ⟨?_, fun _ => ⟨rfl, rfl, rfl⟩⟩; simp only [List.length_append]; omega)

/-- More inputs than values, prior mean and covariance of one size. -/
structure Stuck (o : Obj α H) : Prop where
  lt : o.data.cur.y.length < o.data.cur.x.length
  size : o.mLen = o.kSize

theorem refresh_raises (o : Obj α H) (r : Bool) (h : o.data.cur.y.length ≠ o.mLen) : ∃ e, (refresh o r).2 = .error e := by
  unfold refresh
  split
  · exact ⟨_, rfl⟩
  split
  · exact ⟨_, rfl⟩
  simp only
  rw [if_pos h]
  exact ⟨_, rfl⟩

theorem stuck_step (o : Obj α H) (g : Stuck o) (op : Op α H) (hop : op.Keeps) :
    Stuck (apply o op).1 ∧ ∃ e, (apply o op).2 = .error e := by
  cases op with
  | setHps h =>
    simp only [apply, setHyperparameters]
    obtain ⟨r1, -, -, r4, r5, -⟩ := refresh_frame (updateNoise (recomputePrior { o with hps := h })) false
    refine ⟨⟨by rw [r1]; exact g.lt, by rw [r4, r5]; rfl⟩, refresh_raises _ _ ?_⟩
    exact Nat.ne_of_lt g.lt
  | update u =>
    have ha : u.append = true := hop
    simp only [apply]
    unfold updateGpData
    split
    · exact ⟨g, _, rfl⟩
    rename_i hl
    obtain ⟨l1, l2⟩ := updateData_append_lengths o.data u ha (by simpa using hl) g.lt
    rcases hd : updateData o.data u with ⟨d, e | ⟨⟩⟩
    · rw [hd] at l1
      exact ⟨⟨l1, g.size⟩, _, rfl⟩
    rw [hd] at l1 l2
    obtain ⟨x1, x2, x3⟩ := l2 rfl
    simp only [ha, if_true] at l1 x1 x2 x3 ⊢
    unfold augmentPrior
    simp only
    by_cases hk : o.kSize ≠ (d.xOld.getD []).length
    · rw [if_pos hk]
      exact ⟨⟨l1, g.size⟩, _, rfl⟩
    rw [if_neg hk]
    have hk' : o.kSize = o.data.cur.x.length := by rw [x1] at hk; simpa using hk
    have hlen : d.cur.x.length = o.data.cur.x.length + u.x.length := by rw [x3]; simp
    have hnew : d.xNew.getD [] = u.x := by rw [x2]; rfl
    have hmL : ∀ q : ℕ × (ℕ → ℝ), q = (match o.cfg.mean with
        | none => (d.cur.x.length, evalAt (meanFn o.cfg d.cur o.hps) d.cur.x)
        | some f => (o.mLen + (d.xNew.getD []).length,
            fun i => if i < o.mLen then o.m i else evalAt (f o.hps) (d.xNew.getD []) (i - o.mLen))) →
        q.1 = d.cur.x.length := by
      intro q hq
      rw [hq]
      cases o.cfg.mean with
      | none => rfl
      | some f => simp only; rw [hnew, g.size, hk', hlen]
    have hmL := hmL _ rfl
    simp only
    refine ⟨⟨?_, ?_⟩, refresh_raises _ _ ?_⟩
    · rw [(refresh_frame _ _).1]; exact l1
    · rw [(refresh_frame _ _).2.2.2.1, (refresh_frame _ _).2.2.2.2.1]
      simp only [updateNoise]
      refine hmL.trans ?_
      rw [hnew, hlen, hk']
    · simp only [updateNoise]
      refine Nat.ne_of_lt (lt_of_lt_of_eq l1 hmL.symm)

theorem stuck_run (ops : List (Op α H)) : ∀ o : Obj α H, Stuck o → (∀ op ∈ ops, op.Keeps) →
    ∀ r ∈ (runCaught o ops).2, ∃ e, r = .error e := by
  induction ops with
  | nil => intro o _ _ r hr; simp [runCaught] at hr
  | cons op ops ih =>
    intro o g h r hr
    obtain ⟨g', he⟩ := stuck_step o g op (h op (by simp))
    simp only [runCaught, List.mem_cons] at hr
    rcases hr with hr | hr
    · rw [hr]; exact he
    · exact ih _ g' (fun p hp => h p (by simp [hp])) r hr

/-- **C162** (where it does not work). After an append whose values have another number of columns, which raises but has stored its inputs
(`C41_columns_violated`), every further `set_hyperparameters` and every further append raises, in any order, with any arguments and in every
mode: only overwriting the data helps (`C162_overwrite_repairs`). -/
theorem C162_columns_permanent (c : Config α H) (he : SpluContract c.ext) (eu : Bool) (s : Spec α H)
    (hlen : s.data.y.length = s.data.x.length) (hadm : Admissible c s.data s.hps) (u : Update α) (ha : u.append = true)
    (hl : u.x.length = u.y.length) (hne : u.x ≠ []) (hn : u.noise.isSome = s.data.noiseVar.isSome) (hw : u.width = s.width)
    (hc : u.cols ≠ s.data.cols) :
    ∃ o, build c s.data eu s.width s.hps = .ok o ∧ ∀ ops : List (Op α H), (∀ op ∈ ops, op.Keeps) →
      (runCaught o (.update u :: ops)).2.length = ops.length + 1 ∧
      ∀ r ∈ (runCaught o (.update u :: ops)).2, ∃ e, r = .error e := by
  obtain ⟨o, ho, g⟩ := build_good c he eu s hlen hadm
  refine ⟨o, ho, fun ops hops => ⟨?_, fun r hr => ?_⟩⟩
  · have : ∀ (ops : List (Op α H)) (o : Obj α H), (runCaught o ops).2.length = ops.length := by
      intro ops
      induction ops with
      | nil => intro o; rfl
      | cons op ops ih => intro o; simp [runCaught, ih]
    rw [this]; rfl
  · have hup : ∃ e, updateGpData o u = ({ o with data := (updateData o.data u).1 }, .error e) ∧
        (updateData o.data u).1.cur.y = s.data.y ∧ (updateData o.data u).1.cur.x = s.data.x ++ u.x := by
      have hn' : u.noise.isSome = o.data.cur.noiseVar.isSome := by rw [g.data]; exact hn
      have hud : ∃ e, (updateData o.data u).2 = .error e ∧
        (updateData o.data u).1.cur.y = s.data.y ∧ (updateData o.data u).1.cur.x = s.data.x ++ u.x := by
        unfold updateData
        rw [if_neg (by rw [← hn']; cases u.noise <;> simp), if_neg (by
          cases h1 : u.noise <;> cases h2 : o.data.cur.noiseVar <;> simp [h1, h2] at hn' ⊢), if_neg (by simp [ha])]
        simp only
        rw [if_neg (by simp [g.width, hw]), if_pos (by rw [g.data]; exact Ne.symm hc)]
        exact ⟨_, rfl, by simp only [g.data], by simp only [g.data]⟩
      obtain ⟨e, e1, e2, e3⟩ := hud
      refine ⟨e, ?_, e2, e3⟩
      unfold updateGpData
      rw [if_neg (by simp [hl])]
      rcases hd : updateData o.data u with ⟨d, r⟩
      rw [hd] at e1
      simp only at e1
      rw [e1]
    obtain ⟨e, h1, h2, h3⟩ := hup
    simp only [runCaught, apply, h1, List.mem_cons] at hr
    rcases hr with hr | hr
    · exact ⟨e, hr⟩
    · refine stuck_run ops _ ⟨?_, ?_⟩ hops r hr
      · simp only [h2, h3, List.length_append, hlen]
        have := List.length_pos_of_ne_nil hne
        omega
      · simp only [g.mLen, g.kSize]

/-- The hypotheses are met by a GP with one column of values and an append with two. -/
example (mode : Mode) (h : ℝ) (u : Update ℝ) (hu : u.append = true) : ∃ o, build (exCfg mode) exData true 1 2 = .ok o ∧
    ∀ r ∈ (runCaught o [.update ⟨[3], 1, [[0, 1]], 2, some [2], false, true, none⟩, .setHps h, .update u]).2, ∃ e, r = .error e := by
  obtain ⟨o, ho, hr⟩ := C162_columns_permanent (exCfg mode) cholExt_contract true ⟨exData, 1, 2⟩ rfl (exAdmissible mode 2)
    ⟨[3], 1, [[0, 1]], 2, some [2], false, true, none⟩ rfl rfl (by simp) rfl rfl (by simp [exData])
  exact ⟨o, ho, (hr [.setHps h, .update u] (by simp [Op.Keeps, hu])).2⟩

/-! ## A failed change of the hyperparameters -/

/-- **C162** (what a failed `set_hyperparameters` leaves; partial because it is neither the old model nor the new one). If
`set_hyperparameters(h)` raises, the data, the weights `KVinvY` and the log-determinant are still the old ones, but the object shows the rejected
hyperparameters `h`, and the posterior mean combines them with the old weights: prior mean at the prediction points and covariance with the data
are those of `h`, `K + V` and the prior mean at the data those of the old hyperparameters. -/
theorem C162_failed_set_partial (c : Config α H) (he : SpluContract c.ext) (eu : Bool) (s : Spec α H)
    (hlen : s.data.y.length = s.data.x.length) (hadm : Admissible c s.data s.hps) :
    ∃ o, build c s.data eu s.width s.hps = .ok o ∧ ∀ (h : H) (o' : Obj α H) (e : String), setHyperparameters o h = (o', .error e) →
      o'.data = o.data ∧ o'.hps = h ∧ o'.kv.kvinvY = o.kv.kvinvY ∧ o'.kv.logdetKV = o.kv.logdetKV ∧
      ∀ (xs : List α) (i : Fin xs.length) (j : ℕ), posteriorMean o'.toGP xs i j
        = condMean (KVmat c s.data s.hps) (Kmat (c.kernel h) s.data.x xs) (meanAt c s.data h xs)
            (meanAt c s.data s.hps s.data.x) (yCol s.data j) i := by
  obtain ⟨o, ho, g⟩ := build_good c he eu s hlen hadm
  refine ⟨o, ho, fun h o' e hs => ?_⟩
  obtain ⟨a1, a2, -, a4⟩ := setHyperparameters_frame o h (by rw [good_mode g, g.cfg])
  rw [hs] at a1 a2 a4
  simp only at a1 a2 a4
  have hkv : o'.kv.kvinvY = o.kv.kvinvY ∧ o'.kv.logdetKV = o.kv.logdetKV := by
    unfold setHyperparameters at hs
    have := refresh_error_kv (updateNoise (recomputePrior { o with hps := h })) false e (by rw [hs])
    rw [hs] at this
    exact this
  refine ⟨a4, a2, hkv.1, hkv.2, fun xs i j => ?_⟩
  have hw := hkv.1
  have hcur : o'.data.cur = s.data := by rw [a4]; exact g.data
  have hcfg : o'.cfg = c := a1.trans g.cfg
  obtain ⟨cfg, d, hh, mLen, m, kSize, K, V, kv⟩ := o
  obtain ⟨gcfg, -, gdata, -, ghps, -, -, -, -, -, con, -⟩ := g
  obtain ⟨dcur, deu, dw, dn, d1, d2, d3, d4, d5, d6, dp⟩ := d
  simp only at gcfg gdata ghps
  subst gcfg gdata ghps
  have hsol := consistent_solve con hadm.posDef
  have hk := con.kvinvY_eq
  have hm := con.m_eq
  simp only [Obj.toGP] at hsol hk hm
  have e1 : o'.toGP = ⟨cfg, s.data, h, o'.m, o'.K, o'.V, o'.kv⟩ := by
    simp only [Obj.toGP, hcur, hcfg, a2]
  rw [e1, posteriorMean, evalAt_apply, Finset.sum_range, condMean, Pi.add_apply]
  congr 1
  simp only [Matrix.mulVec, dotProduct, Matrix.transpose_apply]
  refine Finset.sum_congr rfl fun l _ => ?_
  rw [gram_apply, hw, hk, solveY, hsol, hm]
  congr 1
  simp only [Matrix.mulVec, dotProduct]
  refine Finset.sum_congr rfl fun z _ => ?_
  rw [evalAt_apply]
  rfl

/-- **C162** is violated by `set_hyperparameters`: with the kernel `k = h` (a constant function with variance `h`) and prior mean `0`, a GP on one
value `2` with noise variance `1` and `h = 1` predicts `1`. `set_hyperparameters(-5)` raises because `K + V = -4`; caught, the GP shows the
hyperparameter `-5` and predicts `-5` at its data point, where every constant with a variance `h ≥ 0` predicts between `0` and `2`. Setting the
old hyperparameter again puts it right. -/
theorem C162_failed_set_violated :
    ∃ o, build (withArgs kCfg kFns 1) kData true 1 1 = .ok o ∧ posteriorMean o.toGP [0] 0 0 = 1 ∧
      ∃ o' e, setHyperparameters o (-5) = (o', .error e) ∧ o'.hps = -5 ∧ posteriorMean o'.toGP [0] 0 0 = -5 ∧
        (∀ h : ℝ, 0 ≤ h → 0 ≤ h * 2 / (h + 1) ∧ h * 2 / (h + 1) ≤ 2) ∧
        ∃ o'', setHyperparameters o' 1 = (o'', .ok ()) ∧ Same o'' o := by
  have ha : Admissible (withArgs kCfg kFns 1) kData 1 := kAdm 1 (by norm_num) kData [1] rfl rfl (by simp)
  obtain ⟨o, ho, hp⟩ := C162_failed_set_partial (withArgs kCfg kFns 1) cholExt_contract true ⟨kData, 1, 1⟩ rfl ha
  obtain ⟨o1, ho1, g⟩ := build_good (withArgs kCfg kFns 1) cholExt_contract true ⟨kData, 1, 1⟩ rfl ha
  have e : o1 = o := Except.ok.inj (ho1.symm.trans ho)
  subst e
  have hmean : posteriorMean o1.toGP [0] 0 0 = 1 := by
    obtain ⟨o2, h2, hm, -⟩ := C132_until_flushed_partial kCfg cholExt_contract kFns true ⟨kData, 1, 1⟩ 1 1 rfl ha
    have e2 : o2 = o1 := Except.ok.inj (h2.symm.trans ho)
    subst e2
    have es : setArgs kCfg kFns 1 o2 = o2 := by
      unfold setArgs
      rw [← g.cfg]
    rw [es] at hm
    exact (hm [0] pz 0).trans ((kPred 1 1 (by norm_num)).1.trans (by norm_num))
  have hfail : ∃ o' e, setHyperparameters o1 (-5) = (o', .error e) := by
    unfold setHyperparameters refresh
    simp only [updateNoise, recomputePrior, g.cfg, g.data]
    have hadd : ∃ KV, addKV (withArgs kCfg kFns 1).sparseK kData.x.length kData.x.length
        (gram ((withArgs kCfg kFns 1).kernel (-5)) kData.x kData.x) (calcV (withArgs kCfg kFns 1) kData (-5) kData.x) = .ok KV ∧
        KV 0 0 = -4 := by
      refine ⟨_, rfl, ?_⟩
      simp [gram, withArgs, kFns, kData]
      norm_num
    obtain ⟨KV, hKV, h0⟩ := hadd
    rw [hKV]
    have hc : setKV (withArgs kCfg kFns 1).ext (withArgs kCfg kFns 1).mode kData.x.length KV
        = .error "NonPositiveDefiniteError" := by
      show setKV cholExt .chol 1 KV = _
      simp [setKV, cholFactor, updateChol, rankN, rank1, bind, Except.bind, h0]
    simp only [Bool.false_eq_true, if_false]
    rw [hc]
    exact ⟨_, _, rfl⟩
  obtain ⟨o', e, hs⟩ := hfail
  obtain ⟨q1, q2, -, -, q5⟩ := hp (-5) o' e hs
  refine ⟨o1, ho, hmean, o', e, hs, q2, ?_, fun h hh => ⟨by positivity, ?_⟩, ?_⟩
  · refine (q5 [0] pz 0).trans ?_
    have h3 := (kPred 1 (-5) (by norm_num)).1
    refine Eq.trans ?_ (h3.trans (by norm_num))
    refine congrFun (congrArg₂ (fun k (mx : Fin ([0] : List ℕ).length → ℝ) => condMean (KVmat (withArgs kCfg kFns 1) kData 1) k mx
      (meanAt (withArgs kCfg kFns 1) kData 1 kData.x) (yCol kData 0)) ?_ rfl) pz
    ext a b
    simp [Kmat, withArgs, kFns]
  · rw [div_le_iff₀ (by linarith)]
    linarith
  · have fr := setHyperparameters_frame o1 (-5) (by rw [good_mode g, g.cfg])
    rw [hs] at fr
    obtain ⟨f1, -, f3, -⟩ := fr
    simp only at f1 f3
    obtain ⟨o'', h1, g1⟩ := kept_flush (withArgs kCfg kFns 1) cholExt_contract true ⟨kData, 1, -5⟩ o'
      ⟨f1.trans g.cfg, by rw [q1]; exact g.eu, by rw [q1]; exact g.data, by rw [q1]; exact g.width, q2, by rw [q1]; exact g.nan,
        by rw [q1]; exact g.count, rfl, f3.trans (by rw [g.cfg])⟩ 1 ha
    exact ⟨o'', h1, good_same g1 g⟩

/-- The update of the next theorem: a second value `2` with noise variance `20`. -/
noncomputable def lateUp : Update ℕ := ⟨[1], 1, [[2]], 1, some [20], false, true, none⟩

/-- **C162** is violated by the next append, too: after the failed `set_hyperparameters(-5)` of the previous theorem, appending a value with noise
variance `20` raises nothing. The old factor of `1 + 1` is extended by covariances of the rejected hyperparameters, which happens to be possible,
although no GP with these data and the hyperparameters shown can be built: its construction raises. -/
theorem C162_append_after_failed_set_violated :
    ∃ o o' e o'', build (withArgs kCfg kFns 1) kData true 1 1 = .ok o ∧ setHyperparameters o (-5) = (o', .error e) ∧
      updateGpData o' lateUp = (o'', .ok ()) ∧ o''.hps = -5 ∧ o''.data.cur = ⟨[0, 1], [[2], [2]], 1, some [1, 20]⟩ ∧
      ∃ e', build (withArgs kCfg kFns 1) o''.data.cur true 1 o''.hps = .error e' := by
  have ha : Admissible (withArgs kCfg kFns 1) kData 1 := kAdm 1 (by norm_num) kData [1] rfl rfl (by simp)
  obtain ⟨o, ho, g⟩ := build_good (withArgs kCfg kFns 1) cholExt_contract true ⟨kData, 1, 1⟩ rfl ha
  have hsz := g.con.size_eq
  have hmo := good_mode g
  simp only [Obj.toGP] at hsz
  rw [g.data] at hsz
  obtain ⟨F, hF⟩ : ∃ F, o.kv.factor = .chol 1 F := by
    cases hfac : o.kv.factor with
    | chol n F =>
      rw [hfac] at hsz
      have : n = 1 := hsz
      exact ⟨F, by rw [this]⟩
    | cholInv n F I => rw [hfac] at hmo; simp [Factor.mode, withArgs, kCfg] at hmo
    | inv n F I => rw [hfac] at hmo; simp [Factor.mode, withArgs, kCfg] at hmo
    | lu n F => rw [hfac] at hmo; simp [Factor.mode, withArgs, kCfg] at hmo
    | raw n F => rw [hfac] at hmo; simp [Factor.mode, withArgs, kCfg] at hmo
  -- the old factor is that of the number `2`
  have hF2 : F 0 0 * F 0 0 = 2 ∧ 0 < F 0 0 := by
    obtain ⟨KV, hr, hmat⟩ := g.con.repr
    simp only [Obj.toGP] at hr hmat
    rw [hF] at hr
    rw [g.data, g.cfg, g.hps, kKV] at hmat
    have h0 : KV 0 0 = 2 := by
      have := congrFun (congrFun hmat kz) kz
      rw [Matrix.diagonal_apply_eq] at this
      refine Eq.trans this ?_
      norm_num
    obtain ⟨hp, hs⟩ := hr
    have h1 := hs 0 (by norm_num) 0 (by norm_num)
    simp only [Finset.sum_range_one, low, le_refl, if_true, h0] at h1
    exact ⟨h1, hp 0 (by norm_num)⟩
  obtain ⟨o', e, hs, q2, -⟩ : ∃ o' e, setHyperparameters o (-5) = (o', .error e) ∧ o'.hps = -5 ∧ True := by
    obtain ⟨p, hp, -, o', e, hs, q2, -⟩ := C162_failed_set_violated
    obtain rfl : p = o := Except.ok.inj (hp.symm.trans ho)
    exact ⟨o', e, hs, q2, trivial⟩
  have fr := setHyperparameters_frame o (-5) (by rw [good_mode g, g.cfg])
  have kept : o'.kSize = 1 ∧ o'.mLen = 1 ∧ o'.kv.factor = .chol 1 F ∧ o'.K = gram ((withArgs kCfg kFns 1).kernel (-5)) kData.x kData.x := by
    have hh := hs
    unfold setHyperparameters at hh
    have r := refresh_frame (updateNoise (recomputePrior { o with hps := (-5 : ℝ) })) false
    rw [hh] at r
    refine ⟨r.2.2.2.2.1.trans ?_, r.2.2.2.1.trans ?_, ?_, ?_⟩
    · simp only [updateNoise, recomputePrior, g.data]; rfl
    · simp only [updateNoise, recomputePrior, g.data]; rfl
    · have := refresh_error_chol (updateNoise (recomputePrior { o with hps := (-5 : ℝ) })) false e 1 F
        (by simp only [updateNoise, recomputePrior, g.data]; simp [kData]) hF (by rw [hh])
      rw [hh] at this
      exact this
    · have hK : ∀ (q : Obj ℕ ℝ) r, (refresh q r).1.K = q.K := by
        intro q r
        unfold refresh
        split
        · rfl
        split
        · rfl
        simp only
        split <;> rfl
      have := hK (updateNoise (recomputePrior { o with hps := (-5 : ℝ) })) false
      rw [hh] at this
      refine this.trans ?_
      simp only [updateNoise, recomputePrior, g.data, g.cfg]
  rw [hs] at fr
  obtain ⟨f1, -, -, f4⟩ := fr
  simp only at f1 f4
  have hcfg : o'.cfg = withArgs kCfg kFns 1 := f1.trans g.cfg
  obtain ⟨d, hd, e1, e2, -, -, -, e6⟩ := updateData_ok true ⟨kData, 1, (-5 : ℝ)⟩ o'.data lateUp (by rw [f4]; exact g.eu)
    (by rw [f4]; exact g.data) (by rw [f4]; exact g.width) (by rw [f4]; exact g.nan)
    ⟨rfl, rfl, rfl, fun _ => rfl, fun _ _ => rfl⟩
  obtain ⟨x1, x2⟩ := e6 rfl
  simp only at e2 x1
  have hdata : d.cur = ⟨[0, 1], [[2], [2]], 1, some [1, 20]⟩ := by
    rw [e2]
    simp [specData, kData, lateUp]
  obtain ⟨k1, k2, k3, k4⟩ := kept
  -- the prior after the append
  obtain ⟨p, hp, p1, p2, p3, p4, p5, p6, p7, p8⟩ : ∃ p, augmentPrior { o' with data := d } = (p, .ok ()) ∧ p.data = d ∧ p.kSize = 2 ∧ p.mLen = 2 ∧
      p.cfg = withArgs kCfg kFns 1 ∧ p.hps = -5 ∧ p.kv = o'.kv ∧ p.K 1 0 = -5 ∧ p.K 1 1 = -5 := by
    unfold augmentPrior
    simp only
    rw [x1, x2, k1, hcfg, q2]
    rw [if_neg (by simp [kData])]
    refine ⟨_, rfl, rfl, rfl, ?_, rfl, rfl, rfl, ?_, ?_⟩
    · simp only [withArgs, kFns]
      simp [k2, lateUp]
    · simp [gram, withArgs, kFns, kData, lateUp]
    · simp [gram, withArgs, kFns, kData, lateUp]
  have hV : calcV (withArgs kCfg kFns 1) d.cur (-5) d.cur.x = .diag 2 fun i => [1, 20].getD i 0 := by
    rw [hdata]
    simp [calcV, withArgs, kCfg, kFns]
  obtain ⟨KV, hKV, v10, v11⟩ : ∃ KV, addKV false 2 2 p.K (.diag 2 fun i => [(1 : ℝ), 20].getD i 0) = .ok KV ∧ KV 1 0 = -5 ∧ KV 1 1 = 15 := by
    refine ⟨_, rfl, ?_, ?_⟩
    · simp [p7]
    · simp [p8]; norm_num
  obtain ⟨F', hF'⟩ : ∃ F', updateChol 1 F 2 KV = .ok F' := by
    simp only [updateChol, rankN, rank1, bind, Except.bind]
    rw [if_neg]
    · exact ⟨_, rfl⟩
    · have hv : fsub F (fun j => if j < 1 then KV (1 + 0) j else KV (1 + (j - 1)) (1 + 0)) 0 = -5 / F 0 0 := by
        rw [fsub_eq]
        simp [v10]
      simp only [Nat.add_zero, Finset.sum_range_one, v11] at hv ⊢
      rw [hv]
      have : -5 / F 0 0 * (-5 / F 0 0) = 25 / 2 := by
        rw [div_mul_div_comm, hF2.1]; norm_num
      rw [this]
      norm_num
  obtain ⟨o'', ho'', g1, g2⟩ : ∃ o'', updateGpData o' lateUp = (o'', .ok ()) ∧ o''.hps = -5 ∧ o''.data.cur = d.cur := by
    unfold updateGpData
    rw [if_neg (by simp [lateUp]), hd]
    simp only
    rw [if_pos (show lateUp.append = true from rfl), hp]
    simp only
    unfold refresh
    simp only [updateNoise, p1, p2, p3, p4, p5, p6, k3]
    rw [hV, show (withArgs kCfg kFns 1).sparseK = false from rfl, hKV]
    simp only [show lateUp.effective = true from rfl, if_true, updateKV, bind, Except.bind]
    rw [if_neg (show ¬ 2 ≤ 1 by decide), hF']
    simp only
    rw [if_neg (by rw [hdata]; simp)]
    exact ⟨_, rfl, rfl, rfl⟩
  refine ⟨o, o', e, o'', ho, hs, ho'', g1, g2.trans hdata, ?_⟩
  rw [g1, g2]
  unfold build init refreshFull
  rw [hV, hdata]
  obtain ⟨M, hM, h0⟩ : ∃ M, addKV false 2 2 (gram ((withArgs kCfg kFns 1).kernel (-5)) [0, 1] [0, 1])
      (.diag 2 fun i => [(1 : ℝ), 20].getD i 0) = .ok M ∧ M 0 0 = -4 := by
    refine ⟨_, rfl, ?_⟩
    simp [gram, withArgs, kFns]
    norm_num
  have hM' : addKV (withArgs kCfg kFns 1).sparseK ([0, 1] : List ℕ).length ([0, 1] : List ℕ).length
      (gram ((withArgs kCfg kFns 1).kernel (-5)) [0, 1] [0, 1]) (.diag 2 fun i => [(1 : ℝ), 20].getD i 0) = .ok M := hM
  have hc : setKV (withArgs kCfg kFns 1).ext (withArgs kCfg kFns 1).mode ([0, 1] : List ℕ).length M
      = .error "NonPositiveDefiniteError" := by
    show setKV cholExt .chol 2 M = _
    simp [setKV, cholFactor, updateChol, rankN, rank1, bind, Except.bind, h0]
  simp only [bind, Except.bind, hM', hc]
  exact ⟨_, rfl⟩

end Verif.State
