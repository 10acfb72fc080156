import Verif.State.Model
import Verif.GP.PostProps
import Verif.GP.CovLemmas

/-! Property C40: the state depends only on the current data and hyperparameters. -/

namespace Verif.State

open Finset Verif.GP Verif.LinAlg

variable {α H : Type}

/-! ## Specification -/

/-- Specification: the data set after an update. -/
def specData (d : Data α) (u : Update α) : Data α :=
  if u.append then
    ⟨d.x ++ u.x, d.y ++ u.y, d.cols, match d.noiseVar, u.noise with | some a, some b => some (a ++ b) | _, _ => none⟩
  else ⟨u.x, u.y, u.cols, u.noise⟩

/-- Specification: what a sequence of operations does to data, input dimension and hyperparameters. -/
structure Spec (α H : Type) where
  data : Data α
  width : ℕ
  hps : H

/-- One operation. -/
def Spec.step (s : Spec α H) : Op α H → Spec α H
  | .setHps h => { s with hps := h }
  | .update u => { s with data := specData s.data u, width := if u.append then s.width else u.width }

/-- The update fits the data: equally many points and values, no NaN, noise variances given iff they were given
before, and, when appending, the same number of columns and the same input dimension. -/
structure Update.Fits (u : Update α) (euclidean : Bool) (s : Spec α H) : Prop where
  len : u.x.length = u.y.length
  noise : u.noise.isSome = s.data.noiseVar.isSome
  noNaN : u.nan = false
  cols : u.append = true → u.cols = s.data.cols
  width : u.append = true → euclidean = true → u.width = s.width

/-- The noise of the old points is unchanged by going from `d` to `d'`. -/
def NoiseKept (c : Config α H) (d d' : Data α) (h : H) : Prop :=
  (calcV c d' h d'.x).mat d.x.length = (calcV c d h d.x).mat d.x.length

/-- The modes that keep no factorisation to be grown. -/
def Refactorises (m : Mode) : Prop := m = .sparseLU ∨ m = .sparseSolve

/-- An operation with sensible arguments: the model it asks for is admissible, and a rank-n update is only asked for
when the noise of the old points stays. -/
def Legal (c : Config α H) (euclidean : Bool) (s : Spec α H) : Op α H → Prop
  | .setHps h => Admissible c s.data h
  | .update u => u.Fits euclidean s ∧ Admissible c (specData s.data u) s.hps ∧
      (u.append = true → u.rankN ≠ some false → Refactorises c.mode ∨ NoiseKept c s.data (specData s.data u) s.hps)

/-- Every operation of a sequence is legal where it is applied. -/
def LegalRun (c : Config α H) (euclidean : Bool) (s : Spec α H) : List (Op α H) → Prop
  | [] => True
  | op :: ops => Legal c euclidean s op ∧ LegalRun c euclidean (s.step op) ops

/-- Two factorisations say the same: same mode and size, equal lower Cholesky triangles, equal inverses. -/
def SameFactor : Factor → Factor → Prop
  | .chol n F, .chol n' F' => n = n' ∧ ∀ i < n, ∀ j ≤ i, F i j = F' i j
  | .cholInv n F I, .cholInv n' F' I' =>
      n = n' ∧ (∀ i < n, ∀ j ≤ i, F i j = F' i j) ∧ ∀ i < n, ∀ j < n, I i j = I' i j
  | .inv n A I, .inv n' A' I' => n = n' ∧ (∀ i < n, ∀ j < n, A i j = A' i j) ∧ ∀ i < n, ∀ j < n, I i j = I' i j
  | .lu n _, .lu n' _ => n = n'
  | .raw n A, .raw n' A' => n = n' ∧ ∀ i < n, ∀ j < n, A i j = A' i j
  | _, _ => False

/-- Two objects cannot be told apart: data, hyperparameters, prior mean and covariance, noise, factorisation, solves,
`KVinvY`, log-determinant, predictions. -/
structure Same (o o' : Obj α H) : Prop where
  data : o.data.cur = o'.data.cur
  count : o.data.pointNumber = o'.data.pointNumber
  hps : o.hps = o'.hps
  mLen : o.mLen = o'.mLen
  m : ∀ i < o.data.cur.x.length, o.m i = o'.m i
  kSize : o.kSize = o'.kSize
  K : ∀ i < o.data.cur.x.length, ∀ j < o.data.cur.x.length, o.K i j = o'.K i j
  V : o.V = o'.V
  factor : SameFactor o.kv.factor o'.kv.factor
  solve : ∀ b, ∀ i < o.data.cur.x.length, solve o.kv.factor b i = solve o'.kv.factor b i
  kvinvY : ∀ i < o.data.cur.x.length, ∀ j, o.kv.kvinvY i j = o'.kv.kvinvY i j
  logdet : o.cfg.mode ≠ .sparseSolve → o.kv.logdetKV = o'.kv.logdetKV
  mean : ∀ xs, ∀ i < xs.length, ∀ j, posteriorMean o.toGP xs i j = posteriorMean o'.toGP xs i j
  var : ∀ xs vo chunk junk chunk' junk', ∃ v v' S S', posteriorCovariance o.toGP xs vo false chunk junk = .ok (v, S) ∧
    posteriorCovariance o'.toGP xs vo false chunk' junk' = .ok (v', S') ∧ (∀ i < xs.length, v i = v' i) ∧
    (vo = false → ∃ T T', S = some T ∧ S' = some T' ∧ ∀ i < xs.length, ∀ j < xs.length, T i j = T' i j)

/-! ## The invariant -/

/-- The stored state belongs to the stored data and hyperparameters, sizes included. -/
structure Good (c : Config α H) (euclidean : Bool) (s : Spec α H) (o : Obj α H) : Prop where
  cfg : o.cfg = c
  eu : o.data.euclidean = euclidean
  data : o.data.cur = s.data
  width : o.data.width = s.width
  hps : o.hps = s.hps
  nan : o.data.nan = false
  count : o.data.pointNumber = s.data.x.length
  mLen : o.mLen = s.data.x.length
  kSize : o.kSize = s.data.x.length
  len : s.data.y.length = s.data.x.length
  con : Consistent o.toGP
  adm : Admissible c s.data s.hps

theorem updateKV_ok' (e : Ext) (he : SpluContract e) (f : Factor) (N : ℕ) (A : NMat) (hpd : (toMat N A).PosDef)
    (hf : Refactorises f.mode ∨ (f.size < N → f.Represents A)) :
    ∃ f', updateKV e f N A = .ok f' ∧ f'.size = N ∧ f'.mode = f.mode ∧ f'.Represents A := by
  rcases hf with hf | hf
  · cases f with
    | lu n g =>
      obtain ⟨f, hf⟩ := he.2 N A hpd
      exact ⟨.lu N f, by simp [updateKV, hf, bind, Except.bind], rfl, rfl, he.1 N A f hf⟩
    | raw n KV => exact ⟨.raw N A, rfl, rfl, rfl, rfl⟩
    | chol n F => rcases hf with h | h <;> simp [Factor.mode] at h
    | cholInv n F I => rcases hf with h | h <;> simp [Factor.mode] at h
    | inv n F I => rcases hf with h | h <;> simp [Factor.mode] at h
  · exact updateKV_ok e he f N A hpd hf

/-- `_refresh` puts a state whose prior and noise are up to date in order. -/
theorem refresh_good (c : Config α H) (he : SpluContract c.ext) (eu : Bool) (s : Spec α H) (o : Obj α H) (r : Bool)
    (cfg : o.cfg = c) (heu : o.data.euclidean = eu) (data : o.data.cur = s.data) (width : o.data.width = s.width)
    (hps : o.hps = s.hps) (nan : o.data.nan = false) (count : o.data.pointNumber = s.data.x.length)
    (mLen : o.mLen = s.data.x.length) (kSize : o.kSize = s.data.x.length) (len : s.data.y.length = s.data.x.length)
    (adm : Admissible c s.data s.hps)
    (hm : o.m = evalAt (meanFn c s.data s.hps) s.data.x)
    (hK : toMat s.data.x.length o.K = Kmat (c.kernel s.hps) s.data.x s.data.x)
    (hV : o.V = calcV c s.data s.hps s.data.x)
    (hmode : o.kv.factor.mode = c.mode)
    (hold : r = true → Refactorises c.mode ∨ ∀ KV, toMat s.data.x.length KV = KVmat c s.data s.hps →
      o.kv.factor.size < s.data.x.length → o.kv.factor.Represents KV) :
    ∃ o', refresh o r = (o', .ok ()) ∧ Good c eu s o' := by
  obtain ⟨KV, hKV, hmat⟩ := addKV_ok adm.fits o.K
  rw [hK] at hmat
  have hmat' : toMat s.data.x.length KV = KVmat c s.data s.hps := hmat
  have hpd : (toMat s.data.x.length KV).PosDef := by rw [hmat']; exact adm.posDef
  have hf : ∃ f, (if r then updateKV c.ext o.kv.factor s.data.x.length KV else setKV c.ext c.mode s.data.x.length KV)
      = .ok f ∧ f.size = s.data.x.length ∧ f.mode = c.mode ∧ f.Represents KV := by
    cases r with
    | false =>
      simp only [Bool.false_eq_true, if_false]
      exact setKV_ok c.ext he c.mode _ KV hpd
    | true =>
      simp only [if_true]
      obtain ⟨f, h1, h2, h3, h4⟩ := updateKV_ok' c.ext he o.kv.factor _ KV hpd (by
        rcases hold rfl with h | h
        · left; rw [hmode]; exact h
        · right; exact h KV hmat')
      exact ⟨f, h1, h2, h3.trans hmode, h4⟩
  obtain ⟨f, hf, hs, hmf, hr⟩ := hf
  refine ⟨{ o with kv := ⟨f, solveY f o.data.cur.yMat o.m, logdet o.cfg.ext f⟩ }, ?_, ?_⟩
  · unfold refresh
    rw [cfg, kSize, hV, hKV]
    simp only [hf]
    rw [if_neg (by rw [data, len, mLen]; simp)]
  · refine ⟨cfg, heu, data, width, hps, nan, count, mLen, kSize, len, ?_, adm⟩
    refine ⟨?_, ?_, ?_, ?_, ?_, ⟨KV, hr, ?_⟩, rfl, rfl⟩
    · simp only [Obj.toGP]; rw [cfg, data, hps]; exact hm
    · simp only [Obj.toGP]; rw [cfg, data, hps]; exact hK
    · simp only [Obj.toGP]; rw [cfg, data, hps]; exact hV
    · simp only [Obj.toGP]; rw [data]; exact hs
    · simp only [Obj.toGP]; rw [cfg]; exact hmf
    · simp only [Obj.toGP]; rw [cfg, data, hps]; exact hmat'

theorem build_good (c : Config α H) (he : SpluContract c.ext) (eu : Bool) (s : Spec α H)
    (len : s.data.y.length = s.data.x.length) (adm : Admissible c s.data s.hps) :
    ∃ o, build c s.data eu s.width s.hps = .ok o ∧ Good c eu s o := by
  obtain ⟨gp, hgp, hc, rfl, hd, hh⟩ := init_ok c s.data s.hps he adm
  refine ⟨⟨gp.cfg, ⟨s.data, eu, s.width, false, none, none, none, none, none, none, s.data.x.length⟩, s.hps,
    s.data.x.length, gp.m, s.data.x.length, gp.K, gp.V, gp.kv⟩, by simp only [build, hgp, bind, Except.bind], ?_⟩
  refine ⟨rfl, rfl, rfl, rfl, rfl, rfl, rfl, rfl, rfl, len, ?_, adm⟩
  simp only [Obj.toGP]
  rw [← hd, ← hh]
  exact hc

theorem setHyperparameters_good (c : Config α H) (he : SpluContract c.ext) (eu : Bool) (s : Spec α H) (o : Obj α H)
    (g : Good c eu s o) (h : H) (ha : Admissible c s.data h) :
    ∃ o', setHyperparameters o h = (o', .ok ()) ∧ Good c eu { s with hps := h } o' := by
  unfold setHyperparameters
  refine refresh_good c he eu { s with hps := h } _ false g.cfg g.eu g.data g.width rfl g.nan g.count ?_ ?_ g.len ha
    ?_ ?_ ?_ ?_ (by simp)
  · simp only [updateNoise, recomputePrior]; rw [g.data]
  · simp only [updateNoise, recomputePrior]; rw [g.data]
  · simp only [updateNoise, recomputePrior]; rw [g.data, g.cfg]
  · simp only [updateNoise, recomputePrior]; rw [g.data, g.cfg]; exact toMat_gram _ _
  · simp only [updateNoise, recomputePrior]; rw [g.data, g.cfg]
  · simp only [updateNoise, recomputePrior]
    have := g.con.mode_eq
    simp only [Obj.toGP] at this
    rw [this, g.cfg]

/-- A fitting update is carried out on the data as specified. -/
theorem updateData_ok (eu : Bool) (s : Spec α H) (d : DataObj α) (u : Update α) (heu : d.euclidean = eu)
    (hd : d.cur = s.data) (hw : d.width = s.width) (hnan : d.nan = false) (hf : u.Fits eu s) :
    ∃ d', updateData d u = (d', .ok ()) ∧ d'.euclidean = eu ∧ d'.cur = specData s.data u ∧
      d'.width = (if u.append then s.width else u.width) ∧
      d'.nan = false ∧ d'.pointNumber = (specData s.data u).x.length ∧
      (u.append = true → d'.xOld = some s.data.x ∧ d'.xNew = some u.x) := by
  have hn := hf.noise
  rw [← hd] at hn
  have key : ∀ e : DataObj α, e.nan = false → checkNaN e = .ok () := by
    intro e he
    simp [checkNaN, he]
  unfold updateData
  rw [if_neg (by rw [← hn]; cases u.noise <;> simp), if_neg (by
    cases h1 : u.noise <;> cases h2 : d.cur.noiseVar <;> simp [h1, h2] at hn ⊢)]
  by_cases ha : u.append = false
  · rw [if_pos ha]
    simp only
    rw [key _ (by exact hf.noNaN)]
    refine ⟨_, rfl, heu, ?_, ?_, hf.noNaN, ?_, by simp [ha]⟩ <;> simp [specData, ha]
  · rw [if_neg ha]
    have ha' : u.append = true := by simpa using ha
    have hw' := hf.width ha'
    have hc := hf.cols ha'
    simp only
    rw [if_neg (by
      cases eu <;> simp [heu]
      rw [hw, hw' rfl]), if_neg (by rw [hd, hc]; simp)]
    cases hu : u.noise with
    | none =>
      have h0 : d.cur.noiseVar = none := by
        rw [hu] at hn; cases h2 : d.cur.noiseVar with
        | none => rfl
        | some a => rw [h2] at hn; simp at hn
      simp only
      rw [key _ (by simp [hnan, hf.noNaN])]
      refine ⟨_, rfl, heu, ?_, by simp [hw, ha'], by simp [hnan, hf.noNaN], ?_, ?_⟩
      · simp [specData, ha', ← hd, hu, h0]
      · simp [specData, ha', ← hd]
      · simp [← hd]
    | some v =>
      obtain ⟨w, h0⟩ : ∃ w, d.cur.noiseVar = some w := by
        rw [hu] at hn; cases h2 : d.cur.noiseVar with
        | none => rw [h2] at hn; simp at hn
        | some a => exact ⟨a, rfl⟩
      simp only
      rw [key _ (by simp [hnan, hf.noNaN])]
      refine ⟨_, rfl, heu, ?_, by simp [hw, ha'], by simp [hnan, hf.noNaN], ?_, ?_⟩
      · simp [specData, ha', ← hd, hu, h0]
      · simp [specData, ha', ← hd]
      · simp [← hd]

theorem evalAt_append (f : α → ℝ) (xs ys : List α) :
    (fun i => if i < xs.length then evalAt f xs i else evalAt f ys (i - xs.length)) = evalAt f (xs ++ ys) := by
  funext i
  simp only [evalAt]
  by_cases h : i < xs.length
  · rw [if_pos h, List.getElem?_append_left h]
  · rw [if_neg h, List.getElem?_append_right (by omega)]

theorem gram_border {k : α → α → ℝ} (hk : ∀ a b, k a b = k b a) (xs ys : List α) (K : NMat)
    (hK : toMat xs.length K = Kmat k xs xs) :
    toMat (xs ++ ys).length (fun i j =>
      if i < xs.length then (if j < xs.length then K i j else gram k xs ys i (j - xs.length))
      else (if j < xs.length then gram k xs ys j (i - xs.length) else gram k ys ys (i - xs.length) (j - xs.length)))
      = Kmat k (xs ++ ys) (xs ++ ys) := by
  ext i j
  have hi := i.2
  have hj := j.2
  simp only [List.length_append] at hi hj
  simp only [toMat, Kmat, Matrix.of_apply, Fin.getElem_fin]
  by_cases h1 : (i : ℕ) < xs.length <;> by_cases h2 : (j : ℕ) < xs.length
  · rw [if_pos h1, if_pos h2, List.getElem_append_left h1, List.getElem_append_left h2]
    exact congrFun (congrFun hK ⟨i, h1⟩) ⟨j, h2⟩
  · rw [if_pos h1, if_neg h2, List.getElem_append_left h1, List.getElem_append_right (by omega)]
    exact gram_apply k xs ys ⟨i, h1⟩ ⟨j - xs.length, by omega⟩
  · rw [if_neg h1, if_pos h2, List.getElem_append_right (by omega), List.getElem_append_left h2, hk]
    exact gram_apply k xs ys ⟨j, h2⟩ ⟨i - xs.length, by omega⟩
  · rw [if_neg h1, if_neg h2, List.getElem_append_right (by omega), List.getElem_append_right (by omega)]
    exact gram_apply k ys ys ⟨i - xs.length, by omega⟩ ⟨j - xs.length, by omega⟩

/-- A representation of the old matrix represents the leading block of the new one when the noise of the old points is
kept. -/
theorem represents_grown (c : Config α H) (d d' : Data α) (h : H) (zs : List α) (hx : d'.x = d.x ++ zs)
    (hn : NoiseKept c d d' h) (f : Factor) (hs : f.size = d.x.length) (KV KV' : NMat) (hr : f.Represents KV)
    (hKV : toMat d.x.length KV = KVmat c d h) (hKV' : toMat d'.x.length KV' = KVmat c d' h) : f.Represents KV' := by
  refine hr.congr ?_
  rw [hs, hKV]
  have hl : d.x.length ≤ d'.x.length := by rw [hx]; simp
  ext i j
  have h1 := congrFun (congrFun hKV' ⟨i, lt_of_lt_of_le i.2 hl⟩) ⟨j, lt_of_lt_of_le j.2 hl⟩
  have h2 := congrFun (congrFun hn i) j
  simp only [toMat, Matrix.of_apply] at h1 ⊢
  rw [h1, KVmat, KVmat, Matrix.add_apply, Matrix.add_apply, ← h2]
  congr 1
  · simp [Kmat, hx]
  · cases calcV c d' h d'.x with
    | diag l v =>
      simp only [Noise.mat, Matrix.diagonal_apply, Fin.ext_iff]
    | dense r c V => simp [Noise.mat]
    | sparse r c V => simp [Noise.mat]

/-- Up to the factorisation: the object handed to `_refresh` by a fitting update. -/
theorem updateGpData_prepare (c : Config α H) (hsym : ∀ h a b, c.kernel h a b = c.kernel h b a)
    (eu : Bool) (s : Spec α H) (o : Obj α H) (g : Good c eu s o) (u : Update α) (hfit : u.Fits eu s) :
    ∃ p : Obj α H, updateGpData o u = refresh p u.effective ∧ p.cfg = c ∧ p.data.euclidean = eu ∧
      p.data.cur = specData s.data u ∧ p.data.width = (s.step (.update u)).width ∧ p.hps = s.hps ∧
      p.data.nan = false ∧ p.data.pointNumber = (specData s.data u).x.length ∧
      p.mLen = (specData s.data u).x.length ∧ p.kSize = (specData s.data u).x.length ∧
      p.m = evalAt (meanFn c (specData s.data u) s.hps) (specData s.data u).x ∧
      toMat (specData s.data u).x.length p.K = Kmat (c.kernel s.hps) (specData s.data u).x (specData s.data u).x ∧
      p.V = calcV c (specData s.data u) s.hps (specData s.data u).x ∧ p.kv = o.kv := by
  obtain ⟨d', hd', heu, hcur, hw, hnan, hcount, hold⟩ := updateData_ok eu s o.data u g.eu g.data g.width g.nan hfit
  unfold updateGpData
  rw [if_neg (by simp [hfit.len]), hd']
  simp only
  by_cases ha : u.append = true
  · obtain ⟨ho, hn⟩ := hold ha
    have hx : (specData s.data u).x = s.data.x ++ u.x := by simp [specData, ha]
    have hmm := g.con.m_eq
    simp only [Obj.toGP] at hmm
    rw [g.data, g.cfg, g.hps] at hmm
    have hKK := g.con.K_eq
    simp only [Obj.toGP] at hKK
    rw [g.data, g.cfg, g.hps] at hKK
    rw [if_pos ha]
    simp only [augmentPrior]
    rw [ho, hn, if_neg (by simp [g.kSize])]
    simp only [Option.getD_some]
    refine ⟨_, rfl, g.cfg, heu, hcur, hw, g.hps, hnan, hcount, ?_, ?_, ?_, ?_, ?_, rfl⟩
    · simp only [updateNoise]
      cases hmean : o.cfg.mean with
      | none => simp only [hcur]
      | some f => simp only [g.mLen]; simp [hx]
    · simp only [updateNoise, g.kSize, hx]; simp
    · simp only [updateNoise]
      rw [← g.cfg, ← g.hps] at hmm ⊢
      cases hmean : o.cfg.mean with
      | none => simp only [hcur]
      | some f =>
        simp only [g.mLen]
        have e : ∀ d, meanFn o.cfg d o.hps = f o.hps := by intro d; funext a; simp [meanFn, hmean]
        rw [e] at hmm ⊢
        rw [hmm, hx]
        exact evalAt_append _ _ _
    · simp only [updateNoise, g.kSize]
      have := gram_border (hsym s.hps) s.data.x u.x o.K hKK
      rw [← hx] at this
      rw [g.cfg, g.hps]
      exact this
    · simp only [updateNoise, hcur, g.cfg, g.hps]
  · rw [if_neg ha]
    refine ⟨_, rfl, g.cfg, heu, hcur, hw, g.hps, hnan, hcount, ?_, ?_, ?_, ?_, ?_, rfl⟩
    · simp only [updateNoise, recomputePrior, hcur]
    · simp only [updateNoise, recomputePrior, hcur]
    · simp only [updateNoise, recomputePrior, hcur, g.cfg, g.hps]
    · simp only [updateNoise, recomputePrior, hcur, g.cfg, g.hps]; exact toMat_gram _ _
    · simp only [updateNoise, recomputePrior, hcur, g.cfg, g.hps]

theorem updateGpData_good (c : Config α H) (he : SpluContract c.ext) (hsym : ∀ h a b, c.kernel h a b = c.kernel h b a)
    (eu : Bool) (s : Spec α H) (o : Obj α H) (g : Good c eu s o) (u : Update α) (hu : Legal c eu s (.update u)) :
    ∃ o', updateGpData o u = (o', .ok ()) ∧ Good c eu (s.step (.update u)) o' := by
  obtain ⟨hfit, hadm, hnoise⟩ := hu
  obtain ⟨p, hp, h1, h2, h3, h4, h5, h6, h7, h8, h9, h10, h11, h12, h13⟩ :=
    updateGpData_prepare c hsym eu s o g u hfit
  have hmode : o.kv.factor.mode = c.mode := by
    have := g.con.mode_eq
    simp only [Obj.toGP] at this
    rw [this, g.cfg]
  have hlen : (specData s.data u).y.length = (specData s.data u).x.length := by
    unfold specData
    split <;> simp [hfit.len, g.len]
  rw [hp]
  refine refresh_good c he eu (s.step (.update u)) p _ h1 h2 h3 h4 h5 h6 h7 h8 h9 hlen hadm h10 h11 h12
    (by rw [h13]; exact hmode) ?_
  intro heff
  have ha : u.append = true := by
    by_contra h
    have : u.append = false := by simpa using h
    simp [Update.effective, this] at heff
  have hrn : u.rankN ≠ some false := by
    intro h
    simp [Update.effective, h] at heff
  rcases hnoise ha hrn with h | h
  · exact Or.inl h
  · refine Or.inr fun KV' hKV' _ => ?_
    obtain ⟨KV, hr, hKV⟩ := g.con.repr
    simp only [Obj.toGP] at hr hKV
    rw [g.data, g.cfg, g.hps] at hKV
    have hsz := g.con.size_eq
    simp only [Obj.toGP] at hsz
    rw [g.data] at hsz
    rw [h13]
    exact represents_grown c s.data (specData s.data u) s.hps u.x (by simp [specData, ha]) h _ hsz KV KV' hr hKV hKV'

theorem run_good (c : Config α H) (he : SpluContract c.ext) (hsym : ∀ h a b, c.kernel h a b = c.kernel h b a)
    (eu : Bool) (ops : List (Op α H)) : ∀ (s : Spec α H) (o : Obj α H), Good c eu s o → LegalRun c eu s ops →
    ∃ o', run o ops = (o', .ok ()) ∧ Good c eu (ops.foldl Spec.step s) o' := by
  induction ops with
  | nil => intro s o g _; exact ⟨o, rfl, g⟩
  | cons op ops ih =>
    intro s o g hl
    have : ∃ o', apply o op = (o', .ok ()) ∧ Good c eu (s.step op) o' := by
      cases op with
      | setHps h => exact setHyperparameters_good c he eu s o g h hl.1
      | update u => exact updateGpData_good c he hsym eu s o g u hl.1
    obtain ⟨o', ho', g'⟩ := this
    obtain ⟨o'', ho'', g''⟩ := ih _ o' g' hl.2
    exact ⟨o'', by simp only [run, ho']; exact ho'', g''⟩

theorem sameFactor_of {f f' : Factor} {A A' : NMat} {n : ℕ} (hs : f.size = n) (hs' : f'.size = n) (hm : f.mode = f'.mode)
    (hr : f.Represents A) (hr' : f'.Represents A') (hA : toMat n A = toMat n A') : SameFactor f f' := by
  have low : ∀ F F', IsFactor n F A → IsFactor n F' A' → ∀ i < n, ∀ j ≤ i, F i j = F' i j := by
    intro F F' h h'
    exact C11_factor_unique n F F' A' (GP.IsFactor.congr h hA) h'
  have ent : ∀ X Y : NMat, toMat n X = toMat n Y → ∀ i < n, ∀ j < n, X i j = Y i j := by
    intro X Y h i hi j hj
    exact congrFun (congrFun h ⟨i, hi⟩) ⟨j, hj⟩
  cases f <;> cases f' <;> simp only [Factor.mode, reduceCtorEq] at hm <;> simp only [Factor.size] at hs hs' <;>
    subst hs <;> subst hs'
  · exact ⟨rfl, low _ _ hr hr'⟩
  · exact ⟨rfl, low _ _ hr.1 hr'.1, ent _ _ (hr.2.trans ((congrArg _ hA).trans hr'.2.symm))⟩
  · exact ⟨rfl, ent _ _ (hr.1.trans (hA.trans hr'.1.symm)), ent _ _ (hr.2.trans ((congrArg _ hA).trans hr'.2.symm))⟩
  · rfl
  · exact ⟨rfl, ent _ _ (Eq.trans hr (hA.trans (Eq.symm hr')))⟩

theorem good_logdet {c : Config α H} {eu : Bool} {s : Spec α H} {o : Obj α H} (g : Good c eu s o)
    (hm : c.mode ≠ .sparseSolve) : o.kv.logdetKV = Real.log (KVmat c s.data s.hps).det := by
  obtain ⟨KV, hr, hKV⟩ := g.con.repr
  have hsz := g.con.size_eq
  have hl := g.con.logdet_eq
  have hmo := g.con.mode_eq
  simp only [Obj.toGP] at hr hKV hsz hl hmo
  rw [g.data, g.cfg, g.hps] at hKV
  rw [g.data] at hsz
  rw [g.cfg] at hmo
  rw [hl, ← hKV, ← hsz]
  exact GP.logdet_eq _ hr (by rw [hsz, hKV]; exact g.adm.posDef) (by rw [hmo]; exact hm)

theorem good_same {c : Config α H} {eu : Bool} {s : Spec α H} {o o' : Obj α H} (g : Good c eu s o)
    (g' : Good c eu s o') : Same o o' := by
  have eq3 : ∀ {o : Obj α H}, Good c eu s o → o.toGP.cfg = c ∧ o.toGP.data = s.data ∧ o.toGP.hps = s.hps :=
    fun g => ⟨g.cfg, g.data, g.hps⟩
  obtain ⟨c1, d1, h1⟩ := eq3 g
  obtain ⟨c2, d2, h2⟩ := eq3 g'
  have pd1 : (KVmat o.toGP.cfg o.toGP.data o.toGP.hps).PosDef := by rw [c1, d1, h1]; exact g.adm.posDef
  have pd2 : (KVmat o'.toGP.cfg o'.toGP.data o'.toGP.hps).PosDef := by rw [c2, d2, h2]; exact g.adm.posDef
  have hm : o.m = o'.m := by
    have e1 := g.con.m_eq
    have e2 := g'.con.m_eq
    rw [c1, d1, h1] at e1
    rw [c2, d2, h2] at e2
    exact e1.trans e2.symm
  have hsolve : ∀ b, ∀ i < o.data.cur.x.length, solve o.kv.factor b i = solve o'.kv.factor b i := by
    intro b i hi
    obtain ⟨KV, hr, hKV⟩ := g.con.repr
    obtain ⟨KV', hr', hKV'⟩ := g'.con.repr
    have hsz := g.con.size_eq
    have hsz' := g'.con.size_eq
    rw [c1, d1, h1] at hKV
    rw [c2, d2, h2] at hKV'
    rw [d1] at hsz
    rw [d2] at hsz'
    rw [g.data] at hi
    have e1 := solve_factor hsz hr (by rw [hKV]; exact g.adm.posDef) b ⟨i, hi⟩
    have e2 := solve_factor hsz' hr' (by rw [hKV']; exact g.adm.posDef) b ⟨i, hi⟩
    rw [hKV] at e1
    rw [hKV'] at e2
    exact e1.trans e2.symm
  refine ⟨g.data.trans g'.data.symm, g.count.trans g'.count.symm, g.hps.trans g'.hps.symm, g.mLen.trans g'.mLen.symm,
    fun i _ => by rw [hm], g.kSize.trans g'.kSize.symm, ?_, ?_, ?_, hsolve, ?_, ?_, ?_, ?_⟩
  · intro i hi j hj
    have e1 := g.con.K_eq
    have e2 := g'.con.K_eq
    rw [c1, d1, h1] at e1
    rw [c2, d2, h2] at e2
    rw [g.data] at hi hj
    exact congrFun (congrFun (e1.trans e2.symm) ⟨i, hi⟩) ⟨j, hj⟩
  · have e1 := g.con.V_eq
    have e2 := g'.con.V_eq
    rw [c1, d1, h1] at e1
    rw [c2, d2, h2] at e2
    exact e1.trans e2.symm
  · obtain ⟨KV, hr, hKV⟩ := g.con.repr
    obtain ⟨KV', hr', hKV'⟩ := g'.con.repr
    have hsz := g.con.size_eq
    have hsz' := g'.con.size_eq
    have hmo := g.con.mode_eq
    have hmo' := g'.con.mode_eq
    rw [c1, d1, h1] at hKV
    rw [c2, d2, h2] at hKV'
    rw [d1] at hsz
    rw [d2] at hsz'
    rw [c1] at hmo
    rw [c2] at hmo'
    exact sameFactor_of hsz hsz' (hmo.trans hmo'.symm) hr hr' (hKV.trans hKV'.symm)
  · intro i hi j
    have e1 := g.con.kvinvY_eq
    have e2 := g'.con.kvinvY_eq
    simp only [Obj.toGP] at e1 e2
    rw [e1, e2, g.data, g'.data, hm]
    simp only [solveY]
    exact hsolve _ i hi
  · intro hmode
    rw [g.cfg] at hmode
    rw [good_logdet g hmode, good_logdet g' hmode]
  · intro xs i hi j
    have e1 := consistent_mean g.con pd1 xs ⟨i, hi⟩ j
    have e2 := consistent_mean g'.con pd2 xs ⟨i, hi⟩ j
    rw [c1, d1, h1] at e1
    rw [c2, d2, h2] at e2
    exact e1.trans e2.symm
  · intro xs vo chunk junk chunk' junk'
    obtain ⟨v, S, hvS, hv, hS, -⟩ := posteriorCovariance_eq g.con pd1 xs vo chunk junk
    obtain ⟨v', S', hvS', hv', hS', -⟩ := posteriorCovariance_eq g'.con pd2 xs vo chunk' junk'
    rw [c1, d1, h1] at hv hS
    rw [c2, d2, h2] at hv' hS'
    refine ⟨v, v', S, S', hvS, hvS', fun i hi => (hv ⟨i, hi⟩).trans (hv' ⟨i, hi⟩).symm, fun h => ?_⟩
    obtain ⟨T, hT, hTe⟩ := hS h
    obtain ⟨T', hT', hTe'⟩ := hS' h
    exact ⟨T, T', hT, hT', fun i hi j hj => (hTe ⟨i, hi⟩ ⟨j, hj⟩).trans (hTe' ⟨i, hi⟩ ⟨j, hj⟩).symm⟩

/-! ## Theorems -/

/-- C40: after any sequence of hyperparameter changes, appends and overwrites every observable equals that of a GP
freshly built from the current data and hyperparameters — provided the noise of the old points does not change when an
append is done with a rank-n update (see the violated theorem), and the log-determinant estimate of mode `sparseSolve`
(stochastic) excepted. -/
theorem C40_history_independent_partial (c : Config α H) (he : SpluContract c.ext)
    (hsym : ∀ h a b, c.kernel h a b = c.kernel h b a) (eu : Bool) (s : Spec α H)
    (hlen : s.data.y.length = s.data.x.length) (hadm : Admissible c s.data s.hps) (ops : List (Op α H))
    (hops : LegalRun c eu s ops) :
    ∃ o o' f, build c s.data eu s.width s.hps = .ok o ∧ run o ops = (o', .ok ()) ∧
      build c (ops.foldl Spec.step s).data eu (ops.foldl Spec.step s).width (ops.foldl Spec.step s).hps = .ok f ∧
      Same o' f := by
  obtain ⟨o, ho, g⟩ := build_good c he eu s hlen hadm
  obtain ⟨o', ho', g'⟩ := run_good c he hsym eu ops s o g hops
  obtain ⟨f, hf, gf⟩ := build_good c he eu _ g'.len g'.adm
  exact ⟨o, o', f, ho, ho', hf, good_same g' gf⟩

/-- C40: two histories that end with the same data and hyperparameters end in the same model. -/
theorem C40_two_histories_partial (c : Config α H) (he : SpluContract c.ext)
    (hsym : ∀ h a b, c.kernel h a b = c.kernel h b a) (eu : Bool) (s t : Spec α H)
    (hs : s.data.y.length = s.data.x.length) (ht : t.data.y.length = t.data.x.length)
    (has : Admissible c s.data s.hps) (hat : Admissible c t.data t.hps) (ops ops' : List (Op α H))
    (hops : LegalRun c eu s ops) (hops' : LegalRun c eu t ops')
    (hend : ops.foldl Spec.step s = ops'.foldl Spec.step t) :
    ∃ o p o' p', build c s.data eu s.width s.hps = .ok o ∧ build c t.data eu t.width t.hps = .ok p ∧
      run o ops = (o', .ok ()) ∧ run p ops' = (p', .ok ()) ∧ Same o' p' := by
  obtain ⟨o, ho, g⟩ := build_good c he eu s hs has
  obtain ⟨p, hp, k⟩ := build_good c he eu t ht hat
  obtain ⟨o', ho', g'⟩ := run_good c he hsym eu ops s o g hops
  obtain ⟨p', hp', k'⟩ := run_good c he hsym eu ops' t p k hops'
  rw [hend] at g'
  exact ⟨o, p, o', p', ho, hp, ho', hp', good_same g' k'⟩

/-- C40: measured noise variances of the right number satisfy the condition on rank-n updates. -/
theorem C40_measured_noise_kept (c : Config α H) (hc : c.noise = .measured) (d : Data α) (u : Update α) (h : H)
    (ha : u.append = true) (v w : List ℝ) (hv : d.noiseVar = some v) (hw : u.noise = some w)
    (hlv : v.length = d.x.length) (hlw : w.length = u.x.length) : NoiseKept c d (specData d u) h := by
  unfold NoiseKept
  simp only [calcV, hc, specData, ha, if_true, hv, hw, Option.getD_some, List.length_append, hlv, hlw, Noise.mat]
  ext i j
  simp only [Matrix.diagonal_apply]
  split
  · have : (i : ℕ) < v.length := by rw [hlv]; exact i.2
    simp [List.getD_eq_getElem?_getD, List.getElem?_append_left this]
  · rfl

/-- C40: so does a noise function that assigns each point its own variance. -/
theorem C40_pointwise_noise_kept (c : Config α H) (σ : H → α → ℝ)
    (hc : c.noise = .user fun h xs => .diag xs.length (evalAt (σ h) xs)) (d : Data α) (u : Update α) (h : H)
    (ha : u.append = true) : NoiseKept c d (specData d u) h := by
  unfold NoiseKept
  simp only [calcV, hc, specData, ha, if_true, Noise.mat]
  ext i j
  simp only [Matrix.diagonal_apply]
  split
  · simp [evalAt, List.getElem?_append_left i.2]
  · rfl

/-! ### An example run -/

/-- Positive measured noise of the right number makes a model with a positive semidefinite kernel admissible. -/
theorem measured_admissible (c : Config α H) (hc : c.noise = .measured) (d : Data α) (h : H)
    (hk : IsPSDKernel (c.kernel h)) (v : List ℝ) (hv : d.noiseVar = some v) (hl : v.length = d.x.length)
    (hpos : ∀ x ∈ v, 0 < x) : Admissible c d h := by
  have e : calcV c d h d.x = .diag v.length fun i => v.getD i 0 := by simp [calcV, hc, hv, hl]
  refine ⟨by rw [e]; exact hl, KVmat_posDef hk ?_⟩
  rw [e]
  refine Matrix.PosDef.diagonal fun i => ?_
  have hi : (i : ℕ) < v.length := by rw [hl]; exact i.2
  simp only [List.getD_eq_getElem?_getD, List.getElem?_eq_getElem hi, Option.getD_some]
  exact hpos _ (List.getElem_mem hi)

/-- Append one point, change the hyperparameter, overwrite with two points, append another. -/
noncomputable def exOps : List (Op ℝ ℝ) :=
  [.update ⟨[3], 1, [[0]], 1, some [2], false, true, none⟩,
   .setHps 5,
   .update ⟨[7, 8], 1, [[1], [2]], 1, some [1, 1], false, false, none⟩,
   .update ⟨[7], 1, [[3]], 1, some [1 / 3], false, true, some true⟩]

theorem exOps_legal (mode : Mode) : LegalRun (exCfg mode) true ⟨exData, 1, 2⟩ exOps := by
  refine ⟨⟨⟨rfl, rfl, rfl, fun _ => rfl, fun _ _ => rfl⟩, ?_, fun _ _ => Or.inr ?_⟩, ?_,
    ⟨⟨rfl, rfl, rfl, fun _ => rfl, fun _ _ => rfl⟩, ?_, fun h => by simp at h⟩,
    ⟨⟨rfl, rfl, rfl, fun _ => rfl, fun _ _ => rfl⟩, ?_, fun _ _ => Or.inr ?_⟩, trivial⟩
  · exact measured_admissible _ rfl _ _ (exKernel_psd _) [1, 1 / 2, 1, 2] rfl rfl (by simp)
  · exact C40_measured_noise_kept _ rfl _ _ _ rfl [1, 1 / 2, 1] [2] rfl rfl rfl rfl
  · exact measured_admissible _ rfl _ _ (exKernel_psd _) [1, 1 / 2, 1, 2] rfl rfl (by simp)
  · exact measured_admissible _ rfl _ _ (exKernel_psd _) [1, 1] rfl rfl (by simp)
  · exact measured_admissible _ rfl _ _ (exKernel_psd _) [1, 1, 1 / 3] rfl rfl (by simp)
  · exact C40_measured_noise_kept _ rfl _ _ _ rfl [1, 1] [1 / 3] rfl rfl rfl rfl

example (mode : Mode) : ∃ o o' f, build (exCfg mode) exData true 1 2 = .ok o ∧ run o exOps = (o', .ok ()) ∧
    build (exCfg mode) ⟨[7, 8, 7], [[1], [2], [3]], 1, some [1, 1, 1 / 3]⟩ true 1 5 = .ok f ∧ Same o' f :=
  C40_history_independent_partial (exCfg mode) cholExt_contract (fun h a b => (exKernel_psd h).1 a b) true ⟨exData, 1, 2⟩
    rfl (exAdmissible mode 2) exOps (exOps_legal mode)

/-! ### The default noise -/

/-- A white-noise kernel with the default noise. -/
noncomputable def dCfg : Config ℕ ℝ where
  kernel h a b := if a = b then h else 0
  mean := some fun _ _ => 0
  noise := .default
  mode := .chol
  sparseK := false
  ext := cholExt

/-- One value. -/
noncomputable def dData : Data ℕ := ⟨[0], [[100]], 1, none⟩

/-- One value is appended, all arguments at their defaults. -/
noncomputable def dUp : Update ℕ := ⟨[1], 1, [[0]], 1, none, false, true, none⟩

theorem dKV (d : Data ℕ) (σ : ℝ) (hσ : (d.yAbsMean / 100) ^ 2 = σ) (hx : d.x.Nodup) :
    KVmat dCfg d 1 = Matrix.diagonal fun _ => 1 + σ := by
  ext i j
  simp only [KVmat, Kmat, calcV, dCfg, Noise.mat, Matrix.add_apply, Matrix.of_apply, Matrix.diagonal_apply, hσ,
    Fin.getElem_fin]
  by_cases h : i = j
  · subst h; simp
  · have : d.x[(i : ℕ)] ≠ d.x[(j : ℕ)] := by
      intro e
      exact h (Fin.ext ((List.Nodup.getElem_inj_iff hx).1 e))
    simp [h, this]

theorem dAdm (d : Data ℕ) (σ : ℝ) (hσ : (d.yAbsMean / 100) ^ 2 = σ) (hx : d.x.Nodup) : Admissible dCfg d 1 := by
  refine ⟨rfl, ?_⟩
  rw [dKV d σ hσ hx]
  refine Matrix.PosDef.diagonal fun i => ?_
  have : 0 ≤ σ := by rw [← hσ]; positivity
  positivity

/-- C40 is violated by the default noise: it is recomputed from all values, but the rank-n update that `append` uses by
default keeps the factorisation of the old points made with the old noise. Appending one value leaves the
log-determinant (and with it the likelihood and every prediction) different from that of a fresh GP on the same data. -/
theorem C40_default_noise_violated :
    ∃ o o' f, build dCfg dData true 1 1 = .ok o ∧ updateGpData o dUp = (o', .ok ()) ∧
      build dCfg (specData dData dUp) true 1 1 = .ok f ∧ o'.data.cur = f.data.cur ∧ o'.V = f.V ∧
      o'.kv.logdetKV = Real.log (5 / 2) ∧ f.kv.logdetKV = Real.log (25 / 16) ∧ o'.kv.logdetKV ≠ f.kv.logdetKV := by
  have hs1 : (dData.yAbsMean / 100) ^ 2 = 1 := by norm_num [Data.yAbsMean, dData]
  have hs2 : ((specData dData dUp).yAbsMean / 100) ^ 2 = 1 / 4 := by norm_num [Data.yAbsMean, dData, specData, dUp]
  have hx2 : (specData dData dUp).x.Nodup := by simp [specData, dData, dUp]
  have a1 := dAdm dData 1 hs1 (by simp [dData])
  have a2 := dAdm (specData dData dUp) _ hs2 hx2
  obtain ⟨o, ho, g⟩ := build_good dCfg cholExt_contract true ⟨dData, 1, 1⟩ rfl a1
  obtain ⟨f, hf, gf⟩ := build_good dCfg cholExt_contract true ⟨specData dData dUp, 1, 1⟩ rfl a2
  have hsym : ∀ h a b, dCfg.kernel h a b = dCfg.kernel h b a := by
    intro h a b
    simp only [dCfg, eq_comm]
  obtain ⟨p, hp, h1, h2, h3, h4, h5, h6, h7, h8, h9, h10, h11, h12, h13⟩ :=
    updateGpData_prepare dCfg hsym true ⟨dData, 1, 1⟩ o g dUp ⟨rfl, rfl, rfl, fun _ => rfl, fun _ _ => rfl⟩
  obtain ⟨KV, hr, hKV⟩ := g.con.repr
  have hsz := g.con.size_eq
  have hmo := g.con.mode_eq
  simp only [Obj.toGP] at hr hKV hsz hmo
  rw [g.data, g.cfg, g.hps, dKV dData 1 hs1 (by simp [dData])] at hKV
  rw [g.data] at hsz
  rw [g.cfg] at hmo
  have hKV0 : KV 0 0 = 2 := by
    have := congrFun (congrFun hKV ⟨0, by decide⟩) ⟨0, by decide⟩
    simp [toMat] at this
    rw [this]; norm_num
  obtain ⟨F, hF⟩ : ∃ F, o.kv.factor = .chol 1 F := by
    cases hfac : o.kv.factor with
    | chol n F =>
      rw [hfac] at hsz
      have : n = 1 := hsz
      exact ⟨F, by rw [this]⟩
    | cholInv n F I => rw [hfac] at hmo; simp [Factor.mode, dCfg] at hmo
    | inv n F I => rw [hfac] at hmo; simp [Factor.mode, dCfg] at hmo
    | lu n F => rw [hfac] at hmo; simp [Factor.mode, dCfg] at hmo
    | raw n F => rw [hfac] at hmo; simp [Factor.mode, dCfg] at hmo
  rw [hF] at hr
  obtain ⟨KV', hKV', hmat'⟩ := addKV_ok a2.fits p.K
  rw [h11] at hmat'
  change toMat 2 KV' = KVmat dCfg (specData dData dUp) 1 at hmat'
  rw [dKV _ _ hs2 hx2] at hmat'
  have hent : ∀ i j : Fin 2, KV' i j = if i = j then 5 / 4 else 0 := by
    intro i j
    have := congrFun (congrFun hmat' i) j
    refine Eq.trans this ?_
    refine (Matrix.diagonal_apply (n := Fin 2) (d := fun _ => (1 + 1 / 4 : ℝ)) (i := i) (j := j)).trans ?_
    norm_num
  -- what the stale factor together with the new row is a factorisation of
  let A : NMat := fun i j => if i = j then (if i = 0 then 2 else 5 / 4) else 0
  have hFA : IsFactor 1 F A := by
    refine GP.IsFactor.congr hr ?_
    ext i j
    have hi : i = 0 := Subsingleton.elim _ _
    have hj : j = 0 := Subsingleton.elim _ _
    subst hi hj
    simp [toMat, A, hKV0]
  have hApd : (toMat 2 A).PosDef := by
    have : toMat 2 A = Matrix.diagonal fun i : Fin 2 => if (i : ℕ) = 0 then (2 : ℝ) else 5 / 4 := by
      ext i j
      simp only [toMat, A, Matrix.of_apply, Matrix.diagonal_apply, Fin.ext_iff]
    rw [this]
    refine Matrix.PosDef.diagonal fun i => ?_
    split <;> norm_num
  obtain ⟨F', hF', hfac'⟩ := C11_update_gives_factor 1 2 F A (by omega) (by
    intro i _ j _
    simp only [A]
    by_cases h : i = j
    · subst h; rfl
    · simp [h, Ne.symm h]) hFA hApd
  have hup : updateChol 1 F 2 KV' = .ok F' := by
    rw [← hF']
    have e1 := hent 1 0
    have e2 := hent 1 1
    simp at e1 e2
    simp only [updateChol, rankN, bind, Except.bind, rank1]
    have hv : ∀ b b' : ℕ → ℝ, b 0 = b' 0 → ∑ i ∈ range 1, fsub F b i * fsub F b i = ∑ i ∈ range 1, fsub F b' i * fsub F b' i ∧
        fsub F b 0 = fsub F b' 0 := by
      intro b b' h
      have : fsub F b 0 = fsub F b' 0 := by rw [fsub, fsub, h]; simp
      simp [this]
    have := hv (fun j => if j < 1 then KV' (1 + 0) j else KV' (1 + (j - 1)) (1 + 0))
      (fun j => if j < 1 then A (1 + 0) j else A (1 + (j - 1)) (1 + 0)) (by simp [e1, A])
    have e3 : A 1 1 = KV' 1 1 := by simp [A, e2]
    simp only [Nat.add_zero] at this ⊢
    rw [this.1, e3]
    split
    · rfl
    · congr 1
      funext i j
      by_cases hj : j < 1
      · have : j = 0 := by omega
        subst this
        rw [this.2]
      · simp only [hj, if_false]
  have hrefresh : refresh p dUp.effective
      = ({ p with kv := ⟨.chol 2 F', solveY (.chol 2 F') p.data.cur.yMat p.m, cholLogdet 2 F'⟩ }, .ok ()) := by
    unfold refresh
    rw [h1, h9, h12, hKV']
    simp only [show dUp.effective = true from rfl, if_true, h13, hF, updateKV, bind, Except.bind]
    rw [if_neg (show ¬ (specData dData dUp).x.length ≤ 1 by decide), show (specData dData dUp).x.length = 2 from rfl, hup]
    simp only
    rw [if_neg (by rw [h3, h8]; simp [specData, dData, dUp])]
    rfl
  have hlog : cholLogdet 2 F' = Real.log (5 / 2) := by
    rw [C16_logdet_exact 2 F' A hfac']
    congr 1
    simp [toMat, A, Matrix.det_fin_two]
    norm_num
  have hlogf : f.kv.logdetKV = Real.log (25 / 16) := by
    rw [good_logdet gf (by simp [dCfg]), dKV _ _ hs2 hx2]
    congr 1
    refine (Matrix.det_diagonal (n := Fin 2) (d := fun _ => (1 + 1 / 4 : ℝ))).trans ?_
    simp
    norm_num
  refine ⟨o, { p with kv := ⟨.chol 2 F', solveY (.chol 2 F') p.data.cur.yMat p.m, cholLogdet 2 F'⟩ }, f, ho,
    by rw [hp]; exact hrefresh, hf, h3.trans gf.data.symm, ?_, hlog, hlogf, ?_⟩
  · have e2 := gf.con.V_eq
    simp only [Obj.toGP] at e2
    rw [gf.data, gf.cfg, gf.hps] at e2
    exact h12.trans e2.symm
  · simp only
    rw [hlog, hlogf]
    intro e
    have := Real.log_injOn_pos (by norm_num : (0:ℝ) < 5 / 2) (by norm_num : (0:ℝ) < 25 / 16) e
    norm_num at this

end Verif.State
