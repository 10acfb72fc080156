import Verif.GP.Model

/-!
Model of the mutable state of a `GP` object and of the operations that change it: `GPdata.update` (gp_data.py:70-116),
`GP.update_gp_data` (gp.py:689-749), `GP.set_hyperparameters` (gp.py:672-687), with the prior (gp_prior.py:158-183,
256-300), noise (gp_likelihood.py:85-87) and factorisation (gp_kv.py:393-423, 462-508) updates they trigger.

An operation returns the object it leaves behind together with its outcome, so the state after an exception can be
observed. Arrays carry their size. Exact real arithmetic, direct linear algebra modes; `NaN` contents are represented by
a flag. User callables do not raise. The gp2Scale variant of the covariance block update computes the same blocks
(C01-C04, C10) and is not distinguished from `np.block`.
-/

namespace Verif.State

open Verif.GP Verif.LinAlg

variable {α H : Type}

/-- The attributes of `GPdata` (gp_data.py:38-50). `width` is `x_data.shape[1]`, `nan` tells whether the arrays contain
a NaN. -/
structure DataObj (α : Type) where
  cur : Data α
  euclidean : Bool
  width : ℕ
  nan : Bool
  xOld : Option (List α)
  yOld : Option (List (List ℝ))
  noiseOld : Option (List ℝ)
  xNew : Option (List α)
  yNew : Option (List (List ℝ))
  noiseNew : Option (List ℝ)
  pointNumber : ℕ

/-- Arguments of `update_gp_data`. `y` has `cols` columns (a 1-d `y_new` has been reshaped to one), `width` is
`x_new.shape[1]`, `nan` tells whether `x_new` or `y_new` contain a NaN. -/
structure Update (α : Type) where
  x : List α
  width : ℕ
  y : List (List ℝ)
  cols : ℕ
  noise : Option (List ℝ)
  nan : Bool
  append : Bool
  rankN : Option Bool

/-- `_check_for_nan`, gp_data.py:120-122. -/
def checkNaN (d : DataObj α) : Except String Unit :=
  if d.euclidean && d.nan then .error "Exception: NaNs encountered in dataset." else .ok ()

/-- `GPdata.update(x_new, y_new, noise_variances_new, append)`, gp_data.py:70-116, statement by statement. `np.vstack`
raises when the numbers of columns differ. -/
def updateData (d : DataObj α) (u : Update α) : DataObj α × Except String Unit :=
  if d.cur.noiseVar.isSome && u.noise.isNone then
    (d, .error "Exception: Please provide noise_variances in the data update")
  else if d.cur.noiseVar.isNone && u.noise.isSome then
    (d, .error "Exception: You did not initialize noise but included noise in the update.")
  else if u.append = false then
    let d1 := { d with cur := ⟨u.x, u.y, u.cols, u.noise⟩, width := u.width, nan := u.nan,
                       xOld := none, yOld := none, noiseOld := none, xNew := none, yNew := none, noiseNew := none }
    let d2 := { d1 with pointNumber := d1.cur.x.length }
    (d2, checkNaN d2)
  else
    let d1 := { d with xOld := some d.cur.x, yOld := some d.cur.y, noiseOld := d.cur.noiseVar,
                       xNew := some u.x, yNew := some u.y, noiseNew := u.noise }
    if d1.euclidean && d1.width != u.width then (d1, .error "ValueError: vstack") else
    let d2 := { d1 with cur := { d1.cur with x := d1.cur.x ++ u.x }, nan := d1.nan || u.nan }
    if d2.cur.cols ≠ u.cols then (d2, .error "ValueError: vstack") else
    let d3 := { d2 with cur := { d2.cur with y := d2.cur.y ++ u.y } }
    let d4 := match u.noise with
      | some v => { d3 with cur := { d3.cur with noiseVar := d3.cur.noiseVar.map (· ++ v) } }
      | none => d3
    let d5 := { d4 with pointNumber := d4.cur.x.length }
    (d5, checkNaN d5)

/-- The mutable attributes of a GP. -/
structure Obj (α H : Type) where
  cfg : Config α H
  data : DataObj α
  hps : H
  mLen : ℕ
  m : ℕ → ℝ
  kSize : ℕ
  K : NMat
  V : Noise
  kv : KVState

/-- The object as seen by the prediction methods. -/
def Obj.toGP (o : Obj α H) : GP α H := ⟨o.cfg, o.data.cur, o.hps, o.m, o.K, o.V, o.kv⟩

/-- A freshly constructed object: `GP.__init__`, gp.py:480-566 with `GPdata.__init__`, gp_data.py:6-59. -/
noncomputable def build (c : Config α H) (d : Data α) (euclidean : Bool) (width : ℕ) (h : H) : Except String (Obj α H) := do
  let gp ← init c d h
  .ok { cfg := c
        data := ⟨d, euclidean, width, false, none, none, none, none, none, none, d.x.length⟩
        hps := h, mLen := d.x.length, m := gp.m, kSize := d.x.length, K := gp.K, V := gp.V, kv := gp.kv }

/-- `prior.update_state_data()` and `prior.update_state_hyperparameters()`, gp_prior.py:169-183. -/
noncomputable def recomputePrior (o : Obj α H) : Obj α H :=
  { o with mLen := o.data.cur.x.length, m := evalAt (meanFn o.cfg o.data.cur o.hps) o.data.cur.x
           kSize := o.data.cur.x.length, K := gram (o.cfg.kernel o.hps) o.data.cur.x o.data.cur.x }

/-- `prior.augment_state_data()`, gp_prior.py:158-167 with 256-300: the default mean is recomputed, a user mean is
extended; the covariance is bordered with `np.block`, which raises when the blocks do not fit. -/
noncomputable def augmentPrior (o : Obj α H) : Obj α H × Except String Unit :=
  let xOld := o.data.xOld.getD []
  let xNew := o.data.xNew.getD []
  let (mLen, m) := match o.cfg.mean with
    | none => (o.data.cur.x.length, evalAt (meanFn o.cfg o.data.cur o.hps) o.data.cur.x)
    | some f => (o.mLen + xNew.length, fun i => if i < o.mLen then o.m i else evalAt (f o.hps) xNew (i - o.mLen))
  let n := o.kSize
  let k := gram (o.cfg.kernel o.hps) xOld xNew
  let kk := gram (o.cfg.kernel o.hps) xNew xNew
  if n ≠ xOld.length then (o, .error "ValueError: all the input array dimensions must match")
  else
    ({ o with mLen := mLen, m := m, kSize := n + xNew.length
              K := fun i j =>
                if i < n then (if j < n then o.K i j else k i (j - n))
                else (if j < n then k j (i - n) else kk (i - n) (j - n)) }, .ok ())

/-- `likelihood.update_state()`, gp_likelihood.py:85-87. -/
noncomputable def updateNoise (o : Obj α H) : Obj α H :=
  { o with V := calcV o.cfg o.data.cur o.hps o.data.cur.x }

/-- What `set_KV`/`update_KV` leave behind when the factorisation fails: in mode `Inv` the matrix has already been
stored (gp_kv.py:435, 480), the other modes have assigned nothing. -/
def afterFailure (f : Factor) (N : ℕ) (KV : NMat) : Factor :=
  match f with
  | .inv _ _ I => .inv N KV I
  | f => f

/-- `kv._refresh(rank_n_update)`, gp_kv.py:404-423. -/
noncomputable def refresh (o : Obj α H) (rankN : Bool) : Obj α H × Except String Unit :=
  match addKV o.cfg.sparseK o.kSize o.kSize o.K o.V with
  | .error e => (o, .error e)
  | .ok KV =>
    match (if rankN then updateKV o.cfg.ext o.kv.factor o.kSize KV else setKV o.cfg.ext o.cfg.mode o.kSize KV) with
    | .error e => ({ o with kv := { o.kv with factor := afterFailure o.kv.factor o.kSize KV } }, .error e)
    | .ok f =>
      let o1 := { o with kv := { o.kv with factor := f } }
      if o.data.cur.y.length ≠ o.mLen then (o1, .error "ValueError: operands could not be broadcast together")
      else
        let o2 := { o1 with kv := { o1.kv with kvinvY := solveY f o.data.cur.yMat o.m } }
        ({ o2 with kv := { o2.kv with logdetKV := logdet o.cfg.ext f } }, .ok ())

/-- The effective `rank_n_update`, gp.py:732-737. -/
def Update.effective (u : Update α) : Bool :=
  let r := u.rankN.getD u.append
  if !u.append && r then false else r

/-- `GP.update_gp_data(x_new, y_new, noise_variances_new, append, rank_n_update)`, gp.py:727-749. -/
noncomputable def updateGpData (o : Obj α H) (u : Update α) : Obj α H × Except String Unit :=
  if u.x.length ≠ u.y.length then (o, .error "AssertionError: updated x and y do not have the same lengths.")
  else
    match updateData o.data u with
    | (d, .error e) => ({ o with data := d }, .error e)
    | (d, .ok ()) =>
      let o1 := { o with data := d }
      match (if u.append then augmentPrior o1 else (recomputePrior o1, .ok ())) with
      | (o2, .error e) => (o2, .error e)
      | (o2, .ok ()) => refresh (updateNoise o2) u.effective

/-- `GP.set_hyperparameters(hps)`, gp.py:672-687. -/
noncomputable def setHyperparameters (o : Obj α H) (h : H) : Obj α H × Except String Unit :=
  let o1 := { o with hps := h }
  let o2 := recomputePrior o1
  let o3 := updateNoise o2
  refresh o3 false

/-- The public operations that change the model. -/
inductive Op (α H : Type) where
  | setHps (h : H)
  | update (u : Update α)

/-- One operation. -/
noncomputable def apply (o : Obj α H) : Op α H → Obj α H × Except String Unit
  | .setHps h => setHyperparameters o h
  | .update u => updateGpData o u

/-- A sequence of operations, stopping at the first exception. -/
noncomputable def run (o : Obj α H) : List (Op α H) → Obj α H × Except String Unit
  | [] => (o, .ok ())
  | op :: ops =>
    match apply o op with
    | (o', .ok ()) => run o' ops
    | (o', .error e) => (o', .error e)

end Verif.State
