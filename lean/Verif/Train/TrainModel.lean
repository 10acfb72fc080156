import Verif.State.Props
import Verif.GP.LikModel

/-!
Model of the training driver: `GP.train` (gp.py:781-1168), `GPtraining.train` (gp_training.py:28-196),
`GPtraining.update_hyperparameters` (gp_training.py:508-544), `adam_optimize` (gp_training.py:577-667),
`_in_bounds` (gp_training.py:669-673) and `out_of_bounds` (gp.py:2274-2281).

Exact reals (no NaN). Progress messages, warnings and logging are left out. Optimizers of other libraries appear as
the vector they return.
-/

namespace Verif.Train

open Verif.GP Verif.State

/-! ### Start vectors -/

/-- A row of the bounds array: lower and upper bound. -/
abbrev Bounds := List (ℝ × ℝ)

/-- `out_of_bounds(x, bounds)`, gp.py:2274-2281: the loop over `range(len(x))` with early return; an index beyond the
bounds array raises. -/
noncomputable def outOfBounds : List ℝ → Bounds → Except String Bool
  | [], _ => .ok false
  | _ :: _, [] => .error "IndexError"
  | x :: xs, b :: bs => if x < b.1 ∨ x > b.2 then .ok true else outOfBounds xs bs

/-- `_in_bounds(v, bounds)`, gp_training.py:669-673, with numpy's broadcasting of `v` against the columns. -/
noncomputable def inBounds (v : List ℝ) (bounds : Bounds) : Except String Bool :=
  if v.length = bounds.length then .ok (decide (∀ p ∈ v.zip bounds, ¬ (p.1 < p.2.1 ∨ p.1 > p.2.2)))
  else if v.length = 1 then .ok (decide (∀ x ∈ v, ∀ b ∈ bounds, ¬ (x < b.1 ∨ x > b.2)))
  else if bounds.length = 1 then .ok (decide (∀ x ∈ v, ∀ b ∈ bounds, ¬ (x < b.1 ∨ x > b.2)))
  else .error "ValueError: operands could not be broadcast together"

/-- The choice of the start vector, gp.py:1024-1036: `init` is the argument, `current` the present hyperparameters,
`draw` what `np.random.uniform(low, high)` returns if it is called. -/
noncomputable def chooseStart (bounds : Bounds) (init : Option (List ℝ)) (current draw : List ℝ) :
    Except String (List ℝ) :=
  match init with
  | none => do
    if (← outOfBounds current bounds) then .ok draw else .ok current
  | some v => do
    if (← outOfBounds v bounds) then .ok draw else .ok v

/-- The check at the head of `GPtraining.train`, gp_training.py:54-55. -/
noncomputable def checkStart (bounds : Bounds) (start : List ℝ) : Except String (List ℝ) := do
  if (← inBounds start bounds) then .ok start
  else .error "Exception: Starting positions outside of optimization bounds."

/-- The start vector an optimizer gets from a synchronous `GP.train`. -/
noncomputable def trainStart (bounds : Bounds) (init : Option (List ℝ)) (current draw : List ℝ) :
    Except String (List ℝ) := do
  checkStart bounds (← chooseStart bounds init current draw)

/-! ### The acceptance guard -/

inductive Method where
  | global | localOpt | hgdl | mcmc | adam | bo | callable
deriving DecidableEq

/-- `guarded`, gp.py:1086-1087. -/
def guarded (accept asynchronous userObjective : Bool) (m : Method) : Bool :=
  accept && !asynchronous && !userObjective
    && (m = .callable || m = .localOpt || m = .hgdl || m = .adam)

variable {α H : Type}

/-- `_reject_if_not_improved`, gp.py:1144-1168. `variance` is `log_likelihood_variance()`. -/
noncomputable def rejectIfNotImproved (o : Obj α H) (variance : Option ℝ) (h incumbent : H) (llIncumbent : ℝ) :
    Obj α H × Except String H :=
  let llNew := logLikelihood o.toGP
  let tolerance := match variance with
    | none => 0
    | some v => 3 * Real.sqrt (2 * v)
  if llNew ≥ llIncumbent - tolerance then (o, .ok h)
  else
    match setHyperparameters o incumbent with
    | (o', .ok ()) => (o', .ok incumbent)
    | (o', .error e) => (o', .error e)

/-- The synchronous part of `GP.train`, gp.py:1086-1116: `result` is what the optimizer returns or raises. -/
noncomputable def trainSync (o : Obj α H) (isGuarded : Bool) (variance : Option ℝ) (result : Except String H) :
    Obj α H × Except String H :=
  let incumbent := o.hps
  let llIncumbent := logLikelihood o.toGP
  match result with
  | .error e => (o, .error e)
  | .ok h =>
    match setHyperparameters o h with
    | (o1, .error e) => (o1, .error e)
    | (o1, .ok ()) =>
      if isGuarded then rejectIfNotImproved o1 variance h incumbent llIncumbent else (o1, .ok h)

/-! ### Asynchronous results -/

/-- A value stored under `"x"` or `"median(x)"`. -/
inductive Entry where
  | vector (v : List ℝ)
  | other
deriving Inhabited

/-- A dictionary reported by an optimizer, as far as it is read. `size` is its number of entries. -/
structure Report where
  size : ℕ
  x : Option Entry
  medianX : Option Entry

/-- What `opt_obj.get_latest()` may do. -/
inductive Answer where
  | raises
  | list (l : List Report)
  | dict (d : Report)
  | sized (empty : Bool)
  | unsized

/-- The final assertion, gp_training.py:541-542. -/
def asVector : Entry → Except String (List ℝ)
  | .vector v => .ok v
  | .other => .error "AssertionError: async optimizer returned invalid hyperparameters"

/-- `GPtraining.update_hyperparameters(opt_obj)`, gp_training.py:508-544. -/
def pullHyperparameters (current : List ℝ) (a : Answer) : Except String (List ℝ) :=
  match a with
  | .raises => .ok current
  | .unsized => .error "TypeError: object has no len()"
  | .sized true => .ok current
  | .sized false => .error "Exception: Reading the `updated_hyperparameters` was not successful"
  | .list [] => .ok current
  | .list (r :: _) => match r.x with
    | some e => asVector e
    | none => .error "KeyError: 'x'"
  | .dict d =>
    if d.size = 0 then .ok current
    else match d.medianX with
      | some e => asVector e
      | none => match d.x with
        | some e => asVector e
        | none => .error "Exception: Reading the `updated_hyperparameters` was not successful"

/-! ### Adam -/

/-- Euclidean norm. -/
noncomputable def norm2 {d : ℕ} (v : Fin d → ℝ) : ℝ := Real.sqrt (∑ i, v i ^ 2)

structure AdamCfg where
  lr : ℝ
  beta1 : ℝ
  beta2 : ℝ
  eps : ℝ
  tol : ℝ

structure AdamHist (d : ℕ) where
  theta : List (Fin d → ℝ)
  nlml : List ℝ
  gradNorm : List ℝ

/-- The loop of `adam_optimize`, gp_training.py:636-667, from iteration `t` with `fuel` iterations left. `stop t` is
what `early_stop()` answers in iteration `t` (false when it is `None`). -/
noncomputable def adamLoop {d : ℕ} (c : AdamCfg) (f : (Fin d → ℝ) → ℝ) (g : (Fin d → ℝ) → Fin d → ℝ) (stop : ℕ → Bool) :
    ℕ → ℕ → (Fin d → ℝ) → (Fin d → ℝ) → (Fin d → ℝ) → AdamHist d → (Fin d → ℝ) × AdamHist d
  | 0, _, theta, _, _, hist => (theta, hist)
  | fuel + 1, t, theta, m, v, hist =>
    let fval := f theta
    let gr := g theta
    let m' := fun i => c.beta1 * m i + (1 - c.beta1) * gr i
    let v' := fun i => c.beta2 * v i + (1 - c.beta2) * gr i ^ 2
    let mHat := fun i => m' i / (1 - c.beta1 ^ t)
    let vHat := fun i => v' i / (1 - c.beta2 ^ t)
    let step := fun i => c.lr * mHat i / (Real.sqrt (vHat i) + c.eps)
    let thetaNew := fun i => theta i - step i
    let hist' : AdamHist d := ⟨hist.theta ++ [theta], hist.nlml ++ [fval], hist.gradNorm ++ [norm2 gr]⟩
    if norm2 (fun i => thetaNew i - theta i) < c.tol ∨ stop t = true then (thetaNew, hist')
    else adamLoop c f g stop fuel (t + 1) thetaNew m' v' hist'

/-- `adam_optimize`, gp_training.py:577-667. -/
noncomputable def adamOptimize {d : ℕ} (c : AdamCfg) (f : (Fin d → ℝ) → ℝ) (g : (Fin d → ℝ) → Fin d → ℝ)
    (stop : ℕ → Bool) (maxIter : ℕ) (theta0 : Fin d → ℝ) : (Fin d → ℝ) × AdamHist d :=
  adamLoop c f g stop maxIter 1 theta0 (fun _ => 0) (fun _ => 0) ⟨[], [], []⟩

end Verif.Train
