import Verif.Train.CallModel
import Verif.MCMC.Model

/-!
Model of `GPtraining.train_async` and what it starts (gp_training.py:198-472, 546-574), of `stop_training` and `kill_client`
(gp_training.py:474-506, gp_actor.py:246-256) and of `GP.update_hyperparameters` (gp.py:1261-1278).

The optimizer runs are followed sequentially, together with what their callback publishes; the interleaving with readers and
stop requests is the subject of `Verif.Actor.Model`. Simplifications: exact reals, no logging and no progress messages.
-/

namespace Verif.Actor

open Verif.Train Verif.MCMC

/-! ### Adam -/

/-- `_latest` of `_AdamActor`, gp_actor.py:95 and 104-109. -/
structure AdamLatest (d : ℕ) where
  x : Fin d → ℝ
  iteration : ℕ
  nlml : Option ℝ
  gradNorm : Option ℝ

/-- The callback of `_AdamActor`, gp_actor.py:102-109. -/
noncomputable def adamCallback {d : ℕ} (theta : Fin d → ℝ) (fval : ℝ) (grad : Fin d → ℝ) (t : ℕ) : AdamLatest d :=
  ⟨theta, t, some fval, some (norm2 grad)⟩

/-- The loop of `adam_optimize` with its callback, gp_training.py:636-665, as `_AdamActor._run` calls it (gp_actor.py:111-126): the vector
reached and `_latest`. `stop t` is whether `_running` was cleared when iteration `t` asks. -/
noncomputable def adamActorLoop {d : ℕ} (c : AdamCfg) (f : (Fin d → ℝ) → ℝ) (g : (Fin d → ℝ) → Fin d → ℝ) (stop : ℕ → Bool) :
    ℕ → ℕ → (Fin d → ℝ) → (Fin d → ℝ) → (Fin d → ℝ) → AdamLatest d → (Fin d → ℝ) × AdamLatest d
  | 0, _, theta, _, _, latest => (theta, latest)
  | fuel + 1, t, theta, m, v, _ =>
    let fval := f theta
    let gr := g theta
    let m' := fun i => c.beta1 * m i + (1 - c.beta1) * gr i
    let v' := fun i => c.beta2 * v i + (1 - c.beta2) * gr i ^ 2
    let mHat := fun i => m' i / (1 - c.beta1 ^ t)
    let vHat := fun i => v' i / (1 - c.beta2 ^ t)
    let step := fun i => c.lr * mHat i / (Real.sqrt (vHat i) + c.eps)
    let thetaNew := fun i => theta i - step i
    let latest' := adamCallback theta fval gr t
    if norm2 (fun i => thetaNew i - theta i) < c.tol ∨ stop t = true then (thetaNew, latest')
    else adamActorLoop c f g stop fuel (t + 1) thetaNew m' v' latest'

/-- The settings handed to the actor, gp_training.py:408-413. -/
noncomputable def asyncAdamCfg : AdamCfg := ⟨1e-2, 0.9, 0.999, 1e-8, 1e-6⟩

/-- The settings of a synchronous run: the defaults of `adam_optimize`, gp_training.py:582-587, as `train` passes none of them
(gp_training.py:174-177). -/
noncomputable def syncAdamCfg : AdamCfg := ⟨1e-2, 0.9, 0.999, 1e-8, 1e-6⟩

/-- `_latest` when the run of `adam_async` (gp_training.py:374-418) is over. -/
noncomputable def adamAsync {d : ℕ} (f : (Fin d → ℝ) → ℝ) (g : (Fin d → ℝ) → Fin d → ℝ) (stop : ℕ → Bool) (maxIter : ℕ)
    (theta0 : Fin d → ℝ) : AdamLatest d :=
  (adamActorLoop asyncAdamCfg f g stop maxIter 1 theta0 (fun _ => 0) (fun _ => 0) ⟨theta0, 0, none, none⟩).2

/-- What a synchronous `train(method="adam")` returns, gp_training.py:163-177 (no `early_stop`). -/
noncomputable def adamSync {d : ℕ} (f : (Fin d → ℝ) → ℝ) (g : (Fin d → ℝ) → Fin d → ℝ) (maxIter : ℕ)
    (theta0 : Fin d → ℝ) : Fin d → ℝ :=
  (adamOptimize syncAdamCfg f g (fun _ => false) maxIter theta0).1

/-! ### MCMC -/

/-- The main loop of `run_mcmc` with its callback, gp_mcmc.py:153-179, as `_MCMCActor._run` calls it (gp_actor.py:60-68): the run and
`_latest`. The callback (gp_actor.py:32-53) collects what gp_mcmc.py:169-179 collects, from copies. It runs before the break
condition is asked. -/
noncomputable def mcmcActorLoop {d : ℕ} (f : Pos d → Option ℝ) (prior : Pos d → WithBot ℝ) (w : Draws d) (brk : Trace d → Bool) :
    ℕ → ℕ → Run d → Option (Info d) → Except String (Run d × Option (Info d))
  | 0, _, r, latest => .ok (r, latest)
  | fuel + 1, i, r, _ => do
    let r' ← iteration f prior w i r
    let latest' := some (collect r'.trace)
    if brk r'.trace then .ok (r', latest')
    else mcmcActorLoop f prior w brk fuel (i + 1) { r' with info := some (collect r'.trace) } latest'

/-- `_break`, gp_actor.py:55-58: `stopped n` is whether `_running` was cleared when the condition is asked after `n` iterations. -/
noncomputable def actorBreak {d : ℕ} (stopped : ℕ → Bool) (t : Trace d) : Bool :=
  if stopped t.fs.length then true else defaultBreak t

/-- The run of `mcmc_async` (gp_training.py:307-372) with `_latest` at its end; `none` is the empty dict. -/
noncomputable def mcmcAsync {d : ℕ} (f : Pos d → Option ℝ) (prior : Pos d → WithBot ℝ) (w : Draws d) (stopped : ℕ → Bool)
    (objs : List (Proposal d)) (x0 : Pos d) (maxIter : ℕ) : Except String (Run d × Option (Info d)) :=
  mcmcActorLoop f prior w (actorBreak stopped) (max maxIter 2 - 1) 1 (start f prior objs x0) none

/-- A synchronous `train(method="mcmc")`, gp_training.py:159-162. -/
noncomputable def mcmcSync {d : ℕ} (f : Pos d → Option ℝ) (prior : Pos d → WithBot ℝ) (w : Draws d)
    (objs : List (Proposal d)) (x0 : Pos d) (maxIter : ℕ) : Except String (Run d) :=
  runMCMC f prior w defaultBreak objs x0 maxIter

/-! ### Start vectors -/

/-- The start the optimizer of `train_async` gets, gp_training.py:226-271: only `hgdl` checks it (gp_training.py:559-560). -/
noncomputable def asyncCheck (bounds : Bounds) (m : MethodArg) (start : List ℝ) : Except String (List ℝ) :=
  match m with
  | .known .hgdl => checkStart bounds start
  | .known .mcmc | .known .adam | .known .bo => .ok start
  | _ => .error "AssertionError: Asynchronous training only supported for hgdl, mcmc, adam, bo"

/-- The start the optimizer gets from `GP.train(asynchronous=True)`, gp.py:1024-1036 and 1120-1139. -/
noncomputable def asyncStart (bounds : Bounds) (m : MethodArg) (init : Option (List ℝ)) (current draw : List ℝ) :
    Except String (List ℝ) := do
  asyncCheck bounds m (← chooseStart bounds init current draw)

/-! ### Stopping -/

/-- What the caller holds: an `HGDL` object, an `AsyncOptimizer`, or something without the methods used (for instance the vector returned
by a synchronous run). -/
inductive Handle where
  | hgdl
  | actor
  | foreign
deriving DecidableEq

/-- The world outside the caller: the optimizer still works, the Dask client is connected, its workers answer. -/
structure World where
  running : Bool
  clientAlive : Bool
  reachable : Bool
deriving DecidableEq

/-- `opt_obj.cancel_tasks()`: of HGDL by contract, of `AsyncOptimizer` gp_actor.py:246-252 (raises if the actor does not answer). -/
def cancelTasks (h : Handle) (w : World) : Except String World :=
  match h with
  | .foreign => .error "AttributeError"
  | _ => if w.reachable && w.clientAlive then .ok { w with running := false } else .error "Exception"

/-- `opt_obj.kill_client()`: HGDL cancels and closes the client (contract), `AsyncOptimizer` stops, gp_actor.py:254-256. -/
def killClientOf (h : Handle) (w : World) : Except String World :=
  match h with
  | .foreign => .error "AttributeError"
  | .hgdl => if w.reachable && w.clientAlive then .ok { w with running := false, clientAlive := false } else .error "Exception"
  | .actor => if w.reachable && w.clientAlive then .ok { w with running := false } else .error "Exception"

/-- `GPtraining.stop_training`, gp_training.py:474-488: the world afterwards and whether a warning was issued. -/
def stopTraining (h : Handle) (w : World) : World × Bool :=
  match cancelTasks h w with
  | .ok w' => (w', false)
  | .error _ => (w, true)

/-- `GPtraining.kill_client`, gp_training.py:490-506. -/
def killClient (h : Handle) (w : World) : World × Bool :=
  match killClientOf h w with
  | .ok w' => (w', false)
  | .error _ => (w, true)

/-! ### Adopting results -/

/-- `GP.update_hyperparameters(opt_obj)`, gp.py:1276-1278. -/
noncomputable def updateHyperparameters {α : Type} (o : Verif.State.Obj α (List ℝ)) (a : Answer) :
    Verif.State.Obj α (List ℝ) × Except String (List ℝ) :=
  match pullHyperparameters o.hps a with
  | .error e => (o, .error e)
  | .ok v => match Verif.State.setHyperparameters o v with
    | (o', .ok ()) => (o', .ok v)
    | (o', .error e) => (o', .error e)

end Verif.Actor
