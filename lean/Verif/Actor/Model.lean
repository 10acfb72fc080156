import Mathlib.Data.Real.Basic
import Mathlib.Data.List.Basic

/-!
Model of the asynchronous optimizers, gp_actor.py.

An actor is a shared cell (`_latest`, `_running`, `_lock`) that a worker thread, any number of callers of `get_latest()` and
calls of `start()` and `stop()` act on. An execution is any list of events; an event that cannot happen (a thread waiting
for the lock, a thread that has ended) changes nothing. Every access of the shared attributes is an event of its own; the
lock is a value that records its owner.

Simplifications: what the optimizer computes is an arbitrary sequence (`record`, `ends`, `finish`), as the theorems
hold for all of them. `start()` is called once: `train` calls it when it creates the actor (gp_training.py:371, 416, 469) and
`AsyncOptimizer` does not offer it. It is called without waiting for the result, so a `stop()` may be handled before it.
-/

namespace Verif.Actor

variable {κ V : Type}

/-- A Python dict. -/
abbrev Dict (κ V : Type) := κ → Option V

/-- `d[k] = v`. -/
def Dict.set [DecidableEq κ] (d : Dict κ V) (k : κ) (v : V) : Dict κ V := fun j => if j = k then some v else d j

/-- An access of `_latest` by the worker: rebinding the attribute or setting a key. -/
inductive Op (κ V : Type) where
  | replace (d : Dict κ V)
  | setKey (k : κ) (v : V)

/-- The effect of an access. -/
def Op.apply [DecidableEq κ] (d : Dict κ V) : Op κ V → Dict κ V
  | .replace e => e
  | .setKey k v => Dict.set d k v

/-- What distinguishes the three actors. -/
structure Actor (κ V : Type) where
  /-- `_latest` as set by the constructor. -/
  initial : Dict κ V
  /-- The dict the callback builds after `i` iterations, `1 ≤ i`. -/
  record : ℕ → Dict κ V
  /-- After `i` iterations the optimizer ends for a reason of its own: budget, tolerance, break condition. -/
  ends : ℕ → Bool
  /-- The stop flag is read before an iteration (BO) or after it (MCMC, Adam). -/
  pollFirst : Bool
  /-- The keys set on completion after `i` iterations (BO); `none` if there is nothing to write. -/
  finish : ℕ → Option (List (κ × V))
  /-- `finally: self._running = False` (BO). -/
  clearsOnError : Bool

/-- Where the worker thread is. The number counts finished iterations. -/
inductive Pc (κ V : Type) where
  /-- no thread -/
  | idle
  /-- `_running` is set, the thread is about to start -/
  | launching
  /-- the head of the loop -/
  | next (i : ℕ)
  /-- within iteration `i + 1` -/
  | computing (i : ℕ)
  /-- iteration `i + 1` is computed, its callback waits for the lock -/
  | publishing (i : ℕ)
  /-- the callback holds the lock and has the given accesses ahead -/
  | writing (i : ℕ) (ops : List (Op κ V))
  /-- about to read the stop flag after an iteration -/
  | polling (i : ℕ)
  /-- the optimizer has returned -/
  | closing (i : ℕ)
  /-- the completion holds the lock -/
  | finalWriting (i : ℕ) (ops : List (Op κ V))
  /-- about to clear `_running` -/
  | clearing (i : ℕ) (fin : Bool)
  /-- the thread has ended -/
  | over (i : ℕ) (fin : Bool)

/-- Where a caller of `get_latest()` is. -/
inductive ReaderPc (κ V : Type) where
  | idle
  | holding
  | copied (d : Dict κ V)

/-- Owner of the lock. -/
inductive Owner where
  | worker
  | reader (r : ℕ)
  deriving DecidableEq

/-- The shared attributes and the threads. `iters` counts the iterations computed, `got` lists the dicts returned by
`get_latest()`, latest first; the code has neither. -/
structure State (κ V : Type) where
  running : Bool
  latest : Dict κ V
  lock : Option Owner
  pc : Pc κ V
  readers : ℕ → ReaderPc κ V
  iters : ℕ
  got : List (Dict κ V)

/-- The constructors, gp_actor.py:10-27, 84-97, 142-154. -/
def Actor.init (a : Actor κ V) : State κ V := ⟨false, a.initial, none, .idle, fun _ => .idle, 0, []⟩

/-- Events. -/
inductive Event where
  | start
  | stop
  | work
  | fail
  | read (r : ℕ)

/-- The accesses on completion: `dict(self._latest)`, then one key after the other, gp_actor.py:184-198. -/
def finalOps (latest : Dict κ V) (fs : List (κ × V)) : List (Op κ V) := .replace latest :: fs.map fun f => .setKey f.1 f.2

/-- A step of the worker thread, gp_actor.py:32-68, 102-126, 159-200 with the loops of gp_mcmc.py:153-166, gp_training.py:636-665
and gp_bo.py:658-758. -/
def work [DecidableEq κ] (a : Actor κ V) (s : State κ V) : State κ V :=
  match s.pc with
  | .idle => s
  | .launching => { s with pc := .next 0 }
  | .next i =>
      if a.ends i then { s with pc := .closing i }
      else if a.pollFirst && !s.running then { s with pc := .closing i }
      else { s with pc := .computing i }
  | .computing i => { s with pc := .publishing i, iters := s.iters + 1 }
  | .publishing i =>
      match s.lock with
      | none => { s with lock := some .worker, pc := .writing i [.replace (a.record (i + 1))] }
      | some _ => s
  | .writing i (op :: ops) => { s with latest := op.apply s.latest, pc := .writing i ops }
  | .writing i [] => { s with lock := none, pc := if a.pollFirst then .next (i + 1) else .polling (i + 1) }
  | .polling i => if s.running then { s with pc := .next i } else { s with pc := .closing i }
  | .closing i =>
      match a.finish i with
      | none => { s with pc := .clearing i false }
      | some fs =>
          match s.lock with
          | none => { s with lock := some .worker, pc := .finalWriting i (finalOps s.latest fs) }
          | some _ => s
  | .finalWriting i (op :: ops) => { s with latest := op.apply s.latest, pc := .finalWriting i ops }
  | .finalWriting i [] => { s with lock := none, pc := .clearing i true }
  | .clearing i f => { s with running := false, pc := .over i f }
  | .over _ _ => s

/-- An exception within an iteration: the thread ends; only the BO actor clears the flag. -/
def fail (a : Actor κ V) (s : State κ V) : State κ V :=
  match s.pc with
  | .computing i => { s with pc := .over i false, running := if a.clearsOnError then false else s.running }
  | _ => s

/-- A step of caller `r` of `get_latest()`, gp_actor.py:73-75, 131-133, 205-207. -/
def readStep (r : ℕ) (s : State κ V) : State κ V :=
  match s.readers r with
  | .idle =>
      match s.lock with
      | none => { s with lock := some (.reader r), readers := fun q => if q = r then .holding else s.readers q }
      | some _ => s
  | .holding => { s with readers := fun q => if q = r then .copied s.latest else s.readers q }
  | .copied d => { s with lock := none, readers := fun q => if q = r then .idle else s.readers q, got := d :: s.got }

/-- `start()` sets the flag and creates the thread; `stop()` clears the flag. -/
def step [DecidableEq κ] (a : Actor κ V) (s : State κ V) : Event → State κ V
  | .start =>
      match s.pc with
      | .idle => { s with running := true, pc := .launching }
      | _ => s
  | .stop => { s with running := false }
  | .work => work a s
  | .fail => fail a s
  | .read r => readStep r s

/-- An execution. -/
def run [DecidableEq κ] (a : Actor κ V) (s : State κ V) (es : List Event) : State κ V := es.foldl (step a) s

/-- Values of a snapshot. -/
inductive Val where
  | none
  | num (v : ℝ)
  | nat (n : ℕ)
  | str (s : String)
  | vec (v : List ℝ)
  | vecs (v : List (List ℝ))

/-- A dict literal without repeated keys. -/
def ofList : List (String × Val) → Dict String Val
  | [], _ => .none
  | (k, v) :: l, j => if j = k then some v else ofList l j

/-- `_AdamActor`, gp_actor.py:81-136: `θ i`, `f i`, `g i` are the point, value and gradient norm of iteration `i`. -/
def adamActor (θ₀ : List ℝ) (θ : ℕ → List ℝ) (f g : ℕ → ℝ) (ends : ℕ → Bool) : Actor String Val where
  initial := ofList [("x", .vec θ₀), ("iteration", .nat 0), ("nlml", .none), ("grad_norm", .none)]
  record i := ofList [("x", .vec (θ i)), ("iteration", .nat i), ("nlml", .num (f i)), ("grad_norm", .num (g i))]
  ends := ends
  pollFirst := false
  finish _ := none
  clearsOnError := false

/-- `_MCMCActor`, gp_actor.py:7-78: after `i` iterations the trace holds `x 0, …, x i` and `f 1, …, f i`. Only three of the nine
keys. -/
def mcmcActor (x : ℕ → List ℝ) (f : ℕ → ℝ) (stamp : ℕ → ℝ) (ends : ℕ → Bool) : Actor String Val where
  initial := fun _ => none
  record i := ofList [("f(x)", .vec ((List.range i).map fun k => f (k + 1))),
    ("time stamps", .vec ((List.range i).map fun k => stamp (k + 1))), ("x", .vecs ((List.range (i + 1)).map x))]
  ends := ends
  pollFirst := false
  finish _ := none
  clearsOnError := false

/-- `_BOActor`, gp_actor.py:139-210: `best i`, `val i` are the best point observed in `i` evaluations and its value; the callback
reports `iteration = i - 1` and `n_evaluations = i`. `result i` is the recommendation after `i` evaluations, if the optimizer
does not raise. Three of the keys set on completion are left out. -/
def boActor (x₀ : List ℝ) (best : ℕ → List ℝ) (val : ℕ → ℝ) (result : ℕ → Option (List ℝ × ℝ)) (ends : ℕ → Bool) :
    Actor String Val where
  initial := ofList [("x", .vec x₀), ("iteration", .nat 0), ("objective", .none), ("n_evaluations", .nat 0), ("status", .str "queued")]
  record i := ofList [("x", .vec (best i)), ("iteration", .nat (i - 1)), ("objective", .num (val i)), ("n_evaluations", .nat i),
    ("status", .str "running")]
  ends := ends
  pollFirst := true
  finish i := (result i).map fun r =>
    [("x", .vec r.1), ("objective", .num r.2), ("n_evaluations", .nat i), ("status", .str "finished")]
  clearsOnError := true

end Verif.Actor
