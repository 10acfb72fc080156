import Verif.State.Model

/-!
Model of the arrays a GP shares with its caller.

`GPdata` keeps the arrays it is given, not copies of them (gp_data.py:37-39 and 94-96; a 1-d `y_data` is reshaped at gp_data.py:24, 91, which
gives a view of the same memory), and so does the trainer with the hyperparameters (gp.py:686, gp_training.py:18). The properties `x_data`,
`y_data`, `noise_variances` and `hyperparameters` of a GP hand out these very arrays (gp.py:577-586, 638-639). Only an append makes new ones
(`np.vstack`, list concatenation and `np.append`, gp_data.py:110-114).

Memory is a table from addresses to contents for each kind of array; every address below `next` may be known to the caller. Cached covariances,
noise and factorisations are values of the object. The state after an operation that raised is not followed (see C41).
-/

namespace Verif.State

open Verif.GP Verif.LinAlg

variable {α H : Type}

/-- The arrays in memory. -/
structure Heap (α H : Type) where
  x : ℕ → List α
  y : ℕ → List (List ℝ)
  noise : ℕ → List ℝ
  hps : ℕ → H
  next : ℕ

/-- Which arrays a GP holds. -/
structure Refs where
  x : ℕ
  y : ℕ
  noise : Option ℕ
  hps : ℕ

/-- A GP in memory: the data and hyperparameters in `obj` are not used, they are read from memory. -/
structure Shared (α H : Type) where
  heap : Heap α H
  refs : Refs
  obj : Obj α H

/-- The data set held at some addresses. -/
def Heap.data (m : Heap α H) (r : Refs) (cols : ℕ) : Data α := ⟨m.x r.x, m.y r.y, cols, r.noise.map m.noise⟩

/-- The object as its methods see it: every use reads the attributes of `data` and `trainer` anew (gp_kv.py:154-159, gp_prior.py:108-128,
gp_posterior.py:140, 149). -/
def Shared.view (s : Shared α H) : Obj α H :=
  { s.obj with data := { s.obj.data with cur := s.heap.data s.refs s.obj.data.cur.cols }, hps := s.heap.hps s.refs.hps }

/-- `GP(x, y, init_hyperparameters=h, noise_variances=v)` with arrays of the caller, gp.py:480-566. -/
noncomputable def Shared.create (c : Config α H) (m : Heap α H) (r : Refs) (cols : ℕ) (euclidean : Bool) (width : ℕ) : Except String (Shared α H) :=
  do
    let o ← build c (m.data r cols) euclidean width (m.hps r.hps)
    .ok ⟨m, r, o⟩

/-- Arguments of `update_gp_data` that are arrays of the caller, with what describes their shape and the switches. -/
structure SharedUpdate where
  x : ℕ
  y : ℕ
  noise : Option ℕ
  width : ℕ
  cols : ℕ
  append : Bool
  rankN : Option Bool

/-- The contents of the arrays at the time of the call. -/
def SharedUpdate.load (u : SharedUpdate) (m : Heap α H) : Update α :=
  ⟨m.x u.x, u.width, m.y u.y, u.cols, u.noise.map m.noise, false, u.append, u.rankN⟩

/-- What can happen: the caller makes new arrays, writes into arrays, or calls a method. -/
inductive Act (α H : Type) where
  | new (x : List α) (y : List (List ℝ)) (noise : List ℝ) (hps : H)
  | writeX (a : ℕ) (v : List α)
  | writeY (a : ℕ) (v : List (List ℝ))
  | writeNoise (a : ℕ) (v : List ℝ)
  | writeHps (a : ℕ) (v : H)
  | setHps (a : ℕ)
  | update (u : SharedUpdate)

/-- Store arrays at the next address. -/
def Heap.alloc (m : Heap α H) (x : List α) (y : List (List ℝ)) (noise : List ℝ) (h : H) : Heap α H :=
  ⟨Function.update m.x m.next x, Function.update m.y m.next y, Function.update m.noise m.next noise, Function.update m.hps m.next h, m.next + 1⟩

/-- One step. `set_hyperparameters` keeps the array (gp.py:686); an overwriting update keeps the arrays (gp_data.py:94-96); an appending one
stores new arrays (gp_data.py:110-114), the noise variances only if there are some. -/
noncomputable def Shared.step (s : Shared α H) : Act α H → Shared α H × Except String Unit
  | .new x y v h => ({ s with heap := s.heap.alloc x y v h }, .ok ())
  | .writeX a v => ({ s with heap := { s.heap with x := Function.update s.heap.x a v } }, .ok ())
  | .writeY a v => ({ s with heap := { s.heap with y := Function.update s.heap.y a v } }, .ok ())
  | .writeNoise a v => ({ s with heap := { s.heap with noise := Function.update s.heap.noise a v } }, .ok ())
  | .writeHps a v => ({ s with heap := { s.heap with hps := Function.update s.heap.hps a v } }, .ok ())
  | .setHps a =>
      let r := setHyperparameters s.view (s.heap.hps a)
      (⟨s.heap, { s.refs with hps := a }, r.1⟩, r.2)
  | .update u =>
      let r := updateGpData s.view (u.load s.heap)
      let d := r.1.data.cur
      if u.append then
        (⟨s.heap.alloc d.x d.y (d.noiseVar.getD []) (s.heap.hps s.refs.hps),
          ⟨s.heap.next, s.heap.next, s.refs.noise.map fun _ => s.heap.next, s.refs.hps⟩, r.1⟩, r.2)
      else (⟨s.heap, ⟨u.x, u.y, u.noise, s.refs.hps⟩, r.1⟩, r.2)

/-- A sequence of steps, stopping at the first exception. -/
noncomputable def Shared.run (s : Shared α H) : List (Act α H) → Shared α H × Except String Unit
  | [] => (s, .ok ())
  | a :: as =>
    match s.step a with
    | (s', .ok ()) => s'.run as
    | (s', .error e) => (s', .error e)

end Verif.State
