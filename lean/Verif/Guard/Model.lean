import Mathlib.Data.List.Basic

/-!
Model of the guard against several live gp2Scale GPs on one client, gp.py:10-21, 457-478, 570-573.

Objects and clients are numbers (identity, `client.id`). The guard looks at the registry early in the constructor and enters
the object at its end; everything in between may raise. `live` lists the GPs in gp2Scale mode whose constructor has
returned, with their clients; the code has no such list. A GP without `gp2Scale` takes no part; a missing client is replaced by
a new one before the guard (gp.py:455).
-/

namespace Verif.Guard

/-- The registry (a weak dictionary) and what it stands for. -/
structure Reg where
  entry : ℕ → Option ℕ
  live : List (ℕ × ℕ)
  /-- constructors that have passed the guard and not ended -/
  inside : List (ℕ × ℕ)

/-- No GP yet. -/
def Reg.empty : Reg := ⟨fun _ => none, [], []⟩

/-- The guard, gp.py:463-478. -/
def Reg.enter (s : Reg) (g c : ℕ) : Except String Reg :=
  match s.entry c with
  | some h => if h ≠ g then .error "Another GP instance is already active on this dask client" else
      .ok { s with inside := (g, c) :: s.inside }
  | none => .ok { s with inside := (g, c) :: s.inside }

/-- The end of the constructor, gp.py:570-573. -/
def Reg.register (s : Reg) (g c : ℕ) : Reg :=
  { entry := fun d => if d = c then some g else s.entry d
    live := (g, c) :: s.live
    inside := s.inside.erase (g, c) }

/-- An exception behind the guard. -/
def Reg.abort (s : Reg) (g c : ℕ) : Reg := { s with inside := s.inside.erase (g, c) }

/-- The object is destroyed: a weak dictionary drops its entries. -/
def Reg.collect (s : Reg) (g : ℕ) : Reg :=
  { s with
    entry := fun d => match s.entry d with
      | some h => if h = g then none else some h
      | none => none
    live := s.live.filter fun p => p.1 ≠ g }

/-- `GP(..., gp2Scale=True, dask_client=c)` for object `g`; `ok` tells whether the rest of the constructor succeeds. -/
def Reg.create (s : Reg) (g c : ℕ) (ok : Bool) : Except String Reg := do
  let t ← s.enter g c
  if ok then .ok (t.register g c) else .error "constructor failed"

/-- Events of one thread: constructors do not overlap. -/
inductive Act where
  | create (g c : ℕ) (ok : Bool)
  | collect (g : ℕ)

/-- The state after an event: a constructor that fails at the guard has not entered, one that fails behind it is unwound. -/
def Reg.act (s : Reg) : Act → Reg
  | .create g c ok =>
      match s.enter g c with
      | .ok t => if ok then t.register g c else t.abort g c
      | .error _ => s
  | .collect g => s.collect g

/-- A history in one thread. -/
def history (l : List Act) : Reg := l.foldl Reg.act .empty

/-- Events of several threads: each constructor enters and later registers. -/
inductive Micro where
  | enter (g c : ℕ)
  | register (g c : ℕ)

/-- Registering takes a constructor that has passed the guard. -/
def Reg.micro (s : Reg) : Micro → Reg
  | .enter g c =>
      match s.enter g c with
      | .ok t => t
      | .error _ => s
  | .register g c => if (g, c) ∈ s.inside then s.register g c else s

end Verif.Guard
