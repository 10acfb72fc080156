import Verif.MCMC.Model
import Mathlib.Data.Nat.Digits.Defs

/-!
Model of saving MCMC traces, ggmp.py:2025-2086, and of the training threads that call it, ggmp.py:2159-2289.

Simplifications: file names are lists of characters, tags contain no path separator, the directory exists and writing does not fail.
A file is whole or torn (being written, or left so by a crash); which bytes a torn file holds is left out, and so are the JSON text and
the array format. A step of a writer is creating (truncating) a file, filling it or renaming it; a fill goes to the file of that name,
also if another writer has renamed it in the meantime. A crash stops all writers after any step.
-/

namespace Verif.Ggmp

open Verif.MCMC (Pos Info)

/-- `l[::n]`, `n ≥ 1`. -/
def every {α : Type} (n : ℕ) : List α → List α
  | [] => []
  | a :: l => a :: every n (l.drop (n - 1))
termination_by l => l.length
decreasing_by simp only [List.length_drop, List.length_cons]; omega

/-- The arrays and the metadata in a trace file, ggmp.py:2056-2082 (`keys` and `extra_meta` left out). -/
structure TraceFile (d : ℕ) where
  k : ℕ
  thin : ℕ
  tag : List Char
  x : List (Pos d)
  f : List (Option ℝ)
  time : List ℝ
  medianX : Pos d
  meanX : Pos d
  varX : Pos d
  map : Option ℝ
  maxX : Pos d
  maxF : Option ℝ

/-- The payload, ggmp.py:2050-2082. A result of `run_mcmc` with an entry `x` has all the others (gp_mcmc.py:171-179). -/
def tracePayload {d : ℕ} (k : ℕ) (thin : ℤ) (tag : List Char) (i : Info d) : TraceFile d :=
  let n := (max 1 thin).toNat
  { k := k, thin := n, tag := tag, x := every n i.xs, f := every n i.fs, time := every n i.ts, medianX := i.medianX, meanX := i.meanX,
    varX := i.varX, map := i.map, maxX := i.maxX, maxF := i.maxF }

/-! ### File names -/

/-- `{k:0wd}`. -/
def padded (w k : ℕ) : List Char := ((Nat.digits 10 k ++ List.replicate (w - (Nat.digits 10 k).length) 0).reverse).map Nat.digitChar

/-- `"_mcmc_trace"` -/
def traceWord : List Char := ['_', 'm', 'c', 'm', 'c', '_', 't', 'r', 'a', 'c', 'e']

/-- `".npz"` -/
def npz : List Char := ['.', 'n', 'p', 'z']

/-- `".tmp"` -/
def dotTmp : List Char := ['.', 't', 'm', 'p']

/-- `f"_{tag}" if tag else ""`, ggmp.py:2084. -/
def tagSuffix (tag : List Char) : List Char := if tag = [] then [] else '_' :: tag

/-- `f"gp{k:02d}_mcmc_trace{suffix}.npz"`, ggmp.py:2085. -/
def traceName (k : ℕ) (tag : List Char) : List Char := 'g' :: 'p' :: (padded 2 k ++ traceWord ++ tagSuffix tag ++ npz)

/-- `f"chunk{int(total_iters):06d}"`, ggmp.py:2227. -/
def chunkTag (total : ℕ) : List Char := ['c', 'h', 'u', 'n', 'k'] ++ padded 6 total

/-- The name without its last suffix: `PurePath.stem`. -/
def nameStem (n : List Char) : List Char :=
  match n.reverse.dropWhile (· ≠ '.'), n.reverse.takeWhile (· ≠ '.') with
  | _ :: a :: s, _ :: _ => (a :: s).reverse
  | _, _ => n

/-- `path.with_suffix(".tmp.npz")`, ggmp.py:2027. -/
def tmpName (n : List Char) : List Char := nameStem n ++ (dotTmp ++ npz)

/-! ### Writing -/

/-- The contents of a file. -/
inductive Content (β : Type) where
  | torn
  | whole (p : β)

/-- A directory. -/
abbrev Dir (β : Type) := List Char → Option (Content β)

/-- The steps of a writer. -/
inductive Op (β : Type) where
  | create (n : List Char)
  | fill (n : List Char) (p : β)
  | move (n m : List Char)

/-- A directory with one entry changed. -/
def Dir.set {β : Type} (fs : Dir β) (n : List Char) (c : Option (Content β)) : Dir β := fun m => if m = n then c else fs m

/-- The effect of a step. -/
def Op.exec {β : Type} (fs : Dir β) : Op β → Dir β
  | .create n => fs.set n (some .torn)
  | .fill n p => fs.set n (some (.whole p))
  | .move n m => (fs.set m (fs n)).set n none

/-- `_atomic_savez(path, **arrays)`, ggmp.py:2025-2029. -/
def atomicSave {β : Type} (path : List Char) (p : β) : List (Op β) :=
  [.create (tmpName path), .fill (tmpName path) p, .move (tmpName path) path]

/-- What the thread of component `k` writes: the saves with their tags one after the other, ggmp.py:2222-2229, 2258-2264. -/
def plan {β : Type} (k : ℕ) (saves : List (List Char × β)) : List (Op β) := saves.flatMap fun s => atomicSave (traceName k s.1) s.2

/-- The directory and what every writer still has to do. -/
structure Sys (β : Type) where
  fs : Dir β
  prog : ℕ → List (Op β)

/-- Writer `i` makes its next step. -/
def Sys.step {β : Type} (s : Sys β) (i : ℕ) : Sys β :=
  match s.prog i with
  | [] => s
  | op :: rest => ⟨op.exec s.fs, fun j => if j = i then rest else s.prog j⟩

/-- The steps are made in the order of the schedule. -/
def Sys.run {β : Type} : Sys β → List ℕ → Sys β
  | s, [] => s
  | s, i :: is => (s.step i).run is

end Verif.Ggmp
