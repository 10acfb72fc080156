import Mathlib.Analysis.Real.Sqrt
import Mathlib.Algebra.BigOperators.Fin

/-!
Model of the component training of ggmp.py:2089-2298.

Simplifications: exact reals. `gp.train(method="mcmc")` followed by reading `gp.hyperparameters` is an arbitrary function of the
number of earlier chunks (which stands for the state of the GP and the random numbers) and of the start vector; it may raise.
Setting the start vector, logging, traces and devices are left out; exceptions of the trace hook are swallowed by the code.
-/

namespace Verif.Ggmp

open Finset

variable {D : ℕ}

/-- `np.linalg.norm`. -/
noncomputable def hpNorm (v : Fin D → ℝ) : ℝ := √(∑ i, v i ^ 2)

/-- `rel`, ggmp.py:2129-2130. -/
noncomputable def relChange (old new : Fin D → ℝ) : ℝ := hpNorm (new - old) / (hpNorm old + 1 / 10 ^ 12)

/-- An entry of `hist`, ggmp.py:2135. -/
structure ChunkRecord (D : ℕ) where
  iters : ℕ
  rel : ℝ
  hps : Fin D → ℝ

/-- The variables of the loop. -/
structure ChunkState (D : ℕ) where
  hps : Fin D → ℝ
  hist : List (ChunkRecord D)
  stable : ℕ
  total : ℕ

/-- The loop, ggmp.py:2119-2146; `fuel` bounds the number of chunks (`max_total` suffices, as `chunk ≥ 1`). -/
noncomputable def chunkLoop (train : ℕ → (Fin D → ℝ) → Except String (Fin D → ℝ)) (chunk maxTotal : ℕ) (tol : ℝ) (patience : ℕ) :
    ℕ → ChunkState D → Except String (ChunkState D)
  | 0, s => .ok s
  | fuel + 1, s =>
      if s.total < maxTotal then
        match train s.hist.length s.hps with
        | .error e => .error e
        | .ok new =>
            let rel := relChange s.hps new
            let total := s.total + chunk
            let stable := open Classical in if rel < tol then s.stable + 1 else 0
            let s' : ChunkState D := ⟨new, s.hist ++ [⟨total, rel, new⟩], stable, total⟩
            if stable ≥ patience then .ok s' else chunkLoop train chunk maxTotal tol patience fuel s'
      else .ok s

/-- `train_gp_mcmc_until_converged`, ggmp.py:2089-2148: `hps`, `hist`. -/
noncomputable def trainUntilConverged (train : ℕ → (Fin D → ℝ) → Except String (Fin D → ℝ)) (chunk maxTotal : ℤ) (tol : ℝ)
    (patience : ℤ) (init : Fin D → ℝ) : Except String ((Fin D → ℝ) × List (ChunkRecord D)) :=
  let c := (max chunk 1).toNat
  let N := (max maxTotal (max chunk 1)).toNat
  let p := (max patience 1).toNat
  match chunkLoop train c N tol p N ⟨init, [], 0, 0⟩ with
  | .error e => .error e
  | .ok s => .ok (s.hps, s.hist)

/-- The parallel branch of `train_component_gps_mcmc`, ggmp.py:2278-2285: `order` is the order in which the futures complete;
`fut.result()` raises the exception of its task. -/
def collect {α : Type} (task : ℕ → Except String α) : List ℕ → (ℕ → Option α) → Except String (ℕ → Option α)
  | [], d => .ok d
  | k :: ks, d =>
      match task k with
      | .error e => .error e
      | .ok v => collect task ks fun j => if j = k then some v else d j

/-- `trained_hps` after the parallel branch; a missing key raises. -/
def trainParallel {α : Type} (task : ℕ → Except String α) (K : ℕ) (order : List ℕ) : Except String (List α) :=
  match collect task order fun _ => none with
  | .error e => .error e
  | .ok d => (List.range K).mapM fun k => match d k with
      | some v => .ok v
      | none => .error "KeyError"

/-- The sequential branch, ggmp.py:2287-2289. -/
def trainSequential {α : Type} (task : ℕ → Except String α) (K : ℕ) : Except String (List α) := (List.range K).mapM task

end Verif.Ggmp
