import Verif.State.Model

/-!
Model of fvgp.py: the multi-task data transform `_transform_index_set2`, the constructor and `update_gp_data` of `fvGP`.

A missing value (NaN) of `y_data` is `none`. The noise variance of a missing entry is an arbitrary number (it is never
read). Arrays are lists of rows; `width`, `cols` and `noiseCols` are the second dimensions `numpy.vstack` compares.
-/

namespace Verif.FV

open Verif.GP Verif.State Verif.LinAlg

variable {α H : Type}

/-- Multi-task data: `x_data`, `y_data`, `noise_variances` as given to `fvGP`, fvgp.py:480-486. -/
structure MT (α : Type) where
  x : List α
  width : ℕ
  y : List (List (Option ℝ))
  cols : ℕ
  noise : Option (List (List ℝ))
  noiseCols : ℕ

/-- A point of the single-task view: input and task index, value, noise variance. -/
structure Pt (α : Type) where
  x : α × ℕ
  y : ℝ
  v : Option ℝ

/-- The body of the double loop for task `i` and row `j`, fvgp.py:640-649. -/
def entry (nOut : ℕ) (d : MT α) (i j : ℕ) : Except String (Option (Pt α)) :=
  if (d.noise.any fun nv => (nv.getD j []).length ≠ nOut) = true then
    .error "AssertionError: noise_variances row length must equal output_num"
  else if (d.y.getD j []).length ≠ nOut then .error "AssertionError: y_data row length must equal output_num"
  else
    match (d.y.getD j []).getD i none with
    | none => .ok none
    | some v =>
      match d.x[j]? with
      | none => .error "IndexError"
      | some a => .ok (some ⟨(a, i), v, d.noise.map fun nv => (nv.getD j []).getD i 0⟩)

/-- A loop that collects what its body produces and stops at the first exception. -/
def collect {β γ : Type} (f : β → Except String (Option γ)) : List β → Except String (List γ)
  | [] => .ok []
  | b :: bs =>
    match f b with
    | .error e => .error e
    | .ok r =>
      match collect f bs with
      | .error e => .error e
      | .ok rs => .ok (r.toList ++ rs)

/-- The order of the double loop, tasks outside, rows inside, fvgp.py:638-639. -/
def indices (nOut n : ℕ) : List (ℕ × ℕ) := (List.range nOut).flatMap fun i => (List.range n).map fun j => (i, j)

/-- The points made by `_transform_index_set2`, fvgp.py:626-649. -/
def points (nOut : ℕ) (d : MT α) : Except String (List (Pt α)) :=
  if d.x.length ≠ d.y.length then .error "AssertionError: x_data and y_data have different lengths"
  else if (d.noise.any fun nv => nv.length ≠ d.y.length) = true then
    .error "AssertionError: noise_variances and y_data have different lengths"
  else collect (fun p => entry nOut d p.1 p.2) (indices nOut d.x.length)

/-- The arrays made of the points, fvgp.py:633-660: `new_variances` is an array iff noise variances were given. -/
def arrays (hasNoise : Bool) (ps : List (Pt α)) : Data (α × ℕ) where
  x := ps.map Pt.x
  y := ps.map fun p => [p.y]
  cols := 1
  noiseVar := if hasNoise then some (ps.map fun p => p.v.getD 0) else none

/-- `_transform_index_set2(x_data, y_data, noise_variances)`, fvgp.py:626-660. -/
def transform (nOut : ℕ) (d : MT α) : Except String (Data (α × ℕ)) :=
  match points nOut d with
  | .error e => .error e
  | .ok ps => .ok (arrays d.noise.isSome ps)

/-- An `fvGP` object: the single-task GP, the stored multi-task data, the number of tasks. -/
structure Obj (α H : Type) where
  nOut : ℕ
  gp : State.Obj (α × ℕ) H
  mt : MT α

/-- `fvGP.__init__`, fvgp.py:480-534. Without any observed entry a Euclidean data set becomes a 1-d array, which
`GPdata.__init__` rejects (gp_data.py:28). -/
noncomputable def build (c : Config (α × ℕ) H) (d : MT α) (euclidean : Bool) (h : H) : Except String (Obj α H) :=
  match transform d.cols d with
  | .error e => .error e
  | .ok s =>
    if euclidean = true ∧ s.x = [] then .error "AssertionError: Euclidean x_data must be 2-d"
    else match State.build c s euclidean (d.width + 1) h with
      | .error e => .error e
      | .ok o => .ok ⟨d.cols, o, d⟩

/-- Stacked multi-task data, fvgp.py:598-612. `none` when one of the `np.vstack` calls raises. When noise variances are
given but none are stored, `np.vstack([None, ...])` raises, unless there is a single task: then `None` becomes a row
(represented by `[0]`). No noise variances in the update: none are stored. -/
def stack (euclidean : Bool) (d u : MT α) : Option (MT α) :=
  let noise : Option (Option (List (List ℝ))) := match d.noise, u.noise with
    | some a, some b => if d.noiseCols = u.noiseCols then some (some (a ++ b)) else none
    | none, some b => if u.noiseCols = 1 then some (some ([0] :: b)) else none
    | _, none => some none
  match noise with
  | none => none
  | some nv =>
    if euclidean = true ∧ d.width ≠ u.width then none
    else if d.cols ≠ u.cols then none
    else some ⟨d.x ++ u.x, d.width, d.y ++ u.y, d.cols, nv, d.noiseCols⟩

/-- `fvGP.update_gp_data(x_new, y_new, noise_variances_new, append, rank_n_update)`, fvgp.py:551-623. -/
noncomputable def update (o : Obj α H) (u : MT α) (append : Bool) (rankN : Option Bool) :
    Obj α H × Except String Unit :=
  if u.x.length ≠ u.y.length then (o, .error "AssertionError: updated x and y do not have the same lengths.")
  else
    match (if append then stack o.gp.data.euclidean o.mt u else some u) with
    | none => (o, .error "ValueError: vstack")
    | some mt =>
      let o1 := { o with mt := mt }
      match transform o.nOut u with
      | .error e => (o1, .error e)
      | .ok s =>
        if o.gp.data.euclidean = true ∧ s.x = [] then
          (o1, .error "AssertionError: Euclidean x_data_new must be a 2-d np.ndarray")
        else
          match updateGpData o.gp ⟨s.x, u.width + 1, s.y, s.cols, s.noiseVar, false, append, rankN⟩ with
          | (g, r) => ({ o1 with gp := g }, r)

end Verif.FV
