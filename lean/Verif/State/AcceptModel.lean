import Verif.Train.DefaultModel

/-!
Model of which data `GP.__init__` and `GP.update_gp_data` accept: the checks of gp.py:441-451 and 727-731, of `GPdata` (gp_data.py:15-35,
71-97, 110-122) and of the likelihood (gp_likelihood.py:17-25), in the order of the code.

Arguments are described by what the checks look at: kind of object, number of axes, lengths and the floats contained. Hyperparameters and a
kernel are given, so that nothing else can be missing. What happens to prior, noise and factorisation after the data have been accepted is the
subject of `State/Model.lean`; the state after an exception that of C41. Sums of floats do not overflow.
-/

namespace Verif.State

open Verif.Train (Fl)

/-- An argument `x`: a list of arbitrary points, a 2-d array, an array with another number of axes, or something else (with `len` if that works). -/
inductive XArg where
  | list (n : ℕ)
  | array2 (width : ℕ) (rows : List (List Fl))
  | arrayN (ndim n : ℕ)
  | other (len : Option ℕ)

/-- An argument `y`. -/
inductive YArg where
  | arr1 (v : List Fl)
  | arr2 (cols : ℕ) (rows : List (List Fl))
  | arrN (ndim n : ℕ)
  | other (len : Option ℕ)

/-- An argument `noise_variances`. -/
inductive NArg where
  | none
  | arr1 (v : List Fl)
  | arrN (ndim n : ℕ)
  | other

/-- `len(x)`; raises for arrays without axes. -/
def XArg.len : XArg → Except String ℕ
  | .list n => .ok n
  | .array2 _ rows => .ok rows.length
  | .arrayN 0 _ => .error "TypeError: len() of unsized object"
  | .arrayN (_ + 1) n => .ok n
  | .other (some n) => .ok n
  | .other Option.none => .error "TypeError: object has no len()"

/-- `len(y)`. -/
def YArg.len : YArg → Except String ℕ
  | .arr1 v => .ok v.length
  | .arr2 _ rows => .ok rows.length
  | .arrN 0 _ => .error "TypeError: len() of unsized object"
  | .arrN (_ + 1) n => .ok n
  | .other (some n) => .ok n
  | .other Option.none => .error "TypeError: object has no len()"

/-- The points a GP holds. -/
inductive Pts where
  | list (n : ℕ)
  | rows (width : ℕ) (rows : List (List Fl))

/-- `len(x_data[0])` for a table, 1 for a list, gp_data.py:29, 33. -/
def Pts.dim : Pts → ℕ
  | .list _ => 1
  | .rows w _ => w

/-- The data a GP holds (gp_data.py:37-39); `fn`: a noise function was given. -/
structure Store where
  x : Pts
  cols : ℕ
  y : List (List Fl)
  noise : Option (List Fl)
  fn : Bool
  dim : ℕ

/-- `y.reshape(len(y), 1)` for one axis, gp_data.py:24, 91: columns and rows. -/
def YArg.rows : YArg → Option (ℕ × List (List Fl))
  | .arr1 v => some (1, v.map fun a => [a])
  | .arr2 c r => some (c, r)
  | _ => Option.none

/-- `np.sum`. -/
def flSum (l : List (List Fl)) : Fl := l.flatten.foldl Fl.add (.num 0)

/-- `_check_for_nan`, gp_data.py:120-122. -/
def nanCheck (x : Pts) (y : List (List Fl)) : Except String Unit :=
  match x with
  | .list _ => .ok ()
  | .rows _ r =>
    match Fl.add (flSum r) (flSum y) with
    | .nan => .error "Exception: NaNs encountered in dataset."
    | _ => .ok ()

/-- `a > 0.0` for floats. -/
def flPos : Fl → Prop
  | .num r => 0 < r
  | .pinf => True
  | _ => False

open Classical in
/-- `GPlikelihood.__init__`, gp_likelihood.py:17-25. -/
noncomputable def likelihoodCheck (noise : Option (List Fl)) (fn : Bool) : Except String Unit :=
  match noise with
  | Option.none => .ok ()
  | some v =>
    if ¬ ∀ a ∈ v, flPos a then .error "AssertionError: all noise_variances must be positive"
    else if fn then .error "Exception: Noise function and measurement noise provided. Decide which one to use."
    else .ok ()

/-- The data part of `GP.__init__`: gp.py:441, 451, gp_data.py:15-35, 47, gp_likelihood.py:17-25. -/
noncomputable def construct (x : XArg) (y : YArg) (noise : NArg) (fn : Bool) : Except String Store :=
  match noise with
  | .other => .error "AssertionError: wrong format in noise_variances"
  | _ => do
    let nx ← x.len
    let ny ← y.len
    if nx ≠ ny then .error "AssertionError: x_data and y_data do not have the same lengths." else
    match x with
    | .other _ => .error "AssertionError: x_data must be np.ndarray or list"
    | _ =>
      match y.rows with
      | Option.none => .error "AssertionError: y_data must be a 1-d or 2-d np.ndarray"
      | some (cols, rows) =>
        let fin (p : Pts) (nv : Option (List Fl)) : Except String Store := do
          nanCheck p rows
          likelihoodCheck nv fn
          .ok ⟨p, cols, rows, nv, fn, p.dim⟩
        let pts (nv : Option (List Fl)) : Except String Store :=
          match x with
          | .array2 w r =>
            match r with
            | [] => .error "IndexError: index 0 is out of bounds for axis 0 with size 0"
            | _ :: _ => fin (.rows w r) nv
          | .list n => fin (.list n) nv
          | _ => .error "AssertionError: Euclidean x_data must be 2-d (n_points × input_dim)"
        match noise with
        | .none => pts Option.none
        | .arr1 v =>
          if v.length ≠ ny then .error "AssertionError: noise_variances and y_data have different lengths" else pts (some v)
        | _ => .error "AssertionError: noise_variances must be a 1-d np.ndarray or None"

/-- `np.vstack([x_data, x_new])` or `x_data + x_new`, gp_data.py:110-111. -/
def Pts.append : Pts → Pts → Except String Pts
  | .rows w r, .rows w' r' => if w = w' then .ok (.rows w (r ++ r')) else .error "ValueError: all the input array dimensions must match"
  | .list n, .list n' => .ok (.list (n + n'))
  | _, _ => .error "unreachable"

/-- The points of an argument that fits the kind of points of the GP, gp_data.py:77-83. -/
def XArg.pts (x : XArg) : Pts → Except String Pts
  | .rows _ _ => match x with
    | .array2 w r => .ok (.rows w r)
    | _ => .error "AssertionError: Euclidean x_data_new must be a 2-d np.ndarray"
  | .list _ => match x with
    | .list n => .ok (.list n)
    | _ => .error "AssertionError: non-Euclidean x_data_new must be a list"

/-- The data part of `update_gp_data`: gp.py:727-731, gp_data.py:71-117. -/
def updateStore (s : Store) (x : XArg) (y : YArg) (noise : NArg) (append : Bool) : Except String Store :=
  match x with
  | .other _ => .error "AssertionError: wrong format in x_new"
  | _ =>
    match y.rows with
    | Option.none => .error "AssertionError: wrong format in y_new"
    | some (cols, rows) =>
      match noise with
      | .other => .error "AssertionError: wrong format in noise_variances_new"
      | _ => do
        let nx ← x.len
        let ny ← y.len
        if nx ≠ ny then .error "AssertionError: updated x and y do not have the same lengths." else
        let body (nv : Option (List Fl)) : Except String Store := do
          let p ← x.pts s.x
          if s.noise.isSome && nv.isNone then .error "Exception: Please provide noise_variances in the data update" else
          if s.noise.isNone && nv.isSome then .error "Exception: You did not initialize noise and but included noise in the update." else
          if append then do
            let q ← s.x.append p
            if s.cols ≠ cols then .error "ValueError: all the input array dimensions must match" else
            nanCheck q (s.y ++ rows)
            let all := match nv with
              | some v => s.noise.map (· ++ v)
              | Option.none => s.noise
            .ok ⟨q, s.cols, s.y ++ rows, all, s.fn, s.dim⟩
          else do
            nanCheck p rows
            .ok ⟨p, cols, rows, nv, s.fn, s.dim⟩
        match noise with
        | .none => body Option.none
        | .arr1 v => body (some v)
        | _ => .error "AssertionError: noise_variances_new must be a 1-d np.ndarray or None"

/-- Arguments of one update. -/
structure Upd where
  x : XArg
  y : YArg
  noise : NArg
  append : Bool

/-- A sequence of updates, stopping at the first exception. -/
def updates (s : Store) : List Upd → Except String Store
  | [] => .ok s
  | u :: us => do
    let s' ← updateStore s u.x u.y u.noise u.append
    updates s' us

/-- The check of prediction points given as a table with `w` columns, gp_posterior.py:578-580; `input_set_dim` is set once, by the constructor
(gp_data.py:30, 34). -/
def predictCheck (s : Store) (w : ℕ) : Except String Unit :=
  if w ≠ s.dim then .error "AssertionError: wrong number of columns in x_pred" else .ok ()

end Verif.State
