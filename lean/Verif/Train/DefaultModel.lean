import Verif.Train.TrainModel
import Verif.Kernels.Model
import Verif.FV.Model

/-!
Model of the default hyperparameters (gp.py:491-506), of the default hyperparameter bounds (gp.py:752-774) and of the default kernel in
floating-point arithmetic with infinities and NaN (gp_prior.py:395-400, kernels.py:98-118).
-/

namespace Verif.Train

open Verif.GP Verif.Kernels

/-! ### Default hyperparameters -/

/-- What the constructor looks at to find the hyperparameters; `kernel`, `mean`, `noise` tell whether a callable was given. -/
structure Ctor where
  euclidean : Bool
  /-- `index_set_dim` -/
  dim : ℕ
  kernel : Bool
  mean : Bool
  noise : Bool
  /-- `init_hyperparameters` -/
  init : Option (List ℝ)

/-- The hyperparameters a new GP holds, gp.py:491-506. -/
def startHps (c : Ctor) : Except String (List ℝ) := do
  let h ←
    if c.euclidean then
      if c.kernel || c.mean || c.noise then
        match c.init with
        | none => .error "Exception: You have provided callables for kernel, mean, or noise functions but no initial hyperparameters."
        | some v => .ok (some v)
      else
        match c.init with
        | none => .ok (some (List.replicate (c.dim + 1) 1))
        | some v => .ok (some v)
    else .ok c.init
  match h with
  | none => .error "Exception: 'init_hyperparameters' not provided and could not be calculated."
  | some v => .ok v

/-! ### Default bounds -/

/-- `np.var` of the entries, gp.py:768. -/
noncomputable def variance (v : List ℝ) : ℝ :=
  (v.map fun a => (a - v.sum / v.length) ^ 2).sum / v.length

/-- `np.max(x[:, i]) - np.min(x[:, i])`, gp.py:770, for the points `p :: ps`. -/
noncomputable def colRange {D : ℕ} (p : Fin D → ℝ) (ps : List (Fin D → ℝ)) (i : Fin D) : ℝ :=
  (ps.map fun q => q i).foldl max (p i) - (ps.map fun q => q i).foldl min (p i)

/-- `_get_default_hyperparameter_bounds()`, gp.py:752-774. The maximum of no point raises (a GP without points cannot be built). -/
noncomputable def defaultBounds {D : ℕ} (euclidean : Bool) (hps : List ℝ) (d : Data (Fin D → ℝ)) : Except String Bounds :=
  if euclidean = false then .error "Exception: Please provide custom hyperparameter bounds to the training in the non-Euclidean setting"
  else if hps.length ≠ D + 1 then
    .error "Exception: Please provide custom hyperparameter_bounds when kernel, mean or noise functions are customized"
  else
    match d.x with
    | [] => .error "ValueError: zero-size array to reduction operation maximum which has no identity"
    | p :: ps => .ok ((variance d.y.flatten / 100, variance d.y.flatten * 10)
        :: List.ofFn fun i => (colRange p ps i / 100, colRange p ps i * 10))

/-! ### The default kernel with infinities and NaN -/

/-- A float: a number, an infinity or NaN. Rounding, overflow and the sign of zero are left out (`x / 0` has the sign of `x`; its
absolute value is taken). -/
inductive Fl where
  | num (r : ℝ) | pinf | ninf | nan

namespace Fl

/-- Division of numbers. -/
noncomputable def div (a b : ℝ) : Fl :=
  if b ≠ 0 then num (a / b) else if a = 0 then nan else if 0 < a then pinf else ninf

def abs : Fl → Fl
  | num r => num |r|
  | pinf | ninf => pinf
  | nan => nan

def sq : Fl → Fl
  | num r => num (r ^ 2)
  | pinf | ninf => pinf
  | nan => nan

def add : Fl → Fl → Fl
  | nan, _ | _, nan => nan
  | pinf, ninf | ninf, pinf => nan
  | pinf, _ | _, pinf => pinf
  | ninf, _ | _, ninf => ninf
  | num a, num b => num (a + b)

def neg : Fl → Fl
  | num r => num (-r)
  | pinf => ninf
  | ninf => pinf
  | nan => nan

noncomputable def sqrt : Fl → Fl
  | num r => if r < 0 then nan else num √r
  | pinf => pinf
  | ninf | nan => nan

noncomputable def exp : Fl → Fl
  | num r => num (Real.exp r)
  | pinf => pinf
  | ninf => num 0
  | nan => nan

/-- Product with a number. -/
noncomputable def smul (a : ℝ) : Fl → Fl
  | num r => num (a * r)
  | pinf => if 0 < a then pinf else if a < 0 then ninf else nan
  | ninf => if 0 < a then ninf else if a < 0 then pinf else nan
  | nan => nan

noncomputable def mul : Fl → Fl → Fl
  | nan, _ | _, nan => nan
  | num a, x => smul a x
  | x, num b => smul b x
  | pinf, pinf | ninf, ninf => pinf
  | pinf, ninf | ninf, pinf => ninf

end Fl

/-- `matern_kernel_diff1(distance, 1)`, kernels.py:98-118 (division by one is left out). -/
noncomputable def matern1Fl (d : Fl) : Fl :=
  (Fl.add (.num 1) (Fl.smul √3 d)).mul (Fl.exp (Fl.neg (Fl.smul √3 d)))

/-- One entry of `_default_kernel(x1, x2, hps)`, gp_prior.py:395-400. -/
noncomputable def defaultKernelFl {D : ℕ} (x y : Fin D → ℝ) (a : ℝ) (l : Fin D → ℝ) : Fl :=
  Fl.smul a (matern1Fl (Fl.sqrt
    ((List.finRange D).foldl (fun acc i => acc.add (Fl.sq (Fl.abs (Fl.div (x i - y i) (l i))))) (.num 0))))

/-- `hps[0]` and `hps[1:]` as the default kernel reads them, gp_prior.py:398, 400. -/
def amplitude (h : List ℝ) : ℝ := h.getD 0 0

def lengths (D : ℕ) (h : List ℝ) (i : Fin D) : ℝ := h.getD (i + 1) 0

/-- A row of the array `fvGP` hands to the single-task GP: the point and the task index as last entry, fvgp.py:645. -/
def taskRow {D : ℕ} (p : (Fin D → ℝ) × ℕ) : Fin (D + 1) → ℝ := Fin.snoc p.1 (p.2 : ℝ)

/-- The Euclidean data of the single-task GP in `fvGP`. -/
def taskData {D : ℕ} (d : Data ((Fin D → ℝ) × ℕ)) : Data (Fin (D + 1) → ℝ) := ⟨d.x.map taskRow, d.y, d.cols, d.noiseVar⟩

end Verif.Train
