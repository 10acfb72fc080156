import Verif.Kernels.Model
import Mathlib.Algebra.BigOperators.Group.List.Basic

/-!
Model of the input checks of the posterior functions (gp_posterior.py:576-583) and of what the default kernel does with arrays of a
given shape (gp_prior.py:377-400).

A Euclidean GP with the default kernel and mean. Arrays carry their number of columns. Values of other types and element types are
not modelled beyond `other`. The list branch of `x_pred` (non-Euclidean inputs) reaches the default kernel as a list, whose `x2[:, i]`
raises a TypeError.
-/

namespace Verif.GP.Shape

open Verif.Kernels

/-- A 2-d array. -/
structure Tab where
  rows : List (List ℝ)
  cols : ℕ

/-- The argument `x_pred`. The rows of an array with `ndim ≠ 2` are not modelled. -/
inductive XPred where
  | array (ndim : ℕ) (a : Tab)
  | list
  | other

/-- The argument `x_out`. The entries of a list and of an array with `ndim ≠ 1` are not modelled. -/
inductive XOut where
  | none
  | array (ndim : ℕ) (t : List ℝ)
  | list
  | other

/-- What the posterior functions read: `x_data`, `input_set_dim`, `x_out` (gp_data.py:29-34, 61-68), the hyperparameters, one column of
`KVinvY` and the value of the default mean. -/
structure Gp where
  x : Tab
  inputDim : ℕ
  xOut : XOut
  hps : List ℝ
  alpha : List ℝ
  mean : ℝ

/-- `_perform_input_checks(x_pred, x_out)`, gp_posterior.py:576-583. -/
def checks (g : Gp) (p : XPred) (o : XOut) : Except String Unit :=
  match p with
  | .other => .error "AssertionError: wrong format in x_pred"
  | .array nd a =>
    if nd ≠ 2 then .error "AssertionError: wrong dim in x_pred, has to be 2-d"
    else if a.cols ≠ g.inputDim then .error "AssertionError: wrong number of columns in x_pred"
    else out
  | .list => out
where
  out : Except String Unit :=
    match o with
    | .other => .error "AssertionError: wrong format in x_out"
    | .array nd _ => if nd ≠ 1 then .error "AssertionError: wrong dim in x_out, has to be 1-d" else .ok ()
    | _ => .ok ()

/-- `if x_out is None: x_out = self.x_out`, gp_posterior.py:150, 197, 230. -/
def resolve (g : Gp) (o : XOut) : XOut :=
  match o with
  | .none => g.xOut
  | o => o

/-- What the kernel receives: a 2-d array, an array without second axis (`np.asarray([])`), or a list. -/
inductive Arg where
  | tab (a : Tab)
  | flat
  | list

/-- `if isinstance(x_out, np.ndarray): x_pred = self.cartesian_product(x_pred, x_out)`, gp_posterior.py:153, 586-606. -/
def extend (p : XPred) (o : XOut) : Arg :=
  match p, o with
  | .array _ a, .array _ t =>
    let r := t.flatMap fun u => a.rows.map fun x => x ++ [u]
    if r = [] then .flat else .tab ⟨r, a.cols + 1⟩
  | .array _ a, _ => .tab a
  | _, _ => .list

/-- The distance of two rows over the first `n` columns, gp_prior.py:396-399. -/
noncomputable def rowDist (n : ℕ) (hps : List ℝ) (p q : List ℝ) : ℝ :=
  √((List.range n).map fun i => |(p.getD i 0 - q.getD i 0) / hps.getD (1 + i) 0| ^ 2).sum

/-- `_default_kernel(x1, x2, hyperparameters)`, gp_prior.py:377-400. The number of columns is that of the first row of `x1`; a missing
column of `x2` or a missing hyperparameter is an IndexError, further columns and hyperparameters are not looked at. -/
noncomputable def kernel (x1 x2 : Arg) (hps : List ℝ) : Except String (ℕ → ℕ → ℝ) :=
  match x1, x2 with
  | .tab a, .tab b =>
    match a.rows with
    | [] => .error "IndexError: index 0 is out of bounds"
    | r :: _ =>
      if b.cols < r.length then .error "IndexError: index is out of bounds for axis 1"
      else if hps.length < 1 + r.length then .error "IndexError: index is out of bounds for axis 0"
      else .ok fun i j => hps.getD 0 0 * matern1 (rowDist r.length hps (a.rows.getD i []) (b.rows.getD j [])) 1
  | .list, _ => .error "TypeError: list indices must be integers or slices, not tuple"
  | _, .list => .error "TypeError: list indices must be integers or slices, not tuple"
  | .flat, _ => .error "IndexError: index 0 is out of bounds"
  | _, .flat => .error "IndexError: too many indices for array"

/-- The number of prediction points. -/
def Arg.len : Arg → ℕ
  | .tab a => a.rows.length
  | _ => 0

/-- `posterior_mean(x_pred, x_out=x_out)`, gp_posterior.py:139-160, as the list of `m(x)_flat`. -/
noncomputable def posteriorMean (g : Gp) (p : XPred) (o : XOut) : Except String (List ℝ) :=
  let o := resolve g o
  match checks g p o with
  | .error e => .error e
  | .ok () =>
    let xp := extend p o
    match kernel (.tab g.x) xp g.hps with
    | .error e => .error e
    | .ok k => .ok ((List.range xp.len).map fun j => g.mean + ((List.range g.x.rows.length).map fun i => k i j * g.alpha.getD i 0).sum)

/-- The kernel calls of `posterior_covariance(x_pred, x_out=x_out)`, gp_posterior.py:229-246: `k` and `kk`. -/
noncomputable def covarianceBlocks (g : Gp) (p : XPred) (o : XOut) : Except String ((ℕ → ℕ → ℝ) × (ℕ → ℕ → ℝ)) :=
  let o := resolve g o
  match checks g p o with
  | .error e => .error e
  | .ok () =>
    let xp := extend p o
    match kernel (.tab g.x) xp g.hps with
    | .error e => .error e
    | .ok k =>
      match kernel xp xp g.hps with
      | .error e => .error e
      | .ok kk => .ok (k, kk)

/-- The points with coordinate `d` moved by `e`, gp_prior.py:403-405. -/
def shift (a : Tab) (d : ℕ) (e : ℝ) : Tab := ⟨a.rows.map fun r => r.set d (r.getD d 0 + e), a.cols⟩

/-- One entry of a successful kernel call with the points `a` first, gp_prior.py:397-400. -/
noncomputable def kernelValue (g : Gp) (a : Tab) (j i : ℕ) : ℝ :=
  g.hps.getD 0 0 * matern1 (rowDist (a.rows.headD []).length g.hps (a.rows.getD j []) (g.x.rows.getD i [])) 1

/-- `k_g @ KVinvY` for point `j` and direction `d`, gp_prior.py:402-409 and gp_posterior.py:217-219. The derivative of the default mean
is zero. -/
noncomputable def gradEntry (g : Gp) (a : Tab) (j d : ℕ) : ℝ :=
  ((List.range g.x.rows.length).map fun i =>
    ((kernelValue g (shift a d (1 / 10 ^ 8)) j i - kernelValue g a j i) / (1 / 10 ^ 8)) * g.alpha.getD i 0).sum

/-- `posterior_mean_grad(x_pred, x_out=x_out)` with all directions, gp_posterior.py:184-226: entry `(point, direction)` of the flat
array. -/
noncomputable def meanGrad (g : Gp) (p : XPred) (o : XOut) : Except String (ℕ → ℕ → ℝ) :=
  let o := resolve g o
  match checks g p o with
  | .error e => .error e
  | .ok () =>
    match extend p o with
    | .tab a =>
      match kernel (.tab a) (.tab g.x) g.hps with
      | .error e => .error e
      | .ok _ => .ok (gradEntry g a)
    | .flat => .error "IndexError: too many indices for array"
    | .list => .error "AttributeError: 'list' object has no attribute 'shape'"

end Verif.GP.Shape
