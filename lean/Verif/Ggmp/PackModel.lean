/-!
Model of the class `hyperparameters` and of `NormalLikelihood` of ggmp.py.

Simplifications: a NumPy vector is a list; the entries are of any type, so that the same functions pack numbers and rows of
bounds.
-/

namespace Verif.Ggmp

variable {α : Type}

/-- `l[i]` for a natural number `i`. -/
def index (l : List α) (i : Nat) : Except String α :=
  match l[i]? with
  | some a => .ok a
  | none => .error "IndexError"

/-- `vectorize_hps`, ggmp.py:825-831, and `vectorize_bounds`, ggmp.py:843-849: `nw` is `number_of_weights`, `nh` is
`number_of_hps` (its length is `number_of_hps_sets`). -/
def vectorize (nw : Nat) (nh : List Nat) (w : List α) (hps : List (List α)) : Except String (List α) := do
  let v ← (List.range nw).mapM (index w)
  let t ← (List.range nh.length).mapM fun i =>
    (List.range (nh.getD i 0)).mapM fun j => do
      let h ← index hps i
      index h j
  .ok (v ++ t.flatten)

/-- The loop of `devectorize_hps`, ggmp.py:835-840: slices of the given lengths from position `k` on. -/
def slices (v : List α) : Nat → List Nat → List (List α)
  | _, [] => []
  | k, n :: ns => (v.drop k).take n :: slices v (k + n) ns

/-- `devectorize_hps`, ggmp.py:833-841, and `devectorize_bounds`, ggmp.py:851-859. -/
def devectorize (nw : Nat) (nh : List Nat) (v : List α) : List α × List (List α) := (v.take nw, slices v nw nh)

/-- A `hyperparameters` object; `β` is the type of a row of bounds. -/
structure HpsObj (α β : Type) where
  weights : List α
  hps : List (List α)
  weightsBounds : List β
  hpsBounds : List (List β)
  nw : Nat
  nh : List Nat
  vec : List α
  vecBounds : List β

variable {β : Type}

/-- `hyperparameters.__init__`, ggmp.py:801-814. -/
def HpsObj.new (w : List α) (wb : List β) (hps : List (List α)) (hb : List (List β)) : Except String (HpsObj α β) :=
  if hps.length ≠ hb.length then .error "hps and hps_bounds have to be lists of equal length"
  else if w.length ≠ wb.length then .error "weights (1d) and weights_bounds (2d) have to be numpy arrays of equal length"
  else do
    let v ← vectorize w.length (hps.map List.length) w hps
    let b ← vectorize w.length (hps.map List.length) wb hb
    .ok ⟨w, hps, wb, hb, w.length, hps.map List.length, v, b⟩

/-- `hyperparameters.set`, ggmp.py:816-823: the object afterwards and whether an exception was raised. The attributes are
assigned before the vector is built. -/
def HpsObj.set (o : HpsObj α β) (w : List α) (hps : List (List α)) : HpsObj α β × Except String Unit :=
  if hps.length ≠ o.hpsBounds.length then (o, .error "hps and hps_bounds have to be lists of equal length")
  else if w.length ≠ o.weightsBounds.length then
    (o, .error "weights (1d) and weights_bounds (2d) have to be numpy arrays of equal length")
  else
    match vectorize o.nw o.nh w hps with
    | .ok v => ({ o with weights := w, hps := hps, vec := v }, .ok ())
    | .error e => ({ o with weights := w, hps := hps }, .error e)

/-- `NormalLikelihood`, ggmp.py:862-894. -/
structure Lik (α : Type) where
  mean : List α
  variance : List α
  dim : Nat

/-- `NormalLikelihood.__init__`, ggmp.py:880-885. -/
def Lik.new (mean variance : List α) : Lik α := ⟨mean, variance, mean.length⟩

/-- `set_moments`, ggmp.py:887-890. -/
def Lik.setMoments (l : Lik α) (mean variance : List α) : Lik α := { l with mean := mean, variance := variance }

/-- `unravel`, ggmp.py:896-898. -/
def Lik.unravel (l : Lik α) : List α := l.mean ++ l.variance

/-- `ravel`, ggmp.py:900-902. -/
def Lik.ravel (l : Lik α) (v : List α) : List α × List α := (v.take l.dim, v.drop l.dim)

end Verif.Ggmp
