import Verif.State.Model

/-!
Model of `GP.set_args` (gp.py:650-669) and of its interplay with the cached state.

`args` is one attribute of the data object (`GP.args`, gp.py:618-623), read by every callable with an extra parameter
at the moment it is called (gp_prior.py:217-234, gp_likelihood.py:89-94). Here the callables are functions of `args`; the
configuration an object works with is the one its current `args` select. Settings of the linear algebra found in `args`
are not represented (the mode is fixed at construction, gp_kv.py:114-147).
-/

namespace Verif.State

open Verif.GP Verif.LinAlg

variable {α H A : Type}

/-- The callables given at construction as functions of `args`: a kernel (three or four parameters, gp_prior.py:217-224),
a prior mean function or none (gp_prior.py:226-234), a noise function or none (gp_likelihood.py:89-94). -/
structure ArgFns (A α H : Type) where
  kernel : A → H → α → α → ℝ
  mean : Option (A → H → α → ℝ)
  noise : Option (A → H → List α → Noise)

/-- What a GP with these callables computes with when `args` is `a`; without a noise function the noise is the measured
or default one of `c`. -/
def withArgs (c : Config α H) (f : ArgFns A α H) (a : A) : Config α H :=
  { c with
    kernel := f.kernel a
    mean := f.mean.map fun m => m a
    noise := match f.noise with
      | some n => .user (n a)
      | none => c.noise }

/-- `GP.set_args(new_args)`, gp.py:650-669 (setter gp.py:621-623): the attribute is replaced, nothing is recomputed. -/
def setArgs (c : Config α H) (f : ArgFns A α H) (a : A) (o : Obj α H) : Obj α H :=
  { o with cfg := withArgs c f a }

/-- The public operations, with `set_args`. -/
inductive ArgOp (A α H : Type) where
  | setArgs (a : A)
  | op (p : Op α H)

/-- One operation. -/
noncomputable def applyArgs (c : Config α H) (f : ArgFns A α H) (o : Obj α H) :
    ArgOp A α H → Obj α H × Except String Unit
  | .setArgs a => (setArgs c f a o, .ok ())
  | .op p => apply o p

/-- A sequence of operations, stopping at the first exception. -/
noncomputable def runArgs (c : Config α H) (f : ArgFns A α H) (o : Obj α H) :
    List (ArgOp A α H) → Obj α H × Except String Unit
  | [] => (o, .ok ())
  | p :: ps =>
    match applyArgs c f o p with
    | (o', .ok ()) => runArgs c f o' ps
    | (o', .error e) => (o', .error e)

end Verif.State
