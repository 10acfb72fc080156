import Verif.BO.Model

/-!
Model of the warnings issued before a Bayesian optimisation, gp.py:1172-1232.
-/

namespace Verif.BO

/-- The warnings: the design needs `needed` of `budget` evaluations (gp.py:1203-1209); more than twenty hyperparameters
(gp.py:1219-1227); more than ten (gp.py:1228-1232). -/
inductive Warning where
  | budget (budget needed : ℤ) (nHps : ℕ)
  | many (nHps : ℕ)
  | edge (nHps : ℕ)
  deriving DecidableEq

/-- `n_init`, gp.py:1193-1194. -/
def warnDesign (nHps : ℕ) (maxIter : ℤ) (nInit : Option ℤ) : ℤ :=
  let n := match nInit with
    | some n => n
    | none => defaultInitialDesignSize nHps maxIter
  max 2 (min n maxIter)

/-- `_warn_about_bo_suitability(hyperparameter_bounds, max_iter, bo_args)`, gp.py:1172-1232, as the list of warnings; `nInit`
is `bo_args["n_init"]` if there is one, as an integer. -/
def boWarnings (nHps : ℕ) (maxIter : ℤ) (nInit : Option ℤ) : List Warning :=
  let n := warnDesign nHps maxIter nInit
  (if n ≥ maxIter then [.budget maxIter n nHps] else []) ++
    (if nHps > 20 then [.many nHps] else if nHps > 10 then [.edge nHps] else [])

end Verif.BO
