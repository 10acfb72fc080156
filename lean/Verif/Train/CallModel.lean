import Verif.Train.TrainModel

/-!
Model of how `GP.train` resolves its arguments (gp.py:990-1016 and 1038-1072) and of what each optimizer of
`GPtraining.train` is handed (gp_training.py:62-196).

Simplifications: warnings are left out; a client is a number; functions are named by where they come from.
-/

namespace Verif.Train

/-- The `method` argument: one of the known names, a callable, or any other string. -/
inductive MethodArg where
  | known (m : Method)
  | other (s : String)
deriving DecidableEq

/-- The arguments of `train` that are read before an optimizer starts, with the state of the GP they are combined with. -/
structure TrainCall where
  gp2Scale : Bool
  asynchronous : Bool
  method : MethodArg
  /-- `dask_client` -/
  client : Option ℕ
  /-- `self.dask_client` -/
  ownClient : Option ℕ
  userObjective : Bool
  userGradient : Bool
  userHessian : Bool
  /-- `bo_args` holds `noise_function` or `noise_variance` -/
  userNoise : Bool

/-- Where the objective comes from: `log_likelihood`, `neg_log_likelihood` or the argument. -/
inductive Objective where
  | logLik | negLogLik | user
deriving DecidableEq

/-- Where a derivative comes from: the negative log likelihood or the argument. -/
inductive Deriv where
  | negLogLik | user
deriving DecidableEq

/-- What is passed on to the trainer. -/
structure TrainPlan where
  asynchronous : Bool
  method : MethodArg
  client : Option ℕ
  objective : Objective
  gradient : Deriv
  hessian : Deriv
  /-- `bo_args["noise_function"]` reports the variance of the likelihood estimate -/
  estimatorNoise : Bool
deriving DecidableEq

/-- `_async_methods`, gp.py:1008. -/
def asyncMethod : MethodArg → Bool
  | .known .hgdl | .known .mcmc | .known .adam | .known .bo => true
  | _ => false

/-- gp.py:990-1016: what becomes of `asynchronous`, `method` and `dask_client`. -/
def resolveMode (c : TrainCall) : Except String (Bool × MethodArg × Option ℕ) :=
  let async1 := if c.gp2Scale && c.asynchronous then false else c.asynchronous
  let m := if c.gp2Scale && !(c.method = .known .mcmc || c.method = .known .bo) then .known .mcmc else c.method
  let async2 := if async1 && !asyncMethod m then false else async1
  if asyncMethod m && async2 && c.client.isNone then
    match c.ownClient with
    | none => .error "Exception: Please provide a dask_client for asynchronous training"
    | some i => .ok (async2, m, some i)
  else .ok (async2, m, c.client)

/-- The head of `GP.train` without bounds and start vector, gp.py:990-1016 and 1038-1072. -/
def resolveTrain (c : TrainCall) : Except String TrainPlan := do
  let (async, m, client) ← resolveMode c
  let objective := if m = .known .mcmc then .logLik else if c.userObjective then .user else .negLogLik
  if c.userObjective && !c.userGradient && (m = .known .localOpt || m = .known .hgdl) then
    .error "Exception: A gradient (and Hessian) of the objective function must be provided"
  else
    .ok { asynchronous := async, method := m, client := client, objective := objective,
          gradient := if c.userGradient then .user else .negLogLik,
          hessian := if c.userHessian then .user else .negLogLik,
          estimatorNoise := m = .known .bo && !c.userObjective && !c.userNoise }

/-- `objective_function_gradient` is handed to the optimizer: gp_training.py:105-115, 131-138, 174-177. -/
def usesGradient : MethodArg → Bool
  | .known .localOpt | .known .hgdl | .known .adam => true
  | _ => false

/-- `objective_function_hessian` is handed to the optimizer: gp_training.py:105-115, 131-138. -/
def usesHessian : MethodArg → Bool
  | .known .localOpt | .known .hgdl => true
  | _ => false

/-- The end of `GPtraining.train`, gp_training.py:192-196: the result of the optimizer has to be a vector. `result` is what the
optimizer (or the callable) returns or raises. -/
def trainerResult (m : MethodArg) (result : Except String Entry) : Except String (List ℝ) :=
  match m with
  | .other _ => .error "ValueError: No optimization mode specified in fvGP"
  | .known _ => do
    match ← result with
    | .vector v => .ok v
    | .other => .error "AssertionError: Optimizer returned invalid hyperparameters"

end Verif.Train
