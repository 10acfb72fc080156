import Mathlib.Data.List.Basic

/-!
Model of how the constructor of a GP turns its arguments into the functions it works with: which kernel, mean, noise function and which
derivatives are used (gp.py:441-532, gp_prior.py:12-97, gp_likelihood.py:8-52), and how they are called afterwards
(gp_prior.py:217-243, gp_likelihood.py:89-99, gp2Scale_covariance.py:120-133).

Values (arrays, dictionaries) are elements of an arbitrary type `V`. A Python callable is its signature together with its behaviour on
positional arguments; a call that does not fit the signature raises `TypeError`, as Python does. A callable may itself raise an
exception. Left out: the data checks (`Verif.State.AcceptModel`), the shape checks of gp_prior.py:253-254, the factorization and
everything that comes after it, and callables without an inspectable signature.
-/

namespace Verif.Resolve

/-- The kinds of parameters of a Python function: before `/`, ordinary, `*name`, after `*`, `**name`. -/
inductive Kind where
  | posOnly
  | ordinary
  | varPos
  | kwOnly
  | varKw
  deriving DecidableEq

/-- One entry of `inspect.signature(f).parameters`. -/
structure Param where
  kind : Kind
  hasDefault : Bool
  deriving DecidableEq

/-- A parameter that takes one positional argument. -/
def Param.positional (p : Param) : Bool := p.kind = .posOnly || p.kind = .ordinary

/-- A callable: its signature and its result for given positional arguments, the other parameters having their defaults. -/
structure Fn (V : Type) where
  sig : List Param
  run : List V → Except String V

variable {V : Type}

/-- Whether Python can bind `n` positional arguments and no keyword arguments to the signature. -/
def accepts (sig : List Param) (n : ℕ) : Bool :=
  (sig.filter fun p => p.positional && !p.hasDefault).length ≤ n
    && (n ≤ (sig.filter Param.positional).length || sig.any fun p => p.kind = .varPos)
    && !(sig.any fun p => p.kind = .kwOnly && !p.hasDefault)

/-- Calling a callable with positional arguments. -/
def Fn.call (f : Fn V) (as : List V) : Except String V :=
  if accepts f.sig as.length then f.run as else .error "TypeError"

/-- `len(inspect.signature(f).parameters)`, gp_prior.py:61, 82 and gp_likelihood.py:30. -/
def Fn.nParams (f : Fn V) : ℕ := f.sig.length

/-- The functions of the library that are used if the user gives none: gp_prior.py:376-401, kernels.py:502 and 539, gp_prior.py:449-458,
gp_likelihood.py:102-110, and the derivatives gp_prior.py:421-436, 411-419, 472-475, 460-470, gp_likelihood.py:112-144. The methods among
them are bound, so their signatures do not count `self`. `fdKernel f`, ... are the finite differences of the function in use. -/
structure Lib (V : Type) where
  defaultKernel : List V → Except String V
  wendlandCpu : List V → Except String V
  wendlandGpu : List V → Except String V
  defaultMean : List V → Except String V
  measuredNoise : List V → Except String V
  defaultNoise : List V → Except String V
  analyticGrad : List V → Except String V
  fdKernelOne : List V → Except String V
  fdKernelAll : List V → Except String V
  fdMean : List V → Except String V
  zeroMean : List V → Except String V
  fdNoiseOne : List V → Except String V
  fdNoiseAll : List V → Except String V
  zeroNoiseOne : List V → Except String V
  zeroNoiseAll : List V → Except String V
  /-- `np.ones(d)`, gp.py:499. -/
  ones : ℕ → V

/-- `n` ordinary parameters without defaults. -/
def plainSig (n : ℕ) : List Param := List.replicate n ⟨.ordinary, false⟩

/-- The constructor arguments that matter here, and what the data say: `euclidean` (points given as an array) and `dim` their number of
columns. Everything that is not `None` has passed the `callable` assertions of gp.py:445-451. -/
structure Request (V : Type) where
  kernel : Option (Fn V)
  kernelGrad : Option (Fn V)
  mean : Option (Fn V)
  meanGrad : Option (Fn V)
  noise : Option (Fn V)
  noiseGrad : Option (Fn V)
  noiseVariances : Option V
  hps : Option V
  args : V
  x : V
  euclidean : Bool
  dim : ℕ
  gp2Scale : Bool
  device : String
  distribution : String
  ramEconomy : Bool

/-- What the prior and likelihood objects store. -/
structure Resolved (V : Type) where
  kernel : Fn V
  kN : ℕ
  dk : Fn V
  mean : Fn V
  mN : ℕ
  dm : Fn V
  noise : Fn V
  vN : ℕ
  dV : Fn V
  hps : V
  args : V
  economy : Bool
  gp2Scale : Bool
  x : V

/-- `compute_covariances(x1, x2, hps)`, gp_prior.py:217-224. -/
def computeCovariances (r : Resolved V) (x1 x2 h : V) : Except String V :=
  if r.kN = 3 then r.kernel.call [x1, x2, h]
  else if r.kN = 4 then r.kernel.call [x1, x2, h, r.args]
  else .error "No valid kernel function signature"

/-- `evaluate_kernel(kernel, x1, x2, hyperparameters, k_n_params, args)` on a worker, gp2Scale_covariance.py:120-133. -/
def evaluateKernel (kernel : Fn V) (x1 x2 h : V) (n : ℕ) (args : V) : Except String V :=
  if n = 4 then kernel.call [x1, x2, h, args]
  else if n = 3 then kernel.call [x1, x2, h]
  else .error "No valid kernel function signature"

/-- `compute_mean(x, hyperparameters)`, gp_prior.py:226-234. -/
def computeMean (r : Resolved V) (x h : V) : Except String V :=
  if r.mN = 2 then r.mean.call [x, h]
  else if r.mN = 3 then r.mean.call [x, h, r.args]
  else .error "No valid mean function signature"

/-- `calculate_V(x_data, hyperparameters)`, gp_likelihood.py:89-94. -/
def calculateV (r : Resolved V) (x h : V) : Except String V :=
  if r.vN = 2 then r.noise.call [x, h]
  else if r.vN = 3 then r.noise.call [x, h, r.args]
  else .error "No valid noise function signature."

/-- `dk_dh(x1, x2, hyperparameters, direction)`, gp_prior.py:236-240. -/
def dkDh (r : Resolved V) (x1 x2 h dir : V) : Except String V :=
  if r.economy then r.dk.call [x1, x2, h, dir] else r.dk.call [x1, x2, h]

/-- `dm_dh(x_data, hyperparameters)`, gp_prior.py:242-243. -/
def dmDh (r : Resolved V) (x h : V) : Except String V := r.dm.call [x, h]

/-- `calculate_V_grad(x, hyperparameters, direction)`, gp_likelihood.py:96-99. -/
def calculateVGrad (r : Resolved V) (x h dir : V) : Except String V :=
  if r.economy then r.dV.call [x, h, dir] else r.dV.call [x, h]

/-- The initial hyperparameters, gp.py:492-506: given ones, or a vector of ones if no function is given. -/
def initHps (lib : Lib V) (q : Request V) : Except String V :=
  if q.euclidean then
    if q.kernel.isSome || q.mean.isSome || q.noise.isSome then
      match q.hps with
      | none => .error "You have provided callables for kernel, mean, or noise functions but no initial hyperparameters."
      | some h => .ok h
    else
      match q.hps with
      | none => .ok (lib.ones (q.dim + 1))
      | some h => .ok h
  else
    match q.hps with
    | none => .error "'init_hyperparameters' not provided and could not be calculated. Please provide them "
    | some h => .ok h

/-- The local variable `kernel` after gp_prior.py:43-54. -/
def kernelVar (lib : Lib V) (q : Request V) : Option (Fn V) :=
  if q.gp2Scale then
    match q.kernel with
    | some k => some k
    | none =>
      if q.device = "cpu" then some ⟨plainSig 3, lib.wendlandCpu⟩
      else if q.device = "gpu" then some ⟨plainSig 3 ++ [⟨.ordinary, true⟩], lib.wendlandGpu⟩
      else none
  else q.kernel

/-- The resolution of the arguments, gp_prior.py:29-93 and gp_likelihood.py:24-51. -/
def resolve (lib : Lib V) (q : Request V) : Except String (Resolved V) := do
  let h ← initHps lib q
  if q.distribution ≠ "blockwise" ∧ q.distribution ≠ "rowwise" then
    .error "gp2Scale_distribution must be `blockwise` or `rowwise`"
  else if !q.euclidean && q.kernel.isNone then
    .error "For GPs on non-Euclidean input spaces you need a user-defined kernel and initial hyperparameters."
  else
    let k := match kernelVar lib q with
      | some f => (f, f.nParams)
      | none => (⟨plainSig 3, lib.defaultKernel⟩, 3)
    let dk : Fn V × Bool := match q.kernelGrad with
      | some g => (g, q.ramEconomy)
      | none =>
        match kernelVar lib q with
        | none => (⟨plainSig 3, lib.analyticGrad⟩, false)
        | some _ => if q.ramEconomy then (⟨plainSig 4, lib.fdKernelOne⟩, true) else (⟨plainSig 3, lib.fdKernelAll⟩, false)
    let m := match q.mean with
      | some f => (f, f.nParams)
      | none => (⟨plainSig 2, lib.defaultMean⟩, 2)
    let dm := match q.meanGrad with
      | some g => g
      | none => if q.mean.isSome then ⟨plainSig 2, lib.fdMean⟩ else ⟨plainSig 2, lib.zeroMean⟩
    if q.noiseVariances.isSome && q.noise.isSome then
      .error "Noise function and measurement noise provided. Decide which one to use."
    else
      let v := match q.noise with
        | some f => (f, f.nParams)
        | none => if q.noiseVariances.isSome then (⟨plainSig 2, lib.measuredNoise⟩, 2) else (⟨plainSig 2, lib.defaultNoise⟩, 2)
      let dV := match q.noiseGrad with
        | some g => g
        | none =>
          if q.noise.isSome then if dk.2 then ⟨plainSig 3, lib.fdNoiseOne⟩ else ⟨plainSig 2, lib.fdNoiseAll⟩
          else if dk.2 then ⟨plainSig 3, lib.zeroNoiseOne⟩ else ⟨plainSig 2, lib.zeroNoiseAll⟩
      .ok ⟨k.1, k.2, dk.1, m.1, m.2, dm, v.1, v.2, dV, h, q.args, dk.2, q.gp2Scale, q.x⟩

/-- The constructor: resolution, then mean, covariance and noise at the data, gp_prior.py:248-250 and gp_likelihood.py:52. In gp2Scale the
covariance is evaluated through `evaluate_kernel` in blocks of the data (gp_prior.py:185-198); here one block stands for them all. The
clash of noise function and noise variances, which is found after the prior has been computed, is reported before it. -/
def construct (lib : Lib V) (q : Request V) : Except String (Resolved V) := do
  let r ← resolve lib q
  let _ ← computeMean r q.x r.hps
  let _ ← if q.gp2Scale then evaluateKernel r.kernel q.x q.x r.hps r.kN r.args else computeCovariances r q.x q.x r.hps
  let _ ← calculateV r q.x r.hps
  .ok r

end Verif.Resolve
