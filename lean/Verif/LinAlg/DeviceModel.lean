import Verif.LinAlg.CholModel

/-!
Model of the choice of the device for dense linear algebra: GPU engine detection (gp_lin_alg.py:65-181) and the functions that take a
`compute_device` (gp_lin_alg.py:237-360, 1310-1348, 1484-1626, 1629-1698).

The libraries (LAPACK through numpy and scipy, torch, cupy) are functions of the arguments with a value or an exception as result; they are arguments
of the model. Warnings are counted.
-/

namespace Verif.LinAlg.Device

/-- A torch device as returned by `torch.device(str)`: CUDA device with index, MPS, or another type (`cpu`, `xpu`, ...). -/
inductive TorchDevice where
  | cuda (index : Option ℤ)
  | mps
  | other (name : String)
deriving DecidableEq

/-- What is installed and visible. `parse` is `torch.device(str)`, which raises (`none`) for strings it does not know. `cupyDevices` is
`getDeviceCount()`, `none` if it raises. -/
structure Env where
  torchInstalled : Bool
  cudaAvailable : Bool
  cudaCount : ℤ
  cudaCurrent : ℤ
  mpsAvailable : Bool
  cupyInstalled : Bool
  cupyDevices : Option ℤ
  parse : String → Option TorchDevice

/-- The entries of `args` that are read here. (Keys with values of other types than documented are not modelled.) -/
structure Args where
  gpuEngine : Option String := none
  gpuDevice : Option String := none
  gpuDeviceIndex : Option ℤ := none
  cholFactorDevice : Option String := none
  cholSolveDevice : Option String := none
  cholLogdetDevice : Option String := none
  updateCholFactorDevice : Option String := none
  randomLogdetDevice : Option String := none

/-- `_torch_gpu_device(args)`, gp_lin_alg.py:69-101. -/
def torchGpuDevice (e : Env) (a : Args) : Option TorchDevice :=
  if !e.torchInstalled then none
  else match a.gpuDevice with
    | some s =>
      match e.parse s with
      | none => none
      | some (.cuda i) => if e.cudaAvailable then some (.cuda i) else none
      | some .mps => if e.mpsAvailable then some .mps else none
      | some d => some d
    | none =>
      if e.cudaAvailable then some (.cuda (some (a.gpuDeviceIndex.getD (if e.cudaCount > 0 then e.cudaCurrent else 0))))
      else if e.mpsAvailable then some .mps else none

/-- `_cupy_gpu_available()`, gp_lin_alg.py:104-117. -/
def cupyGpuAvailable (e : Env) : Bool :=
  if !e.cupyInstalled then false else (e.cupyDevices.map fun n => decide (n > 0)).getD false

/-- The two engines. -/
inductive Engine where
  | torch | cupy
deriving DecidableEq

/-- `_GPU_ENGINE_ALIASES.get(str(engine).lower())`, gp_lin_alg.py:121 and 131. -/
def engineAlias (s : String) : Option Engine :=
  if s.toLower = "torch" ∨ s.toLower = "pytorch" then some .torch
  else if s.toLower = "cupy" then some .cupy
  else none

/-- `gpu_engine_unavailable_reason(engine, args)`, gp_lin_alg.py:124-145. -/
def unavailableReason (e : Env) (engine : String) (a : Args) : Option String :=
  match engineAlias engine with
  | none => some "is not a supported GPU engine; choose `torch` (pytorch) or `cupy`"
  | some .torch =>
    if !e.torchInstalled then some "pytorch is not installed"
    else if (torchGpuDevice e a).isNone then some "pytorch is installed but exposes no usable CUDA or MPS device"
    else none
  | some .cupy =>
    if !e.cupyInstalled then some "cupy is not installed"
    else if !cupyGpuAvailable e then some "cupy is installed but exposes no usable CUDA device"
    else none

/-- `get_gpu_engine(args)`, gp_lin_alg.py:148-181: the engine and the warnings. -/
def getGpuEngine (e : Env) (a : Args) : Option Engine × List String :=
  match a.gpuEngine with
  | some requested =>
    match unavailableReason e requested a with
    | none => (engineAlias requested, [])
    | some reason => (none, [reason])
  | none =>
    if (torchGpuDevice e a).isSome then (some .torch, [])
    else if cupyGpuAvailable e then (some .cupy, [])
    else (none, ["no usable GPU backend was found"])

/-- Exceptions by type. `nonPD` is `NonPositiveDefiniteError`. -/
inductive Err where
  | linAlg | runtime | nonPD | other
deriving DecidableEq

/-- What each library does for a function with result type `β`: on the CPU, with torch on a device, with cupy. -/
structure Libs (β : Type) where
  cpu : Except Err β
  torch : TorchDevice → Except Err β
  cupy : Except Err β

/-- `device = _torch_gpu_device(args)` followed by the torch computation (the engine `torch` is chosen only if there is a device). -/
def onTorch {β : Type} (e : Env) (a : Args) (l : Libs β) : Except Err β :=
  match torchGpuDevice e a with
  | some d => l.torch d
  | none => .error .other

/-- The pattern `if engine == "torch": ... elif engine == "cupy": ... else: (CPU)`. -/
def onGpu {β : Type} (e : Env) (a : Args) (l : Libs β) : Except Err β :=
  match (getGpuEngine e a).1 with
  | some .torch => onTorch e a l
  | some .cupy => l.cupy
  | none => l.cpu

/-- `calculate_Chol_factor(M, compute_device, args)`, gp_lin_alg.py:237-269. -/
def cholFactorOn {β : Type} (e : Env) (a : Args) (device : String) (l : Libs β) : Except Err β :=
  let device := a.cholFactorDevice.getD device
  let r := if device = "cpu" then l.cpu else if device = "gpu" then onGpu e a l else .error .other
  match r with
  | .error .linAlg => .error .nonPD
  | .error .runtime => .error .nonPD
  | r => r

/-- `calculate_Chol_solve(factor, vec, compute_device, args)`, gp_lin_alg.py:289-328. -/
def cholSolveOn {β : Type} (e : Env) (a : Args) (device : String) (l : Libs β) : Except Err β :=
  let device := a.cholSolveDevice.getD device
  if device = "cpu" then l.cpu else if device = "gpu" then onGpu e a l else .error .other

/-- `calculate_Chol_logdet(factor, compute_device, args)`, gp_lin_alg.py:331-360. -/
def cholLogdetOn {β : Type} (e : Env) (a : Args) (device : String) (l : Libs β) : Except Err β :=
  let device := a.cholLogdetDevice.getD device
  if device = "cpu" then l.cpu else if device = "gpu" then onGpu e a l else .error .other

/-- `update_Chol_factor(old, new, compute_device, args)`, gp_lin_alg.py:272-286: the CPU whatever is asked for. -/
def updateCholOn {β : Type} (_e : Env) (_a : Args) (_device : String) (l : Libs β) : Except Err β := l.cpu

/-- `cholesky_update_rank_1(L, b, c, compute_device, args)`, gp_lin_alg.py:1310-1348; `none` is Python's `None`. -/
def rank1On {β : Type} (e : Env) (a : Args) (device : String) (l : Libs β) : Except Err (Option β) :=
  if device = "cpu" then l.cpu.map some
  else if device = "gpu" then
    match (getGpuEngine e a).1 with
    | some .torch => (onTorch e a l).map some
    | some .cupy => l.cupy.map some
    | none => .ok none
  else .error .other

/-- `calculate_logdet(A, compute_device, args)`, gp_lin_alg.py:1484-1519: any exception on the GPU leads back to numpy, and so does an unknown
device. -/
def logdetOn {β : Type} (e : Env) (a : Args) (device : String) (l : Libs β) : Except Err β :=
  if device = "gpu" then
    match (getGpuEngine e a).1 with
    | some .torch => match onTorch e a l with
      | .ok v => .ok v
      | .error _ => l.cpu
    | some .cupy => match l.cupy with
      | .ok v => .ok v
      | .error _ => l.cpu
    | none => l.cpu
  else l.cpu

/-- `calculate_inv(A, compute_device, args)`, gp_lin_alg.py:1534-1555: an unknown device is the CPU. -/
def invOn {β : Type} (e : Env) (a : Args) (device : String) (l : Libs β) : Except Err β :=
  if device = "gpu" then onGpu e a l else l.cpu

/-- `calculate_inv_from_chol(L, compute_device, args)`, gp_lin_alg.py:1558-1564. -/
def invFromCholOn {β : Type} (e : Env) (a : Args) (device : String) (l : Libs β) : Except Err β :=
  if device = "cpu" then l.cpu else if device = "gpu" then cholSolveOn e a "gpu" l else .error .other

/-- `solve(A, b, compute_device, args)`, gp_lin_alg.py:1581-1626. `lstsq` is the least squares solution used on the CPU for a singular matrix. -/
def solveOn {β : Type} (e : Env) (a : Args) (device : String) (l : Libs β) (lstsq : Except Err β) : Except Err β :=
  let onCpu := match l.cpu with
    | .error .linAlg => lstsq
    | r => r
  if device = "cpu" then onCpu
  else if device = "gpu" then
    match (getGpuEngine e a).1 with
    | some .torch => onTorch e a l
    | some .cupy => l.cupy
    | none => onCpu
  else .error .other

/-- `matmul` and `matmul3`, gp_lin_alg.py:1629-1698. `sparseArg`: one of the factors is sparse (`matmul3` raises then). -/
def matmulOn {β : Type} (e : Env) (a : Args) (device : String) (sparseArg : Bool) (l : Libs β) : Except Err β :=
  let device := if sparseArg then "cpu" else device
  if device = "cpu" then l.cpu else if device = "gpu" then onGpu e a l else .error .other

/-- The solve in the gradient of the likelihood, gp_marginal_likelihood.py:274 and 300: `args` is not handed over. -/
def gradientSolveOn {β : Type} (e : Env) (_a : Args) (device : String) (l : Libs β) (lstsq : Except Err β) : Except Err β :=
  solveOn e {} device l lstsq

/-- `_imate_gpu_enabled()` and the choice in `calculate_random_logdet`, gp_lin_alg.py:184-196 and 1132-1137: whether the stochastic log-determinant is
computed on the GPU, and whether there is a warning. `imateDevices` is the answer of imate (`none` if it raises). -/
def imateOn (imateDevices : Option ℤ) (_a : Args) (device : String) : Bool × Bool :=
  let enabled := (imateDevices.map fun n => decide (n > 0)).getD false
  let gpu := decide (device = "gpu") && enabled
  (gpu, decide (device = "gpu") && !gpu)

end Verif.LinAlg.Device
