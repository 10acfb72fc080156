import Mathlib.Data.List.Basic
import Mathlib.Data.Int.Order.Basic
import Mathlib.Tactic.Common

/-!
Model of the keyword arguments and devices of the component GPs in `GGMP.initGPs`, and of the device context.

Simplifications: a dictionary with string keys is a function to `Option`; the values of `args` are strings. The keyword arguments
apart from `args` and `compute_device` are a list of keys, their values do not matter. `lower` is `str.lower`.
-/

namespace Verif.Ggmp

/-- The keys of `args` that name a device, ggmp.py:256-261, 285-290, 335-340. -/
def deviceKeys : List String :=
  ["random_logdet_lanczos_compute_device", "Chol_factor_compute_device", "update_Chol_factor_compute_device",
    "Chol_solve_compute_device", "Chol_logdet_compute_device"]

/-- Keyword arguments. -/
structure GpKw where
  device : Option String
  args : String → Option String
  rest : List String

/-- `_normalize_gp_kwargs`, ggmp.py:240-266. -/
def normalizeKw (kw : GpKw) : GpKw :=
  match kw.device with
  | none => kw
  | some d => { kw with args := fun k => if k ∈ deviceKeys then (kw.args k).orElse (fun _ => some d) else kw.args k }

/-- The argument `gp_device_ids`: nothing, `"auto"` or numbers. -/
inductive DevReq where
  | none | auto
  | ids (l : List Int)

/-- `using_gpu`, ggmp.py:283-293. -/
def usesGpu (lower : String → String) (args : String → Option String) : Bool :=
  deviceKeys.any fun k => lower ((args k).getD "") == "gpu"

/-- The device ids for `n > 0` GPUs, ggmp.py:314-323. -/
def effectiveIds (n : Nat) : DevReq → List Int
  | .none => [0]
  | .auto => (List.range n).map fun (i : Nat) => (i : Int)
  | .ids l =>
      let ids := l.filter fun i => decide (0 ≤ i) && decide (i < (n : Int))
      if ids = [] then [0] else ids

/-- The device section of `initGPs`, ggmp.py:268-346, for `n` GPUs found by the engine in use: the keyword arguments handed to `GP` and
`_effective_gp_device_ids`. `setdefault("ram_economy", True)` adds a key. -/
def resolveDevices (lower : String → String) (n : Nat) (req : DevReq) (kw0 : GpKw) : GpKw × Option (List Int) :=
  let kw1 := normalizeKw kw0
  let kw := { kw1 with rest := if "ram_economy" ∈ kw1.rest then kw1.rest else kw1.rest ++ ["ram_economy"] }
  if usesGpu lower kw.args then
    if 0 < n then (kw, some (effectiveIds n req))
    else
      ({ kw with
          device := some "cpu"
          args := fun k =>
            if k ∈ deviceKeys then (kw.args k).map fun v => if lower v = "gpu" then "cpu" else v else kw.args k }, none)
  else (kw, none)

/-- What `GP.__init__` does with a list of keywords: a GP, a `TypeError` about a keyword, or another exception. -/
inductive Ctor where
  | built
  | unexpected (key : String)
  | raised (e : String)

/-- `_safe_gp_init`, ggmp.py:356-379: the result, and the list `removed`. `some ks` is a GP built with the keywords `ks`, `none` is the
result `None`. The bound `fuel` on the passes of the loop is the number of keywords plus one; every further pass has one less. -/
def safeInit (gp : List String → Ctor) (required : List String) :
    Nat → List String → List String → Except String (Option (List String) × List String)
  | 0, _, _ => .error "unreachable"
  | fuel + 1, kw, removed =>
      match gp kw with
      | .built => .ok (some kw, removed)
      | .raised e => .error e
      | .unexpected bad =>
          if bad ∈ required then .ok (none, removed ++ [bad])
          else if bad ∈ kw then safeInit gp required fuel (kw.erase bad) (removed ++ [bad])
          else .error ("TypeError: unexpected keyword argument " ++ bad)

/-- The list of keywords to try for a kernel or mean function, ggmp.py:402-416: the aliases in the signature first, then the others,
then no keyword; only the last if there is no function. -/
def aliasTries (signature : List String) (aliases : List String) (given : Bool) : List (List String) :=
  if given then (aliases.filter (· ∈ signature) ++ aliases.filter (· ∉ signature)).map (fun k => [k]) ++ [[]] else [[]]

def kernelAliases : List String := ["kernel_function", "gp_kernel_function", "kernel"]
def meanAliases : List String := ["prior_mean_function", "prior_mean", "mean_function"]

/-- `{**base_kwargs, **k_kwargs, **m_kwargs, **filtered_gp_kwargs}` as a list of keys. -/
def mergeKeys (l : List (List String)) : List String := l.flatten.dedup

/-- `_make_component_gp`, ggmp.py:398-436, for the signature of `GP.__init__`: the keywords of the GP that is built and the rejected
keywords. `rest` are the keys of `gp_kwargs`. -/
def tryAll (gp : List String → Ctor) (filtered : List String) : List (List String × List String) → List String →
    Except String (List String × List String)
  | [], dropped =>
      let kw := mergeKeys [["noise_variances"], filtered]
      match safeInit gp [] (kw.length + 1) kw [] with
      | .error e => .error e
      | .ok (some ks, removed) => .ok (ks, dropped ++ removed)
      | .ok (none, _) => .error "RuntimeError: Failed to initialize fvGP GP object with the provided configuration."
  | (k, m) :: tries, dropped =>
      let kw := mergeKeys [["noise_variances"], k, m, filtered]
      match safeInit gp (k ++ m) (kw.length + 1) kw [] with
      | .error e => .error e
      | .ok (some ks, removed) => .ok (ks, dropped ++ removed)
      | .ok (none, removed) => tryAll gp filtered tries (dropped ++ removed)

/-- `_make_component_gp` with the nested loops as one list of pairs. -/
def makeKw (gp : List String → Ctor) (signature rest : List String) (kernel mean : Bool) : Except String (List String × List String) :=
  let filtered := rest.filter (· ∈ signature)
  tryAll gp filtered
    ((aliasTries signature kernelAliases kernel).flatMap fun k => (aliasTries signature meanAliases mean).map fun m => (k, m)) []

/-- The current devices of torch and cupy; `none` if the library or the device is not usable. -/
structure Devs where
  torch : Option Nat
  cupy : Option Nat

/-- `with self._gpu_device(id): body`, ggmp.py:468-501 with `contextlib.contextmanager`. `body` sees the devices and returns or raises;
it leaves the current devices as they are. The result is what the caller sees and the devices afterwards. An exception of the body is
raised at the `yield`, and the clause `except Exception` around the `yield` catches it; the generator goes on to the next `yield`, and
`contextmanager` then raises. -/
def withDevice (engine : Option String) (id : Option Nat) (body : Devs → Except String Unit) (d : Devs) : Except String Unit × Devs :=
  let again : Except String Unit → Except String Unit
    | .ok u => .ok u
    | .error _ => .error "RuntimeError: generator didn't stop after throw()"
  match id with
  | none => (body d, d)
  | some i =>
      if (engine = some "torch" ∨ engine = none) ∧ d.torch ≠ none then (again (body { d with torch := some i }), d)
      else if (engine = some "cupy" ∨ engine = none) ∧ d.cupy ≠ none then (again (body { d with cupy := some i }), d)
      else (body d, d)

end Verif.Ggmp
