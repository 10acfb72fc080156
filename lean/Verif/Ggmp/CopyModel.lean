/-!
Model of attribute access on a `GGMP`, `hyperparameters` or `NormalLikelihood` object and of the standard library's copying and
pickling protocols applied to it.

Simplifications: values of attributes are opaque; a class is the set of names found on it and whether it defines `__getattr__`
the way `GGMP` does (`/repo/fvgp/ggmp.py` lines 125-128); none of the classes has slots, properties or hooks of the protocols of
its own. The standard library (`copy.copy`, `copy.deepcopy`, `copyreg._reduce_ex`, `object.__reduce_ex__`, `pickle`) is modelled
from its documented behaviour; copying of the values themselves is an arbitrary function.
-/

namespace Verif.Ggmp

/-- A class: the names defined on it or inherited from `object`, and whether a missing attribute is answered by a function that
only prints (`__getattr__`, ggmp.py:125-128). -/
structure PyClass where
  names : List String
  stubs : Bool

/-- An object: its class and its `__dict__`. -/
structure PyObj (α : Type) where
  cls : PyClass
  dict : String → Option α

/-- Result of looking up an attribute. -/
inductive Found (α : Type) where
  | value (a : α)
  | method (name : String)
  | stub (name : String)

variable {α : Type}

/-- `getattr(o, name)`: the `__dict__`, then the class, then `__getattr__`. -/
def PyObj.get (o : PyObj α) (name : String) : Except String (Found α) :=
  match o.dict name with
  | some a => .ok (.value a)
  | none =>
    if name ∈ o.cls.names then .ok (.method name)
    else if o.cls.stubs then .ok (.stub name)
    else .error "AttributeError"

/-- `hasattr(o, name)`. -/
def PyObj.has (o : PyObj α) (name : String) : Bool :=
  match o.get name with
  | .ok _ => true
  | .error _ => false

/-- `not_implemented(*args, **kwargs)`, ggmp.py:126-127: prints and returns `None`, for all arguments. `run name args` is what
the methods of the class do, `call a args` calls a stored value. -/
def PyObj.callAttr {β : Type} (run : String → List α → Except String (Option β)) (call : α → List α → Except String (Option β))
    (o : PyObj α) (name : String) (args : List α) : Except String (Option β) :=
  match o.get name with
  | .error e => .error e
  | .ok (.value a) => call a args
  | .ok (.method m) => run m args
  | .ok (.stub _) => .ok none

/-- An object without attributes, `copyreg.__newobj__(cls)`. -/
def PyObj.fresh (cls : PyClass) : PyObj α := ⟨cls, fun _ => none⟩

/-- The state `object.__reduce_ex__(protocol)` takes from an object with attributes, protocols 2 and above. From Python 3.11 on
`__getstate__` is inherited from `object` and gives the `__dict__`; before, the attribute is looked up on the object and the
`__dict__` is used when there is none. -/
def PyObj.getState (o : PyObj α) : Option (String → Option α) :=
  match o.get "__getstate__" with
  | .ok (.method _) => some o.dict
  | .ok _ => none
  | .error _ => some o.dict

/-- Building an object from a state: `__setstate__` is looked up on the new object; without it the `__dict__` is updated
(`copy._reconstruct`, `pickle.Unpickler.load_build`). No class here defines `__setstate__`. -/
def PyObj.build (cls : PyClass) (state : Option (String → Option α)) : PyObj α :=
  match state with
  | none => PyObj.fresh cls
  | some d => if (PyObj.fresh (α := α) cls).has "__setstate__" then PyObj.fresh cls else ⟨cls, d⟩

/-- `copy.copy(o)`. -/
def PyObj.copy (o : PyObj α) : PyObj α := PyObj.build o.cls o.getState

/-- `copy.deepcopy(o)`: `__deepcopy__` is looked up on the object and called; `none` is Python's `None`. `dc` copies a value. -/
def PyObj.deepcopy (dc : α → α) (o : PyObj α) : Option (PyObj α) :=
  match o.get "__deepcopy__" with
  | .ok _ => none
  | .error _ => some (PyObj.build o.cls (o.getState.map fun d n => (d n).map dc))

/-- `pickle.loads(pickle.dumps(o, protocol))`. `pk` is the round trip of a value. In protocols 0 and 1 `copyreg._reduce_ex`
refuses objects with a true `__slots__` whose `__getstate__` is the one of `object`. -/
def PyObj.repickle (pk : α → α) (protocol : Nat) (o : PyObj α) : Except String (PyObj α) :=
  if protocol < 2 ∧ o.has "__slots__" ∧ "__getstate__" ∈ o.cls.names then
    .error "TypeError: a class that defines __slots__ without defining __getstate__ cannot be pickled"
  else .ok (PyObj.build o.cls (o.getState.map fun d n => (d n).map pk))

/-- Names every class inherits from `object`; `__getstate__` since Python 3.11. -/
def objectNames (py311 : Bool) : List String :=
  ["__class__", "__delattr__", "__dict__", "__dir__", "__doc__", "__eq__", "__format__", "__ge__", "__getattribute__", "__gt__",
    "__hash__", "__init__", "__init_subclass__", "__le__", "__lt__", "__module__", "__ne__", "__new__", "__reduce__",
    "__reduce_ex__", "__repr__", "__setattr__", "__sizeof__", "__str__", "__subclasshook__", "__weakref__"] ++
    if py311 then ["__getstate__"] else []

/-- `class GGMP`, ggmp.py:40-778. -/
def ggmpClass (py311 : Bool) : PyClass :=
  ⟨["__getattr__", "build_pairwise_data_generating_normals", "initLikelihoods", "initGPs", "_gpu_device", "_as_float",
    "_gp_log_likelihood", "_safe_set_hyperparameters", "train", "posterior_mean", "posterior_variance"] ++ objectNames py311, true⟩

/-- `class hyperparameters`, ggmp.py:781-859. -/
def hpsClass (py311 : Bool) : PyClass :=
  ⟨["set", "vectorize_hps", "devectorize_hps", "vectorize_bounds", "devectorize_bounds"] ++ objectNames py311, false⟩

/-- `class NormalLikelihood`, ggmp.py:862-902. -/
def likelihoodClass (py311 : Bool) : PyClass :=
  ⟨["set_moments", "set_weight", "unravel", "ravel"] ++ objectNames py311, false⟩

end Verif.Ggmp
