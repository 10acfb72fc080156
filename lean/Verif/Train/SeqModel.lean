import Mathlib.Data.Real.Sqrt
import Mathlib.Data.List.Nodup
import Mathlib.LinearAlgebra.Matrix.Defs
import Mathlib.Algebra.Order.Floor.Defs
import Mathlib.Algebra.Order.Floor.Ring
import Mathlib.Algebra.BigOperators.Group.Finset.Defs

/-!
Model of the linear-algebra state carried from one likelihood evaluation to the next:
`sequential_linalg_state` (gp_kv.py:29-85), the preconditioner cache (gp_kv.py:193-388), warm starts
(gp_kv.py:287-308, gp_marginal_likelihood.py:89-134) and the training evaluations that use them
(gp_kv.py:510-631, gp_marginal_likelihood.py:137-179).

Exact reals for floats; `inf` of `_fingerprint_drift` is `none`. Strings as setting values are taken not to parse as
numbers. The factor stored beside the preconditioner operator is never read and is left out. The preconditioner builder,
the Krylov and direct solvers and the stochastic log-determinant are parameters; the last one takes its random draw as
an argument. Warnings and log messages are left out except that a warning may be turned into an exception.
-/

namespace Verif.Train

open Classical

abbrev Str := List Char

/-- Values of the settings dictionary `args`. -/
inductive Val where
  | none
  | bool (b : Bool)
  | int (z : ℤ)
  | real (r : ℝ)
  | str (s : Str)

/-- A number, for Python's comparison of numbers and booleans. -/
noncomputable def Val.num : Val → Option ℝ
  | .bool b => some (if b then 1 else 0)
  | .int z => some z
  | .real r => some r
  | _ => Option.none

/-- Python's `==` between setting values. -/
noncomputable def Val.pyEq (a b : Val) : Bool :=
  match a.num, b.num with
  | some x, some y => decide (x = y)
  | Option.none, Option.none => decide (a = b)
  | _, _ => false

/-- `bool(v)`. -/
noncomputable def Val.truthy : Val → Bool
  | .none => false
  | .bool b => b
  | .int z => decide (z ≠ 0)
  | .real r => decide (r ≠ 0)
  | .str s => decide (s ≠ [])

/-- `int(v)`: truncation towards zero. -/
noncomputable def Val.toInt : Val → Except String ℤ
  | .none => .error "TypeError: int()"
  | .bool b => .ok (if b then 1 else 0)
  | .int z => .ok z
  | .real r => .ok (if 0 ≤ r then ⌊r⌋ else ⌈r⌉)
  | .str _ => .error "ValueError: invalid literal for int()"

/-- `float(v)`. -/
noncomputable def Val.toFloat (v : Val) : Except String ℝ :=
  match v.num with
  | some r => .ok r
  | Option.none => .error "TypeError: float()"

/-- A Python dictionary in insertion order. -/
abbrev Dict := List (Str × Val)

/-- Keys are distinct: true of every Python dictionary. -/
def Dict.WF (d : Dict) : Prop := (d.map Prod.fst).Nodup

/-- `d[k] = v`: an existing key keeps its place, a new one goes to the end. -/
def dictSet (d : Dict) (k : Str) (v : Val) : Dict :=
  if d.any (fun e => e.1 == k) then d.map fun e => if e.1 = k then (k, v) else e else d ++ [(k, v)]

/-- `d.pop(k, None)`. -/
def dictPop (d : Dict) (k : Str) : Dict := d.filter fun e => e.1 ≠ k

/-- `d.get(k)` with `none` for an absent key. -/
def dictGet? (d : Dict) (k : Str) : Option Val := d.lookup k

def warmKey : Str := "sparse_krylov_warm_start".toList
def intervalKey : Str := "sparse_preconditioner_refresh_interval".toList
def driftKey : Str := "sparse_preconditioner_max_matrix_drift".toList
def precondPrefix : Str := "sparse_preconditioner_".toList

/-- `_SEQUENTIAL_STATE_DEFAULTS`, gp_kv.py:20-23. -/
def seqDefaults : List (Str × Val) := [(warmKey, .bool false), (intervalKey, .int 1)]

/-- The `finally` block, gp_kv.py:80-85. -/
def restore (saved : Dict) (args : Dict) : Dict :=
  seqDefaults.foldl (fun d kv => match dictGet? saved kv.1 with
    | some v => dictSet d kv.1 v
    | Option.none => dictPop d kv.1) args

/-- `with sequential_linalg_state(args, method): body`, gp_kv.py:29-85. `isMcmc` is `method in {"mcmc"}`; the body gets
the dictionary and leaves one behind, with its result or exception. `warnRaises` tells whether the warning filter turns
warnings into exceptions. `args` not being a dictionary is the first branch and is left out (`GP.__init__` makes it a
dictionary). -/
noncomputable def withSequentialState {R : Type} (isMcmc warnRaises : Bool) (args : Dict)
    (body : Dict → Except String R × Dict) : Except String R × Dict :=
  if isMcmc then body args
  else
    let overridden := seqDefaults.filter fun kv => match dictGet? args kv.1 with
      | some v => !(v.pyEq kv.2)
      | Option.none => false
    if overridden ≠ [] ∧ warnRaises then (.error "UserWarning: method disables sequential state", args)
    else
      let saved := seqDefaults.filterMap fun kv => (dictGet? args kv.1).map fun v => (kv.1, v)
      let during := seqDefaults.foldl (fun d kv => dictSet d kv.1 kv.2) args
      let out := body during
      (out.1, restore saved out.2)

/-- A square matrix K+V with its number of stored entries. -/
structure KVMat where
  n : ℕ
  nnz : ℕ
  M : Matrix (Fin n) (Fin n) ℝ

/-- The tuple returned by `matrix_fingerprint`. -/
structure FP where
  shape : ℕ
  nnz : ℕ
  trace : ℝ
  fro : ℝ

/-- `matrix_fingerprint(KV)`, gp_kv.py:216-239. -/
noncomputable def fingerprint (A : KVMat) : FP :=
  ⟨A.n, A.nnz, ∑ i, A.M i i, Real.sqrt (∑ i, ∑ j, A.M i j * A.M i j)⟩

/-- `1e-300`, gp_kv.py:250. -/
noncomputable def tiny : ℝ := 1 / (10 : ℝ) ^ 300

/-- `_fingerprint_drift(old, new)`, gp_kv.py:241-252; `none` stands for `inf`. -/
noncomputable def fpDrift (old new : Option FP) : Option ℝ :=
  match old, new with
  | some o, some w =>
    if o.shape ≠ w.shape then Option.none
    else
      [(o.trace, w.trace), (o.fro, w.fro)].foldl (fun d p =>
        let scale := max (max |p.1| |p.2|) tiny
        d.map fun d => max d (|p.2 - p.1| / scale)) (some 0)
  | _, _ => Option.none

/-- `drift > limit`. -/
noncomputable def driftGt (d : Option ℝ) (limit : ℝ) : Bool :=
  match d with
  | Option.none => true
  | some x => decide (limit < x)

/-- `_max_matrix_drift()`, gp_kv.py:259-285. -/
noncomputable def maxDrift (args : Dict) : Except String ℝ := ((dictGet? args driftKey).getD (.real 0.1)).toFloat

/-- `_preconditioner_refresh_interval()`, gp_kv.py:195-207; `none` is "no cap". -/
noncomputable def refreshInterval (args : Dict) : Except String (Option ℤ) :=
  match (dictGet? args intervalKey).getD .none with
  | .none => .ok Option.none
  | v => do let z ← v.toInt; .ok (some (max 1 z))

/-- Strict lexicographic order on keys, as used by `sorted`. -/
def keyLe (a b : Str × Val) : Bool := decide (a.1 ≤ b.1)

/-- `_preconditioner_signature()`, gp_kv.py:209-213. -/
def signature (args : Dict) : Dict := (args.filter fun e => precondPrefix.isPrefixOf e.1).mergeSort keyLe

/-- The cached preconditioner, gp_kv.py:132-137 with 118. -/
structure Cache (P : Type) where
  operator : Option P
  signature : Option Dict
  shape : Option ℕ
  fp : Option FP
  counter : ℕ
  error : Option String

/-- `_reset_sparse_preconditioner()`, gp_kv.py:310-317; also the initial state. -/
def Cache.empty {P : Type} : Cache P := ⟨Option.none, Option.none, Option.none, Option.none, 0, Option.none⟩

/-- What `__getstate__`/`__setstate__` make of the cache, gp_kv.py:731-742: the operator is dropped, the rest is
kept. -/
def Cache.pickle {P : Type} (c : Cache P) : Cache P := { c with operator := Option.none }

/-- `_can_reuse_sparse_preconditioner(KV)`, gp_kv.py:319-337. `pre` is `self.mode in _PRECONDITIONED_MODES`. -/
noncomputable def canReuse {P : Type} (pre : Bool) (args : Dict) (c : Cache P) (A : KVMat) : Except String Bool :=
  if !pre then .ok false
  else if c.operator.isNone then .ok false
  else if c.shape ≠ some A.n then .ok false
  else if c.signature ≠ some (signature args) then .ok false
  else do
    let interval ← refreshInterval args
    if (match interval with | some z => decide (z - 1 ≤ (c.counter : ℤ)) | Option.none => false) then .ok false
    else do
      let lim ← maxDrift args
      if driftGt (fpDrift c.fp (some (fingerprint A))) lim then .ok false else .ok true

/-- `_get_or_refresh_preconditioner(KV, force_refresh)`, gp_kv.py:355-388 with
`_build_sparse_preconditioner_or_none`, 339-353. `build` is `calculate_sparse_preconditioner`. -/
noncomputable def getOrRefresh {P : Type} (build : Dict → KVMat → Except String P) (pre : Bool) (args : Dict)
    (c : Cache P) (A : KVMat) (force : Bool) : Except String (Option P) × Cache P :=
  if !pre then (.ok Option.none, c)
  else
    match (if force then .ok false else canReuse pre args c A) with
    | .error e => (.error e, c)
    | .ok true => (.ok c.operator, { c with counter := c.counter + 1 })
    | .ok false =>
      match build args A with
      | .error _ => (.ok Option.none, Cache.empty)
      | .ok p => (.ok (some p), ⟨some p, some (signature args), some A.n, some (fingerprint A), 0, Option.none⟩)

/-- A two-dimensional array. -/
structure Arr where
  rows : ℕ
  cols : ℕ
  val : ℕ → ℕ → ℝ

/-- Linear algebra modes, gp_kv.py:519-556. -/
inductive Mode where
  | direct (name : Str)
  | cg | minres | cgPre | minresPre
deriving DecidableEq

/-- `mode in _PRECONDITIONED_MODES`. -/
def Mode.pre : Mode → Bool
  | .cgPre | .minresPre => true
  | _ => false

/-- External numerical routines. `Ω` is the type of random draws of the stochastic log-determinant. -/
structure Ext (P Ω : Type) where
  build : Dict → KVMat → Except String P
  direct : Dict → Str → KVMat → Arr → Except String Arr
  cg : Dict → KVMat → Arr → Option P → Option Arr → Except String Arr
  minres : Dict → KVMat → Arr → Option P → Option Arr → Except String Arr
  logdet : Dict → Mode → KVMat → Ω → Except String ℝ

/-- State surviving a likelihood evaluation: gp_kv.py:113-140 and gp_marginal_likelihood.py:20-24. `committed` is
`kv.KVinvY`. -/
structure LinState (P : Type) where
  cache : Cache P
  warmFp : Option FP
  warmSol : Option Arr
  committed : Option Arr

/-- `_warm_start_enabled()`, gp_marginal_likelihood.py:92-93. -/
noncomputable def warmEnabled (args : Dict) : Bool := ((dictGet? args warmKey).getD (.bool false)).truthy

/-- One candidate in the loop of `_iterative_initial_guess`, gp_marginal_likelihood.py:104-115. -/
def fitGuess (rows cols : ℕ) (g : Arr) : Option Arr :=
  if g.rows ≠ rows then Option.none
  else if g.cols = cols then some g
  else if g.cols = 1 ∧ 1 < cols then some ⟨g.rows, cols, fun i _ => g.val i 0⟩
  else Option.none

/-- `_iterative_initial_guess(target_shape)`, gp_marginal_likelihood.py:95-115. -/
noncomputable def initialGuess {P : Type} (args : Dict) (s : LinState P) (rows cols : ℕ) : Option Arr :=
  if !warmEnabled args then Option.none
  else ((s.warmSol.bind (fitGuess rows cols)).orElse fun _ => s.committed.bind (fitGuess rows cols))

/-- `_validated_warm_start(KV, x0)`, gp_kv.py:287-308. -/
noncomputable def validatedWarmStart {P : Type} (args : Dict) (s : LinState P) (A : KVMat) (x0 : Option Arr) :
    Except String (Option Arr) :=
  match x0 with
  | Option.none => .ok Option.none
  | some g =>
    match s.warmFp with
    | Option.none => .ok (some g)
    | some f => do
      let lim ← maxDrift args
      if driftGt (fpDrift (some f) (some (fingerprint A))) lim then .ok Option.none else .ok (some g)

/-- The solve of `compute_new_KVlogdet_KVinvY`, gp_kv.py:587-630. `self` is `self.mode`, which the preconditioner cache
consults; `mode` is the mode of this evaluation. -/
noncomputable def solveStep {P Ω : Type} (ext : Ext P Ω) (self mode : Mode) (args : Dict) (c : Cache P) (A : KVMat)
    (y : Arr) (x0 : Option Arr) : Except String Arr × Cache P :=
  match mode with
  | .direct s => (ext.direct args s A y, c)
  | .cg => (ext.cg args A y Option.none x0, c)
  | .minres => (ext.minres args A y Option.none x0, c)
  | .cgPre =>
    match getOrRefresh ext.build self.pre args c A false with
    | (.error e, c') => (.error e, c')
    | (.ok M, c') => (ext.cg args A y M x0, c')
  | .minresPre =>
    match getOrRefresh ext.build self.pre args c A false with
    | (.error e, c') => (.error e, c')
    | (.ok M, c') => (ext.minres args A y M x0, c')

/-- One training evaluation: `GPMarginalLikelihood.compute_new_KVlogdet_KVinvY`, gp_marginal_likelihood.py:129-134, with
`GPkv.compute_new_KVlogdet_KVinvY`, gp_kv.py:574-631. An exception leaves the state as far as it had been changed. -/
noncomputable def evaluate {P Ω : Type} (ext : Ext P Ω) (self mode : Mode) (args : Dict) (s : LinState P) (A : KVMat)
    (y : Arr) (ω : Ω) : Except String (Arr × ℝ) × LinState P :=
  let x0 := initialGuess args s y.rows y.cols
  match validatedWarmStart args s A x0 with
  | .error e => (.error e, s)
  | .ok x0 =>
    let s1 := { s with warmFp := some (fingerprint A) }
    match solveStep ext self mode args s1.cache A y x0 with
    | (.error e, c) => (.error e, { s1 with cache := c })
    | (.ok sol, c) =>
      let s2 := { s1 with cache := c }
      match ext.logdet args mode A ω with
      | .error e => (.error e, s2)
      | .ok ld =>
        (.ok (sol, ld), if warmEnabled args then { s2 with warmSol := some sol } else s2)

/-- A GP as far as training evaluations see it: K+V and y−m as functions of the hyperparameters, and the mode selected
for a matrix (`_set_gp2Scale_mode` under gp2Scale, `self.mode` otherwise; gp_kv.py:582-585). -/
structure Problem (H : Type) where
  kv : H → KVMat
  resid : H → Arr
  self : Mode
  select : KVMat → Mode

/-- `neg_log_likelihood(hyperparameters)`, gp_marginal_likelihood.py:207-221, with `log_likelihood`, 137-179. -/
noncomputable def negLogLik {P Ω H : Type} (ext : Ext P Ω) (pr : Problem H) (args : Dict) (c : ℝ) (s : LinState P)
    (h : H) (ω : Ω) : Except String ℝ × LinState P :=
  let A := pr.kv h
  let y := pr.resid h
  match evaluate ext pr.self (pr.select A) args s A y ω with
  | (.error e, s') => (.error ("Linear algebra failed: " ++ e), s')
  | (.ok (sol, ld), s') =>
    (.ok (-(-(1/2) * ((∑ i ∈ Finset.range y.rows, ∑ j ∈ Finset.range y.cols, y.val i j * sol.val i j) / y.cols
        + ld + y.rows * c))), s')

/-- A sequence of evaluations, as made by an optimizer: the values in order, and the state left behind. -/
noncomputable def evaluations {P Ω H : Type} (ext : Ext P Ω) (pr : Problem H) (args : Dict) (c : ℝ) :
    LinState P → List (H × Ω) → List (Except String ℝ) × LinState P
  | s, [] => ([], s)
  | s, (h, ω) :: rest =>
    let r := negLogLik ext pr args c s h ω
    let t := evaluations ext pr args c r.2 rest
    (r.1 :: t.1, t.2)

/-- Operations on the preconditioner cache, as issued by `set_KV`/`update_KV`/`solve`/`compute_new_*` (requests),
`set_args` and pickling. -/
inductive COp where
  | request (A : KVMat) (force : Bool)
  | reset
  | setArgs (d : Dict)
  | pickle

/-- What happened to the cache. -/
inductive Ev (P : Type) where
  | built (A : KVMat) (args : Dict) (p : P)
  | reused (A : KVMat) (args : Dict) (p : P)
  | dropped
  | raised

/-- One operation, with the event it causes; the newest event comes first. -/
noncomputable def cstep {P : Type} (build : Dict → KVMat → Except String P) (pre : Bool)
    (st : Dict × Cache P × List (Ev P)) (op : COp) : Dict × Cache P × List (Ev P) :=
  match op with
  | .setArgs d => (d, st.2.1, st.2.2)
  | .reset => (st.1, Cache.empty, .dropped :: st.2.2)
  | .pickle => (st.1, st.2.1.pickle, .dropped :: st.2.2)
  | .request A force =>
    match getOrRefresh build pre st.1 st.2.1 A force with
    | (.error _, c) => (st.1, c, .raised :: st.2.2)
    | (.ok Option.none, c) => (st.1, c, (if pre then .dropped else .raised) :: st.2.2)
    | (.ok (some p), c) => (st.1, c, (if c.counter = 0 then .built A st.1 p else .reused A st.1 p) :: st.2.2)

noncomputable def crun {P : Type} (build : Dict → KVMat → Except String P) (pre : Bool) (st : Dict × Cache P × List (Ev P))
    (ops : List COp) : Dict × Cache P × List (Ev P) := ops.foldl (cstep build pre) st

end Verif.Train
