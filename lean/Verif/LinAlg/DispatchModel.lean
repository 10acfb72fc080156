import Verif.LinAlg.Modes

/-!
Model of which sparse preconditioner is built: the settings dictionary of a GP from its construction (gp.py:454,
483-490, gp_data.py:52, gp_kv.py:113-120) through `set_args` (gp.py:650-669) to the dispatch in
`calculate_sparse_preconditioner` (gp_lin_alg.py:890-930) and the fallback in `_build_sparse_preconditioner_or_none`
(gp_kv.py:339-353).

Dictionaries live in the heap of `Modes.lean`, because the GP may share its dictionary with the caller. The builders of
the preconditioners are parameters.
-/

namespace Verif.LinAlg.Modes

/-- `d.get(k, default)`. -/
def dictGetD (d : Dict) (k : Str) (default : PyVal) : PyVal :=
  match d.find? (fun e => e.1 == k) with
  | some e => e.2
  | none => default

/-- What a GP keeps: the heap, the address of `data.args`, and `kv.mode`. -/
structure Settings where
  heap : Heap
  args : ℕ
  mode : PyVal

/-- The dictionary the GP looks at. -/
def Settings.dict (s : Settings) : Dict := s.heap.getD s.args []

/-- The heap after `if args is None: args = {}`, gp.py:454. -/
def argsHeap (args : Option ℕ) (h : Heap) : Heap :=
  match args with
  | none => h ++ [[]]
  | some _ => h

/-- Construction of a GP (without gp2Scale): `if args is None: args = {}` (gp.py:454), the data object stores the
caller's dictionary (gp_data.py:52), a string mode is resolved and the resolved copy stored (gp_kv.py:116-120), no mode
is `"Chol"` (gp_kv.py:144-146). -/
def construct (lower : Str → Str) (linalgMode : PyVal) (args : Option ℕ) (h : Heap) : Except String Settings :=
  let h₁ := argsHeap args h
  let a := args.getD h.length
  match linalgMode with
  | .str m => do
      let r ← resolve lower (.str m) (some a) h₁
      .ok ⟨r.2.1, r.2.2, r.1⟩
  | .none => .ok ⟨h₁, a, .str "Chol".toList⟩
  | m => .ok ⟨h₁, a, m⟩

/-- What user code may do between solves: write to a dictionary it holds, make a new one, or call `set_args`
(gp.py:669), which stores the dictionary itself, not a copy. -/
inductive SOp where
  | write (a : ℕ) (k : Str) (v : PyVal)
  | alloc (d : Dict)
  | setArgs (a : ℕ)

def SOp.apply (s : Settings) : SOp → Settings
  | .write a k v => { s with heap := s.heap.set a (dictSet (s.heap.getD a []) k v) }
  | .alloc d => { s with heap := s.heap ++ [d] }
  | .setArgs a => { s with args := a }

def runS (s : Settings) (ops : List SOp) : Settings := ops.foldl SOp.apply s

/-- The type selected by `calculate_sparse_preconditioner(KV, args)`, gp_lin_alg.py:900-902. -/
def selected (lower : Str → Str) (args : Dict) : Except String Str :=
  normalizeType lower (dictGetD args typeKey (.str "ilu".toList))

/-- `_build_sparse_preconditioner_or_none(KV)`, gp_kv.py:339-353, with the builders of gp_lin_alg.py:906-923: the
preconditioner, if any, and the number of warnings. -/
def request {P : Type} (lower : Str → Str) (builders : Str → Dict → Except String P) (s : Settings) : Option P × ℕ :=
  match (do let t ← selected lower s.dict; builders t s.dict) with
  | .ok p => (some p, 0)
  | .error _ => (none, 1)

end Verif.LinAlg.Modes
