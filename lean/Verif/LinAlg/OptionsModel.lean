import Verif.LinAlg.KrylovModel
import Verif.Train.SeqModel

/-!
Model of the settings of the sparse iterative solvers and of the MINRES front end, gp_lin_alg.py:937-970, 998-1003,
1184-1210 and 1213-1241. Dictionaries and their values are those of the model of the training settings
(`Train/SeqModel.lean`); `lower` is `str.lower`; `str()` of a value that is not a string is taken not to be the name of a
Krylov mode.
-/

namespace Verif.LinAlg

open Verif.Train (Dict Val Str dictGet?)

variable {n : ℕ}

def cgTolKey : Str := "sparse_cg_tol".toList
def legacyTolKey : Str := "cg_minres_tol".toList
def minresTolKey : Str := "sparse_minres_tol".toList
def cgIterKey : Str := "sparse_cg_maxiter".toList
def minresIterKey : Str := "sparse_minres_maxiter".toList
def krylovIterKey : Str := "sparse_krylov_maxiter".toList
def blockKey : Str := "sparse_block_krylov".toList
def modeKey : Str := "sparse_krylov_mode".toList

/-- The table of gp_lin_alg.py:942-947; `true` is `"block"`. -/
def krylovAliases : List (Str × Bool) :=
  [("single".toList, false), ("columnwise".toList, false), ("block".toList, true), ("block_cg".toList, true)]

/-- `_resolve_krylov_mode(args)`, gp_lin_alg.py:937-952. -/
noncomputable def krylovMode (lower : Str → Str) (args : Dict) : Except String Bool :=
  if ((dictGet? args blockKey).getD (.bool false)).truthy then .ok true
  else
    match (dictGet? args modeKey).getD (.str "single".toList) with
    | .str s =>
      match krylovAliases.lookup (lower s) with
      | some b => .ok b
      | none => .error "ValueError: Unknown sparse Krylov mode"
    | _ => .error "ValueError: Unknown sparse Krylov mode"

/-- `None if value is None else int(value)`, gp_lin_alg.py:959 and 962. -/
noncomputable def intOrNone : Val → Except String (Option ℤ)
  | .none => .ok none
  | v => v.toInt.map some

/-- `_resolve_krylov_maxiter(args, solver_key)`, gp_lin_alg.py:955-963, with a solver key. -/
noncomputable def krylovMaxiter (args : Dict) (key : Str) : Except String (Option ℤ) :=
  match dictGet? args key with
  | some v => intOrNone v
  | none =>
    match dictGet? args krylovIterKey with
    | some v => intOrNone v
    | none => .ok none

/-- The tolerance of `calculate_sparse_conj_grad`, gp_lin_alg.py:1227-1237. -/
noncomputable def cgTol (args : Dict) : Val :=
  match dictGet? args cgTolKey with
  | some v => v
  | none =>
    match dictGet? args legacyTolKey with
    | some v => v
    | none => (dictGet? args minresTolKey).getD (.real 1e-5)

/-- The tolerance of `calculate_sparse_minres`, gp_lin_alg.py:1195-1198. -/
noncomputable def minresTol (args : Dict) : Val := (dictGet? args minresTolKey).getD (.real 1e-5)

/-- `calculate_sparse_minres(KV, vec, x0, M, args)`, gp_lin_alg.py:1184-1210, on a right-hand side of `cols` columns and a
guess already brought into shape (C17): the columns of the result and the number of warnings. `minres tol maxiter b x0`
is scipy's solver for this matrix and preconditioner. -/
noncomputable def sparseMinres (minres : Val → Option ℤ → (Fin n → ℝ) → Option (Fin n → ℝ) → (Fin n → ℝ) × ℤ)
    (args : Dict) (V : ℕ → Fin n → ℝ) (x0 : Option (ℕ → Fin n → ℝ)) (cols : ℕ) : Except String ((ℕ → Fin n → ℝ) × ℕ) :=
  match krylovMaxiter args minresIterKey with
  | .error e => .error e
  | .ok maxiter =>
    .ok ((List.range cols).foldl (fun st i =>
      let r := minres (minresTol args) maxiter (V i) (x0.map fun x => x i)
      (Function.update st.1 i r.1, if r.2 ≠ 0 then st.2 + 1 else st.2)) (fun _ _ => 0, 0))

end Verif.LinAlg
