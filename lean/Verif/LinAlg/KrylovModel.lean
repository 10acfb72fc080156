import Mathlib.Analysis.SpecialFunctions.Sqrt
import Mathlib.LinearAlgebra.Matrix.Notation
import Mathlib.Data.Matrix.Mul
import Mathlib.Algebra.BigOperators.Fin

/-!
Model of the sparse iterative solvers of `/repo/fvgp/gp_lin_alg.py` lines 937-1080 and 1213-1291.

Simplifications: exact real arithmetic; the sparse matrix is represented by the dense matrix it stands for;
scipy's `cg` is an arbitrary function (its contract is a hypothesis of the theorems that need it); numpy's
`linalg.solve` is an arbitrary function that may fail.
-/

namespace Verif.LinAlg

open Matrix

/-! ### Warm starts -/

/-- A numpy array of one or two dimensions. -/
inductive Arr where
  | d1 (len : ℕ) (val : ℕ → ℝ)
  | d2 (rows cols : ℕ) (val : ℕ → ℕ → ℝ)

/-- A two-dimensional array. -/
structure Arr2 where
  rows : ℕ
  cols : ℕ
  val : ℕ → ℕ → ℝ

/-- `guess.reshape(-1, 1)` for one-dimensional arrays, gp_lin_alg.py:981-983. -/
def Arr.as2 : Arr → Arr2
  | .d1 len val => ⟨len, 1, fun i _ => val i⟩
  | .d2 r c val => ⟨r, c, val⟩

/-- `_normalize_initial_guess(x0, shape)`, gp_lin_alg.py:973-995. -/
def normalizeGuess (x0 : Option Arr) (shape : ℕ × ℕ) : Except String (Option Arr2) :=
  match x0 with
  | none => .ok none
  | some a =>
      let guess := a.as2
      let guess := if guess.cols = 1 ∧ 1 < shape.2 then ⟨guess.rows, shape.2, fun i _ => guess.val i 0⟩
        else guess
      if guess.cols ≠ shape.2 then .error "ValueError"
      else if guess.rows < shape.1 then
        .ok (some ⟨shape.1, guess.cols, fun i j => if i < guess.rows then guess.val i j else 0⟩)
      else if shape.1 < guess.rows then .ok (some ⟨shape.1, guess.cols, guess.val⟩)
      else .ok (some guess)

/-! ### Block conjugate gradients -/

section BlockCG

variable {n k : ℕ}

/-- `np.linalg.norm(M, axis=0)`. -/
noncomputable def colNorm (M : Matrix (Fin n) (Fin k) ℝ) (j : Fin k) : ℝ :=
  Real.sqrt (∑ i, M i j ^ 2)

open Classical in
/-- `rhs_norm[rhs_norm == 0.0] = 1.0`, gp_lin_alg.py:1041-1042. -/
noncomputable def rhsNorm (B : Matrix (Fin n) (Fin k) ℝ) (j : Fin k) : ℝ :=
  if colNorm B j = 0 then 1 else colNorm B j

/-- `np.max(rel_residual) <= cg_tol`, gp_lin_alg.py:1043-1044 and :1065-1066 (for at least one column). -/
def smallResidual (tol : ℝ) (B R : Matrix (Fin n) (Fin k) ℝ) : Prop :=
  ∀ j, colNorm R j / rhsNorm B j ≤ tol

/-- `_apply_preconditioner(M, residual)`, gp_lin_alg.py:1018-1021: column by column. -/
def applyPre (M : Option ((Fin n → ℝ) → Fin n → ℝ)) (R : Matrix (Fin n) (Fin k) ℝ) :
    Matrix (Fin n) (Fin k) ℝ :=
  match M with
  | none => R
  | some f => Matrix.of fun i j => f (fun i' => R i' j) i

/-- Loop variables of gp_lin_alg.py:1055-1078. -/
structure CGState (n k : ℕ) where
  X : Matrix (Fin n) (Fin k) ℝ
  R : Matrix (Fin n) (Fin k) ℝ
  P : Matrix (Fin n) (Fin k) ℝ
  G : Matrix (Fin k) (Fin k) ℝ

/-- What one loop iteration does: leave with a code, or continue. -/
inductive CGStep (n k : ℕ) where
  | done (X : Matrix (Fin n) (Fin k) ℝ) (code : ℕ)
  | more (s : CGState n k)

open Classical in
/-- One iteration, gp_lin_alg.py:1055-1078. `solve H G` is `np.linalg.solve`; `none` is `LinAlgError`. -/
noncomputable def cgStep (A : Matrix (Fin n) (Fin n) ℝ) (M : Option ((Fin n → ℝ) → Fin n → ℝ))
    (solve : Matrix (Fin k) (Fin k) ℝ → Matrix (Fin k) (Fin k) ℝ → Option (Matrix (Fin k) (Fin k) ℝ))
    (tol : ℝ) (B : Matrix (Fin n) (Fin k) ℝ) (s : CGState n k) : CGStep n k :=
  let AP := A * s.P
  let H := s.P.transpose * AP
  match solve H s.G with
  | none => .done s.X 2
  | some alpha =>
      let X := s.X + s.P * alpha
      let R := s.R - AP * alpha
      if smallResidual tol B R then .done X 0
      else
        let Z := applyPre M R
        let Gnew := R.transpose * Z
        match solve s.G Gnew with
        | none => .done X 3
        | some beta => .more ⟨X, R, Z + s.P * beta, Gnew⟩

/-- The `for` loop of gp_lin_alg.py:1054-1080; running out of iterations gives exit code 1. -/
noncomputable def cgLoop (A : Matrix (Fin n) (Fin n) ℝ) (M : Option ((Fin n → ℝ) → Fin n → ℝ))
    (solve : Matrix (Fin k) (Fin k) ℝ → Matrix (Fin k) (Fin k) ℝ → Option (Matrix (Fin k) (Fin k) ℝ))
    (tol : ℝ) (B : Matrix (Fin n) (Fin k) ℝ) : ℕ → CGState n k → Matrix (Fin n) (Fin k) ℝ × ℕ
  | 0, s => (s.X, 1)
  | fuel + 1, s =>
      match cgStep A M solve tol B s with
      | .done X code => (X, code)
      | .more s' => cgLoop A M solve tol B fuel s'

/-- The state before the first iteration, gp_lin_alg.py:1039-1040 and :1047-1049. -/
def cgInit (A : Matrix (Fin n) (Fin n) ℝ) (M : Option ((Fin n → ℝ) → Fin n → ℝ))
    (B X : Matrix (Fin n) (Fin k) ℝ) : CGState n k :=
  let R := B - A * X
  let Z := applyPre M R
  ⟨X, R, Z, R.transpose * Z⟩

open Classical in
/-- `_block_conjugate_gradient(KV, vec, cg_tol, x0, M, maxiter)`, gp_lin_alg.py:1024-1080. `cg b x0` is
scipy's single-column solver with this matrix, preconditioner, tolerance and limit. A right-hand side without
columns makes `np.max` raise. -/
noncomputable def blockCG (cg : (Fin n → ℝ) → Option (Fin n → ℝ) → (Fin n → ℝ) × ℤ)
    (A : Matrix (Fin n) (Fin n) ℝ) (M : Option ((Fin n → ℝ) → Fin n → ℝ))
    (solve : Matrix (Fin k) (Fin k) ℝ → Matrix (Fin k) (Fin k) ℝ → Option (Matrix (Fin k) (Fin k) ℝ))
    (tol : ℝ) (B : Matrix (Fin n) (Fin k) ℝ) (x0 : Option (Matrix (Fin n) (Fin k) ℝ))
    (maxiter : Option ℤ) : Except String (Matrix (Fin n) (Fin k) ℝ × ℤ) :=
  if h1 : k = 1 then
    let j : Fin k := ⟨0, by omega⟩
    let r := cg (fun i => B i j) (x0.map fun x i => x i j)
    .ok (Matrix.of fun i _ => r.1 i, r.2)
  else if k = 0 then .error "zero-size array to reduction operation maximum"
  else
    let X := x0.getD 0
    let R := B - A * X
    if smallResidual tol B R then .ok (X, 0)
    else
      let iters := (max (maxiter.getD (10 * n)) 1).toNat
      let r := cgLoop A M solve tol B iters (cgInit A M B X)
      .ok (r.1, (r.2 : ℤ))

/-- Columns `start .. start + w - 1` of a right-hand side given column by column. -/
def colBlock (V : ℕ → Fin n → ℝ) (start w : ℕ) : Matrix (Fin n) (Fin w) ℝ :=
  Matrix.of fun i j => V (start + j) i

/-- Writing a block solution into columns `start .. start + w - 1` of the result, gp_lin_alg.py:1276. -/
def writeBlock {w : ℕ} (res : ℕ → Fin n → ℝ) (start : ℕ) (S : Matrix (Fin n) (Fin w) ℝ) :
    ℕ → Fin n → ℝ :=
  fun j => if h : start ≤ j ∧ j - start < w then fun i => S i ⟨j - start, h.2⟩ else res j

/-- One block of the block mode of `calculate_sparse_conj_grad`, gp_lin_alg.py:1247-1275: solution and exit
code; when the block solver raises, columnwise CG with code 4. -/
noncomputable def cgOneBlock (cg : (Fin n → ℝ) → Option (Fin n → ℝ) → (Fin n → ℝ) × ℤ)
    (A : Matrix (Fin n) (Fin n) ℝ) (M : Option ((Fin n → ℝ) → Fin n → ℝ))
    (solve : ∀ k, Matrix (Fin k) (Fin k) ℝ → Matrix (Fin k) (Fin k) ℝ → Option (Matrix (Fin k) (Fin k) ℝ))
    (tol : ℝ) (maxiter : Option ℤ) (V : ℕ → Fin n → ℝ) (x0 : Option (ℕ → Fin n → ℝ)) (start w : ℕ) :
    Matrix (Fin n) (Fin w) ℝ × ℤ :=
  match blockCG cg A M (solve w) tol (colBlock V start w) (x0.map fun x => colBlock x start w) maxiter with
  | .ok r => r
  | .error _ => (Matrix.of fun i j => (cg (V (start + j)) (x0.map fun x => x (start + j))).1 i, 4)

/-- The loop over column blocks, gp_lin_alg.py:1243-1277. -/
noncomputable def cgBlocks (cg : (Fin n → ℝ) → Option (Fin n → ℝ) → (Fin n → ℝ) × ℤ)
    (A : Matrix (Fin n) (Fin n) ℝ) (M : Option ((Fin n → ℝ) → Fin n → ℝ))
    (solve : ∀ k, Matrix (Fin k) (Fin k) ℝ → Matrix (Fin k) (Fin k) ℝ → Option (Matrix (Fin k) (Fin k) ℝ))
    (tol : ℝ) (maxiter : Option ℤ) (V : ℕ → Fin n → ℝ) (x0 : Option (ℕ → Fin n → ℝ)) (cols bs : ℕ) :
    List ℕ → (ℕ → Fin n → ℝ) × List ℤ → (ℕ → Fin n → ℝ) × List ℤ
  | [], st => st
  | start :: rest, st =>
      let w := min (start + bs) cols - start
      let r := cgOneBlock cg A M solve tol maxiter V x0 start w
      cgBlocks cg A M solve tol maxiter V x0 cols bs rest (writeBlock st.1 start r.1, st.2 ++ [r.2])

/-- `range(0, cols, bs)`. -/
def blockStarts (cols bs : ℕ) : List ℕ := (List.range ((cols + bs - 1) / bs)).map (· * bs)

/-- `calculate_sparse_conj_grad`, gp_lin_alg.py:1213-1291, after the settings have been read: `block` says
whether block mode was requested, `blockSize` is the configured block size (default: all columns). Returns
the solution columns and whether a warning was issued. -/
noncomputable def sparseConjGrad (cg : (Fin n → ℝ) → Option (Fin n → ℝ) → (Fin n → ℝ) × ℤ)
    (A : Matrix (Fin n) (Fin n) ℝ) (M : Option ((Fin n → ℝ) → Fin n → ℝ))
    (solve : ∀ k, Matrix (Fin k) (Fin k) ℝ → Matrix (Fin k) (Fin k) ℝ → Option (Matrix (Fin k) (Fin k) ℝ))
    (tol : ℝ) (maxiter : Option ℤ) (block : Bool) (blockSize : Option ℤ) (V : ℕ → Fin n → ℝ)
    (x0 : Option (ℕ → Fin n → ℝ)) (cols : ℕ) : (ℕ → Fin n → ℝ) × Bool :=
  if block = true ∧ 1 < cols then
    let bs := (max 1 (min (blockSize.getD cols) cols)).toNat
    let r := cgBlocks cg A M solve tol maxiter V x0 cols bs (blockStarts cols bs) (fun _ _ => 0, [])
    (r.1, r.2.any (· != 0))
  else
    (fun j => if j < cols then (cg (V j) (x0.map fun x => x j)).1 else fun _ => 0,
      (List.range cols).any fun j => (cg (V j) (x0.map fun x => x j)).2 != 0)

end BlockCG

end Verif.LinAlg
