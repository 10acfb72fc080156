import Mathlib.Analysis.SpecialFunctions.Sqrt
import Mathlib.Analysis.SpecialFunctions.Log.Basic
import Mathlib.LinearAlgebra.Matrix.NonsingularInverse
import Mathlib.LinearAlgebra.Matrix.SchurComplement
import Mathlib.Algebra.BigOperators.Fin

/-!
Model of the dense linear algebra of `/repo/fvgp/gp_lin_alg.py`: Cholesky factor, its rank-1 / rank-n
extension, Cholesky solve and log-determinant, and the incremental inverse / log-determinant.

Simplifications: exact real arithmetic; arrays are functions of natural indices together with an explicit
size; only the CPU paths are modelled (the GPU paths compute the same quantities with other libraries).
-/

namespace Verif.LinAlg

open Finset

/-- `scipy.linalg.solve_triangular(L, b, lower=True)`: forward substitution. Only entries on and below the
diagonal are read. (scipy raises for a zero on the diagonal; a Cholesky factor has none.) Used at
gp_lin_alg.py:1369 and inside `cho_solve`. -/
noncomputable def fsub (L : ℕ → ℕ → ℝ) (b : ℕ → ℝ) (i : ℕ) : ℝ :=
  (b i - ∑ j : Fin i, L i j * fsub L b j) / L i i
termination_by i
decreasing_by exact j.2

/-- Backward substitution with the transpose of the lower factor, the second half of `cho_solve`. -/
noncomputable def bsub (n : ℕ) (L : ℕ → ℕ → ℝ) (y : ℕ → ℝ) (i : ℕ) : ℝ :=
  if i < n then
    (y i - ∑ j : Fin (n - (i + 1)), L (i + 1 + j) i * bsub n L y (i + 1 + j)) / L i i
  else 0
termination_by n - i

/-- `cholesky_update_rank_1_numpy(L, b, c)`, gp_lin_alg.py:1351-1382: `L` is `n x n`, the result is
`(n+1) x (n+1)`. The strict upper triangle of `L` is copied as it is. -/
noncomputable def rank1 (n : ℕ) (L : ℕ → ℕ → ℝ) (b : ℕ → ℝ) (c : ℝ) : Except String (ℕ → ℕ → ℝ) :=
  let v := fsub L b
  let disc := c - ∑ i ∈ range n, v i * v i
  if disc ≤ 0 then .error "NonPositiveDefiniteError"
  else
    let d := Real.sqrt disc
    .ok fun i j =>
      if i < n then (if j < n then L i j else 0)
      else (if j < n then v j else d)

/-- `cholesky_update_rank_n(L, b, c)`, gp_lin_alg.py:1466-1477, after `m` of its loop iterations; `b` has `n`
rows, column `i` is appended with `c[0:i, i]`. -/
noncomputable def rankN (n : ℕ) (L : ℕ → ℕ → ℝ) (b c : ℕ → ℕ → ℝ) : ℕ → Except String (ℕ → ℕ → ℝ)
  | 0 => .ok L
  | i + 1 => do
      let L' ← rankN n L b c i
      rank1 (n + i) L' (fun j => if j < n then b j i else c (j - n) i) (c i i)

/-- `update_Chol_factor(old_chol_factor, new_matrix)`, gp_lin_alg.py:272-286: the factor has size `n`, the
new matrix size `N`; `k = KV[n:, 0:n]` is handed over transposed, `kk = KV[n:, n:]`. -/
noncomputable def updateChol (n : ℕ) (L : ℕ → ℕ → ℝ) (N : ℕ) (KV : ℕ → ℕ → ℝ) :
    Except String (ℕ → ℕ → ℝ) :=
  rankN n L (fun j i => KV (n + i) j) (fun i j => KV (n + i) (n + j)) (N - n)

/-- `calculate_Chol_factor(M)`, gp_lin_alg.py:237-269, CPU path. LAPACK's `potrf` is not part of the
repository; it is represented by the row-by-row Cholesky algorithm, which is the same function in exact
arithmetic because the factor is unique (C11). LAPACK leaves arbitrary numbers above the diagonal; `junk`
stands for them. -/
noncomputable def cholFactor (junk : ℕ → ℕ → ℝ) (n : ℕ) (M : ℕ → ℕ → ℝ) :
    Except String (ℕ → ℕ → ℝ) := do
  let L ← updateChol 0 (fun _ _ => 0) n M
  .ok fun i j => if j ≤ i then L i j else junk i j

/-- `calculate_Chol_solve(factor, vec)`, gp_lin_alg.py:289-328, one column of the right-hand side. -/
noncomputable def cholSolve (n : ℕ) (F : ℕ → ℕ → ℝ) (b : ℕ → ℝ) : ℕ → ℝ :=
  bsub n F (fsub F b)

/-- `calculate_Chol_logdet(factor)`, gp_lin_alg.py:331-360. -/
noncomputable def cholLogdet (n : ℕ) (F : ℕ → ℕ → ℝ) : ℝ :=
  2 * ∑ i ∈ range n, Real.log |F i i|

/-- `calculate_inv_from_chol(L)`, gp_lin_alg.py:1558-1564: solve against the identity. -/
noncomputable def invFromChol (n : ℕ) (F : ℕ → ℕ → ℝ) : ℕ → ℕ → ℝ :=
  fun i j => cholSolve n F (fun k => if k = j then 1 else 0) i

/-- `np.linalg.slogdet(A)[1]`, gp_lin_alg.py:1484-1490: the logarithm of the absolute determinant. (numpy
returns minus infinity for a singular matrix where `Real.log 0 = 0`; the theorems assume invertibility.) -/
noncomputable def slogdet {n : Type} [Fintype n] [DecidableEq n] (A : Matrix n n ℝ) : ℝ :=
  Real.log |A.det|

/-- `update_logdet(old_logdet, old_inv, new_matrix)`, gp_lin_alg.py:1522-1531. The index set of the new
matrix is split into old and new indices. -/
noncomputable def updateLogdet {m n : Type} [Fintype m] [DecidableEq m] [Fintype n] [DecidableEq n]
    (oldLogdet : ℝ) (oldInv : Matrix m m ℝ) (KV : Matrix (m ⊕ n) (m ⊕ n) ℝ) : ℝ :=
  let kk := KV.toBlocks₂₂
  let k := KV.toBlocks₂₁
  oldLogdet + slogdet (kk - k * oldInv * k.transpose)

open Classical in
/-- `np.linalg.inv`, gp_lin_alg.py:1534-1541: raises for a singular matrix. -/
noncomputable def npInv {n : Type} [Fintype n] [DecidableEq n] (A : Matrix n n ℝ) :
    Except String (Matrix n n ℝ) :=
  if A.det ≠ 0 then .ok A⁻¹ else .error "Singular matrix"

/-- `update_inv(old_inv, new_matrix)`, gp_lin_alg.py:1567-1578. -/
noncomputable def updateInv {m n : Type} [Fintype m] [DecidableEq m] [Fintype n] [DecidableEq n]
    (oldInv : Matrix m m ℝ) (KV : Matrix (m ⊕ n) (m ⊕ n) ℝ) :
    Except String (Matrix (m ⊕ n) (m ⊕ n) ℝ) := do
  let kk := KV.toBlocks₂₂
  let k := KV.toBlocks₂₁
  let X ← npInv (kk - k * oldInv * k.transpose)
  let F := -oldInv * k.transpose * X
  .ok (Matrix.fromBlocks (oldInv + oldInv * k.transpose * X * k * oldInv) F F.transpose X)

end Verif.LinAlg
