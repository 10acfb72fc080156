import Verif.LinAlg.CholModel
import Verif.LinAlg.GraphModel

/-!
Model of the preconditioner construction of `/repo/fvgp/gp_lin_alg.py` lines 508-756 and 802-827: diagonal
shift retries, block operators and the native incomplete Cholesky factorisation.

Simplifications: exact real arithmetic; a matrix is a function of two indices with an explicit size; every
exception is a string.
-/

namespace Verif.LinAlg

/-- The retry loop shared by `_shifted_dense_cholesky` (gp_lin_alg.py:523-531), `_build_ic0_factor`
(:670-756) and `_shift_retry_ilupp_factor` (:816-827): try to build with the current shift, on failure move to
the next one. Besides the outcome the list of tried shifts is returned (observable through the calls of
`build`). -/
noncomputable def retry {α : Type} (next : ℝ → ℝ) (build : ℝ → Except String α) :
    ℕ → ℝ → Except String (α × ℝ) × List ℝ
  | 0, _ => (.error "failed after shifted retries", [])
  | k + 1, s =>
      match build s with
      | .ok f => (.ok (f, s), [s])
      | .error _ =>
          let r := retry next build k (next s)
          (r.1, s :: r.2)

open Classical in
/-- `shift = 1e-10 if shift == 0.0 else shift * growth`, gp_lin_alg.py:529 and :754. -/
noncomputable def denseNext (growth s : ℝ) : ℝ := if s = 0 then 1e-10 else s * growth

/-- `shift = max(shift * growth, 1e-12)`, gp_lin_alg.py:823. -/
noncomputable def iluppNext (growth s : ℝ) : ℝ := max (s * growth) 1e-12

open Classical in
/-- `matrix if shift == 0.0 else matrix + shift * eye`, gp_lin_alg.py:525, :672, :818. -/
noncomputable def shifted (M : ℕ → ℕ → ℝ) (s : ℝ) : ℕ → ℕ → ℝ :=
  if s = 0 then M else fun i j => M i j + s * (if i = j then 1 else 0)

/-- `_shifted_dense_cholesky(matrix, args)`, gp_lin_alg.py:514-531. -/
noncomputable def shiftedDenseCholesky (junk : ℕ → ℕ → ℝ) (n : ℕ) (M : ℕ → ℕ → ℝ) (base growth : ℝ)
    (attempts : ℤ) : Except String ((ℕ → ℕ → ℝ) × ℝ) :=
  (retry (denseNext growth) (fun s => cholFactor junk n (shifted M s)) (max attempts 1).toNat base).1

/-- `_shift_retry_ilupp_factor(A, build_fn, label, args)`, gp_lin_alg.py:802-827. -/
noncomputable def shiftRetryIlupp {α : Type} (M : ℕ → ℕ → ℝ) (build : (ℕ → ℕ → ℝ) → Except String α)
    (base growth : ℝ) (attempts : ℤ) : Except String α × List ℝ :=
  let r := retry (iluppNext growth) (fun s => build (shifted M s)) (max attempts 1).toNat base
  (r.1.map Prod.fst, r.2)

/-- `_as_symmetric_csr(KV)`, gp_lin_alg.py:508-511. -/
noncomputable def symmetrize (M : ℕ → ℕ → ℝ) : ℕ → ℕ → ℝ := fun i j => (M i j + M j i) * (1 / 2)

/-- A local model: the entry `indices` and `factor` of the dictionaries built at gp_lin_alg.py:613 and :638. -/
structure LocalModel where
  indices : List ℕ
  factor : ℕ → ℕ → ℝ

/-- `x[indices]`: gather. -/
noncomputable def gather (x : ℕ → ℝ) (idx : List ℕ) (p : ℕ) : ℝ := x (idx.getD p 0)

/-- `result[indices] += v`: numpy reads the old values once and then writes position by position, so with a
repeated index the last write wins. -/
noncomputable def scatterAdd (result : ℕ → ℝ) (idx : List ℕ) (v : ℕ → ℝ) : ℕ → ℝ :=
  (idx.zipIdx).foldl (fun new ip => Function.update new ip.1 (result ip.1 + v ip.2)) result

/-- `_build_blockwise_operator(...).matvec(x)`, gp_lin_alg.py:591-600. -/
noncomputable def blockMatvec (models : List LocalModel) (x : ℕ → ℝ) : ℕ → ℝ :=
  models.foldl (fun result m =>
    scatterAdd result m.indices (cholSolve m.indices.length m.factor (gather x m.indices))) (fun _ => 0)

/-- `A[block][:, block].toarray()`, gp_lin_alg.py:611, :636. -/
noncomputable def localMatrix (A : ℕ → ℕ → ℝ) (block : List ℕ) : ℕ → ℕ → ℝ :=
  fun p q => A (block.getD p 0) (block.getD q 0)

/-- The loop building local models, gp_lin_alg.py:610-613 and :634-644; `expand` is the identity for block
Jacobi and the overlap expansion for additive Schwarz. -/
noncomputable def buildLocal (junk : ℕ → ℕ → ℝ) (A : ℕ → ℕ → ℝ) (base growth : ℝ) (attempts : ℤ)
    (expand : List ℕ → List ℕ) : List (List ℕ) → Except String (List LocalModel)
  | [] => .ok []
  | b :: rest => do
      let idx := expand b
      let f ← shiftedDenseCholesky junk idx.length (localMatrix A idx) base growth attempts
      let tail ← buildLocal junk A base growth attempts expand rest
      .ok (⟨idx, f.1⟩ :: tail)

/-- `_build_block_jacobi_preconditioner`, gp_lin_alg.py:604-621. `adj` is the stored pattern of the
symmetrised matrix. -/
noncomputable def blockJacobi (junk KV : ℕ → ℕ → ℝ) (adj : ℕ → List ℕ) (n : ℕ) (blockSize : ℤ)
    (base growth : ℝ) (attempts : ℤ) : Except String (List LocalModel) :=
  buildLocal junk (symmetrize KV) base growth attempts id (graphBlocks adj n blockSize)

/-- `_build_additive_schwarz_preconditioner`, gp_lin_alg.py:624-652. -/
noncomputable def additiveSchwarz (junk KV : ℕ → ℕ → ℝ) (adj : ℕ → List ℕ) (order : Finset ℕ → List ℕ)
    (n : ℕ) (blockSize overlap : ℤ) (base growth : ℝ) (attempts : ℤ) : Except String (List LocalModel) :=
  buildLocal junk (symmetrize KV) base growth attempts (fun b => expandOverlap adj order b overlap)
    (graphBlocks adj n blockSize)

/-! ### Incomplete Cholesky -/

/-- `d.get(k, 0.0)` for a Python dictionary kept as an association list in insertion order. -/
noncomputable def dget (d : List (ℕ × ℝ)) (k : ℕ) : ℝ :=
  match d.find? (fun e => e.1 == k) with
  | some e => e.2
  | none => 0

/-- One column step of the row loop, gp_lin_alg.py:697-708: the coupling is summed over the shorter of the two
dictionaries. `rows` and `diag` hold the finished rows. -/
noncomputable def icEntry (rows : ℕ → List (ℕ × ℝ)) (diag : ℕ → ℝ) (computed : List (ℕ × ℝ)) (j : ℕ)
    (value : ℝ) : ℝ :=
  let rowj := rows j
  let coupling :=
    if computed.length < rowj.length then (computed.map fun e => e.2 * dget rowj e.1).sum
    else (rowj.map fun e => dget computed e.1 * e.2).sum
  (value - coupling) / diag j

/-- The loop `for j in sorted(original_entries)`, gp_lin_alg.py:696-708. -/
noncomputable def icRowLoop (rows : ℕ → List (ℕ × ℝ)) (diag : ℕ → ℝ) :
    List (ℕ × ℝ) → List (ℕ × ℝ) → List (ℕ × ℝ)
  | [], computed => computed
  | (j, value) :: rest, computed =>
      icRowLoop rows diag rest (computed ++ [(j, icEntry rows diag computed j value)])

/-- Dictionary assignment `d[k] = v`. -/
noncomputable def dset (d : List (ℕ × ℝ)) (k : ℕ) (v : ℝ) : List (ℕ × ℝ) :=
  if d.any (fun e => e.1 == k) then d.map fun e => if e.1 = k then (k, v) else e else d ++ [(k, v)]

/-- The loop collecting `original_entries`, gp_lin_alg.py:684-690. -/
noncomputable def icOriginal (i : ℕ) (row : List (ℕ × ℝ)) : List (ℕ × ℝ) :=
  row.foldl (fun d e => if e.1 < i then dset d e.1 e.2 else d) []

/-- The diagonal value found by the same loop (`None` when absent); the last hit wins. -/
noncomputable def icDiag (i : ℕ) (row : List (ℕ × ℝ)) : Option ℝ :=
  row.foldl (fun d e => if e.1 < i then d else if e.1 = i then some e.2 else d) none

/-- One row of the factorisation, gp_lin_alg.py:678-714. `row` is row `i` of the lower triangle in CSR order.
Returns the off-diagonal entries and the pivot. -/
noncomputable def icRow (rows : ℕ → List (ℕ × ℝ)) (diag : ℕ → ℝ) (i : ℕ) (row : List (ℕ × ℝ)) :
    Except String (List (ℕ × ℝ) × ℝ) :=
  match icDiag i row with
  | none => .error "missing diagonal"
  | some dv =>
      let sorted := (icOriginal i row).mergeSort (fun a b => decide (a.1 ≤ b.1))
      let computed := icRowLoop rows diag sorted []
      let diagSq := dv - (computed.map fun e => e.2 * e.2).sum
      if diagSq ≤ 0 then .error "non-positive pivot" else .ok (computed, Real.sqrt diagSq)

/-- The outer loop over rows, gp_lin_alg.py:677-714, after `n` rows. -/
noncomputable def icRows (lower : ℕ → List (ℕ × ℝ)) :
    ℕ → Except String ((ℕ → List (ℕ × ℝ)) × (ℕ → ℝ))
  | 0 => .ok (fun _ => [], fun _ => 0)
  | n + 1 => do
      let (rows, diag) ← icRows lower n
      let (r, d) ← icRow rows diag n (lower n)
      .ok (Function.update rows n r, Function.update diag n d)

/-- The sparse matrix `L` assembled at gp_lin_alg.py:716-734, as an array. -/
noncomputable def icFactor (rows : ℕ → List (ℕ × ℝ)) (diag : ℕ → ℝ) (i j : ℕ) : ℝ :=
  if j < i then dget (rows i) j else if j = i then diag i else 0

open Classical in
/-- `A_shifted = A if shift == 0.0 else A + shift * eye`, then `tril`: row `i` of the lower triangle
(gp_lin_alg.py:672-673). Adding the identity creates a missing diagonal entry. The order of the entries of a
row is left to scipy; here a created diagonal comes last. -/
noncomputable def icShiftRow (lower : ℕ → List (ℕ × ℝ)) (s : ℝ) (i : ℕ) : List (ℕ × ℝ) :=
  if s = 0 then lower i
  else if (lower i).any (fun e => e.1 == i) then (lower i).map fun e => if e.1 = i then (i, e.2 + s) else e
  else lower i ++ [(i, s)]

/-- `_build_ic0_factor(KV, args)`, gp_lin_alg.py:655-756: rows, pivots and the shift used. -/
noncomputable def ic0 (lower : ℕ → List (ℕ × ℝ)) (n : ℕ) (base growth : ℝ) (attempts : ℤ) :
    Except String (((ℕ → List (ℕ × ℝ)) × (ℕ → ℝ)) × ℝ) :=
  (retry (denseNext growth) (fun s => icRows (icShiftRow lower s) n) (max attempts 1).toNat base).1

end Verif.LinAlg
