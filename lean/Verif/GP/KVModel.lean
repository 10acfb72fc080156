import Verif.LinAlg.CholModel
import Verif.LinAlg.CholLemmas

/-!
Model of `GPkv` (`/repo/fvgp/gp_kv.py`): how `K + V` is formed, factorised, updated, solved against.

Simplifications: exact real arithmetic; CPU paths; arrays are functions of natural indices with explicit
sizes; only the direct modes (`Chol`, `CholInv`, `Inv`, `sparseLU`, `sparseSolve`) are modelled here, the Krylov
solvers are modelled in `Verif.LinAlg.KrylovModel`. External libraries: LAPACK's values above the diagonal of a
Cholesky factor, SuperLU's factorisation and the stochastic log-determinant are arbitrary functions collected in
`Ext`; what is assumed of them is stated by `SpluContract`.
-/

namespace Verif.GP

open Finset Verif.LinAlg

/-- A two-dimensional array; the size is kept next to it. -/
abbrev NMat := ℕ → ℕ → ℝ

/-- The noise formats `addKV` distinguishes: a one-dimensional array (the diagonal), a dense matrix, a sparse
matrix; each with its size. -/
inductive Noise where
  | diag (len : ℕ) (v : ℕ → ℝ)
  | dense (rows cols : ℕ) (V : NMat)
  | sparse (rows cols : ℕ) (V : NMat)

/-- `GPkv.addKV(K, V)`, gp_kv.py:640-669. `K` is an `rows x cols` matrix stored sparse or dense. The result keeps
`K`'s storage. Numpy's broadcasting of arrays of length one is not modelled: a size mismatch is an error. -/
def addKV (Ksparse : Bool) (rows cols : ℕ) (K : NMat) (V : Noise) : Except String NMat :=
  if rows ≠ cols then .error "AssertionError: K must be square"
  else if Ksparse then
    match V with
    | .sparse r c V => if r = rows ∧ c = cols then .ok fun i j => K i j + V i j
        else .error "ValueError: inconsistent shapes"
    | .diag len v => if len = rows then .ok fun i j => if i = j then K i i + v i else K i j
        else .error "AssertionError: diagonal noise V length must match K dimension"
    | .dense _ _ _ => .error "AssertionError: K is sparse but V is a dense matrix"
  else
    match V with
    | .sparse r c V => if r = rows ∧ c = cols then .ok fun i j => K i j + V i j
        else .error "ValueError: operands could not be broadcast together"
    | .dense r c V => if r = rows ∧ c = cols then .ok fun i j => K i j + V i j
        else .error "ValueError: operands could not be broadcast together"
    | .diag len v => if len = rows then .ok fun i j => if i = j then K i i + v i else K i j
        else .error "ValueError: operands could not be broadcast together"

/-- The direct linear algebra modes, gp_kv.py:138-146. -/
inductive Mode where
  | chol | cholInv | inv | sparseLU | sparseSolve
  deriving DecidableEq

/-- What `scipy.sparse.linalg.splu` returns: row and column permutations and triangular factors. -/
structure LUFac (n : ℕ) where
  pr : Equiv.Perm (Fin n)
  pc : Equiv.Perm (Fin n)
  L : Matrix (Fin n) (Fin n) ℝ
  U : Matrix (Fin n) (Fin n) ℝ

/-- External functions. -/
structure Ext where
  /-- what LAPACK leaves above the diagonal -/
  junk : NMat
  /-- `splu`, gp_lin_alg.py:203-208 -/
  splu : (n : ℕ) → NMat → Except String (LUFac n)
  /-- `calculate_random_logdet`, gp_lin_alg.py:1103-1181 (stochastic) -/
  randomLogdet : ℕ → NMat → ℝ

/-- The factorisation attributes that are in use in each mode, gp_kv.py:425-460: `Chol_factor`, `KVinv`, `KV`,
`LU_factor`. The first field is the size (`len(self.Chol_factor)` etc.). -/
inductive Factor where
  | chol (n : ℕ) (F : NMat)
  | cholInv (n : ℕ) (F : NMat) (inv : NMat)
  | inv (n : ℕ) (KV : NMat) (inv : NMat)
  | lu (n : ℕ) (f : LUFac n)
  | raw (n : ℕ) (KV : NMat)

/-- A vector of `Fin n` as an array. -/
def ofFin {n : ℕ} (v : Fin n → ℝ) : ℕ → ℝ := fun i => if h : i < n then v ⟨i, h⟩ else 0

/-- A matrix on `Fin n` as an array. -/
def ofMat {n : ℕ} (A : Matrix (Fin n) (Fin n) ℝ) : NMat := fun i j =>
  if h : i < n ∧ j < n then A ⟨i, h.1⟩ ⟨j, h.2⟩ else 0

/-- `GPkv.set_KV(KV)`, gp_kv.py:425-460. -/
noncomputable def setKV (e : Ext) (mode : Mode) (n : ℕ) (KV : NMat) : Except String Factor :=
  match mode with
  | .chol => do
      let F ← cholFactor e.junk n KV
      .ok (.chol n F)
  | .cholInv => do
      let F ← cholFactor e.junk n KV
      .ok (.cholInv n F (invFromChol n F))
  | .inv => do
      let I ← npInv (toMat n KV)
      .ok (.inv n KV (ofMat I))
  | .sparseLU => do
      let f ← e.splu n KV
      .ok (.lu n f)
  | .sparseSolve => .ok (.raw n KV)

/-- The grown matrix with its indices split into the first `n` and the rest, as `update_inv` slices it
(gp_lin_alg.py:1570-1573). -/
def splitMat (n p : ℕ) (KV : NMat) : Matrix (Fin n ⊕ Fin p) (Fin n ⊕ Fin p) ℝ :=
  Matrix.of fun a b =>
    KV (a.elim (fun i : Fin n => (i : ℕ)) (fun i : Fin p => n + i))
      (b.elim (fun i : Fin n => (i : ℕ)) (fun i : Fin p => n + i))

/-- `np.block` puts the four blocks together again, gp_lin_alg.py:1576. -/
def joinMat (n p : ℕ) (A : Matrix (Fin n ⊕ Fin p) (Fin n ⊕ Fin p) ℝ) : NMat := fun i j =>
  let ix : ℕ → Option (Fin n ⊕ Fin p) := fun i =>
    if h : i < n then some (.inl ⟨i, h⟩)
    else if h' : i - n < p then some (.inr ⟨i - n, h'⟩) else none
  match ix i, ix j with
  | some a, some b => A a b
  | _, _ => 0

/-- `GPkv.update_KV(KV)`, gp_kv.py:462-508: `KV` has size `N`; the stored factorisation has its own size. -/
noncomputable def updateKV (e : Ext) (f : Factor) (N : ℕ) (KV : NMat) : Except String Factor :=
  match f with
  | .chol n F => do
      let F' ← if N ≤ n then cholFactor e.junk N KV else updateChol n F N KV
      .ok (.chol N F')
  | .cholInv n F _ => do
      let F' ← if N ≤ n then cholFactor e.junk N KV else updateChol n F N KV
      .ok (.cholInv N F' (invFromChol N F'))
  | .inv n _ inv =>
      if N ≤ n then do
        let I ← npInv (toMat N KV)
        .ok (.inv N KV (ofMat I))
      else do
        let I ← updateInv (toMat n inv) (splitMat n (N - n) KV)
        .ok (.inv N KV (joinMat n (N - n) I))
  | .lu _ _ => do
      let g ← e.splu N KV
      .ok (.lu N g)
  | .raw _ _ => .ok (.raw N KV)

/-- SuperLU's solve with its factorisation `Pr A Pc = L U`: `x = Pc U⁻¹ L⁻¹ Pr b` (gp_lin_alg.py:211-221). -/
noncomputable def luSolve {n : ℕ} (f : LUFac n) (b : ℕ → ℝ) : ℕ → ℝ :=
  ofFin fun i => (f.U⁻¹.mulVec (f.L⁻¹.mulVec fun i => b (f.pr i))) (f.pc.symm i)

/-- `GPkv.solve(b)`, gp_kv.py:671-700, one column of the right-hand side. `spsolve` (gp_lin_alg.py:1294-1303) is
represented by the matrix inverse. -/
noncomputable def solve (f : Factor) (b : ℕ → ℝ) : ℕ → ℝ :=
  match f with
  | .chol n F => cholSolve n F b
  | .cholInv n _ inv => fun i => ∑ j ∈ range n, inv i j * b j
  | .inv n _ inv => fun i => ∑ j ∈ range n, inv i j * b j
  | .lu _ f => luSolve f b
  | .raw n KV => ofFin ((toMat n KV)⁻¹.mulVec fun i => b i)

/-- `GPkv.logdet()`, gp_kv.py:702-716, with `calculate_LU_logdet` (gp_lin_alg.py:224-230). -/
noncomputable def logdet (e : Ext) (f : Factor) : ℝ :=
  match f with
  | .chol n F => cholLogdet n F
  | .cholInv n F _ => cholLogdet n F
  | .inv n KV _ => slogdet (toMat n KV)
  | .lu _ f => ∑ i, Real.log |f.U i i|
  | .raw n KV => e.randomLogdet n KV

/-- The attribute `KVinv` (`None` in the modes that never set it), read at gp_posterior.py:238. -/
def Factor.kvinv : Factor → Option NMat
  | .cholInv _ _ I => some I
  | .inv _ _ I => some I
  | _ => none

/-- The part of a `GPkv` object that `_refresh` sets. -/
structure KVState where
  factor : Factor
  kvinvY : NMat
  logdetKV : ℝ

/-- `self.KVinvY = self.solve(y_mean)`, all columns: gp_kv.py:419-422. `y - m[:, None]`. -/
noncomputable def solveY (f : Factor) (y : NMat) (m : ℕ → ℝ) : NMat :=
  fun i j => solve f (fun l => y l j - m l) i

/-- `GPkv._refresh(rank_n_update=False)`, gp_kv.py:404-423. -/
noncomputable def refreshFull (e : Ext) (mode : Mode) (Ksparse : Bool) (n : ℕ) (K : NMat) (V : Noise) (y : NMat)
    (m : ℕ → ℝ) : Except String KVState := do
  let KV ← addKV Ksparse n n K V
  let f ← setKV e mode n KV
  .ok ⟨f, solveY f y m, logdet e f⟩

/-- `GPkv._refresh(rank_n_update=True)`. In the direct modes the warm start `x0` is not used by `solve`. -/
noncomputable def refreshRankN (e : Ext) (old : Factor) (Ksparse : Bool) (n : ℕ) (K : NMat) (V : Noise) (y : NMat)
    (m : ℕ → ℝ) : Except String KVState := do
  let KV ← addKV Ksparse n n K V
  let f ← updateKV e old n KV
  .ok ⟨f, solveY f y m, logdet e f⟩

/-- `GPkv.compute_new_KVlogdet_KVinvY(K, V, m)` in a direct mode, gp_kv.py:574-631: factorise, solve, log-determinant,
without touching the state. (`CholInv` solves with the factor instead of the inverse.) -/
noncomputable def computeNew (e : Ext) (mode : Mode) (Ksparse : Bool) (n : ℕ) (K : NMat) (V : Noise) (y : NMat)
    (m : ℕ → ℝ) : Except String (NMat × ℝ) := do
  let KV ← addKV Ksparse n n K V
  match mode with
  | .chol | .cholInv => do
      let F ← cholFactor e.junk n KV
      .ok (fun i j => cholSolve n F (fun l => y l j - m l) i, cholLogdet n F)
  | .inv => do
      let I ← npInv (toMat n KV)
      .ok (fun i j => ∑ l ∈ range n, ofMat I i l * (y l j - m l), slogdet (toMat n KV))
  | .sparseLU => do
      let f ← e.splu n KV
      .ok (fun i j => luSolve f (fun l => y l j - m l) i, ∑ i, Real.log |f.U i i|)
  | .sparseSolve =>
      .ok (fun i j => ofFin ((toMat n KV)⁻¹.mulVec fun l => y l j - m l) i, e.randomLogdet n KV)

/-- `GPkv.compute_new_KVinvY(KV, m)`, gp_kv.py:510-557, in a direct mode: the same solve without the
log-determinant. -/
noncomputable def computeNewKVinvY (e : Ext) (mode : Mode) (n : ℕ) (KV : NMat) (y : NMat) (m : ℕ → ℝ) :
    Except String NMat :=
  match mode with
  | .chol | .cholInv => do
      let F ← cholFactor e.junk n KV
      .ok fun i j => cholSolve n F (fun l => y l j - m l) i
  | .inv => do
      let I ← npInv (toMat n KV)
      .ok fun i j => ∑ l ∈ range n, ofMat I i l * (y l j - m l)
  | .sparseLU => do
      let f ← e.splu n KV
      .ok fun i j => luSolve f (fun l => y l j - m l) i
  | .sparseSolve => .ok fun i j => ofFin ((toMat n KV)⁻¹.mulVec fun l => y l j - m l) i

end Verif.GP
