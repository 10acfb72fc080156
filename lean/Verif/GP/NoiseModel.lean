import Verif.GP.Model

/-!
Model of `GPkv.addKV` (`/repo/fvgp/gp_kv.py:640-669`) with storage, array identity and numpy's broadcasting, which the
simpler `Verif.GP.addKV` leaves out. Arrays live in a heap, so that "does not modify `K`" and "returns a new array" can be
stated. Exact reals.
-/

namespace Verif.GP

/-- An array: one-dimensional, or two-dimensional dense or sparse. -/
inductive Arr where
  | vec (len : ℕ) (v : ℕ → ℝ)
  | dense (rows cols : ℕ) (A : NMat)
  | sparse (rows cols : ℕ) (A : NMat)

/-- Arrays by address. -/
abbrev Heap := List Arr

/-- Allocation of a new array. -/
def Heap.alloc (h : Heap) (a : Arr) : Heap × ℕ := (h ++ [a], h.length)

/-- The length of the broadcast of two axes, `none` when numpy refuses. -/
def bcastDim (m n : ℕ) : Option ℕ :=
  if m = n then some m else if m = 1 then some n else if n = 1 then some m else none

/-- The index read on an axis of length `m`. -/
def bcastIx (m i : ℕ) : ℕ := if m = 1 then 0 else i

/-- `np.ndarray + np.ndarray`, two-dimensional. -/
def npAdd2 (r c : ℕ) (A : NMat) (r' c' : ℕ) (B : NMat) : Except String Arr :=
  match bcastDim r r', bcastDim c c' with
  | some R, some C => .ok (.dense R C fun i j => A (bcastIx r i) (bcastIx c j) + B (bcastIx r' i) (bcastIx c' j))
  | _, _ => .error "ValueError: operands could not be broadcast together"

/-- `np.fill_diagonal(KV, w)` for an `n x n` array: `KV.flat[::n+1] = w`, which repeats a shorter and cuts a longer
`w`; an empty `w` is refused (unless there is nothing to fill). -/
def fillDiagonal (n : ℕ) (A : NMat) (len : ℕ) (w : ℕ → ℝ) : Except String NMat :=
  if len = 0 ∧ n ≠ 0 then .error "ValueError: cannot assign an empty array"
  else .ok fun i j => if i = j then w (i % len) else A i j

/-- `GPkv.addKV(K, V)`, gp_kv.py:640-669; `K` and `V` are addresses; the result is the heap afterwards and the address
of the returned array. -/
def addKVHeap (h : Heap) (k v : ℕ) : Except String (Heap × ℕ) :=
  match h[k]?, h[v]? with
  | some (.sparse r c K), some V =>
      if r ≠ c then .error "AssertionError: K must be square"
      else match V with
        | .sparse r' c' V =>
            if r' = r ∧ c' = c then .ok (h.alloc (.sparse r c fun i j => K i j + V i j))
            else .error "ValueError: inconsistent shapes"
        | .vec len V =>
            if len ≠ r then .error "AssertionError: diagonal noise V length must match K dimension"
            else
              -- KV = K.copy(); KV.setdiag(K.diagonal() + V)
              .ok (h.alloc (.sparse r c fun i j => if i = j then K i i + V i else K i j))
        | .dense _ _ _ => .error "AssertionError: K is sparse but V is a dense matrix; expected 1-d diagonal"
  | some (.dense r c K), some V =>
      if r ≠ c then .error "AssertionError: K must be square"
      else
        match V with
        -- V = V.toarray() binds a new array; the caller's V is not written
        | .sparse r' c' V | .dense r' c' V => do
            let A ← npAdd2 r c K r' c' V
            .ok (h.alloc A)
        | .vec len V =>
            match bcastDim r len with
            | none => .error "ValueError: operands could not be broadcast together"
            | some L => do
                -- KV = K.copy(); np.fill_diagonal(KV, np.diag(K) + V)
                let A ← fillDiagonal r K L fun i => K (bcastIx r i) (bcastIx r i) + V (bcastIx len i)
                .ok (h.alloc (.dense r c A))
  | some (.vec _ _), some _ => .error "AssertionError: K must be a 2-d matrix"
  | _, _ => .error "NameError"

end Verif.GP
