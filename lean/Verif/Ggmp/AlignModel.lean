import Verif.Kernels.Model
import Mathlib.Data.List.Sort
import Mathlib.Logic.Relation

/-!
Model of the alignment of local mixtures, ggmp.py:1247-1516.

Simplifications: every local mixture has the same number `K` of components and weights of length `K` (the code raises
otherwise when it compares the shapes of the means); the squared Wasserstein distance of two components is a function
`w2` of their moments; `scipy.optimize.linear_sum_assignment` (`assign`) returns a permutation of the components (its rows
are `0..K-1`) or raises; `scipy.sparse.csgraph.minimum_spanning_tree` (`mst`) is a function of the distance matrix, see
`MstContract`. Costs and strings of the returned dictionary are left out.
-/

namespace Verif.Ggmp

/-- A local mixture: weights, means and covariances of its components. -/
structure Mix (K : ℕ) (μ : Type) where
  w : Fin K → ℝ
  m : Fin K → μ
  c : Fin K → μ

variable {K n : ℕ} {μ : Type}

/-- `w_cur[perm]`, `m_cur[perm]`, `c_cur[perm]`. -/
def Mix.permute (a : Mix K μ) (p : Equiv.Perm (Fin K)) : Mix K μ := ⟨fun k => a.w (p k), fun k => a.m (p k), fun k => a.c (p k)⟩

/-- The external routines. -/
structure AlignExt (K : ℕ) (μ : Type) where
  w2 : μ → μ → μ → μ → ℝ
  assign : (Fin K → Fin K → ℝ) → Except String (Equiv.Perm (Fin K))

/-- `cost`, ggmp.py:1275-1277. -/
def AlignExt.cost (e : AlignExt K μ) (ref cur : Mix K μ) (i j : Fin K) : ℝ := e.w2 (ref.m i) (ref.c i) (cur.m j) (cur.c j)

/-- `align_gmm_components_hungarian`, ggmp.py:1247-1284: `perm[rows] = cols`. -/
def AlignExt.hungarian (e : AlignExt K μ) (ref cur : Mix K μ) : Except String (Equiv.Perm (Fin K)) := e.assign (e.cost ref cur)

/-- The loop of `align_local_gmms_sequence`, ggmp.py:1314-1341: `first` is the first mixture, `prev` the last aligned one;
`toFirst` is `reference="first"`. -/
def alignLoop (e : AlignExt K μ) (toFirst : Bool) (first : Mix K μ) : Mix K μ → List (Mix K μ) →
    Except String (List (Mix K μ × Equiv.Perm (Fin K)))
  | _, [] => .ok []
  | prev, cur :: rest => do
      let p ← e.hungarian (if toFirst then first else prev) cur
      let out ← alignLoop e toFirst first (cur.permute p) rest
      .ok ((cur.permute p, p) :: out)

/-- `align_local_gmms_sequence`, ggmp.py:1287-1351: aligned mixtures and permutations. -/
def alignSequence (e : AlignExt K μ) (toFirst : Bool) (l : List (Mix K μ)) :
    Except String (List (Mix K μ × Equiv.Perm (Fin K))) :=
  match l with
  | [] => .error "ValueError: Empty sequence"
  | a :: rest => do
      let out ← alignLoop e toFirst a a rest
      .ok ((a, Equiv.refl _) :: out)

/-- An entry of `parents`: `-2`, `-1` or the index of the parent. -/
inductive Mark (n : ℕ) where
  | unseen
  | root
  | parent (p : Fin n)

/-- `parents[v] == -2`. -/
def Mark.isUnseen : Mark n → Bool
  | .unseen => true
  | _ => false

/-- The state of the traversal. -/
structure Bfs (n : ℕ) where
  order : List (Fin n)
  queue : List (Fin n)
  parents : Fin n → Mark n

/-- The neighbours not seen yet, sorted by weight, then index, ggmp.py:1412-1416. -/
noncomputable def freshNeighbours (adj : Fin n → Fin n → ℝ) (parents : Fin n → Mark n) (u : Fin n) : List (Fin n) :=
  open Classical in
  ((List.finRange n).filter fun v => decide (0 < adj u v) && (parents v).isUnseen).mergeSort fun a b =>
    decide (adj u a < adj u b ∨ adj u a = adj u b ∧ a ≤ b)

/-- The body of `while queue`, ggmp.py:1409-1419; `none` if the queue is empty. -/
noncomputable def Bfs.step (adj : Fin n → Fin n → ℝ) (s : Bfs n) : Option (Bfs n) :=
  match s.queue with
  | [] => none
  | u :: q =>
      let new := freshNeighbours adj s.parents u
      some ⟨s.order ++ [u], q ++ new, fun v => if v ∈ new then .parent u else s.parents v⟩

/-- At most `k` rounds of the loop. -/
noncomputable def Bfs.run (adj : Fin n → Fin n → ℝ) : ℕ → Bfs n → Bfs n
  | 0, s => s
  | k + 1, s =>
      match s.step adj with
      | none => s
      | some t => Bfs.run adj k t

/-- The traversal, ggmp.py:1405-1419. That `n` rounds suffice is `C73_traversal_ends`. -/
noncomputable def traverse (adj : Fin n → Fin n → ℝ) (root : Fin n) : Bfs n :=
  Bfs.run adj n ⟨[], [root], fun v => if v = root then .root else .unseen⟩

/-- `build_input_mst(x_data, root=root)`, ggmp.py:1363-1433, for at least one input and a valid root: the traversal of
`mst + mst.T`. -/
noncomputable def buildInputMst {D : ℕ} (mst : (Fin n → Fin n → ℝ) → Fin n → Fin n → ℝ) (x : Fin n → Fin D → ℝ) (root : Fin n) :
    Bfs n :=
  if n = 1 then ⟨[root], [], fun _ => .root⟩
  else
    let t := mst fun i j => Kernels.distance (x i) (x j)
    traverse (fun i j => t i j + t j i) root

/-- The edge from the parent of `v`, ggmp.py:1423-1425, without the weight; `none` for a negative parent. -/
def Bfs.edgeTo (s : Bfs n) (v : Fin n) : Option (Fin n × Fin n) :=
  match s.parents v with
  | .parent p => some (p, v)
  | _ => none

/-- `edges`, ggmp.py:1421-1425. -/
def Bfs.edges (s : Bfs n) : List (Fin n × Fin n) := s.order.tail.filterMap s.edgeTo

/-- The loop of `align_local_gmms_mst`, ggmp.py:1481-1501. `np.asarray(None, dtype=float)` for a parent without alignment
has no dimensions, so the shape comparison of ggmp.py:1264 raises. A child with parent `-1` or `-2` would read an entry from
the end of the list; the model reports that as an error of its own, which `C72_mst` shows never to occur. -/
def alignAlong (e : AlignExt K μ) (l : Fin n → Mix K μ) (parents : Fin n → Mark n) :
    (Fin n → Option (Mix K μ × Equiv.Perm (Fin K))) → List (Fin n) →
      Except String (Fin n → Option (Mix K μ × Equiv.Perm (Fin K)))
  | a, [] => .ok a
  | a, v :: rest =>
      match parents v with
      | .parent p =>
          match a p with
          | some (ref, _) => do
              let q ← e.hungarian ref (l v)
              alignAlong e l parents (fun i => if i = v then some ((l v).permute q, q) else a i) rest
          | none => .error "ValueError: means_ref and means_cur must have same shape"
      | _ => .error "negative parent index"

/-- `align_local_gmms_mst`, ggmp.py:1436-1516: `None` entries stay where no alignment was stored. -/
noncomputable def alignMst {D : ℕ} (e : AlignExt K μ) (mst : (Fin n → Fin n → ℝ) → Fin n → Fin n → ℝ) (x : Fin n → Fin D → ℝ)
    (l : Fin n → Mix K μ) (root : Fin n) : Except String (Fin n → Option (Mix K μ × Equiv.Perm (Fin K))) :=
  let t := buildInputMst mst x root
  alignAlong e l t.parents (fun i => if i = root then some (l root, Equiv.refl _) else none) t.order.tail

end Verif.Ggmp
