import Mathlib.Data.Finset.Sort
import Mathlib.Data.List.Nodup
import Mathlib.Data.List.Perm.Basic
import Mathlib.Tactic.Linarith
import Mathlib.Order.Interval.Finset.Nat

/-!
Model of the graph blocking used by the block preconditioners,
`/repo/fvgp/gp_lin_alg.py` lines 534-588. `adj i` is the list of column indices stored in row `i` of the
symmetrised CSR matrix (`A.indices[A.indptr[i]:A.indptr[i+1]]`); nothing is assumed about its order.
-/

namespace Verif.LinAlg

/-- The inner loop over neighbours, gp_lin_alg.py:556-562. `queued` is a Python set, `queue` a deque. -/
def enqueue (assigned : Finset ℕ) (node : ℕ) : List ℕ → Finset ℕ × List ℕ → Finset ℕ × List ℕ
  | [], st => st
  | nb :: rest, (queued, queue) =>
      if nb = node ∨ nb ∈ assigned ∨ nb ∈ queued then enqueue assigned node rest (queued, queue)
      else enqueue assigned node rest (insert nb queued, queue ++ [nb])

/-- The `while queue and len(block) < block_size` loop, gp_lin_alg.py:546-562. Returns the assigned set and
the block. -/
def bfs (adj : ℕ → List ℕ) (bs : ℕ) (assigned : Finset ℕ) (queued : Finset ℕ) (queue block : List ℕ) :
    Finset ℕ × List ℕ :=
  match queue with
  | [] => (assigned, block)
  | node :: queue' =>
    if block.length < bs then
      if node ∈ assigned then bfs adj bs assigned queued queue' block
      else
        let st := enqueue (insert node assigned) node (adj node) (queued, queue')
        bfs adj bs (insert node assigned) st.1 st.2 (block ++ [node])
    else (assigned, block)
termination_by (bs - block.length, queue.length)
decreasing_by
  · apply Prod.Lex.right; simp
  · apply Prod.Lex.left; simp only [List.length_append, List.length_cons, List.length_nil]; omega

/-- The loop over seeds, gp_lin_alg.py:541-566. -/
def seedLoop (adj : ℕ → List ℕ) (bs : ℕ) : List ℕ → Finset ℕ → List (List ℕ) → List (List ℕ)
  | [], _, blocks => blocks
  | seed :: rest, assigned, blocks =>
      if seed ∈ assigned then seedLoop adj bs rest assigned blocks
      else
        let r := bfs adj bs assigned {seed} [seed] []
        seedLoop adj bs rest r.1 (blocks ++ [r.2])

/-- `_build_graph_blocks(KV, block_size)`, gp_lin_alg.py:534-566. -/
def graphBlocks (adj : ℕ → List ℕ) (n : ℕ) (blockSize : ℤ) : List (List ℕ) :=
  seedLoop adj (max blockSize 1).toNat (List.range n) ∅ []

/-- One frontier sweep of `_expand_block_overlap`, gp_lin_alg.py:578-585: neighbours of one node. -/
def sweepNode : List ℕ → Finset ℕ × Finset ℕ → Finset ℕ × Finset ℕ
  | [], st => st
  | nb :: rest, (expanded, next) =>
      if nb ∉ expanded then sweepNode rest (insert nb expanded, insert nb next)
      else sweepNode rest (expanded, next)

/-- One pass over the frontier (in the order `order` in which Python happens to iterate the set). -/
def sweep (adj : ℕ → List ℕ) : List ℕ → Finset ℕ × Finset ℕ → Finset ℕ × Finset ℕ
  | [], st => st
  | node :: rest, st => sweep adj rest (sweepNode (adj node) st)

/-- The `for _ in range(overlap)` loop, gp_lin_alg.py:574-586. `order` turns a set into the sequence in which
it is iterated; Python leaves it unspecified. -/
def expandLoop (adj : ℕ → List ℕ) (order : Finset ℕ → List ℕ) : ℕ → Finset ℕ → Finset ℕ → Finset ℕ
  | 0, expanded, _ => expanded
  | k + 1, expanded, frontier =>
      if frontier = ∅ then expanded
      else
        let st := sweep adj (order frontier) (expanded, ∅)
        expandLoop adj order k st.1 st.2

/-- `_expand_block_overlap(KV, block, overlap)`, gp_lin_alg.py:569-588. -/
def expandOverlap (adj : ℕ → List ℕ) (order : Finset ℕ → List ℕ) (block : List ℕ) (overlap : ℤ) : List ℕ :=
  (expandLoop adj order (max overlap 0).toNat block.toFinset block.toFinset).sort (· ≤ ·)

/-- The same block search without the `if assigned[node]: continue` test; used to show that the test is
never needed. -/
def bfsNoCheck (adj : ℕ → List ℕ) (bs : ℕ) (assigned : Finset ℕ) (queued : Finset ℕ)
    (queue block : List ℕ) : Finset ℕ × List ℕ :=
  match queue with
  | [] => (assigned, block)
  | node :: queue' =>
    if block.length < bs then
      let st := enqueue (insert node assigned) node (adj node) (queued, queue')
      bfsNoCheck adj bs (insert node assigned) st.1 st.2 (block ++ [node])
    else (assigned, block)
termination_by bs - block.length
decreasing_by simp only [List.length_append, List.length_cons, List.length_nil]; omega

end Verif.LinAlg
