import Verif.Gp2Scale.Model

/-!
Specification side for the gp2Scale properties: what a covariance matrix *is*, independently of how it
is scheduled, transported and assembled.
-/

namespace Verif.Gp2Scale

/-- Entry `(i, j)` of the covariance between two point lists for the scalar kernel `κ`; zero outside. -/
def kAt {R X : Type*} [Zero R] (κ : X → X → R) (x1 x2 : List X) (i j : ℕ) : R :=
  match x1[i]?, x2[j]? with
  | some a, some b => κ a b
  | _, _ => 0

section
variable {R : Type*} [AddCommMonoid R] [DecidableEq R]

/-- Entry of a kernel block as a matrix. -/
def Block.at : Block R → ℕ → ℕ → R
  | .dense rows, i, j => ((rows[i]?).bind (fun r => r[j]?)).getD 0
  | .sparse entries, i, j => tripletsAt entries i j

/-- The block has the shape `n x m`. -/
def Block.HasShape : Block R → ℕ → ℕ → Prop
  | .dense rows, n, m => rows.length = n ∧ ∀ r ∈ rows, r.length = m
  | .sparse entries, n, m => ∀ t ∈ entries, t.row < n ∧ t.col < m

/-- The user's kernel callable evaluates the scalar kernel `κ` point by point whenever it returns
(it may also raise). This is the contract of a kernel in fvGP: the block depends on the points only. -/
def PointwiseKernel {X : Type*} (kern : List X → List X → Except String (Block R)) (κ : X → X → R) : Prop :=
  ∀ xs ys blk, kern xs ys = .ok blk →
    blk.HasShape xs.length ys.length ∧ ∀ i j, blk.at i j = kAt κ xs ys i j

/-- `K` is the covariance matrix of `x1` against `x2`: right shape, every stored index inside the
shape, and the right value at every position. -/
def IsCovariance {X : Type*} (K : Sparse R) (κ : X → X → R) (x1 x2 : List X) : Prop :=
  K.nrows = x1.length ∧ K.ncols = x2.length
    ∧ (∀ t ∈ K.entries, t.row < x1.length ∧ t.col < x2.length)
    ∧ ∀ (i j : ℕ) (hi : i < x1.length) (hj : j < x2.length), K.at i j = κ x1[i] x2[j]

/-- The rectangles (row range, column range) of the covariance that the workers evaluate, one per task,
for a given shape and configuration. -/
def rectangles (n1 n2 : ℕ) (b : ℤ) (symmetric : Bool) (d : Distribution) : List ((ℕ × ℕ) × (ℕ × ℕ)) :=
  match chooseStrategy n1 n2 b symmetric d with
  | .blocks => blockTasks n1 n2 b symmetric
  | .rows w => (ranges n1 w).map fun r => (r, (0, n2))
  | .cols w => (ranges n2 w).map fun c => ((0, n1), c)

/-- Number of matrix entries in a rectangle. -/
def area (t : (ℕ × ℕ) × (ℕ × ℕ)) : ℕ := (t.1.2 - t.1.1) * (t.2.2 - t.2.1)

/-- A rectangle contains the position `(i, j)`. -/
def covers (i j : ℕ) (t : (ℕ × ℕ) × (ℕ × ℕ)) : Bool :=
  decide ((t.1.1 ≤ i ∧ i < t.1.2) ∧ (t.2.1 ≤ j ∧ j < t.2.2))

/-- Scatter/release discipline of an event log: no key is scattered twice, at every moment nothing has
been released more often than it was scattered, and exactly the keys in `live` are still held. -/
def Disciplined (evs : List Event) (live : List ℕ) : Prop :=
  (∀ k, evs.count (.scatter k) ≤ 1)
    ∧ (∀ p, p <+: evs → ∀ k, p.count (.release k) ≤ p.count (.scatter k))
    ∧ (∀ k, evs.count (.scatter k) = evs.count (.release k) + (if k ∈ live then 1 else 0))

end

end Verif.Gp2Scale
