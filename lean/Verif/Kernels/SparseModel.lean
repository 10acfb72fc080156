import Verif.Kernels.Model
import Verif.Gp2Scale.Model

/-!
Model of the gp2Scale Wendland kernels of kernels.py: the dense one and the support-aware sparse one (CPU). Blocks and
triplets are those of the gp2Scale model.

Points have `D` coordinates and there are `D + 1` hyperparameters (amplitude `a`, scales `s`). `cKDTree.query_ball_tree` is
external, see `QueryContract`. The once-per-process warning (kernels.py:607-616) is not modelled.
-/

namespace Verif.Kernels

open Verif.Gp2Scale

variable {D : ℕ}

/-- `_wendland_anisotropic_polynomial(d, amplitude)`, kernels.py:527-528. -/
def amplitudePoly (d a : ℝ) : ℝ := a * (1 - d) ^ 8 * (32 * d ^ 3 + 25 * d ^ 2 + 8 * d + 1)

/-- `wendland_anisotropic_gp2Scale_cpu(x1, x2, hps)`, kernels.py:502-524. `x1[0]` raises when there is no first point. -/
noncomputable def wendlandDense (a : ℝ) (s : Fin D → ℝ) (x1 x2 : List (Fin D → ℝ)) : Except String (Block ℝ) :=
  if x1 = [] then .error "IndexError"
  else .ok (.dense (x1.map fun x => x2.map fun y =>
    let d := √(∑ i, ((x i - y i) / s i) ^ 2)
    amplitudePoly (if d > 1 then 1 else d) a))

/-- `_whiten_gp2scale_points`, kernels.py:642-646: one point. -/
noncomputable def whiten (s x : Fin D → ℝ) : Fin D → ℝ := fun i => x i / s i

/-- `np.min` of a nonempty list. -/
noncomputable def listMin : List ℝ → ℝ
  | [] => 0
  | a :: l => l.foldl min a

/-- `np.max` of a nonempty list. -/
noncomputable def listMax : List ℝ → ℝ
  | [] => 0
  | a :: l => l.foldl max a

/-- `_gp2scale_whitened_block_distance(z1, z2)`, kernels.py:649-655. -/
noncomputable def blockDistance (z1 z2 : List (Fin D → ℝ)) : ℝ :=
  √(∑ i, (max 0 (max (listMin (z1.map fun z => z i) - listMax (z2.map fun z => z i))
    (listMin (z2.map fun z => z i) - listMax (z1.map fun z => z i)))) ^ 2)

/-- `cKDTree(z1).query_ball_tree(cKDTree(z2), r=1.0)`, kernels.py:681-683: for each point of `z1` the indices of points of
`z2`. -/
abbrev Query (D : ℕ) := List (Fin D → ℝ) → List (Fin D → ℝ) → List (List ℕ)

/-- `_wendland_triplets_from_neighbor_lists`, kernels.py:619-635: rows and columns. -/
def neighbourPairs (nl : List (List ℕ)) : List (ℕ × ℕ) := (nl.mapIdx fun r l => l.map fun c => (r, c)).flatten

/-- `dist_sq` of a pair, kernels.py:693-694. -/
def pairSq (z1 z2 : List (Fin D → ℝ)) (p : ℕ × ℕ) : ℝ :=
  ∑ i, ((z2.getD p.2 0) i - (z1.getD p.1 0) i) ^ 2

/-- `_wendland_support_aware_cpu_triplets(x1, x2, hps)`, kernels.py:658-721. The early returns for empty intermediate
arrays return what the last line would. -/
noncomputable def supportTriplets (q : Query D) (a : ℝ) (s : Fin D → ℝ) (x1 x2 : List (Fin D → ℝ)) : List (Triplet ℝ) :=
  if x1.length = 0 ∨ x2.length = 0 then []
  else
    let z1 := x1.map (whiten s)
    let z2 := x2.map (whiten s)
    if blockDistance z1 z2 > 1 then []
    else
      let inside := (neighbourPairs (q z1 z2)).filter fun p => pairSq z1 z2 p ≤ 1
      (inside.map fun p => (⟨amplitudePoly (√(min (pairSq z1 z2 p) 1)) a, p.1, p.2⟩ : Triplet ℝ)).filter fun t => t.val ≠ 0

/-- `wendland_anisotropic_gp2Scale_cpu_sparse(x1, x2, hps)`, kernels.py:724-738. -/
noncomputable def wendlandSparse (q : Query D) (a : ℝ) (s : Fin D → ℝ) (x1 x2 : List (Fin D → ℝ)) : Except String (Block ℝ) :=
  .ok (.sparse (supportTriplets q a s x1 x2))

end Verif.Kernels
