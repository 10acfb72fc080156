import Verif.Kernels.SparseModel
import Verif.GP.DtypeModel

/-!
Model of the GPU versions of the gp2Scale Wendland kernels, kernels.py:531-591 and 741-840. Arrays on the GPU are
`float32`: `conv` is the conversion of an input to `float32`, `rd` the rounding of every operation on the GPU; the
operations of the torch and the cupy branch are the same. The order of the additions in `torch.sum` is not specified by
torch and taken to be from left to right. `engine` tells whether a GPU was found (C129).
-/

namespace Verif.Kernels

open Verif.Gp2Scale

variable {D : ℕ}

/-- The square of the distance as accumulated by `_get_distance_matrix_gpu`, kernels.py:531-536, and by the cupy branch,
578-580. -/
noncomputable def gpuSq (conv rd : ℝ → ℝ) (s x y : Fin D → ℝ) : ℝ :=
  (List.finRange D).foldl (fun d i => rd (d + rd (rd (rd (conv (x i) - conv (y i)) / conv (s i)) ^ 2))) 0

/-- `amplitude * (1. - d) ** 8 * (32. * d ** 3 + 25. * d ** 2 + 8. * d + 1.)` on the GPU, kernels.py:571, 583 and, through
`_wendland_anisotropic_polynomial`, 792 and 809. -/
noncomputable def gpuPoly (rd : ℝ → ℝ) (d a : ℝ) : ℝ :=
  rd (rd (a * rd (rd (1 - d) ^ 8)) * rd (rd (rd (rd (32 * rd (d ^ 3)) + rd (25 * rd (d ^ 2))) + rd (8 * d)) + 1))

/-- One entry of the dense GPU kernel, kernels.py:563-584. -/
noncomputable def gpuEntry (conv rd : ℝ → ℝ) (a : ℝ) (s x y : Fin D → ℝ) : ℝ :=
  gpuPoly rd (min (rd √(gpuSq conv rd s x y)) 1) (conv a)

/-- `wendland_anisotropic_gp2Scale_gpu(x1, x2, hps, args)`, kernels.py:539-591. -/
noncomputable def wendlandGpu (engine : Bool) (conv rd : ℝ → ℝ) (a : ℝ) (s : Fin D → ℝ) (x1 x2 : List (Fin D → ℝ)) :
    Except String (Block ℝ) :=
  if engine then .ok (.dense (x1.map fun x => x2.map fun y => gpuEntry conv rd a s x y))
  else wendlandDense a s x1 x2

/-- `dist_sq_dev` of a pair, kernels.py:773-779 and 795-796: the difference of the whitened points is taken on the host. -/
noncomputable def gpuPairSq (conv rd : ℝ → ℝ) (z1 z2 : List (Fin D → ℝ)) (p : ℕ × ℕ) : ℝ :=
  (List.finRange D).foldl (fun d i =>
    rd (d + rd (conv ((z2.getD p.2 0) i - (z1.getD p.1 0) i) * conv ((z2.getD p.2 0) i - (z1.getD p.1 0) i)))) 0

/-- `_wendland_support_aware_gpu_triplets(x1, x2, hps, args)`, kernels.py:741-824, and
`wendland_anisotropic_gp2Scale_gpu_sparse`, 827-840. The amplitude stays a `float64` scalar. -/
noncomputable def wendlandGpuSparse (q : Query D) (engine : Bool) (conv rd : ℝ → ℝ) (a : ℝ) (s : Fin D → ℝ)
    (x1 x2 : List (Fin D → ℝ)) : Except String (Block ℝ) :=
  .ok (.sparse (
    if x1.length = 0 ∨ x2.length = 0 then []
    else
      let z1 := x1.map (whiten s)
      let z2 := x2.map (whiten s)
      if blockDistance z1 z2 > 1 then []
      else if engine then
        let inside := (neighbourPairs (q z1 z2)).filter fun p => gpuPairSq conv rd z1 z2 p ≤ 1
        (inside.map fun p => (⟨gpuPoly rd (rd √(min (gpuPairSq conv rd z1 z2 p) 1)) a, p.1, p.2⟩ : Triplet ℝ)).filter
          fun t => t.val ≠ 0
      else supportTriplets q a s x1 x2))

/-- Single precision. -/
noncomputable def single : ℝ → ℝ := Verif.GP.Dtype.float32.store

end Verif.Kernels
