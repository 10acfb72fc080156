import Verif.Kernels.Model
import Mathlib.Algebra.BigOperators.Ring.Finset
import Mathlib.Data.List.Sort

/-!
Model of the distances between samples of ggmp.py.

Simplifications: exact reals; a sample is a function from `Fin n` to points of one dimension `D` (for different dimensions
NumPy raises). `none` is NaN.
-/

namespace Verif.Ggmp

open Finset

variable {n m D : ℕ}

/-- `np.mean` of a matrix. -/
noncomputable def meanMatrix (f : Fin n → Fin m → ℝ) : ℝ := (∑ i, ∑ j, f i j) / (n * m)

/-- `energy_distance_multivariate`, ggmp.py:1703-1716, with `_as_2d`, ggmp.py:1036-1045. -/
noncomputable def energyDistance (a : Fin n → Fin D → ℝ) (b : Fin m → Fin D → ℝ) : Except String ℝ :=
  if n = 0 ∨ m = 0 then .error "ValueError: Empty sample array."
  else .ok (max (2 * meanMatrix (fun i j => Kernels.distance (a i) (b j)) - meanMatrix (fun i j => Kernels.distance (a i) (a j))
    - meanMatrix fun i j => Kernels.distance (b i) (b j)) 0)

/-- `_sqdist`, ggmp.py:1758-1759, for one pair. -/
def sqDist (x y : Fin D → ℝ) : ℝ := ∑ i, (x i - y i) ^ 2

/-- `np.median` of the entries of a matrix. -/
noncomputable def medianMatrix (f : Fin n → Fin m → ℝ) : ℝ :=
  open Classical in
  let l := (((List.finRange n).flatMap fun i => (List.finRange m).map fun j => f i j)).mergeSort fun x y => decide (x ≤ y)
  (l.getD ((n * m - 1) / 2) 0 + l.getD (n * m / 2) 0) / 2

/-- `gamma`, ggmp.py:1765-1767. -/
noncomputable def rbfGamma (gamma : Option ℝ) (a : Fin n → Fin D → ℝ) (b : Fin m → Fin D → ℝ) : ℝ :=
  gamma.getD (1 / max (2 * medianMatrix fun i j => sqDist (a i) (b j)) (1 / 10 ^ 12))

/-- The sum of a matrix after `np.fill_diagonal(k, 0.0)`. -/
noncomputable def sumOffDiag (f : Fin n → Fin n → ℝ) : ℝ := ∑ i, ∑ j, if i = j then 0 else f i j

/-- The value `mmd_rbf` computes from `gamma`, ggmp.py:1769-1778. -/
noncomputable def mmdValue (g : ℝ) (a : Fin n → Fin D → ℝ) (b : Fin m → Fin D → ℝ) : ℝ :=
  sumOffDiag (fun i j => Real.exp (-g * sqDist (a i) (a j))) / (n * (n - 1))
    + sumOffDiag (fun i j => Real.exp (-g * sqDist (b i) (b j))) / (m * (m - 1))
    - 2 * ((∑ i, ∑ j, Real.exp (-g * sqDist (a i) (b j))) / (n * m))

/-- `mmd_rbf`, ggmp.py:1743-1778. -/
noncomputable def mmdRbf (gamma : Option ℝ) (a : Fin n → Fin D → ℝ) (b : Fin m → Fin D → ℝ) : Except String (Option ℝ) :=
  if n = 0 ∨ m = 0 then .error "ValueError: Empty sample array."
  else if n < 2 ∨ m < 2 then .ok none
  else .ok (some (mmdValue (rbfGamma gamma a b) a b))

end Verif.Ggmp
