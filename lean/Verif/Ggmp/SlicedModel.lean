import Mathlib.MeasureTheory.Integral.Bochner.Set
import Mathlib.MeasureTheory.Measure.Lebesgue.Basic

/-!
Model of `sliced_wasserstein_distance`, ggmp.py:1719-1740.

Simplifications: exact reals; a sample is a function from `Fin n` to points of one dimension `D` (for different dimensions NumPy
raises). `scipy.stats.wasserstein_distance` of two samples of numbers is the area between their empirical distribution functions, as
SciPy documents and computes it. The generator is an argument: `draws r` is what the `r`-th call of `rng.normal(size=d)`
returns, which `random_state` determines.
-/

namespace Verif.Ggmp

open Finset MeasureTheory

variable {n m D : ℕ}

/-- The empirical distribution function of a sample. -/
noncomputable def ecdf (p : Fin n → ℝ) (x : ℝ) : ℝ := (∑ i, if p i ≤ x then 1 else 0) / n

/-- `scipy.stats.wasserstein_distance(p, q)`, called in ggmp.py:1739. -/
noncomputable def w1 (p : Fin n → ℝ) (q : Fin m → ℝ) : ℝ := ∫ x, |ecdf p x - ecdf q x|

/-- `v / max(np.linalg.norm(v), 1e-12)`, ggmp.py:1736. -/
noncomputable def direction (v : Fin D → ℝ) : Fin D → ℝ := fun i => v i / max √(∑ j, v j ^ 2) (1 / 10 ^ 12)

/-- `a @ v`, ggmp.py:1737-1738. -/
def project (a : Fin n → Fin D → ℝ) (v : Fin D → ℝ) : Fin n → ℝ := fun i => ∑ k, a i k * v k

/-- `sliced_wasserstein_distance`, ggmp.py:1719-1740, with `_as_2d`, ggmp.py:1036-1045. -/
noncomputable def slicedW1 (nProj : ℤ) (draws : ℕ → Fin D → ℝ) (a : Fin n → Fin D → ℝ) (b : Fin m → Fin D → ℝ) : Except String ℝ :=
  if n = 0 ∨ m = 0 then .error "ValueError: Empty sample array."
  else
    let count := (max 1 nProj).toNat
    .ok ((∑ r ∈ range count, w1 (project a (direction (draws r))) (project b (direction (draws r)))) / count)

end Verif.Ggmp
