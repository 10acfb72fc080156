import Mathlib.Data.Fin.Tuple.Sort
import Mathlib.Data.Real.Basic
import Mathlib.Algebra.BigOperators.Fin

/-!
Model of the Wasserstein distance of kernels.py.

Simplifications: exact reals; the two arrays have the same length `n` (otherwise NumPy raises or, for length one, broadcasts).
`none` is NaN: an array with sum zero.
-/

namespace Verif.Kernels

variable {n : ℕ}

/-- `a / np.sum(a)`. -/
noncomputable def share (a : Fin n → ℝ) (i : Fin n) : ℝ := a i / ∑ j, a j

/-- `np.sort(a)`. -/
noncomputable def sorted (a : Fin n → ℝ) : Fin n → ℝ := a ∘ Tuple.sort a

/-- `wasserstein_1d(a, b)`, kernels.py:843-862, and an entry of `wasserstein_1d_outer_vec`, kernels.py:865-887. -/
noncomputable def wasserstein1d (a b : Fin n → ℝ) : Option ℝ :=
  if ∑ i, a i = 0 ∨ ∑ i, b i = 0 then none
  else some ((∑ i, |sorted (share a) i - sorted (share b) i|) / n)

end Verif.Kernels
