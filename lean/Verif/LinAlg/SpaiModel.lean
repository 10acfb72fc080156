import Mathlib.LinearAlgebra.Matrix.Trace
import Mathlib.Data.Real.Basic

/-!
Model of `spai`, gp_lin_alg.py:363-383.
-/

namespace Verif.LinAlg

open Matrix

variable {n : ℕ}

/-- `np.linalg.norm(X.data) ** 2`, gp_lin_alg.py:379. -/
noncomputable def fro2 (X : Matrix (Fin n) (Fin n) ℝ) : ℝ := ∑ i, ∑ j, X i j ^ 2

/-- One step, gp_lin_alg.py:374-380. `none` stands for a matrix with NaN entries: the step length is `0 / 0` if `A @ G`
vanishes, and it is multiplied with the stored entries of `G`, of which there are none if `G` vanishes (scipy drops zeros
in the difference of two sparse matrices). -/
noncomputable def spaiStep (A M : Matrix (Fin n) (Fin n) ℝ) : Option (Matrix (Fin n) (Fin n) ℝ) :=
  open Classical in
  let G := 1 - A * M
  let AG := A * G
  if AG = 0 then (if G = 0 then some M else none)
  else some (M + (trace (Gᵀ * AG) / fro2 AG) • G)

/-- `spai(A, m)`, gp_lin_alg.py:363-383, for a sparse `A` and an integer `m` (a negative one is `0`); `est` is the result of
`onenormest(A @ A.T)`. It is zero for a matrix without entries only, for which `M` has no entries either. NaN entries stay
in all later steps. -/
noncomputable def spai (A : Matrix (Fin n) (Fin n) ℝ) (est : ℝ) : ℕ → Option (Matrix (Fin n) (Fin n) ℝ)
  | 0 => some ((2 / est) • A)
  | m + 1 => (spai A est m).bind (spaiStep A)

end Verif.LinAlg
