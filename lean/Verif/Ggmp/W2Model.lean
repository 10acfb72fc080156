import Mathlib.Data.Matrix.Mul
import Mathlib.Analysis.Real.Sqrt
import Mathlib.LinearAlgebra.Matrix.Trace

/-!
Model of the squared Wasserstein distance of two Gaussians, ggmp.py:1210-1244.

Simplifications: exact reals; `np.linalg.eigh` is a pair of functions of the matrix, see `EighContract`; the shapes agree.
-/

namespace Verif.Ggmp

open Matrix

variable {d : ℕ}

/-- `np.linalg.eigh`: eigenvalues and eigenvectors (as columns). -/
structure Eigh (d : ℕ) where
  vals : Matrix (Fin d) (Fin d) ℝ → Fin d → ℝ
  vecs : Matrix (Fin d) (Fin d) ℝ → Matrix (Fin d) (Fin d) ℝ

/-- `_sym_psd`, ggmp.py:1210-1213. -/
noncomputable def symPsd (a : Matrix (Fin d) (Fin d) ℝ) : Matrix (Fin d) (Fin d) ℝ := (1 / 2 : ℝ) • (a + aᵀ)

/-- The default `eps` of `_sqrtm_psd`. -/
noncomputable def sqrtEps : ℝ := 1 / 10 ^ 12

/-- `_sqrtm_psd`, ggmp.py:1216-1221. -/
noncomputable def sqrtmPsd (e : Eigh d) (a : Matrix (Fin d) (Fin d) ℝ) : Matrix (Fin d) (Fin d) ℝ :=
  let s := symPsd a
  e.vecs s * diagonal (fun i => √(max (e.vals s i) sqrtEps)) * (e.vecs s)ᵀ

/-- `gaussian_w2_squared`, ggmp.py:1224-1244. -/
noncomputable def gaussianW2 (e : Eigh d) (ma : Fin d → ℝ) (ca : Matrix (Fin d) (Fin d) ℝ) (mb : Fin d → ℝ)
    (cb : Matrix (Fin d) (Fin d) ℝ) : ℝ :=
  let a := symPsd ca
  let b := symPsd cb
  let sa := sqrtmPsd e a
  let mid := symPsd (sa * b * sa)
  (ma - mb) ⬝ᵥ (ma - mb) + max (trace (a + b - (2 : ℝ) • sqrtmPsd e mid)) 0

end Verif.Ggmp
