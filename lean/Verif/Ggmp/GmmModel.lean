import Mathlib.Data.Fin.Tuple.Sort
import Mathlib.Analysis.SpecialFunctions.Exp
import Mathlib.Analysis.SpecialFunctions.Trigonometric.Basic
import Mathlib.Analysis.Real.Sqrt

/-!
Model of the fit of a one-dimensional Gaussian mixture with fixed weights, ggmp.py:967-1033.

Simplifications: exact reals; at least one component; `w_fixed` and `means_init` have length `K` (otherwise `ValueError`). The
start means are an argument: `means_init`, or the k-means centres or quantiles that replace it. `np.argsort` is stable.
-/

namespace Verif.Ggmp

open Finset

variable {K n : ℕ}

/-- `gaussian_pdf`, ggmp.py:924-930. -/
noncomputable def gaussianPdf (x mu var : ℝ) : ℝ :=
  Real.exp (-(1 / 2) * (x - mu) ^ 2 / max var (1 / 10 ^ 12)) / √(2 * Real.pi * max var (1 / 10 ^ 12))

/-- `means`, `vars_`. -/
structure Comps (K : ℕ) where
  mean : Fin K → ℝ
  var : Fin K → ℝ

/-- `w_fixed` after ggmp.py:990-991. -/
noncomputable def fixedWeights (w : Fin K → ℝ) (k : Fin K) : ℝ := max (w k) (1 / 10 ^ 12) / ∑ j, max (w j) (1 / 10 ^ 12)

/-- `resp[i, k]`, ggmp.py:1017-1020, for the sample `y`. -/
noncomputable def fixedResp (w : Fin K → ℝ) (s : Comps K) (y : ℝ) (k : Fin K) : ℝ :=
  w k * gaussianPdf y (s.mean k) (s.var k) / (∑ j, w j * gaussianPdf y (s.mean j) (s.var j) + 1 / 10 ^ 12)

/-- `N_k`, ggmp.py:1025. -/
noncomputable def fixedN (y : Fin n → ℝ) (w : Fin K → ℝ) (s : Comps K) (k : Fin K) : ℝ :=
  ∑ i, fixedResp w s (y i) k + 1 / 10 ^ 12

/-- `means[k]`, ggmp.py:1026. -/
noncomputable def fixedMean (y : Fin n → ℝ) (w : Fin K → ℝ) (s : Comps K) (k : Fin K) : ℝ :=
  (∑ i, fixedResp w s (y i) k * y i) / fixedN y w s k

/-- `vars_[k]`, ggmp.py:1027. -/
noncomputable def fixedVar (y : Fin n → ℝ) (w : Fin K → ℝ) (s : Comps K) (k : Fin K) : ℝ :=
  (∑ i, fixedResp w s (y i) k * (y i - fixedMean y w s k) ^ 2) / fixedN y w s k + 1 / 10 ^ 6

/-- One iteration, ggmp.py:1013-1027. -/
noncomputable def fixedStep (y : Fin n → ℝ) (w : Fin K → ℝ) (s : Comps K) : Comps K := ⟨fixedMean y w s, fixedVar y w s⟩

open Classical in
/-- The loop, ggmp.py:1013-1030: the largest change is below `tol` exactly when every change is. -/
noncomputable def fixedLoop (y : Fin n → ℝ) (w : Fin K → ℝ) (tol : ℝ) : ℕ → Comps K → Comps K
  | 0, s => s
  | t + 1, s =>
      let s' := fixedStep y w s
      if ∀ k, |s'.mean k - s.mean k| < tol then s' else fixedLoop y w tol t s'

/-- `np.var`. -/
noncomputable def sampleVar (y : Fin n → ℝ) : ℝ := (∑ i, (y i - (∑ j, y j) / n) ^ 2) / n

/-- The result: `means[order]`, `vars_[order]`, and what the array given as `means_init` holds afterwards (ggmp.py:1006 makes no
copy of an array of floats and ggmp.py:1026 writes into it). -/
structure FixedFit (K : ℕ) where
  mean : Fin K → ℝ
  var : Fin K → ℝ
  buffer : Fin K → ℝ

/-- `fit_gmm_fixed_weights`, ggmp.py:967-1033. -/
noncomputable def fitFixed (y : Fin n → ℝ) (w init : Fin K → ℝ) (maxIter : ℕ) (tol : ℝ) : Except String (FixedFit K) :=
  if n = 0 then .error "ValueError: Empty station series"
  else
    let s := fixedLoop y (fixedWeights w) tol maxIter ⟨init, fun _ => sampleVar y / K⟩
    let order := Tuple.sort s.mean
    .ok ⟨s.mean ∘ order, s.var ∘ order, s.mean⟩

end Verif.Ggmp
