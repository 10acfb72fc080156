import Verif.Ggmp.EmModel

/-!
Model of `GGMP.posterior_mean` and `GGMP.posterior_variance` at one prediction point.

Simplifications: exact reals; `m k` and `nu k` are the values `m(x)` and `v(x)` of the GP of component `k` at the point,
`s k` its vector of training variances (not empty).
-/

namespace Verif.Ggmp

open Finset

variable {K : ℕ}

/-- `GGMP.posterior_mean`, ggmp.py:721-724; `none` is NaN (weights with sum zero). -/
noncomputable def mixMean (w m : Fin K → ℝ) : Option ℝ := (normalize w).map fun u => ∑ k, u k * m k

/-- `np.mean(self.likelihoods[k].variance)`, ggmp.py:765-767. -/
noncomputable def meanNoise (s : Fin K → List ℝ) (k : Fin K) : ℝ := (s k).sum / (s k).length

/-- `GGMP.posterior_variance`, ggmp.py:762-778. -/
noncomputable def mixVariance (w m nu : Fin K → ℝ) (s : Fin K → List ℝ) : Option ℝ :=
  (normalize w).map fun u =>
    let mean := ∑ k, u k * m k
    ∑ k, u k * (nu k + meanNoise s k) + ∑ k, u k * (m k - mean) ^ 2

end Verif.Ggmp
