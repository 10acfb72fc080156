import Verif.Ggmp.W2Model
import Verif.GP.LikProps
import Mathlib.Data.Fin.Tuple.Sort
import Mathlib.Data.List.FinRange

/-!
Model of the multivariate Gaussian mixtures of ggmp.py: fit (1048-1156), likelihood (1556-1581, 1650-1671) and sampling
(1674-1700).

Simplifications: exact reals; the shapes of weights, means and covariances agree. `scipy.stats.multivariate_normal.logpdf` with
`allow_singular=False` returns the log density for a positive definite covariance and raises otherwise. Random numbers are
arguments of the sampler.
-/

namespace Verif.Ggmp

open Matrix Verif.GP

variable {d K n : ℕ}

/-- `_log_mvn_density` at one row, ggmp.py:1556-1581. -/
noncomputable def logMvnDensity (reg : ℝ) (mean : Fin d → ℝ) (cov : Matrix (Fin d) (Fin d) ℝ) (y : Fin d → ℝ) : Except String ℝ :=
  let c := symPsd cov + reg • (1 : Matrix (Fin d) (Fin d) ℝ)
  open Classical in if c.PosDef then .ok (logNormal c mean y) else .error "LinAlgError: singular matrix"

/-- `scipy.special.logsumexp` of a non-empty row. -/
noncomputable def logsumexp (a : Fin (K + 1) → ℝ) : ℝ :=
  let m := Finset.univ.sup' Finset.univ_nonempty a
  m + Real.log (∑ k, Real.exp (a k - m))

/-- `np.maximum(weights, 1e-300)`. -/
noncomputable def tinyFloor (w : ℝ) : ℝ := max w (1 / 10 ^ 300)

/-- `loglik_multivariate_mixture_samples` at one row, ggmp.py:1650-1671, with at least one component. -/
noncomputable def loglikMixture (reg : ℝ) (w : Fin (K + 1) → ℝ) (means : Fin (K + 1) → Fin d → ℝ)
    (covs : Fin (K + 1) → Matrix (Fin d) (Fin d) ℝ) (y : Fin d → ℝ) : Except String ℝ := do
  let logPdf ← (List.finRange (K + 1)).mapM fun k => logMvnDensity reg (means k) (covs k) y
  .ok (logsumexp fun k => logPdf.getD k 0 + Real.log (tinyFloor (w k)))

/-- `p=weights / np.sum(weights)` as checked by `Generator.choice`, ggmp.py:1692. -/
noncomputable def choiceProb (w : Fin K → ℝ) : Except String (Fin K → ℝ) :=
  open Classical in
  if (∑ j, w j) = 0 then .error "ValueError: probabilities contain NaN"
  else if ∀ k, 0 ≤ w k / ∑ j, w j then .ok fun k => w k / ∑ j, w j
  else .error "ValueError: probabilities are not non-negative"

/-- `np.where(comp == k)[0]`. -/
def rowsOf (comp : Fin n → Fin K) (k : Fin K) : List (Fin n) := (List.finRange n).filter fun i => comp i = k

/-- The loop of `sample_gmm_multivariate`, ggmp.py:1694-1700: `draws k r` is row `r` of what
`rng.multivariate_normal(mean=means[k], cov=cov_k, size=...)` returns. -/
noncomputable def sampleRows (comp : Fin n → Fin K) (draws : Fin K → ℕ → Fin d → ℝ) : Fin n → Fin d → ℝ :=
  (List.finRange K).foldl (fun out k =>
    let idx := rowsOf comp k
    if idx.length = 0 then out else fun i => if i ∈ idx then draws k (idx.idxOf i) else out i) fun _ => 0

/-- The covariance passed to the generator, ggmp.py:1698. -/
noncomputable def drawCov (reg : ℝ) (cov : Matrix (Fin d) (Fin d) ℝ) : Matrix (Fin d) (Fin d) ℝ :=
  symPsd cov + reg • (1 : Matrix (Fin d) (Fin d) ℝ)

/-- `GaussianMixture.covariances_` for the four covariance types. -/
inductive CovStore (K d : ℕ) where
  | full (c : Fin K → Matrix (Fin d) (Fin d) ℝ)
  | diag (c : Fin K → Fin d → ℝ)
  | spherical (c : Fin K → ℝ)
  | tied (c : Matrix (Fin d) (Fin d) ℝ)

/-- `_covariances_to_full`, ggmp.py:1048-1080. -/
def covToFull : CovStore K d → Fin K → Matrix (Fin d) (Fin d) ℝ
  | .full c => c
  | .diag c => fun k => diagonal (c k)
  | .spherical c => fun k => c k • (1 : Matrix (Fin d) (Fin d) ℝ)
  | .tied c => fun _ => c

/-- A mixture: weights, means, full covariances. -/
structure Mixture (K d : ℕ) where
  w : Fin K → ℝ
  mean : Fin K → Fin d → ℝ
  cov : Fin K → Matrix (Fin d) (Fin d) ℝ

/-- `fit_gmm_free_weights_multivariate`, ggmp.py:1083-1156: `w`, `means`, `store` are the attributes of the fitted
`GaussianMixture`; `order` is what `np.argsort(means[:, 0])` returns. -/
noncomputable def fitFreeMixture (n : ℕ) (w : Fin K → ℝ) (means : Fin K → Fin d → ℝ) (store : CovStore K d) (floor : ℝ)
    (sortIf1d : Bool) (order : Equiv.Perm (Fin K)) : Except String (Mixture K d) :=
  if n < K then .error "ValueError: Need at least K samples"
  else
    let wf := fun k => max (w k) floor
    let wn := fun k => wf k / ∑ j, wf j
    let covs := covToFull store
    if sortIf1d && d == 1 then .ok ⟨wn ∘ order, means ∘ order, covs ∘ order⟩ else .ok ⟨wn, means, covs⟩

end Verif.Ggmp
