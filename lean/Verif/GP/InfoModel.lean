import Verif.GP.Model
import Verif.GP.Spec

/-!
Model of the information measures of `/repo/fvgp/gp_posterior.py`: entropy, KL divergence, mutual information, total
correlation, relative information entropy, posterior probability. Single-task, one output column.
-/

namespace Verif.GP

open Finset Verif.LinAlg Matrix

variable {α H : Type}

/-- `solve(A, b)`, gp_lin_alg.py:1581-1595: the solution, or `lstsq`'s answer when `A` is singular. -/
noncomputable def npSolve {n m : Type} [Fintype n] [DecidableEq n]
    (lstsq : Matrix n n ℝ → Matrix n m ℝ → Matrix n m ℝ) (A : Matrix n n ℝ) (b : Matrix n m ℝ) : Matrix n m ℝ :=
  open Classical in if A.det ≠ 0 then A⁻¹ * b else lstsq A b

/-- `entropy(S)`, gp_posterior.py:387-390. -/
noncomputable def entropy {n : Type} [Fintype n] [DecidableEq n] (S : Matrix n n ℝ) : ℝ :=
  (Fintype.card n : ℝ) / 2 + (Fintype.card n : ℝ) / 2 * Real.log (2 * Real.pi) + 1 / 2 * slogdet S

/-- `kl_div(mu1, mu2, S1, S2)`, gp_posterior.py:427-441. The mean difference becomes a column. -/
noncomputable def klDiv {n : Type} [Fintype n] [DecidableEq n]
    (lstsq : {m : Type} → Matrix n n ℝ → Matrix n m ℝ → Matrix n m ℝ) (mu1 mu2 : n → ℝ) (S1 S2 : Matrix n n ℝ) : ℝ :=
  let logdet1 := slogdet S1
  let logdet2 := slogdet S2
  let x1 := npSolve lstsq S2 S1
  let mu : Matrix n Unit ℝ := Matrix.of fun i _ => mu2 i - mu1 i
  let x2 := npSolve lstsq S2 mu
  let kld := 1 / 2 * (x1.trace + (x2ᵀ * mu) () () - Fintype.card n + (logdet2 - logdet1))
  |kld|

/-- `mutual_information(joint, m1, m2)`, gp_posterior.py:460-461. -/
noncomputable def mutualInformation {n p j : Type} [Fintype n] [DecidableEq n] [Fintype p] [DecidableEq p] [Fintype j]
    [DecidableEq j] (joint : Matrix j j ℝ) (m1 : Matrix n n ℝ) (m2 : Matrix p p ℝ) : ℝ :=
  entropy m1 + entropy m2 - entropy joint

/-- The jitter `1e-9`. -/
noncomputable def jitter : ℝ := 1e-9

/-- `K` with jitter, `k`, `kk` with jitter and optional noise, as assembled at gp_posterior.py:465-475 and 482-489.
A failing `add_noise` raises. -/
noncomputable def jointParts (gp : GP α H) (xs : List α) (noisy : Bool) :
    Except String (Matrix (Fin gp.data.x.length) (Fin gp.data.x.length) ℝ ×
      Matrix (Fin gp.data.x.length) (Fin xs.length) ℝ × Matrix (Fin xs.length) (Fin xs.length) ℝ) := do
  let K := toMat gp.data.x.length gp.K + jitter • (1 : Matrix _ _ ℝ)
  let k : Matrix (Fin gp.data.x.length) (Fin xs.length) ℝ :=
    Matrix.of fun i j => gram (gp.cfg.kernel gp.hps) gp.data.x xs i j
  let kk : NMat := fun i j => gram (gp.cfg.kernel gp.hps) xs xs i j + if i = j then jitter else 0
  if noisy then do
    let vS ← addNoise gp xs (fun i => kk i i) (some kk)
    .ok (K, k, toMat xs.length (vS.2.getD kk))
  else .ok (K, k, toMat xs.length kk)

/-- `gp_mutual_information(x_pred, add_noise)`, gp_posterior.py:464-477. -/
noncomputable def gpMutualInformation (gp : GP α H) (xs : List α) (noisy : Bool) : Except String ℝ := do
  let r ← jointParts gp xs noisy
  .ok (mutualInformation (fromBlocks r.1 r.2.1 r.2.1ᵀ r.2.2) r.2.2 r.1)

/-- `gp_total_correlation(x_pred, add_noise)`, gp_posterior.py:480-496: the product covariance has blocks `K` and the
diagonal of `kk`. -/
noncomputable def gpTotalCorrelation (gp : GP α H)
    (lstsq : {n m : Type} → Matrix n n ℝ → Matrix n m ℝ → Matrix n m ℝ) (xs : List α) (noisy : Bool) :
    Except String ℝ := do
  let r ← jointParts gp xs noisy
  let joint := fromBlocks r.1 r.2.1 r.2.1ᵀ r.2.2
  let prod := fromBlocks r.1 (0 • r.2.1) (0 • r.2.1ᵀ) (Matrix.of fun i j => r.2.2 i j * (1 : Matrix _ _ ℝ) i j)
  .ok (klDiv lstsq 0 0 joint prod)

/-- `gp_relative_information_entropy(x_pred, add_noise)`, gp_posterior.py:499-512. -/
noncomputable def gpRIE (gp : GP α H) (lstsq : {n m : Type} → Matrix n n ℝ → Matrix n m ℝ → Matrix n m ℝ)
    (xs : List α) (noisy : Bool) (chunk : ℕ) (junk : NMat) : Except String ℝ := do
  let kk := toMat xs.length (gram (gp.cfg.kernel gp.hps) xs xs) + jitter • (1 : Matrix _ _ ℝ)
  let vS ← posteriorCovariance gp xs false noisy chunk junk
  let S ← match vS.2 with
    | some S => .ok (toMat xs.length S)
    | none => .error "TypeError: object of type 'NoneType' has no len()"
  let postCov := S + jitter • (1 : Matrix _ _ ℝ)
  let postMean : Fin xs.length → ℝ := fun i => posteriorMean gp xs i 0
  let priorMean : Fin xs.length → ℝ := fun i => evalAt (meanFn gp.cfg gp.data gp.hps) xs i
  .ok (klDiv lstsq priorMean postMean kk postCov)

/-- `gp_kl_div(x_pred, comp_mean, comp_cov)`, gp_posterior.py:444-458: the value under key `"kl-div"`. -/
noncomputable def gpKlDiv (gp : GP α H) (lstsq : {n m : Type} → Matrix n n ℝ → Matrix n m ℝ → Matrix n m ℝ)
    (xs : List α) (compMean : Fin xs.length → ℝ) (compCov : Matrix (Fin xs.length) (Fin xs.length) ℝ) (chunk : ℕ)
    (junk : NMat) : Except String ℝ := do
  let vS ← posteriorCovariance gp xs false false chunk junk
  let S ← match vS.2 with
    | some S => .ok (toMat xs.length S)
    | none => .error "TypeError"
  .ok (klDiv lstsq (fun i : Fin xs.length => posteriorMean gp xs i 0) compMean (S + jitter • (1 : Matrix _ _ ℝ))
    (compCov + jitter • (1 : Matrix _ _ ℝ)))

/-- What `posterior_probability` returns. -/
structure ProbResult (n : Type) where
  mu : n → ℝ
  cov : Matrix n n ℝ
  probability : ℝ

/-- The computation of `posterior_probability` from the two Gaussians, gp_posterior.py:536-552. -/
noncomputable def overlap {n : Type} [Fintype n] [DecidableEq n] (gpMean : n → ℝ) (gpCov : Matrix n n ℝ)
    (compMean : n → ℝ) (compCov : Matrix n n ℝ) : Except String (ProbResult n) := do
  let gpInv ← npInv gpCov
  let compInv ← npInv compCov
  let cov ← npInv (gpInv + compInv)
  let mu := (cov * gpInv) *ᵥ gpMean + (cov * compInv) *ᵥ compMean
  let logdet1 := slogdet cov
  let logdet2 := slogdet gpCov
  let logdet3 := slogdet compCov
  let C := 1 / 2 * ((gpMean ᵥ* gpInv + compMean ᵥ* compInv) ᵥ* cov ⬝ᵥ (gpInv *ᵥ gpMean + compInv *ᵥ compMean)
    - ((gpMean ᵥ* gpInv) ⬝ᵥ gpMean + (compMean ᵥ* compInv) ⬝ᵥ compMean))
  let lnP := (C + 1 / 2 * logdet1)
    - (Real.log ((2 * Real.pi) ^ ((Fintype.card n : ℝ) / 2)) + 1 / 2 * (logdet2 + logdet3))
  .ok ⟨mu, cov, Real.exp lnP⟩

/-- `posterior_probability(x_pred, comp_mean, comp_cov)`, gp_posterior.py:529-552. For a single prediction point
`np.squeeze` turns the posterior mean into a 0-d array, which `@` rejects. -/
noncomputable def posteriorProbability (gp : GP α H) (xs : List α) (compMean : Fin xs.length → ℝ)
    (compCov : Matrix (Fin xs.length) (Fin xs.length) ℝ) (chunk : ℕ) (junk : NMat) :
    Except String (ProbResult (Fin xs.length)) := do
  let vS ← posteriorCovariance gp xs false true chunk junk
  let S ← match vS.2 with
    | some S => .ok (toMat xs.length S)
    | none => .error "AssertionError: A must be np.ndarray for matrix inversion"
  if xs.length = 1 then .error "ValueError: matmul: Input operand 1 does not have enough dimensions"
  else overlap (fun i => posteriorMean gp xs i 0) S compMean compCov

end Verif.GP
