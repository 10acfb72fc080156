import Verif.GP.InfoModel

/-! Model of the joint prior, its gradient, the entropy and its gradient, `/repo/fvgp/gp_posterior.py`. -/

namespace Verif.GP

open Finset Verif.LinAlg Matrix

variable {α H : Type}

/-- `joint_gp_prior(x_pred)["prior mean"]`, gp_posterior.py:337, 344-345. -/
noncomputable def jointPriorMean (gp : GP α H) (xs : List α) : Fin gp.data.x.length ⊕ Fin xs.length → ℝ :=
  Sum.elim (fun i => gp.m i) fun j => evalAt (meanFn gp.cfg gp.data gp.hps) xs j

/-- `joint_gp_prior(x_pred)["S"]`, gp_posterior.py:335-353: `K` with jitter, `k`, `kappa` as blocks, and once more the
jitter on the whole diagonal. -/
noncomputable def jointPriorCov (gp : GP α H) (xs : List α) :
    Matrix (Fin gp.data.x.length ⊕ Fin xs.length) (Fin gp.data.x.length ⊕ Fin xs.length) ℝ :=
  let K := toMat gp.data.x.length gp.K + jitter • (1 : Matrix _ _ ℝ)
  let k : Matrix (Fin gp.data.x.length) (Fin xs.length) ℝ :=
    Matrix.of fun i j => gram (gp.cfg.kernel gp.hps) gp.data.x xs i j
  let kk := toMat xs.length (gram (gp.cfg.kernel gp.hps) xs xs)
  fromBlocks K k kᵀ kk + jitter • (1 : Matrix _ _ ℝ)

/-- `joint_gp_prior_grad(x_pred, direction)["d prior mean/x"]`, gp_posterior.py:365-369, 373-376: central differences
at the prediction points, zero at the data. -/
noncomputable def jointPriorMeanGrad (gp : GP α H) (shift : α → ℕ → ℝ → α) (xs : List α) (d : ℕ) :
    Fin gp.data.x.length ⊕ Fin xs.length → ℝ :=
  let m (t : ℝ) (j : ℕ) : ℝ := evalAt (meanFn gp.cfg gp.data gp.hps) (xs.map fun x => shift x d t) j
  Sum.elim (fun _ => 0) fun j => (m 1e-6 j - m (-1e-6) j) / (2 * 1e-6)

/-- `joint_gp_prior_grad(x_pred, direction)["dS/dx"]`, gp_posterior.py:364-371, 377-383: a zero block, forward differences
of the cross covariance (gp_prior.py:402-409), central differences of `kappa`. -/
noncomputable def jointPriorCovGrad (gp : GP α H) (shift : α → ℕ → ℝ → α) (xs : List α) (d : ℕ) :
    Matrix (Fin gp.data.x.length ⊕ Fin xs.length) (Fin gp.data.x.length ⊕ Fin xs.length) ℝ :=
  let moved (t : ℝ) : List α := xs.map fun x => shift x d t
  let kg : Matrix (Fin gp.data.x.length) (Fin xs.length) ℝ := Matrix.of fun i j =>
    (gram (gp.cfg.kernel gp.hps) (moved 1e-8) gp.data.x j i - gram (gp.cfg.kernel gp.hps) xs gp.data.x j i) / 1e-8
  let kkg : Matrix (Fin xs.length) (Fin xs.length) ℝ := Matrix.of fun i j =>
    (gram (gp.cfg.kernel gp.hps) (moved 1e-6) (moved 1e-6) i j
      - gram (gp.cfg.kernel gp.hps) (moved (-1e-6)) (moved (-1e-6)) i j) / (2 * 1e-6)
  fromBlocks 0 kg kgᵀ kkg

/-- `gp_entropy(x_pred)`, gp_posterior.py:393-415. -/
noncomputable def gpEntropy (gp : GP α H) (xs : List α) : ℝ :=
  let S := jointPriorCov gp xs
  let dim : ℝ := (gp.data.x.length + xs.length : ℕ)
  dim / 2 + dim / 2 * Real.log (2 * Real.pi) + 1 / 2 * slogdet S

/-- `gp_entropy_grad(x_pred, direction)`, gp_posterior.py:418-423. -/
noncomputable def gpEntropyGrad (gp : GP α H) (shift : α → ℕ → ℝ → α) (xs : List α) (d : ℕ) : Except String ℝ := do
  let I ← npInv (jointPriorCov gp xs)
  .ok (1 / 2 * (I * jointPriorCovGrad gp shift xs d).trace)

end Verif.GP
