import Verif.GP.Model

/-! Model of `GPMarginalLikelihood.log_likelihood`, `/repo/fvgp/gp_marginal_likelihood.py`. -/

namespace Verif.GP

open Finset Verif.LinAlg

variable {α H : Type}

/-- The final formula, gp_marginal_likelihood.py:171-179: `l1 = sum(y_mean * KVinvY) / ncols`,
`L = -0.5 (l1 + KVlogdet + n log(2 pi))`. -/
noncomputable def likFormula (d : Data α) (m : ℕ → ℝ) (kvinvY : NMat) (logdetKV : ℝ) : ℝ :=
  let n := d.y.length
  let l1 := (∑ i ∈ range n, ∑ j ∈ range d.cols, (d.yMat i j - m i) * kvinvY i j) / d.cols
  let L := -(1 / 2) * (l1 + logdetKV + n * Real.log (2 * Real.pi))
  L

/-- `log_likelihood()` from the stored state, gp_marginal_likelihood.py:152-155. -/
noncomputable def logLikelihood (gp : GP α H) : ℝ :=
  likFormula gp.data gp.m gp.kv.kvinvY gp.kv.logdetKV

/-- `log_likelihood(hyperparameters)`, gp_marginal_likelihood.py:156-169, in a direct mode (no warm start is used
there). -/
noncomputable def logLikelihoodAt (gp : GP α H) (h : H) : Except String ℝ := do
  let K := gram (gp.cfg.kernel h) gp.data.x gp.data.x
  let V := calcV gp.cfg gp.data h gp.data.x
  let m := evalAt (meanFn gp.cfg gp.data h) gp.data.x
  let r ← computeNew gp.cfg.ext gp.cfg.mode gp.cfg.sparseK gp.data.x.length K V gp.data.yMat m
  .ok (likFormula gp.data m r.1 r.2)

/-- `neg_log_likelihood(hyperparameters)`, gp_marginal_likelihood.py:207-221. -/
noncomputable def negLogLikelihoodAt (gp : GP α H) (h : H) : Except String ℝ := do
  let L ← logLikelihoodAt gp h
  .ok (-L)

end Verif.GP
