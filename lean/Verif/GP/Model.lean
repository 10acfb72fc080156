import Verif.GP.KVModel

/-!
Model of the `GP` object: data (`gp_data.py`), prior (`gp_prior.py`), noise (`gp_likelihood.py`), construction
(`gp.py:419-573`) and prediction (`gp_posterior.py`).

Simplifications: exact real arithmetic. A user kernel, mean or noise function is a mathematical function of its
documented arguments (the kernel matrix is the pointwise evaluation of a two-point function `k`); `args`, passed to
callables with an extra parameter, is fixed and therefore part of that function. Under gp2Scale the prior covariance
comes from the distributed assembler, which by C01-C04 equals the direct evaluation; only the storage (`sparseK`)
differs here.
-/

namespace Verif.GP

open Finset Verif.LinAlg

variable {α H : Type}

/-- The current data set of `GPdata`, gp_data.py:37-39: inputs, values (a list of rows of length `cols`), measured
noise variances. -/
structure Data (α : Type) where
  x : List α
  y : List (List ℝ)
  cols : ℕ
  noiseVar : Option (List ℝ)

/-- Entry of `y_data`. -/
def Data.yMat (d : Data α) : NMat := fun i j => (d.y.getD i []).getD j 0

/-- `np.mean(y_data)`, over all entries. -/
noncomputable def Data.yMean (d : Data α) : ℝ :=
  (d.y.map List.sum).sum / (d.x.length * d.cols)

/-- `np.mean(abs(y_data))`. -/
noncomputable def Data.yAbsMean (d : Data α) : ℝ :=
  (d.y.map fun r => (r.map fun v => |v|).sum).sum / (d.x.length * d.cols)

/-- Which noise description the likelihood uses, gp_likelihood.py:27-38. -/
inductive NoiseSpec (α H : Type) where
  | user (f : H → List α → Noise)
  | measured
  | default

/-- The choices made at construction. `mean = none` is the default mean, gp_prior.py:78-86. -/
structure Config (α H : Type) where
  kernel : H → α → α → ℝ
  mean : Option (H → α → ℝ)
  noise : NoiseSpec α H
  mode : Mode
  sparseK : Bool
  ext : Ext

/-- `kernel(x1, x2, hps)` as an array, gp_prior.py:217-224. -/
def gram (k : α → α → ℝ) (xs ys : List α) : NMat := fun i j =>
  match xs[i]?, ys[j]? with
  | some a, some b => k a b
  | _, _ => 0

/-- Evaluation of a mean function on a list of points. -/
def evalAt (f : α → ℝ) (xs : List α) : ℕ → ℝ := fun i =>
  match xs[i]? with
  | some a => f a
  | none => 0

/-- `GPprior.compute_mean(x, hps)`, gp_prior.py:226-234, with the default of 449-458. -/
noncomputable def meanFn (c : Config α H) (d : Data α) (h : H) (a : α) : ℝ :=
  match c.mean with
  | some f => f h a
  | none => d.yMean

/-- `GPlikelihood.calculate_V(x, hps)`, gp_likelihood.py:89-94 with the default (102-104) and measured (106-110)
noise functions. -/
noncomputable def calcV (c : Config α H) (d : Data α) (h : H) (xs : List α) : Noise :=
  match c.noise with
  | .user f => f h xs
  | .measured =>
      let nv := d.noiseVar.getD []
      if xs.length = nv.length then .diag nv.length fun i => nv.getD i 0
      else .diag xs.length fun _ => nv.sum / nv.length
  | .default => .diag xs.length fun _ => (d.yAbsMean / 100) ^ 2

/-- A `GP` object: the stored prior mean and covariance, noise and linear algebra state. -/
structure GP (α H : Type) where
  cfg : Config α H
  data : Data α
  hps : H
  m : ℕ → ℝ
  K : NMat
  V : Noise
  kv : KVState

/-- `GP.__init__` after the data has been accepted, gp.py:480-566: prior (gp_prior.py:99, 248-254), noise
(gp_likelihood.py:52), factorisation (gp_kv.py:147). -/
noncomputable def init (c : Config α H) (d : Data α) (h : H) : Except String (GP α H) := do
  let m := evalAt (meanFn c d h) d.x
  let K := gram (c.kernel h) d.x d.x
  let V := calcV c d h d.x
  let kv ← refreshFull c.ext c.mode c.sparseK d.x.length K V d.yMat m
  .ok ⟨c, d, h, m, K, V, kv⟩

/-! ## Prediction -/

/-- `posterior_mean(x_pred)`, gp_posterior.py:139-182, without hyperparameters argument and before the multi-task
reshape: entry `(i, j)` is prediction point `i`, output column `j`. -/
noncomputable def posteriorMean (gp : GP α H) (xs : List α) : NMat := fun i j =>
  evalAt (meanFn gp.cfg gp.data gp.hps) xs i
    + ∑ l ∈ range gp.data.x.length, gram (gp.cfg.kernel gp.hps) gp.data.x xs l i * gp.kv.kvinvY l j

/-- `np.diag(V)` of one-dimensional noise before it is added, gp_posterior.py:145. -/
def diagNoise : Noise → Noise
  | .diag len v => .dense len len fun i j => if i = j then v i else 0
  | V => V

/-- `posterior_mean(x_pred, hyperparameters=h)`, gp_posterior.py:140-146: everything is recomputed for `h`. -/
noncomputable def posteriorMeanAt (gp : GP α H) (h : H) (xs : List α) : Except String NMat := do
  let K := gram (gp.cfg.kernel h) gp.data.x gp.data.x
  let V := diagNoise (calcV gp.cfg gp.data h gp.data.x)
  let m := evalAt (meanFn gp.cfg gp.data h) gp.data.x
  let KV ← addKV gp.cfg.sparseK gp.data.x.length gp.data.x.length K V
  let kvinvY ← computeNewKVinvY gp.cfg.ext gp.cfg.mode gp.data.x.length KV gp.data.yMat m
  .ok fun i j => evalAt (meanFn gp.cfg gp.data h) xs i
    + ∑ l ∈ range gp.data.x.length, gram (gp.cfg.kernel h) gp.data.x xs l i * kvinvY l j

/-- Python's `range(0, p, step)`. -/
def pyRange (p step : ℕ) : List ℕ := (List.range ((p + step - 1) / step)).map (· * step)

/-- `_cross_solve_product(k, chunk_size)`, gp_posterior.py:120-136: `k` is `n x p`; `junk` is the content of
`np.empty`. -/
noncomputable def crossSolveProduct (f : Factor) (n p : ℕ) (k : NMat) (chunk : ℕ) (junk : NMat) : NMat :=
  let cs := max 1 (min chunk p)
  (pyRange p cs).foldl (fun product start => fun i j =>
    if start ≤ j ∧ j < min (start + cs) p then
      ∑ l ∈ range n, k l i * solve f (fun l => k l j) l
    else product i j) junk

/-- `add_noise(x_pred, v, S)`, gp_posterior.py:554-569. A sparse noise matrix fails the assertion; other failures
(here: a wrong size) are swallowed and leave `v`, `S` unchanged. (numpy's broadcasting of a noise vector of length one
or onto a single prediction point is not modelled.) -/
noncomputable def addNoise (gp : GP α H) (xs : List α) (v : ℕ → ℝ) (S : Option NMat) :
    Except String ((ℕ → ℝ) × Option NMat) :=
  match calcV gp.cfg gp.data gp.hps xs with
  | .diag len w =>
      if len = xs.length then
        .ok (fun i => v i + w i, S.map fun S i j => S i j + if i = j then w i else 0)
      else .ok (v, S)
  | .dense r c W =>
      if r = xs.length ∧ c = xs.length then
        .ok (fun i => v i + W i i, S.map fun S i j => S i j + W i j)
      else .ok (v, S)
  | .sparse _ _ _ => .error "AssertionError: noise function must return np.ndarray"

open Classical in
/-- The part of `posterior_covariance(x_pred, variance_only)` before noise is added, gp_posterior.py:235-260: `k`, `kk`,
the explicit-inverse shortcut or the chunked product, and the clipping. `chunk` is the chunk size, `junk` the content of
`np.empty`. -/
noncomputable def clippedCovariance (gp : GP α H) (xs : List α) (varianceOnly : Bool) (chunk : ℕ) (junk : NMat) :
    (ℕ → ℝ) × Option NMat :=
  let n := gp.data.x.length
  let p := xs.length
  let k := gram (gp.cfg.kernel gp.hps) gp.data.x xs
  let kk := gram (gp.cfg.kernel gp.hps) xs xs
  let vS : (ℕ → ℝ) × Option NMat :=
    match gp.kv.factor.kvinv, varianceOnly && gp.data.cols == 1 with
    | some I, true => (fun i => kk i i - ∑ j ∈ range n, ∑ l ∈ range n, k j i * I j l * k l i, none)
    | _, _ =>
        let prod := crossSolveProduct gp.kv.factor n p k chunk junk
        (fun i => kk i i - prod i i, some fun i j => kk i j - prod i j)
  let neg : Prop := ∃ i < p, vS.1 i < 0
  let v := if neg then fun i => if vS.1 i < 0 then 0 else vS.1 i else vS.1
  let S := if neg ∧ varianceOnly = false then vS.2.map fun S i j => if i = j then v i else S i j else vS.2
  (v, S)

/-- `posterior_covariance(x_pred, variance_only, add_noise)`, gp_posterior.py:229-262, before the multi-task reshape
and before the tiling over output columns: returns the flat variances and the flat covariance. -/
noncomputable def posteriorCovariance (gp : GP α H) (xs : List α) (varianceOnly addNoiseFlag : Bool) (chunk : ℕ)
    (junk : NMat) : Except String ((ℕ → ℝ) × Option NMat) :=
  let vS := clippedCovariance gp xs varianceOnly chunk junk
  if addNoiseFlag then addNoise gp xs vS.1 vS.2 else .ok vS

end Verif.GP
