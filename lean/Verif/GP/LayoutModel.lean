import Verif.GP.Model

/-!
Model of the multi-task layout of predictions: `cartesian_product` and the `order='F'` reshapes of
`/repo/fvgp/gp_posterior.py`, and of the gradients of posterior mean and covariance.

`np.ndarray` is a shape and an indexing function. Points of the product space have an arbitrary type `γ`, built by
`pair` from an input point and a task (`np.append(x[i], y[j])`); a derivative direction moves a point by
`shift x direction eps`.
-/

namespace Verif.GP

open Finset Verif.LinAlg

variable {α β γ H : Type}

/-- An n-dimensional numpy array. -/
structure NDArr where
  shape : List ℕ
  get : List ℕ → ℝ

/-- Position of an index in Fortran order (first index fastest). -/
def flatF : List ℕ → List ℕ → ℕ
  | d :: ds, i :: is => i + d * flatF ds is
  | _, _ => 0

/-- The index at a position in Fortran order. -/
def unflatF : List ℕ → ℕ → List ℕ
  | [], _ => []
  | d :: ds, k => k % d :: unflatF ds (k / d)

/-- `A.reshape(shape, order='F')`: read and write the elements in Fortran order. -/
def NDArr.reshapeF (A : NDArr) (shape : List ℕ) : Except String NDArr :=
  if A.shape.prod = shape.prod then .ok ⟨shape, fun idx => A.get (unflatF A.shape (flatF shape idx))⟩
  else .error "ValueError: cannot reshape array"

/-- `A.transpose(*p)`: axis `k` of the result is axis `p[k]` of `A`. -/
def NDArr.transpose (A : NDArr) (p : List ℕ) : NDArr :=
  ⟨p.map fun a => A.shape.getD a 0, fun idx => A.get ((List.range A.shape.length).map fun a => idx.getD (p.idxOf a) 0)⟩

/-- `cartesian_product(x, y)`, gp_posterior.py:586-606: tasks outside, points inside. -/
def cartesian (pair : α → β → γ) (xs : List α) (outs : List β) : List γ :=
  outs.flatMap fun t => xs.map fun a => pair a t

/-- `posterior_mean(x_pred, x_out=...)`: `m(x)` after the reshape, gp_posterior.py:153-166. -/
noncomputable def posteriorMeanTasks (gp : GP γ H) (pair : α → β → γ) (xs : List α) (outs : List β) :
    Except String NDArr :=
  let flat := posteriorMean gp (cartesian pair xs outs)
  let A : NDArr := ⟨[(cartesian pair xs outs).length, gp.data.cols], fun idx => flat (idx.getD 0 0) (idx.getD 1 0)⟩
  A.reshapeF [xs.length, outs.length]

/-- `posterior_covariance(x_pred, x_out=...)`: `v(x)` and `S` after the reshape, gp_posterior.py:262-280, together
with the flat arrays. -/
noncomputable def posteriorCovarianceTasks (gp : GP γ H) (pair : α → β → γ) (xs : List α) (outs : List β)
    (varianceOnly noisy : Bool) (chunk : ℕ) (junk : NMat) :
    Except String (NDArr × Option NDArr × (ℕ → ℝ) × Option NMat) := do
  let xp := cartesian pair xs outs
  let vS ← posteriorCovariance gp xp varianceOnly noisy chunk junk
  let v ← (⟨[xp.length], fun idx => vS.1 (idx.getD 0 0)⟩ : NDArr).reshapeF [xs.length, outs.length]
  match vS.2 with
  | some S => do
      let R ← (⟨[xp.length, xp.length], fun idx => S (idx.getD 0 0) (idx.getD 1 0)⟩ : NDArr).reshapeF
        [xs.length, outs.length, xs.length, outs.length]
      .ok (v, some (R.transpose [0, 2, 1, 3]), vS)
  | none => .ok (v, none, vS)

/-! ## Gradients -/

/-- `mean_der + k_g @ KVinvY[:, component]` for row `i` and direction `d`, gp_posterior.py:202-209, 215-219: forward
differences of the mean (step 1e-6) and of the kernel (`_d_kernel_dx`, gp_prior.py:402-409, step 1e-8); `alpha` is the
selected column of `KVinvY`. -/
noncomputable def meanGradCore (c : Config γ H) (dat : Data γ) (h : H) (alpha : ℕ → ℝ) (shift : γ → ℕ → ℝ → γ)
    (xs : List γ) (d : ℕ) : ℕ → ℝ :=
  fun i =>
    let moved (eps : ℝ) : List γ := xs.map fun x => shift x d eps
    (evalAt (meanFn c dat h) (moved 1e-6) i - evalAt (meanFn c dat h) xs i) / 1e-6
      + ∑ l ∈ range dat.x.length,
          (gram (c.kernel h) (moved 1e-8) dat.x i l - gram (c.kernel h) xs dat.x i l) / 1e-8 * alpha l

/-- Row `i`, direction `d` of the flat gradient of the posterior mean for the stored hyperparameters,
gp_posterior.py:185, 193-221. -/
noncomputable def meanGradFlat (gp : GP γ H) (shift : γ → ℕ → ℝ → γ) (component : ℕ) (xs : List γ) (d : ℕ) : ℕ → ℝ :=
  meanGradCore gp.cfg gp.data gp.hps (fun l => gp.kv.kvinvY l component) shift xs d

/-- The same for `hyperparameters=h`, gp_posterior.py:187-193: `KVinvY` is recomputed for `h`. -/
noncomputable def meanGradFlatAt (gp : GP γ H) (h : H) (shift : γ → ℕ → ℝ → γ) (component : ℕ) (xs : List γ) (d : ℕ) :
    Except String (ℕ → ℝ) := do
  let K := gram (gp.cfg.kernel h) gp.data.x gp.data.x
  let V := diagNoise (calcV gp.cfg gp.data h gp.data.x)
  let m := evalAt (meanFn gp.cfg gp.data h) gp.data.x
  let KV ← addKV gp.cfg.sparseK gp.data.x.length gp.data.x.length K V
  let kvinvY ← computeNewKVinvY gp.cfg.ext gp.cfg.mode gp.data.x.length KV gp.data.yMat m
  .ok (meanGradCore gp.cfg gp.data h (fun l => kvinvY l component) shift xs d)

/-- `posterior_mean_grad(x_pred, x_out, direction=d)`: one direction, gp_posterior.py:205-212. -/
noncomputable def meanGradTasks (gp : GP γ H) (shift : γ → ℕ → ℝ → γ) (component : ℕ) (pair : α → β → γ)
    (xs : List α) (outs : List β) (d : ℕ) : Except String NDArr :=
  let xp := cartesian pair xs outs
  let A : NDArr := ⟨[xp.length], fun idx => meanGradFlat gp shift component xp d (idx.getD 0 0)⟩
  A.reshapeF [xs.length, outs.length]

/-- `posterior_mean_grad(x_pred, x_out)` in all `dim` directions, gp_posterior.py:213-222. -/
noncomputable def meanGradAllTasks (gp : GP γ H) (shift : γ → ℕ → ℝ → γ) (component : ℕ) (pair : α → β → γ)
    (xs : List α) (outs : List β) (dim : ℕ) : Except String NDArr :=
  let xp := cartesian pair xs outs
  let A : NDArr := ⟨[xp.length, dim], fun idx => meanGradFlat gp shift component xp (idx.getD 1 0) (idx.getD 0 0)⟩
  A.reshapeF [xs.length, dim, outs.length]

/-- Entry `(i, j)` of the flat covariance gradient, gp_posterior.py:297-307, 317-325:
`kk_g - 2 k_gᵀ (K+V)⁻¹ k` with forward differences. -/
noncomputable def covGradFlat (gp : GP γ H) (shift : γ → ℕ → ℝ → γ) (xs : List γ) (d : ℕ) : NMat :=
  fun i j =>
    let moved (eps : ℝ) : List γ := xs.map fun x => shift x d eps
    let k := gram (gp.cfg.kernel gp.hps) gp.data.x xs
    let kg : NMat := fun i l =>
      (gram (gp.cfg.kernel gp.hps) (moved 1e-8) gp.data.x i l - gram (gp.cfg.kernel gp.hps) xs gp.data.x i l) / 1e-8
    (gram (gp.cfg.kernel gp.hps) (moved 1e-6) (moved 1e-6) i j - gram (gp.cfg.kernel gp.hps) xs xs i j) / 1e-6
      - ∑ l ∈ range gp.data.x.length, 2 * kg i l * solve gp.kv.factor (fun a => k a j) l

/-- `posterior_covariance_grad(x_pred, x_out, direction=d)`: `dv/dx` and `dS/dx`, gp_posterior.py:297-314. -/
noncomputable def covGradTasks (gp : GP γ H) (shift : γ → ℕ → ℝ → γ) (pair : α → β → γ) (xs : List α) (outs : List β)
    (d : ℕ) : Except String (NDArr × NDArr) := do
  let xp := cartesian pair xs outs
  let G := covGradFlat gp shift xp d
  let v ← (⟨[xp.length], fun idx => G (idx.getD 0 0) (idx.getD 0 0)⟩ : NDArr).reshapeF [xs.length, outs.length]
  let S ← (⟨[xp.length, xp.length], fun idx => G (idx.getD 0 0) (idx.getD 1 0)⟩ : NDArr).reshapeF
    [xs.length, xs.length, outs.length, outs.length]
  .ok (v, S)

/-- `posterior_covariance_grad(x_pred, x_out)` in all directions: `dv/dx`, gp_posterior.py:315-331. -/
noncomputable def covGradAllTasks (gp : GP γ H) (shift : γ → ℕ → ℝ → γ) (pair : α → β → γ) (xs : List α)
    (outs : List β) (dim : ℕ) : Except String NDArr :=
  let xp := cartesian pair xs outs
  let A : NDArr := ⟨[xp.length, dim], fun idx => covGradFlat gp shift xp (idx.getD 1 0) (idx.getD 0 0) (idx.getD 0 0)⟩
  A.reshapeF [xs.length, dim, outs.length]

end Verif.GP
