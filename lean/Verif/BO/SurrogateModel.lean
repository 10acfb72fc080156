import Verif.BO.Model
import Verif.Kernels.Model
import Verif.GP.Model

/-!
Model of the surrogate and the acquisition of gp_bo.py:115-523.

Simplifications: exact reals. The surrogate is the `GP` of `Verif.GP.Model` with `linalg_mode="CholInv"`, one output
column. `np.linalg.lstsq`, the inner `GP.train` and scipy's `minimize` are external: their answers are arguments. The
normal distribution functions are arguments `pdf`, `cdf`. Non-finite numbers do not occur.
-/

namespace Verif.BO

open Finset Verif.Kernels Verif.GP

/-- The surrogate's hyperparameters: `hps[0]`, `hps[1:1+dim]`, `hps[dim+1]` (absent when the noise is known; then unused),
gp_bo.py:334, 371. -/
structure SHps (D : ℕ) where
  signal : ℝ
  len : Fin D → ℝ
  noise : ℝ

/-- `_surrogate_kernel`, gp_bo.py:115-126: one entry. -/
noncomputable def surrogateKernel {D : ℕ} (h : SHps D) (x y : Pos D) : ℝ := h.signal * matern2 (anisoDistance x y h.len) 1

/-- `_surrogate_kernel_dx(x_query, x_data, hps)`, gp_bo.py:159-164: entry `i` for one data point `x`. -/
noncomputable def surrogateKernelDx {D : ℕ} (h : SHps D) (u x : Pos D) (i : Fin D) : ℝ :=
  let delta : Fin D → ℝ := fun j => (u j - x j) / h.len j
  let r := √(∑ j, delta j ^ 2)
  let radial := -(5 / 3) * h.signal * (1 + √5 * r) * Real.exp (-√5 * r)
  radial * delta i / h.len i

/-- `r` of `_surrogate_kernel_grad`, gp_bo.py:191-193. -/
noncomputable def gradR {D : ℕ} (h : SHps D) (x y : Pos D) : ℝ := √(∑ j, ((x j - y j) / h.len j) ^ 2)

/-- Slice 0 of `_surrogate_kernel_grad`, gp_bo.py:197. -/
noncomputable def surrogateGradSignal {D : ℕ} (h : SHps D) (x y : Pos D) : ℝ :=
  (1 + √5 * gradR h x y + 5 / 3 * gradR h x y ^ 2) * Real.exp (-√5 * gradR h x y)

/-- Slice `1 + i` of `_surrogate_kernel_grad`, gp_bo.py:198-200. -/
noncomputable def surrogateGradLength {D : ℕ} (h : SHps D) (x y : Pos D) (i : Fin D) : ℝ :=
  5 / 3 * h.signal * (1 + √5 * gradR h x y) * Real.exp (-√5 * gradR h x y) * (x i - y i) ^ 2 / h.len i ^ 3

/-- The trailing slice of `_surrogate_kernel_grad`, which stays zero, gp_bo.py:196. -/
def surrogateGradNoise {D : ℕ} (_h : SHps D) (_x _y : Pos D) : ℝ := 0

/-- One entry of `_homoscedastic_noise(dim)`, gp_bo.py:299-303. -/
noncomputable def homoNoise {D : ℕ} (h : SHps D) : ℝ := max h.noise (1 / 10 ^ 12)

/-- One entry of row `dim + 1` of `_homoscedastic_noise_grad(dim)`, gp_bo.py:204-210. -/
def homoNoiseGrad {D : ℕ} (_h : SHps D) : ℝ := 1

/-- The coefficients of the quadratic mean: `coef[0]`, `coef[1:1+dim]`, `coef[1+dim:1+2*dim]`, gp_bo.py:283-295. -/
structure Quad (D : ℕ) where
  c0 : ℝ
  c1 : Fin D → ℝ
  c2 : Fin D → ℝ

/-- `mean_f` of `_polynomial_mean`, gp_bo.py:291-293: one entry. -/
def Quad.eval {D : ℕ} (c : Quad D) (u : Pos D) : ℝ := c.c0 + ∑ i, u i * c.c1 i + ∑ i, u i ^ 2 * c.c2 i

/-- `_polynomial_mean_dx(coefficients, u, dim)`, gp_bo.py:213-219. -/
def quadDx {D : ℕ} (c : Option (Quad D)) (u : Pos D) (i : Fin D) : ℝ :=
  match c with
  | none => 0
  | some c => c.c1 i + 2 * c.c2 i * u i

/-- `_polynomial_mean`, gp_bo.py:280-296: `n` points; `fit` is the answer of `np.linalg.lstsq` (`none`: it raised). -/
def polynomialMean {D : ℕ} (n : ℕ) (fit : Option (Quad D)) : Option (Quad D) :=
  if n < 2 * (1 + 2 * D) then none else fit

/-! ## The fit -/

/-- `np.mean` of a list. -/
noncomputable def lmean (l : List ℝ) : ℝ := l.sum / l.length

/-- `np.var` of a list. -/
noncomputable def lvar (l : List ℝ) : ℝ := lmean (l.map fun v => (v - lmean l) ^ 2)

/-- `scale`, gp_bo.py:326-332. -/
noncomputable def fitScale {D : ℕ} (u : List (Pos D)) (y : List ℝ) (mf : Option (Quad D)) : ℝ :=
  let residual := match mf with
    | some c => List.zipWith (fun v p => v - c.eval p) y u
    | none => y.map fun v => v - lmean y
  let scale := lvar residual
  if scale ≤ 0 then (if lvar y = 0 then 1 else lvar y) else scale

/-- `nugget`, gp_bo.py:356. -/
noncomputable def nugget (scale : ℝ) : ℝ := max (1 / 10 ^ 7 * scale) (1 / 10 ^ 12)

/-- `init`, gp_bo.py:334, 371. -/
noncomputable def fitInit (D : ℕ) (scale : ℝ) : SHps D :=
  ⟨scale, fun _ => 3 / 10, max (1 / 10 ^ 4 * scale) (nugget scale)⟩

/-- Row 0 of `bounds`, gp_bo.py:339. -/
noncomputable def boundSignal (scale : ℝ) : ℝ × ℝ := (1 / 10 ^ 4 * scale + 1 / 10 ^ 12, 10 ^ 2 * scale + 1 / 10 ^ 9)

/-- Rows `1..dim` of `bounds`, gp_bo.py:340. -/
noncomputable def boundLen : ℝ × ℝ := (1 / 10 ^ 2, 2)

/-- The last row of `bounds`, gp_bo.py:372. -/
noncomputable def boundNoise (scale : ℝ) : ℝ × ℝ := (nugget scale, max scale (10 * nugget scale))

/-- `kwargs` and the constructor call, gp_bo.py:360-389: known variances are floored at the nugget, otherwise the
homoscedastic noise is learned. -/
noncomputable def surrogateConfig {D : ℕ} (mf : Option (Quad D)) (known : Bool) (ext : Ext) : Config (Pos D) (SHps D) where
  kernel := surrogateKernel
  mean := mf.map fun c _ u => c.eval u
  noise := if known then .measured else .user fun h xs => .diag xs.length fun _ => homoNoise h
  mode := .cholInv
  sparseK := false
  ext := ext

/-- The data given to the constructor, gp_bo.py:367, 389. -/
noncomputable def surrogateData {D : ℕ} (u : List (Pos D)) (y : List ℝ) (v : Option (List ℝ)) (scale : ℝ) : Data (Pos D) :=
  ⟨u, y.map fun a => [a], 1, v.map fun l => l.map fun e => max e (nugget scale)⟩

/-- The surrogate of `_fit_surrogate`, gp_bo.py:306-394, after the inner training has ended at `h` (gp_bo.py:391; the
training replaces the hyperparameters and refreshes the state, C40). -/
noncomputable def fitSurrogate {D : ℕ} (ext : Ext) (u : List (Pos D)) (y : List ℝ) (v : Option (List ℝ))
    (fit : Option (Quad D)) (h : SHps D) : Except String (GP (Pos D) (SHps D)) :=
  let mf := polynomialMean u.length fit
  init (surrogateConfig mf v.isSome ext) (surrogateData u y v (fitScale u y mf)) h

/-! ## Prediction and acquisition -/

/-- What `_posterior_mean_var_and_grad` returns. -/
structure Predict (D : ℕ) where
  mean : ℝ
  var : ℝ
  dMean : Fin D → ℝ
  dVar : Fin D → ℝ

/-- `floor`, gp_bo.py:257. -/
noncomputable def varFloor (signal : ℝ) : ℝ := 1 / 10 ^ 10 * max signal tiny

/-- `_posterior_mean_var_and_grad(u, gp, dim)`, gp_bo.py:222-262; `mf` is `gp._bo_mean_function`. -/
noncomputable def predictAt {D : ℕ} (gp : GP (Pos D) (SHps D)) (mf : Option (Quad D)) (u : Pos D) : Predict D :=
  let n := gp.data.x.length
  let k : ℕ → ℝ := fun j => gram (surrogateKernel gp.hps) gp.data.x [u] j 0
  let dk : Fin D → ℕ → ℝ := fun i j => (gp.data.x[j]?.map fun x => surrogateKernelDx gp.hps u x i).getD 0
  let alpha := solve gp.kv.factor k
  let prior := mf.elim 0 fun c => c.eval u
  let mean := prior + ∑ j ∈ range n, k j * gp.kv.kvinvY j 0
  let dMean : Fin D → ℝ := fun i => quadDx mf u i + ∑ j ∈ range n, dk i j * gp.kv.kvinvY j 0
  let var := gp.hps.signal - ∑ j ∈ range n, k j * alpha j
  let dVar : Fin D → ℝ := fun i => -2 * ∑ j ∈ range n, dk i j * alpha j
  if var ≤ varFloor gp.hps.signal then ⟨mean, varFloor gp.hps.signal, dMean, fun _ => 0⟩ else ⟨mean, var, dMean, dVar⟩

/-- `norm.cdf`, `norm.pdf` and the terms `imp * cdf + std * pdf`, gp_bo.py:453-455, 480-483, for one sampled incumbent. -/
noncomputable def eiTerm (pdf cdf : ℝ → ℝ) (m std ystar : ℝ) : ℝ :=
  (m - ystar) * cdf ((m - ystar) / std) + std * pdf ((m - ystar) / std)

/-- `_noisy_expected_improvement`, gp_bo.py:441-456, from the mean and the variance at one point. -/
noncomputable def neiVector (pdf cdf : ℝ → ℝ) (ys : List ℝ) (m var : ℝ) : ℝ :=
  let std := √(max var (1 / 10 ^ 12))
  max (lmean (ys.map fun y => eiTerm pdf cdf m std y)) 0

/-- `_nei_value_and_grad`, gp_bo.py:459-488, from the prediction at one point. -/
noncomputable def neiGrad {D : ℕ} (pdf cdf : ℝ → ℝ) (ys : List ℝ) (p : Predict D) : ℝ × (Fin D → ℝ) :=
  let std := √p.var
  let dStd : Fin D → ℝ := fun i => p.dVar i / (2 * std)
  let value := lmean (ys.map fun y => eiTerm pdf cdf p.mean std y)
  let grad : Fin D → ℝ := fun i => lmean (ys.map fun y => cdf ((p.mean - y) / std)) * p.dMean i
    + lmean (ys.map fun y => pdf ((p.mean - y) / std)) * dStd i
  if value ≤ 0 then (0, fun _ => 0) else (value, grad)

/-- What scipy's `minimize` returns for one start: `res.success`, `res.fun`, `res.x`. -/
structure Local (D : ℕ) where
  success : Bool
  fn : ℝ
  x : Pos D

/-- `_maximize_acquisition`, gp_bo.py:505-523: `cand` are the raw points with their acquisition values in the order
`np.argsort(-vals)` (largest value first), `runLocal` is `minimize` started at a point. `starts[0]` raises `IndexError` when
there is no start. -/
noncomputable def maximizeAcquisition {D : ℕ} (cand : List (Pos D × ℝ)) (nRestarts : ℕ) (runLocal : Pos D → Local D) :
    Except String (Pos D × ℝ) :=
  match cand.take nRestarts with
  | [] => .error "IndexError"
  | s :: starts => .ok ((s :: starts).foldl (fun best c =>
      let res := runLocal c.1
      if res.success = true ∧ -res.fn > best.2 then (fun i => clip01 (res.x i), -res.fn) else best) (s.1, s.2))

/-- `hess` of `_laplace_posterior`, gp_bo.py:417-424; `f` is `neg_mean`, `step` is `h`. -/
noncomputable def laplaceHess {D : ℕ} (f : Pos D → ℝ) (u : Pos D) (step : ℝ) (i j : Fin D) : ℝ :=
  let e : Fin D → Pos D := fun i => Pi.single i step
  let a := min i j
  let b := max i j
  (f (u + e a + e b) - f (u + e a - e b) - f (u - e a + e b) + f (u - e a - e b)) / (4 * step * step)

/-- `hess_w`, gp_bo.py:426-428. -/
noncomputable def laplaceHessW {D : ℕ} (f : Pos D → ℝ) (u : Pos D) (step : ℝ) (span : Fin D → ℝ) : Matrix (Fin D) (Fin D) ℝ :=
  let w : Matrix (Fin D) (Fin D) ℝ :=
    Matrix.diagonal (fun i => 1 / span i) * Matrix.of (laplaceHess f u step) * Matrix.diagonal fun i => 1 / span i
  (1 / 2 : ℝ) • (w + w.transpose)

open Classical in
/-- `_laplace_posterior`, gp_bo.py:397-435, with `h = 1e-3`: all eigenvalues of a symmetric matrix are positive exactly when it
is positive definite. -/
noncomputable def laplacePosterior {D : ℕ} (f : Pos D → ℝ) (u : Pos D) (span : Fin D → ℝ) :
    Option (Matrix (Fin D) (Fin D) ℝ) × Matrix (Fin D) (Fin D) ℝ :=
  let H := laplaceHessW f u (1 / 1000) span
  if H.PosDef then (some H⁻¹, H) else (none, H)

end Verif.BO
