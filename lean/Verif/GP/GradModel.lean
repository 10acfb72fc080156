import Verif.GP.LikModel
import Verif.GP.InfoModel

/-! Model of the gradient and Hessian of the likelihood, `/repo/fvgp/gp_marginal_likelihood.py:224-336`. The
hyperparameters are vectors of length `p`. -/

namespace Verif.GP

open Finset Verif.LinAlg Matrix

variable {α : Type} {p : ℕ}

/-- The derivatives the gradient is assembled from: `dk_dh` (gp_prior.py:236-240), `calculate_V_grad`
(gp_likelihood.py:96-99), `dm_dh` (gp_prior.py:242-243). The noise derivative is a vector (the diagonal) or a full
matrix per hyperparameter. -/
structure Grads (α : Type) (p : ℕ) where
  dk : (Fin p → ℝ) → Fin p → α → α → ℝ
  dV : (Fin p → ℝ) → Fin p → List α → Noise
  dm : (Fin p → ℝ) → Fin p → α → ℝ

/-- `dK_dH[i]`, gp_marginal_likelihood.py:260-267 and 286-294: kernel derivative plus noise derivative (a vector goes
onto the diagonal). A noise derivative of the wrong size raises. (numpy would broadcast some of those; not modelled.) -/
noncomputable def dKV (g : Grads α p) (h : Fin p → ℝ) (xs : List α) (i : Fin p) :
    Except String (Matrix (Fin xs.length) (Fin xs.length) ℝ) :=
  let dK := toMat xs.length (gram (g.dk h i) xs xs)
  match g.dV h i xs with
  | .diag len v =>
      if len = xs.length then .ok (dK + Matrix.diagonal fun a : Fin xs.length => v a)
      else .error "The gradient evaluation dK/dh + dNoise/dh was not successful."
  | .dense r c V =>
      if r = xs.length ∧ c = xs.length then .ok (dK + toMat xs.length V)
      else .error "The gradient evaluation dK/dh + dNoise/dh was not successful."
  | .sparse _ _ _ => .error "The gradient evaluation dK/dh + dNoise/dh was not successful."

open Classical in
/-- One component of the returned gradient, gp_marginal_likelihood.py:280-309. With and without `ram_economy` the same
`solve(KV, dK_dH[i])` is computed (all at once or one after the other). The kernel part is only kept when the mean part
is exactly zero. -/
noncomputable def gradComponent {n : ℕ} (lstsq : {n m : Type} → Matrix n n ℝ → Matrix n m ℝ → Matrix n m ℝ)
    (KV dK : Matrix (Fin n) (Fin n) ℝ) (b dm : Fin n → ℝ) : ℝ :=
  let dLm := -(dm ⬝ᵥ b)
  let matr := npSolve lstsq KV dK
  let dL := if dLm = 0 then
      -(1 / 2) * ((∑ i, ∑ j, (b i * b j) * dK j i) - matr.trace)
    else 0
  dL + dLm

/-- `for i in range(len(hyperparameters))`, collecting the components; a failing derivative raises. -/
noncomputable def collect {p : ℕ} (f : Fin p → Except String ℝ) : Except String (Fin p → ℝ) :=
  open Classical in
  if h : ∀ i, ∃ v, f i = .ok v then .ok fun i => (h i).choose
  else .error "The gradient evaluation dK/dh + dNoise/dh was not successful."

/-- `neg_log_likelihood_gradient(hyperparameters, component)`, gp_marginal_likelihood.py:224-309; `h = none` uses the
stored state. -/
noncomputable def gradient (gp : GP α (Fin p → ℝ)) (g : Grads α p)
    (lstsq : {n m : Type} → Matrix n n ℝ → Matrix n m ℝ → Matrix n m ℝ) (h : Option (Fin p → ℝ)) (component : ℕ) :
    Except String (Fin p → ℝ) :=
  let n := gp.data.x.length
  if gp.cfg.sparseK then .error "Can't compute neg_log_likelihood_gradient for gp2Scale" else do
  let (KV, kvinvY, hps) ← match h with
    | none => do
        let KV ← addKV false n n gp.K gp.V
        .ok (KV, gp.kv.kvinvY, gp.hps)
    | some h => do
        let K := gram (gp.cfg.kernel h) gp.data.x gp.data.x
        let V := calcV gp.cfg gp.data h gp.data.x
        let m := evalAt (meanFn gp.cfg gp.data h) gp.data.x
        let KV ← addKV false n n K V
        let kvinvY ← computeNewKVinvY gp.cfg.ext gp.cfg.mode n KV gp.data.yMat m
        .ok (KV, kvinvY, h)
  collect fun i => do
    let dK ← dKV g hps gp.data.x i
    .ok (gradComponent lstsq (toMat n KV) dK (fun a => kvinvY a component) fun a => g.dm hps i gp.data.x[a])

/-- `neg_log_likelihood_hessian(hyperparameters)`, gp_marginal_likelihood.py:312-336, for a gradient function `G`. The
step is `epsilon = 1e-6`; row `i` is filled from the diagonal on. `len(None)` raises. -/
noncomputable def hessian (G : (Fin p → ℝ) → Except String (Fin p → ℝ)) (h : Option (Fin p → ℝ)) :
    Except String (Matrix (Fin p) (Fin p) ℝ) :=
  match h with
  | none => .error "TypeError: object of type 'NoneType' has no len()"
  | some h => do
      let epsilon : ℝ := 1e-6
      let gradAt ← G h
      let d2 ← (List.finRange p).foldlM (fun (d2 : Matrix (Fin p) (Fin p) ℝ) i => do
          let gi ← G (Function.update h i (h i + epsilon))
          .ok (Matrix.of fun a b => if a = i ∧ i ≤ b then (gi b - gradAt b) / epsilon else d2 a b)) 0
      .ok (d2 + d2ᵀ - Matrix.diagonal d2.diag)

end Verif.GP
