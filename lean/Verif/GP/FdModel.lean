import Verif.GP.GradModel

/-!
Model of the derivatives with respect to the hyperparameters that are used when the user supplies none: the choice made at construction
(gp_prior.py:65-93, gp_likelihood.py:40-51), the finite differences (gp_prior.py:411-447, 460-475, gp_likelihood.py:112-144), the calls
with and without `direction` (gp_prior.py:236-243, gp_likelihood.py:96-99) and `test_log_likelihood_gradient`
(gp_marginal_likelihood.py:338-364).

Simplifications: exact reals (arrays of floats; other storage types are the subject of `Verif.GP.DtypeModel`). A function called with
the wrong number of arguments raises; with no hyperparameters at all it would not be called in `ram_economy` mode, which is not
modelled.
-/

namespace Verif.GP

open Verif.LinAlg

variable {α : Type} {p : ℕ}

/-- A central difference in hyperparameter `i`: `(a - b) / (2 e)` with the hyperparameters moved by `±e`, as in gp_prior.py:438-447 and
460-470 and gp_likelihood.py:123-133. -/
noncomputable def centralDiff (e : ℝ) (f : (Fin p → ℝ) → ℝ) (h : Fin p → ℝ) (i : Fin p) : ℝ :=
  (f (Function.update h i (h i + e)) - f (Function.update h i (h i - e))) / (2 * e)

/-- The same with NaN (`none`) as a possible value of the function. -/
noncomputable def centralDiffNaN (e : ℝ) (f : (Fin p → ℝ) → Option ℝ) (h : Fin p → ℝ) (i : Fin p) : Option ℝ := do
  let a ← f (Function.update h i (h i + e))
  let b ← f (Function.update h i (h i - e))
  some ((a - b) / (2 * e))

/-- `_dkernel_dh(x1, x2, direction, hyperparameters)`, gp_prior.py:438-447, at one pair of points. -/
noncomputable def dKernelDh (kernel : (Fin p → ℝ) → α → α → ℝ) (h : Fin p → ℝ) (i : Fin p) (a b : α) : ℝ :=
  centralDiff 1e-8 (fun h => kernel h a b) h i

/-- `_finitediff_dm_dh(x, hps)`, gp_prior.py:460-470, row `i` at one point. -/
noncomputable def finiteDiffDm (mean : (Fin p → ℝ) → α → ℝ) (h : Fin p → ℝ) (i : Fin p) (a : α) : ℝ :=
  (mean (Function.update h i (h i + 1e-6)) a - mean (Function.update h i (h i - 1e-6)) a) / 2e-6

/-- `(a - b) / 2e-6` for two noise arrays, gp_likelihood.py:132 and 143. Two diagonals or two dense matrices of the same size give an array
of that kind. Everything else ends in the exception of gp_marginal_likelihood.py:268-272 or 295-299 (a sparse difference cannot be stored in `gr`
and has `np.ndim` 0), which `dKV` raises for a sparse array. (numpy would broadcast some arrays of different size; not modelled.) -/
noncomputable def noiseDiff (a b : Noise) : Noise :=
  match a, b with
  | .diag m u, .diag n v => if m = n then .diag m fun k => (u k - v k) / 2e-6 else .sparse 0 0 fun _ _ => 0
  | .dense r c U, .dense r' c' V =>
    if r = r' ∧ c = c' then .dense r c fun k l => (U k l - V k l) / 2e-6 else .sparse 0 0 fun _ _ => 0
  | _, _ => .sparse 0 0 fun _ _ => 0

/-- `_finitediff_dnoise_dh`, gp_likelihood.py:123-133 (entry `i`), and `_finitediff_dnoise_dh_econ`, gp_likelihood.py:136-144. -/
noncomputable def finiteDiffDnoise (f : (Fin p → ℝ) → List α → Noise) (h : Fin p → ℝ) (i : Fin p) (xs : List α) : Noise :=
  noiseDiff (f (Function.update h i (h i + 1e-6)) xs) (f (Function.update h i (h i - 1e-6)) xs)

/-- A derivative function: `all` takes the hyperparameters and returns an array with one entry per hyperparameter, `one` takes a
`direction` as well and returns one entry. -/
inductive GradFn (p : ℕ) (β : Type) where
  | all (f : (Fin p → ℝ) → Fin p → β)
  | one (f : (Fin p → ℝ) → Fin p → β)

/-- The call with (`ram_economy`) or without `direction`, gp_prior.py:236-240 and gp_likelihood.py:96-99. -/
def GradFn.call {β : Type} (economy : Bool) (g : GradFn p β) : Except String ((Fin p → ℝ) → Fin p → β) :=
  match economy, g with
  | true, .one f => .ok f
  | false, .all f => .ok f
  | _, _ => .error "The gradient evaluation dK/dh + dNoise/dh was not successful."

/-- The constructor arguments that decide about derivatives. `kernelGiven`: a kernel function was passed; `analytic` is the derivative of
the default kernel (gp_prior.py:421-436). -/
structure Supplied (α : Type) (p : ℕ) where
  kernelGiven : Bool
  analytic : (Fin p → ℝ) → Fin p → α → α → ℝ
  kernelGrad : Option (GradFn p (α → α → ℝ))
  noiseGrad : Option (GradFn p (List α → Noise))
  meanGrad : Option ((Fin p → ℝ) → Fin p → α → ℝ)
  ramEconomy : Bool

/-- `data.ram_economy` after the prior is built, gp_prior.py:66-71. -/
def Supplied.economy (s : Supplied α p) : Bool :=
  if s.kernelGrad.isNone && !s.kernelGiven then false else s.ramEconomy

/-- `_dk_dh`, gp_prior.py:66-76. -/
noncomputable def Supplied.dk (c : Config α (Fin p → ℝ)) (s : Supplied α p) : GradFn p (α → α → ℝ) :=
  match s.kernelGrad with
  | some g => g
  | none =>
    if s.kernelGiven = false then .all s.analytic
    else if s.ramEconomy then .one (dKernelDh c.kernel) else .all (dKernelDh c.kernel)

/-- `noise_function_grad`, gp_likelihood.py:40-51; the defaults are zeros, gp_likelihood.py:112-120. -/
noncomputable def Supplied.dV (c : Config α (Fin p → ℝ)) (s : Supplied α p) : GradFn p (List α → Noise) :=
  match s.noiseGrad with
  | some g => g
  | none =>
    match c.noise with
    | .user f => if s.economy then .one (finiteDiffDnoise f) else .all (finiteDiffDnoise f)
    | _ => if s.economy then .one fun _ _ xs => .diag xs.length fun _ => 0 else .all fun _ _ xs => .diag xs.length fun _ => 0

/-- `_dm_dh`, gp_prior.py:88-93; the default is zeros, gp_prior.py:472-475. -/
noncomputable def Supplied.dm (c : Config α (Fin p → ℝ)) (s : Supplied α p) : (Fin p → ℝ) → Fin p → α → ℝ :=
  match s.meanGrad with
  | some g => g
  | none =>
    match c.mean with
    | some f => finiteDiffDm f
    | none => fun _ _ _ => 0

/-- The derivatives `neg_log_likelihood_gradient` works with. -/
noncomputable def Supplied.grads (c : Config α (Fin p → ℝ)) (s : Supplied α p) : Except String (Grads α p) := do
  let dk ← (s.dk c).call s.economy
  let dV ← (s.dV c).call s.economy
  .ok ⟨dk, dV, s.dm c⟩

/-- `neg_log_likelihood_gradient(hyperparameters, component)` of a GP with these constructor arguments, gp_marginal_likelihood.py:224-309. -/
noncomputable def gradientOf (gp : GP α (Fin p → ℝ)) (s : Supplied α p)
    (lstsq : {n m : Type} → Matrix n n ℝ → Matrix n m ℝ → Matrix n m ℝ) (h : Option (Fin p → ℝ)) (component : ℕ) :
    Except String (Fin p → ℝ) := do
  let g ← s.grads gp.cfg
  gradient gp g lstsq h component

/-- `test_log_likelihood_gradient(hyperparameters, epsilon)`, gp_marginal_likelihood.py:338-364: forward differences of the likelihood `L` and the
negative of the gradient `G` of the negative likelihood. -/
noncomputable def testGradient (L : (Fin p → ℝ) → Except String ℝ) (G : (Fin p → ℝ) → Except String (Fin p → ℝ)) (h : Fin p → ℝ) (e : ℝ) :
    Except String ((Fin p → ℝ) × (Fin p → ℝ)) := do
  let fd ← collect fun i => do
    let a ← L (Function.update h i (h i + e))
    let b ← L h
    .ok ((a - b) / e)
  let g ← G h
  .ok (fd, fun i => -g i)

end Verif.GP
