import Verif.GP.FdModel
import Verif.MCMC.Model
import Mathlib.Data.Int.Log

/-!
Hyperparameters in numpy arrays of different storage types. `init_hyperparameters` and `hyperparameters` arguments are never converted
(gp.py:442-455 asserts an `np.ndarray`; gp_training.py:160 and 176 pass it on), and the code below writes floating point numbers into copies of such
arrays: `np.array(hps)` in gp_prior.py:439-443 and 463-466 and gp_likelihood.py:126-129 and 137-140, gp_marginal_likelihood.py:333-334 and 358-359,
`x_old.copy()` in gp_mcmc.py:197-201. numpy converts the number to the type of the array without warning.

Simplifications: `float64` keeps a number as it is (exact reals), `float32` has no overflow and no subnormal numbers.
-/

namespace Verif.GP

open Verif.LinAlg

variable {α : Type} {p : ℕ}

/-- Storage types of an array. -/
inductive Dtype where
  | float64 | float32 | int64
deriving DecidableEq

/-- What is stored if the number `r` is written into an item of an array (numpy semantics): integers are truncated towards zero, `float32` rounds to 24
significant bits. -/
noncomputable def Dtype.store (t : Dtype) (r : ℝ) : ℝ :=
  match t with
  | .float64 => r
  | .float32 => if r = 0 then 0 else round (r * (2 : ℝ) ^ (23 - Int.log 2 |r|)) * (2 : ℝ) ^ (Int.log 2 |r| - 23)
  | .int64 => if 0 ≤ r then ⌊r⌋ else ⌈r⌉

/-- `temp = np.array(hps); temp[i] = temp[i] + e`. -/
noncomputable def moved (t : Dtype) (h : Fin p → ℝ) (i : Fin p) (e : ℝ) : Fin p → ℝ := Function.update h i (t.store (h i + e))

/-- `_dkernel_dh` for an array of type `t`, gp_prior.py:438-447. -/
noncomputable def dKernelDhT (t : Dtype) (kernel : (Fin p → ℝ) → α → α → ℝ) (h : Fin p → ℝ) (i : Fin p) (a b : α) : ℝ :=
  (kernel (moved t h i 1e-8) a b - kernel (moved t h i (-1e-8)) a b) / (2 * 1e-8)

/-- `_finitediff_dm_dh` for an array of type `t`, gp_prior.py:460-470. -/
noncomputable def finiteDiffDmT (t : Dtype) (mean : (Fin p → ℝ) → α → ℝ) (h : Fin p → ℝ) (i : Fin p) (a : α) : ℝ :=
  (mean (moved t h i 1e-6) a - mean (moved t h i (-1e-6)) a) / 2e-6

/-- `_finitediff_dnoise_dh` for an array of type `t`, gp_likelihood.py:123-144. -/
noncomputable def finiteDiffDnoiseT (t : Dtype) (f : (Fin p → ℝ) → List α → Noise) (h : Fin p → ℝ) (i : Fin p) (xs : List α) : Noise :=
  noiseDiff (f (moved t h i 1e-6) xs) (f (moved t h i (-1e-6)) xs)

/-- The derivatives of a GP with user kernel and no derivative functions, for hyperparameters in an array of type `t`, cf. `Supplied.grads`. -/
noncomputable def typedGrads (t : Dtype) (c : Config α (Fin p → ℝ)) : Grads α p where
  dk := dKernelDhT t c.kernel
  dV := match c.noise with
    | .user f => finiteDiffDnoiseT t f
    | _ => fun _ _ xs => .diag xs.length fun _ => 0
  dm := match c.mean with
    | some f => finiteDiffDmT t f
    | none => fun _ _ _ => 0

/-- `neg_log_likelihood_hessian` for an array of type `t`, gp_marginal_likelihood.py:327-336. -/
noncomputable def hessianT (t : Dtype) (G : (Fin p → ℝ) → Except String (Fin p → ℝ)) (h : Fin p → ℝ) : Except String (Matrix (Fin p) (Fin p) ℝ) := do
  let gradAt ← G h
  let d2 ← (List.finRange p).foldlM (fun (d2 : Matrix (Fin p) (Fin p) ℝ) i => do
      let gi ← G (moved t h i 1e-6)
      .ok (Matrix.of fun a b => if a = i ∧ i ≤ b then (gi b - gradAt b) / 1e-6 else d2 a b)) 0
  .ok (d2 + d2.transpose - Matrix.diagonal d2.diag)

/-- `test_log_likelihood_gradient` for an array of type `t`, gp_marginal_likelihood.py:354-364: the finite differences. -/
noncomputable def testGradientT (t : Dtype) (L : (Fin p → ℝ) → Except String ℝ) (h : Fin p → ℝ) (e : ℝ) : Except String (Fin p → ℝ) :=
  collect fun i => do
    let a ← L (moved t h i e)
    let b ← L h
    .ok ((a - b) / e)

/-- The proposals of a run that starts from an array of type `t`: gp_mcmc.py:197-201 writes them into a copy of the present position, which has
the type of the start (gp_mcmc.py:145). -/
noncomputable def storedDraws {d : ℕ} (t : Dtype) (w : Verif.MCMC.Draws d) : Verif.MCMC.Draws d where
  normal i j S x k := t.store (w.normal i j S x k)
  user i j o x k := t.store (w.user i j o x k)
  u := w.u
  clock := w.clock

end Verif.GP
