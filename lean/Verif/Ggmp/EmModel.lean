import Mathlib.Analysis.SpecialFunctions.Log.Basic
import Mathlib.Algebra.BigOperators.Fin

/-!
Model of the EM optimisation of the mixture weights, ggmp.py.

Simplifications: exact real arithmetic (`logsumexp` is `log ∑ exp`); a weight vector that NumPy fills with NaN because of
a division by a zero sum is `none`. The observations of all stations form one list of rows: a row holds the factor of the
observation (`p_obs * dx`, or 1 for a sample) and the log densities of the `K` components, which do not depend on the
weights. Logging is left out.
-/

namespace Verif.Ggmp

open Finset

/-- One grid point or sample: its factor and the log density of each component. -/
structure Row (K : ℕ) where
  c : ℝ
  l : Fin K → ℝ

variable {K : ℕ}

/-- `1e-300`. -/
noncomputable def tiny : ℝ := 1 / (10 : ℝ) ^ 300

/-- `log_w`, ggmp.py:2371, 1613. -/
noncomputable def logW (w : Fin K → ℝ) (k : Fin K) : ℝ := Real.log (max (w k) tiny)

/-- `log_den` of a row, ggmp.py:2376-2377, 1626-1627. -/
noncomputable def logDen (w : Fin K → ℝ) (r : Row K) : ℝ := Real.log (∑ k, Real.exp (r.l k + logW w k))

/-- `r = np.exp(log_num - log_den)`, ggmp.py:2378, 1628. -/
noncomputable def resp (w : Fin K → ℝ) (r : Row K) (k : Fin K) : ℝ := Real.exp (r.l k + logW w k - logDen w r)

/-- `counts`, ggmp.py:2372-2380, 1614-1629. -/
noncomputable def counts (rows : List (Row K)) (w : Fin K → ℝ) (k : Fin K) : ℝ := (rows.map fun r => r.c * resp w r k).sum

/-- `obj`, ggmp.py:2373-2381, 1615-1630. -/
noncomputable def objective (rows : List (Row K)) (w : Fin K → ℝ) : ℝ := (rows.map fun r => r.c * logDen w r).sum

/-- `v / sum(v)`; all entries NaN if the sum is zero. -/
noncomputable def normalize (v : Fin K → ℝ) : Option (Fin K → ℝ) :=
  if ∑ k, v k = 0 then none else some fun k => v k / ∑ k, v k

/-- `np.maximum(v, weight_floor)` then `/ sum`, ggmp.py:2384-2385, 1633-1634. -/
noncomputable def floorNormalize (floor : ℝ) (v : Fin K → ℝ) : Option (Fin K → ℝ) := normalize fun k => max (v k) floor

/-- The two versions: `ggmp.optimize_weights_em_density` divides the counts by their sum (line 2383),
`optimize_weights_em_multivariate_samples` by their sum plus `1e-300` (line 1636). -/
inductive Version where
  | density | samples

/-- The new weights of an iteration. -/
noncomputable def emStep (ver : Version) (floor : ℝ) (rows : List (Row K)) (w : Fin K → ℝ) : Option (Fin K → ℝ) :=
  match ver with
  | .density => (normalize (counts rows w)).bind (floorNormalize floor)
  | .samples => floorNormalize floor fun k => counts rows w k / (∑ k, counts rows w k + tiny)

/-- The start weights, ggmp.py:2360-2365, 1602-1607. -/
noncomputable def start (w0 : Option (Fin K → ℝ)) : Option (Fin K → ℝ) :=
  match w0 with
  | none => some fun _ => 1 / K
  | some w => normalize fun k => max (w k) (1 / (10 : ℝ) ^ 12)

/-- `np.linalg.norm(w_new - w, ord=1)`. -/
noncomputable def l1 (v w : Fin K → ℝ) : ℝ := ∑ k, |v k - w k|

/-- The loop, ggmp.py:2370-2397, 1612-1645: `n` iterations are left. Returns the final weights and the histories of
weights and objectives. Once the weights are NaN they stay NaN, the comparison with the tolerance is false, and the
remaining iterations run without effect. -/
noncomputable def emLoop (ver : Version) (floor tol : ℝ) (rows : List (Row K)) :
    ℕ → Option (Fin K → ℝ) → Option (Fin K → ℝ) × List (Option (Fin K → ℝ)) × List (Option ℝ)
  | 0, w => (w, [], [])
  | n + 1, none =>
      let res := emLoop ver floor tol rows n none
      (res.1, none :: res.2.1, none :: res.2.2)
  | n + 1, some w =>
      match emStep ver floor rows w with
      | none =>
          let res := emLoop ver floor tol rows n none
          (res.1, none :: res.2.1, some (objective rows w) :: res.2.2)
      | some w' =>
          if l1 w' w < tol then (some w', [some w'], [some (objective rows w)])
          else
            let res := emLoop ver floor tol rows n (some w')
            (res.1, some w' :: res.2.1, some (objective rows w) :: res.2.2)

/-- `optimize_weights_em_density`, ggmp.py:2345-2399, and `optimize_weights_em_multivariate_samples`, ggmp.py:1584-1647. -/
noncomputable def em (ver : Version) (floor tol : ℝ) (maxIter : ℕ) (w0 : Option (Fin K → ℝ)) (rows : List (Row K)) :
    Option (Fin K → ℝ) × List (Option (Fin K → ℝ)) × List (Option ℝ) :=
  emLoop ver floor tol rows maxIter (start w0)

end Verif.Ggmp
