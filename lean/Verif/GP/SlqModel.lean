import Mathlib.Analysis.SpecialFunctions.Sqrt
import Mathlib.Analysis.SpecialFunctions.Log.Basic
import Mathlib.Analysis.SpecialFunctions.Trigonometric.Basic

/-!
Model of the variance that the stochastic log-determinant reports: `calculate_random_logdet` (gp_lin_alg.py:1103-1181), `GPkv._random_logdet`
(gp_kv.py:559-572), the choice of the mode in gp2Scale (gp_kv.py:182-188), `log_likelihood_variance` (gp_marginal_likelihood.py:182-204) and its users in
training (gp.py:1055-1072 and 1144-1168).

What imate returns is an argument of the model. Exact arithmetic.
-/

namespace Verif.GP.Slq

/-- The linear algebra modes, gp_kv.py:138-141. -/
inductive Mode where
  | chol | cholInv | inv | sparseLU | minres | cg | minresPre | cgPre | sparseSolve | custom
deriving DecidableEq

/-- The modes in which the log-determinant is `_random_logdet`, gp_kv.py:603-624 and 706-715. -/
def Mode.random : Mode → Bool
  | .minres | .cg | .minresPre | .cgPre | .sparseSolve => true
  | _ => false

/-- `_set_gp2Scale_mode(KV)` for `n` data points and `nnz` non-zero entries, gp_kv.py:182-188 (the comparison of the quotient is multiplied out; there is at
least one point). -/
def pickMode (linalg : Option Mode) (n nnz : ℕ) : Mode :=
  match linalg with
  | some m => m
  | none => if n < 50001 ∧ 10000 * nnz < n ^ 2 then .sparseLU else if n < 2001 ∧ n ^ 2 ≤ 10000 * nnz then .chol else .minres

/-- What imate returns: the estimate and the values of the probes that were used (`none`: not finite). `readable` tells whether the report has the entries
that are read. -/
structure Probe where
  logdet : ℝ
  samples : List (Option ℝ)
  readable : Bool

/-- `np.var(samples, ddof=1)`. -/
noncomputable def sampleVar (l : List ℝ) : ℝ := (l.map fun x => (x - l.sum / l.length) ^ 2).sum / (l.length - 1)

/-- The variance in `info_out`, gp_lin_alg.py:1166-1180. -/
noncomputable def Probe.variance (p : Probe) : Option ℝ :=
  if p.readable then
    let l := p.samples.filterMap id
    if 1 < l.length then some (sampleVar l / l.length) else none
  else none

/-- One computation of log-determinant and solution: `l1` of the likelihood, the exact log-determinant, number of points, non-zeros of K + V and what imate
would return. -/
structure Job where
  l1 : ℝ
  exact : ℝ
  n : ℕ
  nnz : ℕ
  probe : Probe

/-- The attributes of `GPkv` used here; `mode` is set at construction and not changed, gp_kv.py:144-146. -/
structure Kv where
  gp2Scale : Bool
  linalg : Option Mode
  mode : Mode
  job : Job
  logdetKV : ℝ
  last : Option ℝ

/-- `_random_logdet` or one of the exact ones, gp_kv.py:559-572: the value, and `last_logdet_variance` afterwards. -/
noncomputable def logdetIn (m : Mode) (j : Job) (last : Option ℝ) : ℝ × Option ℝ :=
  if m.random then (j.probe.logdet, j.probe.variance) else (j.exact, last)

/-- The mode in which `compute_new_KVlogdet_KVinvY` works, gp_kv.py:585-588. -/
def Kv.evalMode (k : Kv) (j : Job) : Mode := if k.gp2Scale then pickMode k.linalg j.n j.nnz else k.mode

/-- The likelihood from its parts, gp_marginal_likelihood.py:178. -/
noncomputable def loglik (j : Job) (logdet : ℝ) : ℝ := -(1 / 2) * (j.l1 + logdet + j.n * Real.log (2 * Real.pi))

/-- `log_likelihood(hyperparameters)`, gp_marginal_likelihood.py:137-179. -/
noncomputable def Kv.evaluate (k : Kv) (j : Job) : ℝ × Kv :=
  let r := logdetIn (k.evalMode j) j k.last
  (loglik j r.1, { k with last := r.2 })

/-- `_refresh`, after new hyperparameters or data, gp_kv.py:404-423. -/
noncomputable def Kv.refresh (k : Kv) (j : Job) : Kv :=
  let r := logdetIn k.mode j k.last
  { k with job := j, logdetKV := r.1, last := r.2 }

/-- `log_likelihood()`, gp_marginal_likelihood.py:152-155. -/
noncomputable def Kv.cached (k : Kv) : ℝ := loglik k.job k.logdetKV

/-- `GPkv(...)`, gp_kv.py:89-147; in gp2Scale the mode is that for the non-zeros of `K`, `nnzK`. -/
noncomputable def Kv.new (gp2Scale : Bool) (linalg : Option Mode) (nnzK : ℕ) (j : Job) : Kv :=
  Kv.refresh ⟨gp2Scale, linalg, if gp2Scale then pickMode linalg j.n nnzK else linalg.getD .chol, j, 0, none⟩ j

/-- What a user of the object can do. -/
inductive Ev where
  | evaluate (j : Job)
  | refresh (j : Job)
  | cached

/-- The state after one of them. -/
noncomputable def Kv.step (k : Kv) : Ev → Kv
  | .evaluate j => (k.evaluate j).2
  | .refresh j => k.refresh j
  | .cached => k

/-- The state after several, in the order of the list. -/
noncomputable def Kv.run (k : Kv) (l : List Ev) : Kv := l.foldl Kv.step k

/-- `log_likelihood_variance()`, gp_marginal_likelihood.py:201-204. -/
noncomputable def Kv.likVariance (k : Kv) : Option ℝ := k.last.map fun v => 1 / 4 * v

/-- The tolerance in `_reject_if_not_improved`, gp.py:1158-1159. -/
noncomputable def tolerance (v : Option ℝ) : ℝ := (v.map fun v => 3 * Real.sqrt (2 * v)).getD 0

/-- Whether `_reject_if_not_improved` keeps the new hyperparameters, gp.py:1151-1161. -/
noncomputable def Kv.accepts (k : Kv) (incumbent : ℝ) : Prop := k.cached ≥ incumbent - tolerance k.likVariance

end Verif.GP.Slq
