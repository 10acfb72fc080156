import Verif.Gp2Scale.Model
import Verif.Gp2Scale.Spec

/-!
A gp2Scale GP keeps two copies of its inputs: `x_data` on the client (gp_data.py) and the persistent
scatter on the workers (gp_prior.py:95-97). The model below keeps both, so that operations which raise
half way can be followed. `PriorState` in `Model.lean` holds the points of the scatter only.
-/

namespace Verif.Gp2Scale

section
variable {R : Type*} [AddCommMonoid R] [DecidableEq R] {X : Type*}

/-- The data-dependent part of a gp2Scale GP: `data.x_data` (gp_data.py:37), the persistent scatter
`x_data_scatter_future` and `K` of the prior (gp_prior.py:95-99), and the next unused dask key. Prior mean,
targets and noise are left out. -/
structure Client (R X : Type*) where
  xData : List X
  future : Scattered X
  K : Sparse R
  fresh : ℕ

/-- `compute_prior_covariance_matrix`, gp_prior.py:185-198: the persistent scatter is handed on unless the
*length* of `x` differs from that of `x_data`. -/
def Client.priorCovariance (c : PriorCfg R X) (s : Client R X) (x : List X) :
    List Event × ℕ × Except String (Sparse R) :=
  let future := if x.length ≠ s.xData.length then none else some s.future
  gp2ScaleCovariance c s.fresh x x true future none

/-- `compute_data_cross_covariance`, gp_prior.py:200-215, client present. -/
def Client.crossCovariance (c : PriorCfg R X) (s : Client R X) (xPred : List X) :
    List Event × ℕ × Except String (Sparse R) :=
  gp2ScaleCovariance c s.fresh s.xData xPred false (some s.future) none

/-- `stack_augmented_covariance`, gp2Scale_covariance.py:434-443, with the check of
`scipy.sparse.block_array` that blocks in one row (column) have equally many rows (columns). -/
def stackChecked (K B D : Sparse R) : Except String (Sparse R) :=
  if K.nrows = B.nrows ∧ B.ncols = D.nrows ∧ K.ncols = B.nrows ∧ B.ncols = D.ncols then
    .ok (stackAugmented K B D)
  else .error "blocks have incompatible dimensions"

/-- The constructor, gp_data.py:37 and gp_prior.py:95-99. -/
def Client.create (c : PriorCfg R X) (fresh : ℕ) (x : List X) : Except String (Client R X) :=
  match (gp2ScaleCovariance c (fresh + 1) x x true (some ⟨fresh, x⟩) none).2.2 with
  | .error e => .error e
  | .ok K => .ok ⟨x, ⟨fresh, x⟩, K,
      (gp2ScaleCovariance c (fresh + 1) x x true (some ⟨fresh, x⟩) none).2.1⟩

/-- `GP.update_gp_data(x, ..., append=False)` as far as the prior (gp.py:738-743): the data are replaced
(gp_data.py:93-96), then `update_state_data` (gp_prior.py:169-179) scatters them and recomputes `K`. -/
def Client.replace (c : PriorCfg R X) (s : Client R X) (x : List X) : Client R X × Except String Unit :=
  let s1 : Client R X := ⟨x, ⟨s.fresh, x⟩, s.K, s.fresh + 1⟩
  let r := s1.priorCovariance c x
  match r.2.2 with
  | .error e => ({ s1 with fresh := r.2.1 }, .error e)
  | .ok K => ({ s1 with K := K, fresh := r.2.1 }, .ok ())

/-- `GP.update_gp_data(x, ..., append=True)` as far as the prior (gp.py:738-742): `data.update` appends
the points first (gp_data.py:103-112), then `augment_state_data` (gp_prior.py:158-167) computes the new
blocks (gp_prior.py:267-290) and only afterwards scatters the full data set. An exception in a covariance
call or in the stacking leaves the appended `x_data` with the old scatter and the old `K`. -/
def Client.append (c : PriorCfg R X) (s : Client R X) (xNew : List X) : Client R X × Except String Unit :=
  let s1 : Client R X := { s with xData := s.xData ++ xNew }
  let fNew : Scattered X := ⟨s.fresh, xNew⟩
  let rB := gp2ScaleCovariance c (s.fresh + 1) s.xData xNew false (some s.future) (some fNew)
  match rB.2.2 with
  | .error e => ({ s1 with fresh := rB.2.1 }, .error e)
  | .ok B =>
    let rD := gp2ScaleCovariance c rB.2.1 xNew xNew true (some fNew) none
    match rD.2.2 with
    | .error e => ({ s1 with fresh := rD.2.1 }, .error e)
    | .ok D =>
      match stackChecked s.K B D with
      | .error e => ({ s1 with fresh := rD.2.1 }, .error e)
      | .ok K => (⟨s.xData ++ xNew, ⟨rD.2.1, s.xData ++ xNew⟩, K, rD.2.1 + 1⟩, .ok ())

/-- `GP.set_hyperparameters` as far as the prior covariance: `update_state_hyperparameters`,
gp_prior.py:181-183. The kernel in the settings `c` is the one bound to the new hyperparameters. -/
def Client.setHps (c : PriorCfg R X) (s : Client R X) : Client R X × Except String Unit :=
  let r := s.priorCovariance c s.xData
  match r.2.2 with
  | .error e => ({ s with fresh := r.2.1 }, .error e)
  | .ok K => ({ s with K := K, fresh := r.2.1 }, .ok ())

/-- The public operations that touch data or covariance. -/
inductive ClientOp (X : Type*)
  | replace (x : List X)
  | append (x : List X)
  | setHps

/-- Dispatch. -/
def Client.step (c : PriorCfg R X) (s : Client R X) : ClientOp X → Client R X × Except String Unit
  | .replace x => s.replace c x
  | .append x => s.append c x
  | .setHps => s.setHps c

/-- A history: every operation runs under its own settings (hyperparameters, cluster behaviour), and an
exception is caught by the user, who carries on. The log records which operations returned. -/
def Client.run (s : Client R X) : List (PriorCfg R X × ClientOp X) → Client R X × List (ClientOp X × Bool)
  | [] => (s, [])
  | (c, op) :: ops =>
      let r := s.step c op
      let t := Client.run r.1 ops
      (t.1, (op, r.2.isOk) :: t.2)

end

/-! ### Specification: who holds which points -/

section
variable {X : Type*}

/-- The points the user sees in `x_data` after a history: an append adds its points whether or not it
raised. -/
def clientPoints : List X → List (ClientOp X × Bool) → List X
  | x, [] => x
  | _, (.replace y, _) :: ops => clientPoints y ops
  | x, (.append y, _) :: ops => clientPoints (x ++ y) ops
  | x, (.setHps, _) :: ops => clientPoints x ops

/-- The points the workers hold after a history that started with `x` on the client and `w` on the
workers: only an append that returned brings them up to date. -/
def workerPoints : List X → List X → List (ClientOp X × Bool) → List X
  | _, w, [] => w
  | _, _, (.replace y, _) :: ops => workerPoints y y ops
  | x, _, (.append y, true) :: ops => workerPoints (x ++ y) (x ++ y) ops
  | x, w, (.append y, false) :: ops => workerPoints (x ++ y) w ops
  | x, w, (.setHps, _) :: ops => workerPoints x w ops

/-- The entry a covariance of `n` client points gets when the workers hold `w`: the kernel where both
points are on the workers, zero elsewhere. -/
def heldAt {R : Type*} [Zero R] (κ : X → X → R) (w1 w2 : List X) (i j : ℕ) : R :=
  if h : i < w1.length ∧ j < w2.length then κ (w1[i]'h.1) (w2[j]'h.2) else 0

end

end Verif.Gp2Scale
