import Verif.Gp2Scale.StaleModel
import Verif.Gp2Scale.Props
import Mathlib.Data.Real.Basic
import Mathlib.Tactic.FieldSimp
import Mathlib.Tactic.Linarith
import Mathlib.Tactic.Ring
import Mathlib.Tactic.IntervalCases
import Mathlib.Algebra.BigOperators.Field
import Mathlib.Algebra.Order.BigOperators.Group.Finset

/-!
C161: the points on the workers of a gp2Scale GP against the points on the client, and what happens to
covariances and predictions when an append raised.
-/

namespace Verif.Gp2Scale

/-! ### Padding: a short point set is a full one whose missing points have covariance zero -/

section
variable {R : Type*} [AddCommMonoid R] [DecidableEq R] {X : Type*}

private def padTo (n : ℕ) (p : List X) : List (Option X) := p.map some ++ List.replicate (n - p.length) none

private def IsPad (xs : List (Option X)) (p : List X) : Prop := ∃ k, xs = p.map some ++ List.replicate k none

private def optKernel (κ : X → X → R) : Option X → Option X → R
  | some a, some b => κ a b
  | _, _ => 0

open Classical in
private noncomputable def padKernel (kern : List X → List X → Except String (Block R))
    (xs ys : List (Option X)) : Except String (Block R) :=
  if (∃ p, IsPad xs p) ∧ ∃ q, IsPad ys q then
    match kern (xs.filterMap id) (ys.filterMap id) with
    | .error e => .error e
    | .ok b => .ok (.sparse (blockToCoo b))
  else .error ""

omit [AddCommMonoid R] [DecidableEq R] in
private theorem IsPad.filterMap {xs : List (Option X)} {p : List X} (h : IsPad xs p) :
    xs.filterMap id = p := by
  obtain ⟨k, rfl⟩ := h
  simp [List.filterMap_append, List.filterMap_map]

private theorem IsPad.length_le {xs : List (Option X)} {p : List X} (h : IsPad xs p) :
    p.length ≤ xs.length := by
  obtain ⟨k, rfl⟩ := h
  simp

private theorem IsPad.slice {xs : List (Option X)} {p : List X} (h : IsPad xs p) (a b : ℕ) :
    IsPad (Gp2Scale.slice xs a b) (Gp2Scale.slice p a b) := by
  obtain ⟨k, rfl⟩ := h
  unfold Gp2Scale.slice
  rw [List.drop_append, List.take_append, List.drop_replicate, List.take_replicate]
  exact ⟨_, by rw [List.map_take, List.map_drop]⟩

private theorem isPad_padTo (n : ℕ) (p : List X) : IsPad (padTo n p) p := ⟨_, rfl⟩

private theorem length_padTo {n : ℕ} {p : List X} (h : p.length ≤ n) : (padTo n p).length = n := by
  simp [padTo]; omega

private theorem IsPad.getElem? {xs : List (Option X)} {p : List X} (h : IsPad xs p) (i : ℕ) :
    xs[i]?.join = p[i]? := by
  obtain ⟨k, rfl⟩ := h
  rw [List.getElem?_append]
  by_cases hi : i < p.length
  · simp [hi]
  · simp only [List.length_map, hi, if_false, List.getElem?_replicate]
    split_ifs <;> simp [List.getElem?_eq_none (not_lt.1 hi)]

private theorem kAt_optKernel (κ : X → X → R) {xs ys : List (Option X)} {p q : List X}
    (h1 : IsPad xs p) (h2 : IsPad ys q) (i j : ℕ) : kAt (optKernel κ) xs ys i j = kAt κ p q i j := by
  unfold kAt
  rw [← h1.getElem? i, ← h2.getElem? j]
  rcases xs[i]? with _ | _ | a <;> rcases ys[j]? with _ | _ | b <;> rfl

private theorem padKernel_eq (kern : List X → List X → Except String (Block R)) {xs ys : List (Option X)}
    {p q : List X} (h1 : IsPad xs p) (h2 : IsPad ys q) :
    padKernel kern xs ys = match kern p q with
      | .error e => .error e
      | .ok b => .ok (.sparse (blockToCoo b)) := by
  unfold padKernel
  rw [if_pos ⟨⟨p, h1⟩, q, h2⟩, h1.filterMap, h2.filterMap]

private theorem padKernel_pointwise {kern : List X → List X → Except String (Block R)} {κ : X → X → R}
    (hk : PointwiseKernel kern κ) : PointwiseKernel (padKernel kern) (optKernel κ) := by
  intro xs ys blk h
  by_cases hp : (∃ p, IsPad xs p) ∧ ∃ q, IsPad ys q
  · obtain ⟨⟨p, h1⟩, q, h2⟩ := hp
    rw [padKernel_eq kern h1 h2] at h
    cases hb : kern p q with
    | error e => simp [hb] at h
    | ok b =>
      simp only [hb, Except.ok.injEq] at h
      subst h
      obtain ⟨h3, h4⟩ := hk p q b hb
      refine ⟨?_, ?_⟩
      · intro t ht
        have := blockToCoo_shape h3 t ht
        exact ⟨this.1.trans_le h1.length_le, this.2.trans_le h2.length_le⟩
      · intro i j
        rw [kAt_optKernel κ h1 h2, ← h4 i j]
        exact tripletsAt_blockToCoo b i j
  · unfold padKernel at h
    rw [if_neg hp] at h
    cases h

private theorem eval_pad (arity : ℕ) (kern : List X → List X → Except String (Block R))
    {xs ys : List (Option X)} {p q : List X} (h1 : IsPad xs p) (h2 : IsPad ys q) :
    (evaluateKernel arity (padKernel kern) xs ys).map blockToCoo
      = (evaluateKernel arity kern p q).map blockToCoo := by
  unfold evaluateKernel
  rw [padKernel_eq kern h1 h2]
  split_ifs <;> first | rfl | (cases kern p q <;> rfl)

private theorem block_pad (arity : ℕ) (kern : List X → List X → Except String (Block R)) (sym : Bool)
    {xs ys : List (Option X)} {p q : List X} (h1 : IsPad xs p) (h2 : IsPad ys q) :
    blockTriplets arity (padKernel kern) sym xs ys = blockTriplets arity kern sym p q := by
  funext t
  have := eval_pad arity kern (h1.slice t.1.1 t.1.2) (h2.slice t.2.1 t.2.2)
  unfold blockTriplets
  revert this
  cases evaluateKernel arity (padKernel kern) (Gp2Scale.slice xs t.1.1 t.1.2)
      (Gp2Scale.slice ys t.2.1 t.2.2) <;>
    cases evaluateKernel arity kern (Gp2Scale.slice p t.1.1 t.1.2) (Gp2Scale.slice q t.2.1 t.2.2) <;>
    simp [Except.map, bind, Except.bind] <;> intro h <;> simp [h]

private theorem row_pad (arity : ℕ) (kern : List X → List X → Except String (Block R)) (n : ℕ)
    {xs ys : List (Option X)} {p q : List X} (h1 : IsPad xs p) (h2 : IsPad ys q) :
    rowStrip arity (padKernel kern) n xs ys = rowStrip arity kern n p q := by
  funext t
  have := eval_pad arity kern (h1.slice t.1 t.2) h2
  unfold rowStrip
  revert this
  cases evaluateKernel arity (padKernel kern) (Gp2Scale.slice xs t.1 t.2) ys <;>
    cases evaluateKernel arity kern (Gp2Scale.slice p t.1 t.2) q <;>
    simp [Except.map, bind, Except.bind]

private theorem col_pad (arity : ℕ) (kern : List X → List X → Except String (Block R)) (n : ℕ)
    {xs ys : List (Option X)} {p q : List X} (h1 : IsPad xs p) (h2 : IsPad ys q) :
    colStrip arity (padKernel kern) n xs ys = colStrip arity kern n p q := by
  funext t
  have := eval_pad arity kern h1 (h2.slice t.1 t.2)
  unfold colStrip
  revert this
  cases evaluateKernel arity (padKernel kern) xs (Gp2Scale.slice ys t.1 t.2) <;>
    cases evaluateKernel arity kern p (Gp2Scale.slice q t.1 t.2) <;>
    simp [Except.map, bind, Except.bind]

private theorem distributed_pad (sched : List (Future R) → List (Future R)) (cancel : ℕ → Option String)
    (arity : ℕ) (kern : List X → List X → Except String (Block R)) (k1 k2 n1 n2 m1 m2 : ℕ) (p1 p2 : List X)
    (b : ℤ) (sym : Bool) (d : Distribution) :
    distributedCovariance sched cancel arity kern ⟨k1, p1⟩ n1 ⟨k2, p2⟩ n2 b sym d
      = distributedCovariance sched cancel arity (padKernel kern) ⟨k1, padTo m1 p1⟩ n1
          ⟨k2, padTo m2 p2⟩ n2 b sym d := by
  unfold distributedCovariance
  simp only [block_pad arity kern sym (isPad_padTo m1 p1) (isPad_padTo m2 p2),
    row_pad arity kern n2 (isPad_padTo m1 p1) (isPad_padTo m2 p2),
    col_pad arity kern n1 (isPad_padTo m1 p1) (isPad_padTo m2 p2)]

/-- What is known of a covariance of `n1` against `n2` points when the workers hold `w1` and `w2`. -/
def IsHeld (K : Sparse R) (κ : X → X → R) (n1 n2 : ℕ) (w1 w2 : List X) : Prop :=
  K.nrows = n1 ∧ K.ncols = n2 ∧ (∀ t ∈ K.entries, t.row < n1 ∧ t.col < n2)
    ∧ ∀ i j, i < n1 → j < n2 → K.at i j = heldAt κ w1 w2 i j

omit [DecidableEq R] in
private theorem optKernel_padTo (κ : X → X → R) (n1 n2 : ℕ) (p1 p2 : List X) (i j : ℕ)
    (hi : i < (padTo n1 p1).length) (hj : j < (padTo n2 p2).length) :
    optKernel κ (padTo n1 p1)[i] (padTo n2 p2)[j] = heldAt κ p1 p2 i j := by
  have h1 := (isPad_padTo n1 p1).getElem? i
  have h2 := (isPad_padTo n2 p2).getElem? j
  rw [List.getElem?_eq_getElem hi] at h1
  rw [List.getElem?_eq_getElem hj] at h2
  simp only [Option.join_some] at h1 h2
  rw [h1, h2]
  unfold heldAt
  by_cases a : i < p1.length <;> by_cases b : j < p2.length <;> simp [optKernel, a, b]

private theorem isHeld_of_pad {K : Sparse R} {κ : X → X → R} {n1 n2 : ℕ} {w1 w2 : List X}
    (h1 : w1.length ≤ n1) (h2 : w2.length ≤ n2)
    (h : IsCovariance K (optKernel κ) (padTo n1 w1) (padTo n2 w2)) : IsHeld K κ n1 n2 w1 w2 := by
  obtain ⟨a, b, c, d⟩ := h
  rw [length_padTo h1] at a c
  rw [length_padTo h2] at b c
  refine ⟨a, b, c, ?_⟩
  intro i j hi hj
  rw [← optKernel_padTo κ n1 n2 w1 w2 i j (by rwa [length_padTo h1]) (by rwa [length_padTo h2])]
  exact d i j _ _

private theorem optKernel_symm {κ : X → X → R} (hκ : ∀ a b, κ a b = κ b a) (a b : Option X) :
    optKernel κ a b = optKernel κ b a := by
  cases a <;> cases b <;> simp [optKernel, hκ]

private theorem symmetric_held {c : PriorCfg R X} (hs : ∀ l, (c.sched l).Perm l) {κ : X → X → R}
    (hk : PointwiseKernel c.kern κ) (hκ : ∀ a b, κ a b = κ b a) (key n : ℕ) (w : List X) (hw : w.length ≤ n)
    {K : Sparse R}
    (h : (distributedCovariance c.sched c.cancel c.arity c.kern ⟨key, w⟩ n ⟨key, w⟩ n c.batch true
      c.dist).outcome = .ok K) : IsHeld K κ n n w w := by
  rw [distributed_pad (m1 := n) (m2 := n)] at h
  have hl := length_padTo hw
  apply isHeld_of_pad hw hw
  cases hd : c.dist with
  | other nm => simp [hd, distributedCovariance] at h
  | blockwise =>
    rw [hd] at h
    refine C02_blockwise_equals_local hs (padKernel_pointwise hk) (optKernel_symm hκ) key (padTo n w)
      c.batch (cancel := c.cancel) (arity := c.arity) ?_
    rw [hl]; exact h
  | rowwise =>
    rw [hd] at h
    refine C03_rowwise_equals_local hs (padKernel_pointwise hk) key (padTo n w)
      c.batch (cancel := c.cancel) (arity := c.arity) ?_
    rw [hl]; exact h

private theorem cross_held {c : PriorCfg R X} (hs : ∀ l, (c.sched l).Perm l) {κ : X → X → R}
    (hk : PointwiseKernel c.kern κ) (k1 k2 n1 n2 : ℕ) (w1 w2 : List X) (h1 : w1.length ≤ n1)
    (h2 : w2.length ≤ n2) {K : Sparse R}
    (h : (distributedCovariance c.sched c.cancel c.arity c.kern ⟨k1, w1⟩ n1 ⟨k2, w2⟩ n2 c.batch false
      c.dist).outcome = .ok K) : IsHeld K κ n1 n2 w1 w2 := by
  rw [distributed_pad (m1 := n1) (m2 := n2)] at h
  apply isHeld_of_pad h1 h2
  refine C04_cross_equals_local hs (padKernel_pointwise hk) k1 k2 (padTo n1 w1) (padTo n2 w2)
      c.batch c.dist (cancel := c.cancel) (arity := c.arity) ?_
  rw [length_padTo h1, length_padTo h2]; exact h

/-! ### Covariances of a GP whose workers may be behind -/

/-- Is this covariance sent to the workers? -/
def Distributed (c : PriorCfg R X) (n1 n2 : ℕ) : Prop := taskBudget n1 c.batch c.dist < n1 * n2

omit [AddCommMonoid R] [DecidableEq R] in
theorem distributed_iff (c : PriorCfg R X) (n1 n2 : ℕ) :
    shouldDistribute n1 n2 c.batch c.dist = true ↔ Distributed c n1 n2 := by
  simp [shouldDistribute, Distributed]

/-- The points that count in a covariance call: those on the workers when it is distributed, those on the
client otherwise. -/
noncomputable def countedPoints (c : PriorCfg R X) (s : Client R X) (n2 : ℕ) : List X :=
  open Classical in if Distributed c s.xData.length n2 then s.future.points else s.xData

omit [DecidableEq R] in
private theorem isHeld_of_cov {K : Sparse R} {κ : X → X → R} {x1 x2 : List X}
    (h : IsCovariance K κ x1 x2) : IsHeld K κ x1.length x2.length x1 x2 := by
  obtain ⟨a, b, c, d⟩ := h
  refine ⟨a, b, c, fun i j hi hj => ?_⟩
  rw [d i j hi hj]
  simp [heldAt, hi, hj]

omit [DecidableEq R] in
private theorem cov_of_isHeld {K : Sparse R} {κ : X → X → R} {x1 x2 : List X}
    (h : IsHeld K κ x1.length x2.length x1 x2) : IsCovariance K κ x1 x2 := by
  obtain ⟨a, b, c, d⟩ := h
  refine ⟨a, b, c, fun i j hi hj => ?_⟩
  rw [d i j hi hj]
  simp [heldAt, hi, hj]

/-- C161: the covariance matrix a gp2Scale GP computes for its own data, whatever the workers hold, has the
size of the client's data; each entry is the kernel where both points are on the workers, and zero (the
diagonal included) where one of them is not. Evaluations small enough to stay on the client are right. -/
theorem C161_prior_covariance {c : PriorCfg R X} (hs : ∀ l, (c.sched l).Perm l) {κ : X → X → R}
    (hk : PointwiseKernel c.kern κ) (hκ : ∀ a b, κ a b = κ b a) (s : Client R X)
    (hp : s.future.points <+: s.xData) {K : Sparse R}
    (h : (s.priorCovariance c s.xData).2.2 = .ok K) :
    IsHeld K κ s.xData.length s.xData.length (countedPoints c s s.xData.length)
      (countedPoints c s s.xData.length) := by
  unfold countedPoints
  by_cases hd : Distributed c s.xData.length s.xData.length
  · rw [if_pos hd]
    rw [← distributed_iff] at hd
    simp only [Client.priorCovariance, ne_eq, not_true_eq_false, if_false, gp2ScaleCovariance] at h
    by_cases hc : c.client = true
    · simp only [hc, hd, not_true_eq_false, if_false, Option.getD_some, if_true] at h
      exact symmetric_held hs hk hκ s.future.key _ s.future.points hp.length_le h
    · simp [hc] at h
  · rw [if_neg hd]
    apply isHeld_of_cov
    have hsd : ¬ shouldDistribute s.xData.length s.xData.length c.batch c.dist = true := by
      rwa [distributed_iff]
    have h' : (gp2ScaleCovariance c s.fresh s.xData s.xData true none none).2.2 = .ok K := by
      simp only [Client.priorCovariance, ne_eq, not_true_eq_false, if_false, gp2ScaleCovariance] at h
      simp only [gp2ScaleCovariance]
      by_cases hc : c.client = true
      · simp only [hc, not_true_eq_false, if_false, hsd] at h ⊢
        simpa using h
      · simp [hc] at h
    exact C08_any_route_is_covariance hs hk hκ s.fresh s.xData s.xData true none none (fun _ => rfl)
      (by simp) (by simp) h'

/-- C161: the same for the cross-covariance the posterior uses: rows of points the workers lack are
zero. -/
theorem C161_cross_covariance {c : PriorCfg R X} (hs : ∀ l, (c.sched l).Perm l) {κ : X → X → R}
    (hk : PointwiseKernel c.kern κ) (hκ : ∀ a b, κ a b = κ b a) (s : Client R X)
    (hp : s.future.points <+: s.xData) (xPred : List X) {K : Sparse R}
    (h : (s.crossCovariance c xPred).2.2 = .ok K) :
    IsHeld K κ s.xData.length xPred.length (countedPoints c s xPred.length) xPred := by
  unfold countedPoints
  by_cases hd : Distributed c s.xData.length xPred.length
  · rw [if_pos hd]
    rw [← distributed_iff] at hd
    simp only [Client.crossCovariance, gp2ScaleCovariance] at h
    by_cases hc : c.client = true
    · simp only [hc, hd, not_true_eq_false, if_false, Option.getD_some, Option.getD_none,
        Bool.false_eq_true] at h
      exact cross_held hs hk _ _ _ _ s.future.points xPred hp.length_le le_rfl h
    · simp [hc] at h
  · rw [if_neg hd]
    apply isHeld_of_cov
    have hsd : ¬ shouldDistribute s.xData.length xPred.length c.batch c.dist = true := by
      rwa [distributed_iff]
    have h' : (gp2ScaleCovariance c s.fresh s.xData xPred false none none).2.2 = .ok K := by
      simp only [Client.crossCovariance, gp2ScaleCovariance] at h
      simp only [gp2ScaleCovariance]
      by_cases hc : c.client = true
      · simp only [hc, not_true_eq_false, if_false, hsd] at h ⊢
        simpa using h
      · simp [hc] at h
    exact C08_any_route_is_covariance hs hk hκ s.fresh s.xData xPred false none none (by simp)
      (by simp) (by simp) h'

/-! ### Histories -/

omit [AddCommMonoid R] [DecidableEq R] in
private theorem stackAugmented_at_old [AddCommMonoid R] (K B D : Sparse R) {i j : ℕ} (hi : i < K.nrows)
    (hj : j < K.ncols) : (stackAugmented K B D).at i j = K.at i j := by
  have z : ∀ l : List (Triplet R), (∀ t ∈ l, ¬ (t.row = i ∧ t.col = j)) → tripletsAt l i j = 0 := by
    intro l hl
    unfold tripletsAt
    rw [List.filter_eq_nil_iff.2 (by simpa using hl)]
    rfl
  have add : ∀ l m : List (Triplet R), tripletsAt (l ++ m) i j = tripletsAt l i j + tripletsAt m i j := by
    intro l m
    simp [tripletsAt]
  simp only [Sparse.at, stackAugmented, add]
  rw [z (B.entries.map _), z (B.entries.map _), z (D.entries.map _)]
  · simp
  all_goals
    intro t ht
    simp only [List.mem_map] at ht
    obtain ⟨u, _, rfl⟩ := ht
    simp only
    omega

/-- The points lost by the workers, by the specification of who holds what: the appended points of the
failed appends since the last overwrite or successful append. -/
def lostPoints {X : Type*} : List X → List (ClientOp X × Bool) → List X
  | l, [] => l
  | _, (.replace _, _) :: ops => lostPoints [] ops
  | _, (.append _, true) :: ops => lostPoints [] ops
  | l, (.append y, false) :: ops => lostPoints (l ++ y) ops
  | l, (.setHps, _) :: ops => lostPoints l ops

omit [AddCommMonoid R] [DecidableEq R] in
/-- C161: the client's points are the workers' points followed by the points of the failed appends since
the last refresh, for every history. -/
theorem C161_lost_points {X : Type*} (log : List (ClientOp X × Bool)) :
    ∀ x w l : List X, x = w ++ l → clientPoints x log = workerPoints x w log ++ lostPoints l log := by
  induction log with
  | nil => intro x w l h; exact h
  | cons e log ih =>
    intro x w l h
    rcases e with ⟨op, ok⟩
    cases op with
    | replace y => exact ih y y [] (by simp)
    | append y =>
      cases ok with
      | true => exact ih (x ++ y) (x ++ y) [] (by simp)
      | false => exact ih (x ++ y) w (l ++ y) (by simp [h])
    | setHps => exact ih x w l h

private theorem step_points (c : PriorCfg R X) (s : Client R X) (op : ClientOp X) :
    (s.step c op).1.xData = clientPoints s.xData [(op, (s.step c op).2.isOk)]
    ∧ (s.step c op).1.future.points
      = workerPoints s.xData s.future.points [(op, (s.step c op).2.isOk)] := by
  cases op with
  | replace y =>
    simp only [Client.step, Client.replace]
    split <;> simp [clientPoints, workerPoints]
  | append y =>
    simp only [Client.step, Client.append]
    split
    · simp [clientPoints, workerPoints, Except.isOk, Except.toBool]
    · split
      · simp [clientPoints, workerPoints, Except.isOk, Except.toBool]
      · split <;> simp [clientPoints, workerPoints, Except.isOk, Except.toBool]
  | setHps =>
    simp only [Client.step, Client.setHps]
    split <;> simp [clientPoints, workerPoints]

/-- C161: who holds which points after an arbitrary history of overwrites, appends and hyperparameter
changes, any of which may have raised. -/
theorem C161_who_holds_what (ops : List (PriorCfg R X × ClientOp X)) : ∀ s : Client R X,
    (s.run ops).1.xData = clientPoints s.xData (s.run ops).2
    ∧ (s.run ops).1.future.points = workerPoints s.xData s.future.points (s.run ops).2 := by
  induction ops with
  | nil => intro s; exact ⟨rfl, rfl⟩
  | cons e ops ih =>
    intro s
    obtain ⟨c, op⟩ := e
    obtain ⟨h1, h2⟩ := step_points c s op
    obtain ⟨h3, h4⟩ := ih (s.step c op).1
    simp only [Client.run]
    rw [h3, h4, h1, h2]
    generalize (Client.run (s.step c op).1 ops).2 = log
    cases op with
    | replace y => simp [clientPoints, workerPoints]
    | append y => cases (s.step c (ClientOp.append y)).2.isOk <;> simp [clientPoints, workerPoints]
    | setHps => simp [clientPoints, workerPoints]

private theorem create_points {c : PriorCfg R X} {fresh : ℕ} {x : List X} {s : Client R X}
    (h : Client.create c fresh x = .ok s) : s.xData = x ∧ s.future.points = x := by
  unfold Client.create at h
  split at h
  · cases h
  · cases h; exact ⟨rfl, rfl⟩

/-- C161: at every moment of every life the points on the workers are the first ones of `x_data`, and the
rest are those of the failed appends since the last refresh. -/
theorem C161_workers_hold_prefix {c : PriorCfg R X} {fresh : ℕ} {x : List X} {s : Client R X}
    (h : Client.create c fresh x = .ok s) (ops : List (PriorCfg R X × ClientOp X)) :
    (s.run ops).1.xData = (s.run ops).1.future.points ++ lostPoints [] (s.run ops).2 := by
  obtain ⟨h1, h2⟩ := create_points h
  obtain ⟨h3, h4⟩ := C161_who_holds_what ops s
  rw [h3, h4, h1, h2]
  exact C161_lost_points _ x x [] (by simp)

private theorem setHps_ok {c : PriorCfg R X} {s s' : Client R X} (h : s.setHps c = (s', .ok ())) :
    (s.priorCovariance c s.xData).2.2 = .ok s'.K ∧ s'.xData = s.xData ∧ s'.future = s.future := by
  unfold Client.setHps at h
  simp only at h
  split at h
  · cases h
  · rename_i K hK
    cases h
    exact ⟨hK, rfl, rfl⟩

/-- C161, the part that holds: if no points are lost, then after any history the next hyperparameter
change that returns leaves the covariance of the current data. In particular this is so when no append
raised since the last overwrite. -/
theorem C161_in_sync_partial {c₀ : PriorCfg R X} {fresh : ℕ} {x : List X} {s : Client R X}
    (hc : Client.create c₀ fresh x = .ok s) (ops : List (PriorCfg R X × ClientOp X))
    (hl : lostPoints [] (s.run ops).2 = []) {c : PriorCfg R X} (hs : ∀ l, (c.sched l).Perm l)
    {κ : X → X → R} (hk : PointwiseKernel c.kern κ) (hκ : ∀ a b, κ a b = κ b a) {s' : Client R X}
    (h : (s.run ops).1.setHps c = (s', .ok ())) :
    s'.xData = clientPoints x (s.run ops).2 ∧ IsCovariance s'.K κ s'.xData s'.xData := by
  have hx := C161_workers_hold_prefix hc ops
  rw [hl, List.append_nil] at hx
  obtain ⟨h1, h2, h3⟩ := setHps_ok h
  refine ⟨by rw [h2, (C161_who_holds_what ops s).1, (create_points hc).1], ?_⟩
  have := C161_prior_covariance hs hk hκ _ (by rw [← hx]) h1
  rw [h2]
  apply cov_of_isHeld
  unfold countedPoints at this
  rw [← hx, ite_self] at this
  exact this

/-- C161: if points are lost, the covariance is distributed and the hyperparameter change returns (as in
`C161_failed_append_violated`), every lost point gets prior covariance zero with every point, itself included. -/
theorem C161_lost_points_zero {c₀ : PriorCfg R X} {fresh : ℕ} {x : List X} {s : Client R X}
    (hc : Client.create c₀ fresh x = .ok s) (ops : List (PriorCfg R X × ClientOp X))
    {c : PriorCfg R X} (hs : ∀ l, (c.sched l).Perm l)
    {κ : X → X → R} (hk : PointwiseKernel c.kern κ) (hκ : ∀ a b, κ a b = κ b a) {s' : Client R X}
    (hd : Distributed c (s.run ops).1.xData.length (s.run ops).1.xData.length)
    (h : (s.run ops).1.setHps c = (s', .ok ())) :
    ∀ i j, i < s'.xData.length → j < s'.xData.length →
      (s'.xData.length ≤ i + (lostPoints [] (s.run ops).2).length → s'.K.at i j = 0 ∧ s'.K.at j i = 0)
      ∧ (∀ (hi : i + (lostPoints [] (s.run ops).2).length < s'.xData.length)
          (hj : j + (lostPoints [] (s.run ops).2).length < s'.xData.length),
          s'.K.at i j = κ (s'.xData[i]'(by omega)) (s'.xData[j]'(by omega))) := by
  have hx := C161_workers_hold_prefix hc ops
  obtain ⟨h1, h2, h3⟩ := setHps_ok h
  have hh := C161_prior_covariance hs hk hκ _ ⟨_, hx.symm⟩ h1
  unfold countedPoints at hh
  rw [if_pos hd] at hh
  rw [← h2, ← h3] at hx hh
  have hlen : s'.xData.length = s'.future.points.length + (lostPoints [] (s.run ops).2).length := by
    conv_lhs => rw [hx]
    simp
  intro i j hi hj
  refine ⟨fun hl => ⟨?_, ?_⟩, fun hi' hj' => ?_⟩
  · rw [hh.2.2.2 i j hi hj]
    unfold heldAt
    rw [dif_neg (by omega)]
  · rw [hh.2.2.2 j i hj hi]
    unfold heldAt
    rw [dif_neg (by omega)]
  · rw [hh.2.2.2 i j hi hj]
    unfold heldAt
    rw [dif_pos ⟨by omega, by omega⟩]
    congr 1
    · simp only [hx]
      rw [List.getElem_append_left (by omega)]
    · simp only [hx]
      rw [List.getElem_append_left (by omega)]

/-- C161: overwriting the data puts the workers back in step, even if it raises. -/
theorem C161_overwrite_repairs (c : PriorCfg R X) (s : Client R X) (y : List X) :
    (s.replace c y).1.xData = y ∧ (s.replace c y).1.future.points = y := by
  have := step_points c s (.replace y)
  simpa [Client.step, clientPoints, workerPoints] using this

private theorem cross_nrows {c : PriorCfg R X} (hs : ∀ l, (c.sched l).Perm l) {κ : X → X → R}
    (hk : PointwiseKernel c.kern κ) (hκ : ∀ a b, κ a b = κ b a) (s : Client R X)
    (hp : s.future.points <+: s.xData) (fresh : ℕ) (key : ℕ) (y : List X) {B : Sparse R}
    (h : (gp2ScaleCovariance c fresh s.xData y false (some s.future) (some ⟨key, y⟩)).2.2 = .ok B) :
    B.nrows = s.xData.length := by
  by_cases hd : shouldDistribute s.xData.length y.length c.batch c.dist = true
  · simp only [gp2ScaleCovariance] at h
    by_cases hc : c.client = true
    · simp only [hc, hd, not_true_eq_false, if_false, Option.getD_some, Bool.false_eq_true] at h
      exact (cross_held hs hk _ _ _ _ s.future.points y hp.length_le le_rfl h).1
    · simp [hc] at h
  · have h' : (gp2ScaleCovariance c fresh s.xData y false none none).2.2 = .ok B := by
      simp only [gp2ScaleCovariance] at h ⊢
      by_cases hc : c.client = true
      · simp only [hc, not_true_eq_false, if_false, hd] at h ⊢
        simpa using h
      · simp [hc] at h
    exact (C08_any_route_is_covariance hs hk hκ fresh s.xData y false none none (by simp)
      (by simp) (by simp) h').1

/-- C161: while the stored covariance is smaller than the data, which is the case after an append raised
and before anything recomputed it, every append raises, even though the cluster is healthy again; each
one still adds its points to `x_data`. -/
theorem C161_appends_keep_raising {κ : X → X → R} (hκ : ∀ a b, κ a b = κ b a)
    (ops : List (PriorCfg R X × List X)) :
    ∀ s : Client R X, s.future.points <+: s.xData → s.K.nrows < s.xData.length →
      (∀ o ∈ ops, (∀ l, (o.1.sched l).Perm l) ∧ PointwiseKernel o.1.kern κ) →
      ∀ r, r = s.run (ops.map fun o => (o.1, ClientOp.append o.2)) →
      (∀ e ∈ r.2, e.2 = false) ∧ r.1.K = s.K ∧ r.1.future = s.future
        ∧ r.1.xData = s.xData ++ (ops.map Prod.snd).flatten := by
  induction ops with
  | nil => intro s _ _ _ r hr; simp [hr, Client.run]
  | cons o ops ih =>
    intro s hp hK ho r hr
    subst hr
    obtain ⟨c, y⟩ := o
    have hc := ho (c, y) (by simp)
    have key : ∃ e f, s.append c y = (⟨s.xData ++ y, s.future, s.K, f⟩, .error e) := by
      unfold Client.append
      simp only
      split
      · rename_i e _; exact ⟨e, _, rfl⟩
      · rename_i B hB
        split
        · rename_i e _; exact ⟨e, _, rfl⟩
        · have hn := cross_nrows hc.1 hc.2 hκ s hp _ _ y hB
          unfold stackChecked
          rw [if_neg (by omega)]
          exact ⟨_, _, rfl⟩
    obtain ⟨e, f, hk⟩ := key
    have := ih ⟨s.xData ++ y, s.future, s.K, f⟩ (hp.trans (List.prefix_append _ _))
      (by simp; omega) (fun o h => ho o (by simp [h])) _ rfl
    simp only [List.map_cons, Client.run, Client.step, hk]
    refine ⟨?_, this.2.1, this.2.2.1, by rw [this.2.2.2]; simp⟩
    intro e' he'
    simp only [List.mem_cons] at he'
    rcases he' with rfl | he'
    · rfl
    · exact this.1 e' he'

/-- C161: an append that returns brings the workers up to date but keeps the old block of the stored
covariance as it was, zeros of lost points included, until the hyperparameters are set again. -/
theorem C161_append_keeps_old_block {c : PriorCfg R X} {s s' : Client R X} {y : List X}
    (h : s.append c y = (s', .ok ())) :
    s'.future.points = s'.xData ∧ s'.xData = s.xData ++ y
    ∧ ∀ i j, i < s.K.nrows → j < s.K.ncols → s'.K.at i j = s.K.at i j := by
  unfold Client.append at h
  simp only at h
  split at h
  · cases h
  · split at h
    · cases h
    · split at h
      · cases h
      · rename_i K hK
        cases h
        refine ⟨rfl, rfl, ?_⟩
        intro i j hi hj
        unfold stackChecked at hK
        split_ifs at hK
        cases hK
        exact stackAugmented_at_old _ _ _ hi hj

end

/-! ### What it does to predictions -/

section
variable {X : Type*}

private theorem sum_held {n : ℕ} {w1 w2 : List X} (κ : X → X → ℝ) (hw : w2.length ≤ n) (i : ℕ) (a : ℕ → ℝ) :
    ∑ j ∈ Finset.range n, heldAt κ w1 w2 i j * a j
      = ∑ j ∈ Finset.range w2.length, heldAt κ w1 w2 i j * a j := by
  symm
  apply Finset.sum_subset
  · intro j hj
    simp only [Finset.mem_range] at *
    omega
  · intro j _ hj
    simp only [Finset.mem_range, not_lt] at hj
    unfold heldAt
    rw [dif_neg (by omega), zero_mul]

/-- C161: the weights `(K + V)⁻¹ r` computed from such a covariance: on the points the workers hold they
are the weights of the GP without the lost points, and each lost point gets `r / v` as if it were
independent of everything and pure noise. -/
theorem C161_weights {K : Sparse ℝ} {κ : X → X → ℝ} {n : ℕ} {w : List X} (hK : IsHeld K κ n n w w)
    (hw : w.length ≤ n) {v r a : ℕ → ℝ} (hv : ∀ i < n, v i ≠ 0)
    (ha : ∀ i < n, ∑ j ∈ Finset.range n, K.at i j * a j + v i * a i = r i) :
    (∀ i < w.length, ∑ j ∈ Finset.range w.length, heldAt κ w w i j * a j + v i * a i = r i)
    ∧ ∀ i < n, w.length ≤ i → a i = r i / v i := by
  have hsum : ∀ i < n, ∑ j ∈ Finset.range n, K.at i j * a j
      = ∑ j ∈ Finset.range w.length, heldAt κ w w i j * a j := by
    intro i hi
    rw [← sum_held κ hw]
    apply Finset.sum_congr rfl
    intro j hj
    rw [hK.2.2.2 i j hi (Finset.mem_range.1 hj)]
  refine ⟨fun i hi => ?_, fun i hi hl => ?_⟩
  · rw [← hsum i (by omega)]
    exact ha i (by omega)
  · have := ha i hi
    rw [hsum i hi, Finset.sum_eq_zero, zero_add] at this
    · rw [← this]
      field_simp [hv i hi]
    · intro j _
      unfold heldAt
      rw [dif_neg (by omega), zero_mul]

/-- C161: if the cross-covariance is distributed too, the prediction is that of the GP without the lost
points: data the user sees in `x_data` and `y_data` are silently ignored. -/
theorem C161_prediction_ignores_lost {K k : Sparse ℝ} {κ : X → X → ℝ} {n m : ℕ} {w xPred : List X}
    (hK : IsHeld K κ n n w w) (hk : IsHeld k κ n m w xPred) (hw : w.length ≤ n) {v r a : ℕ → ℝ}
    (hv : ∀ i < n, v i ≠ 0)
    (ha : ∀ i < n, ∑ j ∈ Finset.range n, K.at i j * a j + v i * a i = r i) (p : ℕ) (hp : p < m) :
    (∀ i < w.length, ∑ j ∈ Finset.range w.length, heldAt κ w w i j * a j + v i * a i = r i)
    ∧ ∑ i ∈ Finset.range n, k.at i p * a i
      = ∑ i ∈ Finset.range w.length, heldAt κ w xPred i p * a i := by
  refine ⟨(C161_weights hK hw hv ha).1, ?_⟩
  rw [Finset.sum_congr rfl fun i hi => by
    rw [hk.2.2.2 i p (Finset.mem_range.1 hi) hp]]
  symm
  apply Finset.sum_subset
  · intro j hj
    simp only [Finset.mem_range] at *
    omega
  · intro j _ hj
    simp only [Finset.mem_range, not_lt] at hj
    unfold heldAt
    rw [dif_neg (by omega), zero_mul]

/-- C161: if the cross-covariance is small enough to be computed on the client, which is the usual case for
a few prediction points, the lost points enter as independent observations. -/
theorem C161_prediction_mixes {K k : Sparse ℝ} {κ : X → X → ℝ} {m : ℕ} {w l xPred : List X}
    (hK : IsHeld K κ (w ++ l).length (w ++ l).length w w)
    (hk : IsHeld k κ (w ++ l).length m (w ++ l) xPred) {v r a : ℕ → ℝ}
    (hv : ∀ i < (w ++ l).length, v i ≠ 0)
    (ha : ∀ i < (w ++ l).length, ∑ j ∈ Finset.range (w ++ l).length, K.at i j * a j + v i * a i = r i)
    (p : ℕ) (hp : p < m) :
    ∑ i ∈ Finset.range (w ++ l).length, k.at i p * a i
      = ∑ i ∈ Finset.range w.length, heldAt κ w xPred i p * a i
        + ∑ i ∈ Finset.range l.length, heldAt κ l xPred i p * (r (w.length + i) / v (w.length + i)) := by
  have hw : w.length ≤ (w ++ l).length := by simp
  have H := (C161_weights hK hw hv ha).2
  rw [Finset.sum_congr rfl fun i hi => by
    rw [hk.2.2.2 i p (Finset.mem_range.1 hi) hp]]
  have hlen : (w ++ l).length = w.length + l.length := by simp
  rw [hlen, Finset.sum_range_add]
  congr 1
  · apply Finset.sum_congr rfl
    intro i hi
    have hi := Finset.mem_range.1 hi
    congr 1
    unfold heldAt
    by_cases hj : p < xPred.length
    · rw [dif_pos ⟨by omega, hj⟩, dif_pos ⟨hi, hj⟩, List.getElem_append_left hi]
    · rw [dif_neg (by omega), dif_neg (by omega)]
  · apply Finset.sum_congr rfl
    intro i hi
    have hi := Finset.mem_range.1 hi
    rw [H (w.length + i) (by omega) (by omega)]
    congr 1
    unfold heldAt
    by_cases hj : p < xPred.length
    · rw [dif_pos ⟨by omega, hj⟩, dif_pos ⟨hi, hj⟩, List.getElem_append_right (by omega)]
      simp
    · rw [dif_neg (by omega), dif_neg (by omega)]

/-- C161: then the posterior variance at a lost point is negative as soon as the noise there is smaller than
the prior variance (any positive semi-definite kernel, positive noise). -/
theorem C161_negative_variance {K k : Sparse ℝ} {κ : X → X → ℝ} {w l : List X} (q : ℕ) (hq : q < l.length)
    (hK : IsHeld K κ (w ++ l).length (w ++ l).length w w)
    (hk : IsHeld k κ (w ++ l).length 1 (w ++ l) [l[q]])
    (hpsd : ∀ a : ℕ → ℝ, 0 ≤ ∑ i ∈ Finset.range w.length,
      (∑ j ∈ Finset.range w.length, heldAt κ w w i j * a j) * a i)
    {v a : ℕ → ℝ} (hv : ∀ i < (w ++ l).length, 0 < v i)
    (ha : ∀ i < (w ++ l).length,
      ∑ j ∈ Finset.range (w ++ l).length, K.at i j * a j + v i * a i = k.at i 0)
    (hlow : v (w.length + q) < κ l[q] l[q]) :
    κ l[q] l[q] - ∑ i ∈ Finset.range (w ++ l).length, k.at i 0 * a i < 0 := by
  have hlen : (w ++ l).length = w.length + l.length := by simp
  have hv' : ∀ i < (w ++ l).length, v i ≠ 0 := fun i hi => (hv i hi).ne'
  have hmix := C161_prediction_mixes hK hk hv' ha 0 (by omega)
  have hold := (C161_weights hK (by omega) hv' ha).1
  have kheld : ∀ i < w.length, k.at i 0 = heldAt κ w [l[q]] i 0 := by
    intro i hi
    rw [hk.2.2.2 i 0 (by omega) (by omega)]
    unfold heldAt
    rw [dif_pos ⟨by omega, by simp⟩, dif_pos ⟨hi, by simp⟩, List.getElem_append_left hi]
  have kl : ∀ i < l.length, k.at (w.length + i) 0 = heldAt κ l [l[q]] i 0 := by
    intro i hi
    rw [hk.2.2.2 _ 0 (by omega) (by omega)]
    unfold heldAt
    rw [dif_pos ⟨by omega, by simp⟩, dif_pos ⟨hi, by simp⟩, List.getElem_append_right (by omega)]
    simp
  have h1 : 0 ≤ ∑ i ∈ Finset.range w.length, heldAt κ w [l[q]] i 0 * a i := by
    have : ∑ i ∈ Finset.range w.length, heldAt κ w [l[q]] i 0 * a i
        = ∑ i ∈ Finset.range w.length, (∑ j ∈ Finset.range w.length, heldAt κ w w i j * a j) * a i
          + ∑ i ∈ Finset.range w.length, v i * (a i * a i) := by
      rw [← Finset.sum_add_distrib]
      apply Finset.sum_congr rfl
      intro i hi
      have hi := Finset.mem_range.1 hi
      rw [← kheld i hi, ← hold i hi]
      ring
    rw [this]
    apply add_nonneg (hpsd a)
    apply Finset.sum_nonneg
    intro i hi
    have hi := Finset.mem_range.1 hi
    exact mul_nonneg (hv i (by omega)).le (mul_self_nonneg _)
  have hqv := hv (w.length + q) (by omega)
  have h2 : κ l[q] l[q] * (κ l[q] l[q] / v (w.length + q)) ≤ ∑ i ∈ Finset.range l.length,
      heldAt κ l [l[q]] i 0 * (k.at (w.length + i) 0 / v (w.length + i)) := by
    have e : κ l[q] l[q] * (κ l[q] l[q] / v (w.length + q))
        = heldAt κ l [l[q]] q 0 * (k.at (w.length + q) 0 / v (w.length + q)) := by
      rw [kl q hq]
      unfold heldAt
      rw [dif_pos ⟨hq, by simp⟩]
      simp
    rw [e]
    refine Finset.single_le_sum (f := fun i => heldAt κ l [l[q]] i 0
      * (k.at (w.length + i) 0 / v (w.length + i))) ?_ (Finset.mem_range.2 hq)
    intro i hi
    have hi := Finset.mem_range.1 hi
    rw [kl i hi, ← mul_div_assoc]
    exact div_nonneg (mul_self_nonneg _) (hv _ (by omega)).le
  have hpos : 0 < κ l[q] l[q] := hqv.trans hlow
  have h3 : κ l[q] l[q] < κ l[q] l[q] * (κ l[q] l[q] / v (w.length + q)) := by
    have : 1 < κ l[q] l[q] / v (w.length + q) := by rwa [one_lt_div hqv]
    nlinarith
  rw [hmix]
  linarith

end

/-! ### Witnesses -/

/-- A healthy cluster with one point per task. -/
def demoCfg : PriorCfg ℤ ℤ := ⟨true, List.reverse, fun _ => none, 3, denseKernel fun a b => a * b, 1, .blockwise⟩

/-- The same cluster while it cancels its first task. -/
def brokenCfg : PriorCfg ℤ ℤ := { demoCfg with cancel := fun i => if i = 0 then some "lost worker" else none }

/-- A GP on two points, an append during which a worker is lost, then a hyperparameter change. -/
def demoHistory : Except String (Client ℤ ℤ × List (ClientOp ℤ × Bool)) :=
  (Client.create demoCfg 0 [2, 3]).map fun s => s.run [(brokenCfg, .append [5]), (demoCfg, .setHps)]

/-- C161 is violated by the code: the append raises, the hyperparameter change returns, and the covariance
then stored gives the third point of `x_data` variance zero, although the kernel says 25. -/
theorem C161_failed_append_violated : ∃ s log, demoHistory = .ok (s, log)
    ∧ log.map Prod.snd = [false, true] ∧ s.xData = [2, 3, 5] ∧ s.K.at 2 2 = 0 ∧ s.K.at 0 1 = 6
    ∧ ¬ IsCovariance s.K (fun a b => a * b) s.xData s.xData := by
  have h : (match demoHistory with
    | .ok r => decide (r.2.map Prod.snd = [false, true] ∧ r.1.xData = [2, 3, 5] ∧ r.1.K.at 2 2 = 0
        ∧ r.1.K.at 0 1 = 6)
    | .error _ => false) = true := by decide
  cases hd : demoHistory with
  | error e => simp [hd] at h
  | ok r =>
    rw [hd] at h
    simp only [decide_eq_true_eq] at h
    refine ⟨r.1, r.2, rfl, h.1, h.2.1, h.2.2.1, h.2.2.2, ?_⟩
    intro hc
    have := hc.2.2.2 2 2 (by simp [h.2.1]) (by simp [h.2.1])
    have e : r.1.K.at 2 2 = 25 := by simpa [h.2.1] using this
    exact absurd (h.2.2.1.symm.trans e) (by decide)

/-- The hypotheses of the history theorems: the settings of the demonstration. -/
example : (∀ l, (demoCfg.sched l).Perm l) ∧ PointwiseKernel demoCfg.kern (fun a b : ℤ => a * b)
    ∧ Distributed demoCfg 3 3 :=
  ⟨List.reverse_perm, denseKernel_pointwise _, by simp [Distributed, demoCfg, taskBudget, clampBatch]⟩

/-- A second append on the repaired cluster raises as well. -/
example : (match (Client.create demoCfg 0 [2, 3]).map fun s =>
      s.run [(brokenCfg, .append [5]), (demoCfg, .append [7]), (demoCfg, .replace [1, 4]), (demoCfg, .append [7])] with
    | .ok r => decide (r.2.map Prod.snd = [false, false, true, true] ∧ r.1.xData = [1, 4, 7]
        ∧ r.1.K.at 2 1 = 28)
    | .error _ => false) = true := by decide +kernel

/-- After the hyperparameter change an append works, and the hole stays. -/
example : (match (Client.create demoCfg 0 [2, 3]).map fun s =>
      s.run [(brokenCfg, .append [5]), (demoCfg, .setHps), (demoCfg, .append [7])] with
    | .ok r => decide (r.2.map Prod.snd = [false, true, true] ∧ r.1.K.at 2 2 = 0 ∧ r.1.K.at 3 3 = 49
        ∧ r.1.K.at 2 3 = 0 ∧ r.1.K.at 0 3 = 14)
    | .error _ => false) = true := by decide +kernel

/-- The hypotheses of `C161_negative_variance`: one point on the workers, one lost, noise 1/2. -/
example : ∃ (K k : Sparse ℝ) (a : ℕ → ℝ), IsHeld K (fun _ _ : ℕ => (1 : ℝ)) 2 2 [0] [0]
    ∧ IsHeld k (fun _ _ : ℕ => (1 : ℝ)) 2 1 [0, 1] [1]
    ∧ (∀ i < 2, ∑ j ∈ Finset.range 2, K.at i j * a j + 1 / 2 * a i = k.at i 0) := by
  refine ⟨⟨2, 2, [⟨1, 0, 0⟩]⟩, ⟨2, 1, [⟨1, 0, 0⟩, ⟨1, 1, 0⟩]⟩, fun i => if i = 0 then 2 / 3 else 2, ?_, ?_, ?_⟩
  · refine ⟨rfl, rfl, by simp, ?_⟩
    intro i j hi hj
    interval_cases i <;> interval_cases j <;> simp [Sparse.at, tripletsAt, heldAt]
  · refine ⟨rfl, rfl, by simp, ?_⟩
    intro i j hi hj
    interval_cases i <;> interval_cases j <;> simp [Sparse.at, tripletsAt, heldAt]
  · intro i hi
    interval_cases i <;> simp [Finset.sum_range_succ, Sparse.at, tripletsAt] <;> norm_num

end Verif.Gp2Scale
