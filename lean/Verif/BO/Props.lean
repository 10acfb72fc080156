import Verif.BO.Lemmas
import Mathlib.Tactic.IntervalCases

/-!
C57 (search-space transform), C58 (budget), C59 (recommendation), C60 (non-finite values) and the Bayesian-optimisation
part of C49 (bounds).
-/

namespace Verif.BO

variable {d : ℕ} {S : Type}

/-! ## C57 -/

theorem clip01_mem (u : ℝ) : 0 ≤ clip01 u ∧ clip01 u ≤ 1 :=
  ⟨le_min (le_max_right _ _) zero_le_one, min_le_right _ _⟩

theorem clip01_id {u : ℝ} (h0 : 0 ≤ u) (h1 : u ≤ 1) : clip01 u = u := by
  rw [clip01, max_eq_left h0, min_eq_left h1]

theorem tiny_pos : 0 < tiny := by unfold tiny; positivity

theorem mkAxis_cases (b : ℝ × ℝ) (req : Option Bool) (h : b.1 < b.2) :
    (mkAxis b req = ⟨true, Real.log b.1, Real.log b.2, Real.log b.2 - Real.log b.1⟩ ∧ 0 < b.1) ∨
      mkAxis b req = ⟨false, b.1, b.2, b.2 - b.1⟩ := by
  have key : ∀ m : Bool, (m = true → 0 < b.1) →
      ((⟨m, if m = true then Real.log b.1 else b.1, if m = true then Real.log b.2 else b.2,
        if (if m = true then Real.log b.2 else b.2) > (if m = true then Real.log b.1 else b.1) then
          (if m = true then Real.log b.2 else b.2) - (if m = true then Real.log b.1 else b.1) else 1⟩ : Axis) =
          ⟨true, Real.log b.1, Real.log b.2, Real.log b.2 - Real.log b.1⟩ ∧ 0 < b.1) ∨
      (⟨m, if m = true then Real.log b.1 else b.1, if m = true then Real.log b.2 else b.2,
        if (if m = true then Real.log b.2 else b.2) > (if m = true then Real.log b.1 else b.1) then
          (if m = true then Real.log b.2 else b.2) - (if m = true then Real.log b.1 else b.1) else 1⟩ : Axis) =
          ⟨false, b.1, b.2, b.2 - b.1⟩ := by
    intro m hm
    cases m with
    | true =>
      left
      have := Real.log_lt_log (hm rfl) h
      simp [this, hm rfl]
    | false => right; simp [h]
  unfold mkAxis
  cases req with
  | none =>
    apply key
    intro h'
    simp only [Bool.and_eq_true, decide_eq_true_eq] at h'
    exact h'.1
  | some r =>
    apply key
    intro h'
    simp only [Bool.and_eq_true, decide_eq_true_eq] at h'
    exact h'.2.1

theorem fromUnit1_mem (b : ℝ × ℝ) (req : Option Bool) (h : b.1 < b.2) (u : ℝ) :
    b.1 ≤ fromUnit1 (mkAxis b req) u ∧ fromUnit1 (mkAxis b req) u ≤ b.2 := by
  obtain ⟨c0, c1⟩ := clip01_mem u
  rcases mkAxis_cases b req h with ⟨e, hp⟩ | e
  · rw [e]
    simp only [fromUnit1, if_true]
    have hl := Real.log_lt_log hp h
    constructor
    · calc b.1 = Real.exp (Real.log b.1) := (Real.exp_log hp).symm
        _ ≤ _ := Real.exp_le_exp.2 (by nlinarith)
    · calc _ ≤ Real.exp (Real.log b.2) := Real.exp_le_exp.2 (by nlinarith)
        _ = b.2 := Real.exp_log (hp.trans h)
  · rw [e]
    simp only [fromUnit1, Bool.false_eq_true, if_false]
    constructor <;> nlinarith

theorem from_to_unit1 (b : ℝ × ℝ) (req : Option Bool) (h : b.1 < b.2) (hl : (mkAxis b req).log = true → tiny ≤ b.1)
    (t : ℝ) (h0 : b.1 ≤ t) (h1 : t ≤ b.2) : fromUnit1 (mkAxis b req) (toUnit1 (mkAxis b req) t) = t := by
  rcases mkAxis_cases b req h with ⟨e, hp⟩ | e
  · have ht := hl (by rw [e])
    rw [e]
    simp only [fromUnit1, toUnit1, if_true]
    have hlog := Real.log_lt_log hp h
    have htp : 0 < t := hp.trans_le h0
    rw [max_eq_left (ht.trans h0), clip01_id (u := clip01 _) (clip01_mem _).1 (clip01_mem _).2,
      clip01_id (div_nonneg (sub_nonneg.2 (Real.log_le_log hp h0)) (by linarith))
        ((div_le_one (by linarith)).2 (by have := Real.log_le_log htp h1; linarith)),
      div_mul_cancel₀ _ (by linarith : Real.log b.2 - Real.log b.1 ≠ 0), add_sub_cancel, Real.exp_log htp]
  · rw [e]
    simp only [fromUnit1, toUnit1, Bool.false_eq_true, if_false]
    rw [clip01_id (u := clip01 _) (clip01_mem _).1 (clip01_mem _).2,
      clip01_id (div_nonneg (by linarith) (by linarith)) ((div_le_one (by linarith)).2 (by linarith)),
      div_mul_cancel₀ _ (by linarith : b.2 - b.1 ≠ 0), add_sub_cancel]

theorem to_from_unit1 (b : ℝ × ℝ) (req : Option Bool) (h : b.1 < b.2) (hl : (mkAxis b req).log = true → tiny ≤ b.1)
    (u : ℝ) (h0 : 0 ≤ u) (h1 : u ≤ 1) : toUnit1 (mkAxis b req) (fromUnit1 (mkAxis b req) u) = u := by
  obtain ⟨m0, -⟩ := fromUnit1_mem b req h u
  rcases mkAxis_cases b req h with ⟨e, hp⟩ | e
  · have ht := hl (by rw [e])
    rw [e] at m0 ⊢
    simp only [fromUnit1, toUnit1, if_true] at m0 ⊢
    have hlog := Real.log_lt_log hp h
    rw [max_eq_left (ht.trans m0), Real.log_exp, add_sub_cancel_left,
      mul_div_cancel_right₀ _ (by linarith : Real.log b.2 - Real.log b.1 ≠ 0), clip01_id h0 h1, clip01_id h0 h1]
  · rw [e]
    simp only [fromUnit1, toUnit1, Bool.false_eq_true, if_false]
    rw [add_sub_cancel_left, mul_div_cancel_right₀ _ (by linarith : b.2 - b.1 ≠ 0), clip01_id h0 h1, clip01_id h0 h1]

/-- A millionth of the largest double, about `1.8e302`. -/
noncomputable def hugeValue : ℝ := (2 - 1 / 2 ^ 52) * 2 ^ 1023 / 10 ^ 6

/-- What is stored for a non-finite evaluation is that value. -/
theorem penalty_eq : penalty = hugeValue := rfl

/-- A point of the box. -/
def InBox (bounds : Fin d → ℝ × ℝ) (t : Pos d) : Prop := ∀ i, (bounds i).1 ≤ t i ∧ t i ≤ (bounds i).2

/-- A point of the unit cube. -/
def InCube (u : Pos d) : Prop := ∀ i, 0 ≤ u i ∧ u i ≤ 1

/-- C57, axes of positive width whose lower bound is at least `1e-300` when searched logarithmically: `to_unit` and
`from_unit` are inverse bijections between the box and the unit cube, `from_unit` maps everything into the box and
`to_unit` maps everything into the cube. -/
theorem C57_bijection_partial (bounds : Fin d → ℝ × ℝ) (ls : Option (Fin d → Bool))
    (hb : ∀ i, (bounds i).1 < (bounds i).2) (ht : ∀ i, 0 < (bounds i).1 → 1 / (10 : ℝ) ^ 300 ≤ (bounds i).1) :
    (∀ t, InBox bounds t → fromUnit (mkTransform bounds ls) (toUnit (mkTransform bounds ls) t) = t) ∧
    (∀ u, InCube u → toUnit (mkTransform bounds ls) (fromUnit (mkTransform bounds ls) u) = u) ∧
    (∀ u, InBox bounds (fromUnit (mkTransform bounds ls) u)) ∧
    (∀ t, InCube (toUnit (mkTransform bounds ls) t)) := by
  have hl : ∀ i, (mkTransform bounds ls i).log = true → tiny ≤ (bounds i).1 := by
    intro i h
    rcases mkAxis_cases (bounds i) (ls.map fun r => r i) (hb i) with ⟨-, hp⟩ | e
    · exact ht i hp
    · rw [show mkTransform bounds ls i = mkAxis (bounds i) (ls.map fun r => r i) from rfl, e] at h
      cases h
  refine ⟨fun t h => ?_, fun u h => ?_, fun u i => fromUnit1_mem _ _ (hb i) _, fun t i => clip01_mem _⟩
  · funext i
    exact from_to_unit1 _ _ (hb i) (hl i) _ (h i).1 (h i).2
  · funext i
    exact to_from_unit1 _ _ (hb i) (hl i) _ (h i).1 (h i).2

/-- C57: every point, including on degenerate axes, maps into the unit cube, and a degenerate linear axis round-trips
its only point. -/
theorem C57_to_unit_degenerate (b : ℝ) (req : Option Bool) (hlin : (mkAxis (b, b) req).log = false) (t : ℝ) :
    (0 ≤ toUnit1 (mkAxis (b, b) req) t ∧ toUnit1 (mkAxis (b, b) req) t ≤ 1) ∧
      fromUnit1 (mkAxis (b, b) req) (toUnit1 (mkAxis (b, b) req) b) = b := by
  refine ⟨clip01_mem _, ?_⟩
  have hlo : (mkAxis (b, b) req).lo = b := by
    have h : (mkAxis (b, b) req).lo = if (mkAxis (b, b) req).log = true then Real.log b else b := rfl
    rw [h, hlin]; rfl
  simp only [fromUnit1, toUnit1, hlin, Bool.false_eq_true, if_false, hlo, sub_self, zero_div]
  have : clip01 0 = 0 := clip01_id le_rfl zero_le_one
  rw [this, this, zero_mul, add_zero]

/-- C57: which axes are searched logarithmically: those that are strictly positive and not excluded. -/
theorem C57_log_axes (b : ℝ × ℝ) (req : Option Bool) :
    (mkAxis b req).log = true ↔ 0 < b.1 ∧ 0 < b.2 ∧ req ≠ some false := by
  cases req with
  | none => simp [mkAxis]
  | some r => cases r <;> simp [mkAxis]

/-- C57 is violated on an axis with equal bounds: points of the unit cube are mapped outside the box. -/
theorem C57_degenerate_violated (b u : ℝ) (req : Option Bool) (h0 : 0 < u) (h1 : u ≤ 1) :
    b < fromUnit1 (mkAxis (b, b) req) u := by
  have hspan : (mkAxis (b, b) req).span = 1 := by simp [mkAxis]
  have hlo : (mkAxis (b, b) req).lo = if (mkAxis (b, b) req).log = true then Real.log b else b := rfl
  have hpos : (mkAxis (b, b) req).log = true → 0 < b := fun h => ((C57_log_axes _ _).1 h).1
  simp only [fromUnit1, hspan, hlo, mul_one, clip01_id h0.le h1]
  split
  · rename_i h
    rw [Real.exp_add, Real.exp_log (hpos h)]
    have := Real.add_one_lt_exp h0.ne'
    nlinarith [hpos h]
  · linarith

/-- C57 is violated on a logarithmic axis that starts below `1e-300`: the round trip does not return the point. -/
theorem C57_tiny_violated (b : ℝ × ℝ) (h : b.1 < b.2) (hp : 0 < b.1) (ht : b.1 < 1 / (10 : ℝ) ^ 300)
    (hb : 1 / (10 : ℝ) ^ 300 ≤ b.2) : fromUnit1 (mkAxis b none) (toUnit1 (mkAxis b none) b.1) = 1 / (10 : ℝ) ^ 300 := by
  change b.1 < tiny at ht
  change tiny ≤ b.2 at hb
  change _ = tiny
  have hlog : (mkAxis b none).log = true := (C57_log_axes b none).2 ⟨hp, hp.trans h, by simp⟩
  have e : toUnit1 (mkAxis b none) b.1 = toUnit1 (mkAxis b none) tiny := by
    simp only [toUnit1, hlog, if_true, max_eq_right ht.le, max_self]
  rw [e]
  rcases mkAxis_cases b none h with ⟨e, -⟩ | e
  · rw [e]
    simp only [fromUnit1, toUnit1, if_true, max_self]
    have hlt := Real.log_lt_log hp h
    have h1 := Real.log_le_log hp ht.le
    have h2 := Real.log_le_log tiny_pos hb
    rw [clip01_id (u := clip01 _) (clip01_mem _).1 (clip01_mem _).2,
      clip01_id (div_nonneg (by linarith) (by linarith)) ((div_le_one (by linarith)).2 (by linarith)),
      div_mul_cancel₀ _ (by linarith : Real.log b.2 - Real.log b.1 ≠ 0), add_sub_cancel, Real.exp_log tiny_pos]
  · rw [e] at hlog; cases hlog

/-- A box with one logarithmic and one linear axis: the hypotheses of `C57_bijection_partial` hold and the transform is
not trivial. -/
example : let bounds : Fin 2 → ℝ × ℝ := ![(1, 4), (-3, 5)]
    (∀ i, (bounds i).1 < (bounds i).2) ∧ (∀ i, 0 < (bounds i).1 → 1 / (10 : ℝ) ^ 300 ≤ (bounds i).1) ∧
      fromUnit (mkTransform bounds none) (fun _ => 1 / 2) = ![2, 1] := by
  have ht : tiny ≤ 1 := by
    unfold tiny
    rw [div_le_one (by positivity)]
    exact one_le_pow₀ (by norm_num)
  refine ⟨fun i => ?_, fun i => ?_, ?_⟩
  · fin_cases i <;> norm_num
  · fin_cases i
    · intro _; exact ht
    · intro h; norm_num at h
  · have hc : clip01 (1 / 2) = 1 / 2 := clip01_id (by norm_num) (by norm_num)
    have hlog : Real.log 4 = 2 * Real.log 2 := by
      rw [show (4 : ℝ) = 2 ^ 2 by norm_num, Real.log_pow]; norm_num
    have h2 : (0 : ℝ) < Real.log 2 := Real.log_pos (by norm_num)
    funext i
    fin_cases i
    · show fromUnit1 (mkAxis (1, 4) none) (1 / 2) = 2
      rcases mkAxis_cases (1, 4) none (by norm_num) with ⟨e, -⟩ | e
      · rw [e]
        simp only [fromUnit1, if_true, hc, Real.log_one, hlog]
        rw [show (0 : ℝ) + 1 / 2 * (2 * Real.log 2 - 0) = Real.log 2 by ring, Real.exp_log (by norm_num)]
      · have := congrArg Axis.log e
        rw [(C57_log_axes _ _).2 ⟨by norm_num, by norm_num, by simp⟩] at this
        cases this
    · show fromUnit1 (mkAxis (-3, 5) none) (1 / 2) = 1
      rcases mkAxis_cases (-3, 5) none (by norm_num) with ⟨-, h⟩ | e
      · norm_num at h
      · rw [e]
        simp only [fromUnit1, Bool.false_eq_true, if_false, hc]
        norm_num

/-! ## C58 -/

/-- C58, budgets of at least two: whatever the objective, the surrogate, the stop signal and the tolerances do, and
whether or not the run raises, the objective is called at most `max_iter` times. -/
theorem C58_budget_partial (env : Env d S) (h : 2 ≤ env.maxIter) :
    ((bayesianOptimize env).1.calls.length : ℤ) ≤ env.maxIter := by
  have := (run_projections env).1
  rwa [max_eq_right h] at this

/-- C58: below a budget of two, at most two calls. -/
theorem C58_small_budget (env : Env d S) (h : env.maxIter ≤ 2) : (bayesianOptimize env).1.calls.length ≤ 2 := by
  have := (run_projections env).1
  rw [max_eq_left h] at this
  exact_mod_cast this

/-- C58 is violated for budgets below two: a run that is neither stopped nor fails calls the objective twice. -/
theorem C58_small_budget_violated (env : Env d S) (h : env.maxIter < 2) (hs : ∀ k, env.stop k = false)
    (ho : ∀ c t, ∃ v, env.objective c t = .ok v) : (bayesianOptimize env).1.calls.length = 2 := by
  have hd : designSize d env.nInit env.maxIter = 2 :=
    max_eq_left ((min_le_right _ _).trans h.le)
  have step : ∀ (s : St d) (u : Pos d) (i : ℕ), ∃ s', evaluate env s u i = (s', .ok ()) ∧
      s'.hist.length = s.hist.length + 1 ∧ s'.calls.length = s.calls.length + 1 := by
    intro s u i
    obtain ⟨v, hv⟩ := ho s.calls (fromUnit env.tf u)
    unfold evaluate
    simp only [hv]
    exact ⟨_, rfl, by simp, by simp⟩
  obtain ⟨s1, e1, l1, c1⟩ := step ⟨[], 1, [], []⟩ (designPoint env 0) 0
  obtain ⟨s2, e2, l2, c2⟩ := step { s1 with polls := s1.polls + 1 } (designPoint env 1) 1
  have hrun : designLoop env 2 0 ⟨[], 0, [], []⟩ = (s2, .ok false) := by
    simp only [designLoop, hs, Bool.false_eq_true, if_false, zero_add, e1, e2]
  simp only [List.length_nil, zero_add] at l1 c1
  simp only [l1, c1] at l2 c2
  unfold bayesianOptimize
  rw [hd, show (2 : ℤ).toNat = 2 from rfl, hrun]
  simp only
  rw [show (env.maxIter - (s2.hist.length : ℤ)).toNat = 0 by omega]
  simp only [loop]
  exact c2

/-! ## C59 and C49 -/

theorem known_nil {env : Env d S} {c : List (Pos d)} {h : List (Eval d)} (r : Recorded env c h)
    (hn : env.noise = .unknown) : known h = [] := by
  induction r with
  | nil => rfl
  | snoc _ _ ih =>
    unfold known at ih ⊢
    simp [List.filterMap_append, ih, hn, noiseFor]

/-- C59 and C49: whatever the objective and the surrogate do, the recommended vector was passed to the objective, the
reported value is the one recorded for that call, and on axes of positive width the recommendation and all points ever
evaluated respect the bounds. -/
theorem C59_evaluated_in_bounds_partial (bounds : Fin d → ℝ × ℝ) (ls : Option (Fin d → Bool))
    (hb : ∀ i, (bounds i).1 < (bounds i).2) (env : Env d S) (htf : env.tf = mkTransform bounds ls) (r : Result d)
    (h : (bayesianOptimize env).2 = .ok r) :
    (∃ k val, (bayesianOptimize env).1.calls[k]? = some r.x ∧
      env.objective ((bayesianOptimize env).1.calls.take k) r.x = .ok val ∧ r.fx = stored val) ∧
    InBox bounds r.x ∧ ∀ t ∈ (bayesianOptimize env).1.calls, InBox bounds t := by
  obtain ⟨inv, -, b, m, q1, -, q3, q4, -⟩ := (run_projections env).2 r h
  have hall : ∀ e ∈ (bayesianOptimize env).1.hist, InBox bounds e.theta := by
    intro e he i
    obtain ⟨k, hk⟩ := List.getElem?_of_mem he
    obtain ⟨-, -, h2, -⟩ := inv.recd.entry k e hk
    rw [h2, htf]
    exact fromUnit1_mem _ _ (hb i) _
  refine ⟨?_, by rw [q3]; exact hall b q1, ?_⟩
  · obtain ⟨k, hk⟩ := List.getElem?_of_mem q1
    obtain ⟨val, h1, -, h3, h4, -⟩ := inv.recd.entry k b hk
    exact ⟨k, val, by rw [q3]; exact h1, by rw [q3]; exact h3, by rw [q4, h4]⟩
  · intro t ht
    rw [← inv.recd.thetas, List.mem_map] at ht
    obtain ⟨e, he, rfl⟩ := ht
    exact hall e he

/-- C49, Bayesian optimisation: the vector returned lies inside bounds of positive width. -/
theorem C49_bo_in_bounds_partial (bounds : Fin d → ℝ × ℝ) (ls : Option (Fin d → Bool))
    (hb : ∀ i, (bounds i).1 < (bounds i).2) (env : Env d S) (htf : env.tf = mkTransform bounds ls) (r : Result d)
    (h : (bayesianOptimize env).2 = .ok r) (i : Fin d) : (bounds i).1 ≤ r.x i ∧ r.x i ≤ (bounds i).2 :=
  (C59_evaluated_in_bounds_partial bounds ls hb env htf r h).2.1 i

/-- C59, exact objective `g` and no reported noise: the recommendation has the smallest (penalised) value of all
evaluated points. -/
theorem C59_exact_smallest (env : Env d S) (g : Pos d → Option ℝ) (hg : ∀ c t, env.objective c t = .ok (g t))
    (hn : env.noise = .unknown) (r : Result d) (h : (bayesianOptimize env).2 = .ok r) :
    r.fx = stored (g r.x) ∧ ∀ t ∈ (bayesianOptimize env).1.calls, stored (g r.x) ≤ stored (g t) := by
  obtain ⟨inv, -, b, m, q1, -, q3, q4, q5, q6, -⟩ := (run_projections env).2 r h
  have hy : ∀ e ∈ (bayesianOptimize env).1.hist, e.y = stored (g e.theta) := by
    intro e he
    obtain ⟨k, hk⟩ := List.getElem?_of_mem he
    obtain ⟨val, -, -, h3, h4, -⟩ := inv.recd.entry k e hk
    rw [hg] at h3
    rw [h4, Except.ok.inj h3]
  obtain rfl := q6 (known_nil inv.recd hn)
  rw [q3, q4]
  refine ⟨hy b q1, fun t ht => ?_⟩
  rw [← inv.recd.thetas, List.mem_map] at ht
  obtain ⟨e, he, rfl⟩ := ht
  rw [← hy b q1, ← hy e he]
  exact q5 e he

/-- C59: the first evaluated point is the start. -/
theorem C59_start_evaluated (bounds : Fin d → ℝ × ℝ) (ls : Option (Fin d → Bool))
    (hb : ∀ i, (bounds i).1 < (bounds i).2) (ht : ∀ i, 0 < (bounds i).1 → 1 / (10 : ℝ) ^ 300 ≤ (bounds i).1) (env : Env d S)
    (htf : env.tf = mkTransform bounds ls) (hi : InBox bounds env.init) (r : Result d)
    (h : (bayesianOptimize env).2 = .ok r) : (bayesianOptimize env).1.calls.head? = some env.init := by
  obtain ⟨inv, -, b, m, q1, -⟩ := (run_projections env).2 r h
  have hne : (bayesianOptimize env).1.calls ≠ [] := by
    intro h0
    have := inv.recd.length
    rw [h0] at this
    rw [List.eq_nil_of_length_eq_zero this.symm] at q1
    cases q1
  obtain ⟨t, l, hc⟩ := List.exists_cons_of_ne_nil hne
  have h1 := inv.first t (by rw [hc]; rfl)
  rw [htf, (C57_bijection_partial bounds ls hb ht).1 _ hi] at h1
  rw [hc, h1]
  rfl

/-- C59, exact objective: the recommendation is not worse than the start, in terms of the objective itself. The start's
value has to be below the penalty for non-finite values (about `1.8e302`). -/
theorem C59_not_worse_than_start (bounds : Fin d → ℝ × ℝ) (ls : Option (Fin d → Bool))
    (hb : ∀ i, (bounds i).1 < (bounds i).2) (ht : ∀ i, 0 < (bounds i).1 → 1 / (10 : ℝ) ^ 300 ≤ (bounds i).1) (env : Env d S)
    (htf : env.tf = mkTransform bounds ls) (hi : InBox bounds env.init) (g : Pos d → Option ℝ)
    (hg : ∀ c t, env.objective c t = .ok (g t)) (hn : env.noise = .unknown) (r : Result d)
    (h : (bayesianOptimize env).2 = .ok r) (y0 : ℝ) (hy0 : g env.init = some y0) (hp : y0 < hugeValue) :
    ∃ y, g r.x = some y ∧ r.fx = y ∧ y ≤ y0 := by
  have hhead := C59_start_evaluated bounds ls hb ht env htf hi r h
  obtain ⟨h1, h2⟩ := C59_exact_smallest env g hg hn r h
  have hmem : env.init ∈ (bayesianOptimize env).1.calls := by
    cases hc : (bayesianOptimize env).1.calls with
    | nil => rw [hc] at hhead; cases hhead
    | cons a l =>
      rw [hc] at hhead
      simp only [List.head?_cons, Option.some.injEq] at hhead
      rw [hhead]; exact List.mem_cons_self
  have h3 := h2 _ hmem
  rw [hy0] at h3
  cases hx : g r.x with
  | none =>
    rw [hx] at h3
    simp only [stored, penalty_eq] at h3
    linarith
  | some y =>
    rw [hx] at h1 h3
    exact ⟨y, rfl, h1, h3⟩

/-- C59, noisy objective: the value recorded for the recommendation exceeds the smallest recorded value by at most three
standard deviations of the mean reported noise variance. -/
theorem C59_noisy (env : Env d S) (r : Result d) (h : (bayesianOptimize env).2 = .ok r) (e : Eval d) (he : e ∈ r.hist) :
    r.fx ≤ e.y + 3 * Real.sqrt ((r.hist.filterMap Eval.v).sum / (r.hist.filterMap Eval.v).length) := by
  obtain ⟨inv, qh, b, m, q1, -, q3, q4, q5, q6, q7⟩ := (run_projections env).2 r h
  rw [qh] at he ⊢
  rw [q4]
  exact q7.trans (by have := q5 e he; unfold noiseVar known; linarith)

/-- C59, noisy objective: which evaluation is recommended. The first one at which the surrogate's mean is largest, unless its
recorded value exceeds the smallest one by more than three standard deviations of the mean reported noise; then the first
smallest. -/
theorem C59_noisy_choice (env : Env d S) (g : S) (h : List (Eval d)) (hne : h ≠ []) (m : ℕ → ℝ) (hm : env.postMean g h = some m)
    (hk : h.filterMap Eval.v ≠ []) (hpos : 0 < (h.filterMap Eval.v).sum / (h.filterMap Eval.v).length) :
    ∃ (c b : ℕ) (hc : c < h.length) (hb : b < h.length),
      (∀ j < h.length, m j ≤ m c) ∧ (∀ j < c, m j < m c) ∧ (∀ e ∈ h, h[b].y ≤ e.y) ∧
      (∀ j (hj : j < b), h[b].y < (h[j]'(by omega)).y) ∧
      recommend env (some g) h =
        if h[c].y ≤ h[b].y + 3 * Real.sqrt ((h.filterMap Eval.v).sum / (h.filterMap Eval.v).length) then c else b := by
  obtain ⟨e, he, hmem, hmin, hfirst⟩ := argmin_spec hne
  have hlen : 0 < h.length := List.length_pos_iff.2 hne
  obtain ⟨hb, hbe⟩ := List.getElem?_eq_some_iff.1 he
  obtain ⟨k0, hk0, hmax⟩ := Finset.exists_max_image (Finset.range h.length) m ⟨0, Finset.mem_range.2 hlen⟩
  have hc : argmaxMean m h.length < h.length := by
    have : (List.range h.length).findIdx (fun k => @decide (∀ j < h.length, m j ≤ m k) (Classical.dec _))
        < (List.range h.length).length := by
      refine List.findIdx_lt_length_of_exists ⟨k0, List.mem_range.2 (Finset.mem_range.1 hk0), ?_⟩
      simpa using fun j hj => hmax j (Finset.mem_range.2 hj)
    rwa [List.length_range] at this
  have hcl : argmaxMean m h.length < (List.range h.length).length := by rwa [List.length_range]
  have hcm : ∀ j < h.length, m j ≤ m (argmaxMean m h.length) := by
    have := List.findIdx_getElem (p := fun k => @decide (∀ j < h.length, m j ≤ m k) (Classical.dec _))
      (xs := List.range h.length) (w := hcl)
    simp only [decide_eq_true_eq] at this
    have e : (List.range h.length)[argmaxMean m h.length]'hcl = argmaxMean m h.length := List.getElem_range hcl
    exact fun j hj => (this j hj).trans (le_of_eq (congrArg m e))
  refine ⟨argmaxMean m h.length, argmin h, hc, hb, hcm, ?_, by rw [hbe]; exact hmin, ?_, ?_⟩
  · intro j hj
    have hn := List.not_of_lt_findIdx (p := fun k => @decide (∀ j < h.length, m j ≤ m k) (Classical.dec _))
      (xs := List.range h.length) (i := j) hj
    rw [List.getElem_range, decide_eq_false_iff_not] at hn
    by_contra hcon
    exact hn fun i hi => (hcm i hi).trans (not_lt.1 hcon)
  · intro j hj
    rw [hbe]
    exact hfirst j _ hj (List.getElem?_eq_getElem (by omega))
  · unfold recommend
    simp only [hm, List.getElem?_eq_getElem hc, List.getElem?_eq_getElem hb]
    rw [if_pos ⟨hk, hpos⟩]
    rfl

/-- Two evaluations with reported noise, to which the theorem applies: the surrogate prefers the second. -/
example (env : Env 1 S) (g : S) (hm : env.postMean g [⟨0, 0, 1, some 1⟩, ⟨1, 1, 2, some 1⟩] = some fun k : ℕ => (k : ℝ)) :
    recommend env (some g) [⟨0, 0, 1, some 1⟩, ⟨1, 1, 2, some 1⟩] = 1 := by
  have hv : ([⟨0, 0, 1, some 1⟩, ⟨1, 1, 2, some 1⟩] : List (Eval 1)).filterMap Eval.v = [1, 1] := rfl
  obtain ⟨c, b, hc, hb, h1, h2, h3, h4, h5⟩ := C59_noisy_choice env g _ (by simp) _ hm (by simp) (by rw [hv]; norm_num)
  have hcl : c < 2 := hc
  have hbl : b < 2 := hb
  have hc1 : c = 1 := by
    have := h1 1 (by simp)
    interval_cases c
    · norm_num at this
    · rfl
  subst hc1
  have hb0 : b = 0 := by
    interval_cases b
    · rfl
    · have := h3 ⟨0, 0, 1, some 1⟩ (by simp)
      norm_num at this
  subst hb0
  rw [h5, if_pos]
  rw [hv]
  norm_num

/-- C59 presupposes an evaluation: a run stopped before its first evaluation raises. -/
theorem C59_stopped_before_start_raises (env : Env d S) (hs : env.stop 0 = true) :
    (bayesianOptimize env).1.calls = [] ∧
      (bayesianOptimize env).2 = .error "ValueError: attempt to get argmin of an empty sequence" := by
  have hn : 2 ≤ designSize d env.nInit env.maxIter := le_max_left _ _
  obtain ⟨k, hk⟩ : ∃ k, (designSize d env.nInit env.maxIter).toNat = k + 1 :=
    ⟨(designSize d env.nInit env.maxIter).toNat - 1, by omega⟩
  unfold bayesianOptimize
  rw [hk]
  simp [designLoop, hs, finish]

/-! ## C60 -/

theorem stored_none : stored none = penalty := rfl

/-- The penalty is a finite float. -/
theorem penalty_lt : 0 < penalty ∧ penalty < floatMax := by
  have hf : 0 < floatMax := by
    unfold floatMax
    exact mul_pos (by norm_num) (by positivity)
  constructor
  · unfold penalty; positivity
  · unfold penalty
    rw [div_lt_iff₀ (by positivity)]
    nlinarith

/-- C60: what is stored for a call is its value if it is finite and otherwise a finite penalty; the penalty is at least
as large as every stored value, provided no finite value exceeds it. -/
theorem C60_stored_partial (env : Env d S) (r : Result d) (h : (bayesianOptimize env).2 = .ok r)
    (hp : ∀ c t y, env.objective c t = .ok (some y) → y ≤ hugeValue) (k : ℕ) (e : Eval d) (he : r.hist[k]? = some e) :
    ∃ t, (bayesianOptimize env).1.calls[k]? = some t ∧
      ((∃ y, env.objective ((bayesianOptimize env).1.calls.take k) t = .ok (some y) ∧ e.y = y) ∨
        env.objective ((bayesianOptimize env).1.calls.take k) t = .ok none ∧ e.y = hugeValue ∧ e.y < floatMax ∧
          ∀ e' ∈ r.hist, e'.y ≤ e.y) := by
  obtain ⟨inv, qh, -⟩ := (run_projections env).2 r h
  rw [qh] at he ⊢
  obtain ⟨val, h1, -, h3, h4, -⟩ := inv.recd.entry k e he
  refine ⟨e.theta, h1, ?_⟩
  cases val with
  | some y => exact .inl ⟨y, h3, h4⟩
  | none =>
    rw [stored_none] at h4
    refine .inr ⟨h3, by rw [h4]; exact penalty_eq, by rw [h4]; exact penalty_lt.2, fun e' he' => ?_⟩
    obtain ⟨k', hk'⟩ := List.getElem?_of_mem he'
    obtain ⟨val', -, -, g3, g4, -⟩ := inv.recd.entry k' e' hk'
    rw [h4, g4]
    cases val' with
    | none => exact le_rfl
    | some y => exact hp _ _ _ g3

theorem noiseVar_le {h : List (Eval d)} (hv : ∀ e ∈ h, ∀ v, e.v = some v → v ≤ floatMax) : noiseVar h ≤ floatMax := by
  have hf := penalty_lt.1.trans penalty_lt.2
  have hs : ∀ l : List ℝ, (∀ v ∈ l, v ≤ floatMax) → l.sum ≤ l.length * floatMax := by
    intro l
    induction l with
    | nil => simp
    | cons a l ih =>
      intro hl
      have h1 := hl a (by simp)
      have h2 := ih fun v hv => hl v (by simp [hv])
      simp only [List.sum_cons, List.length_cons, Nat.cast_add, Nat.cast_one]
      linarith
  unfold noiseVar
  by_cases hk : known h = []
  · rw [hk]; simpa using hf.le
  · have hl : 0 < ((known h).length : ℝ) := by exact_mod_cast List.length_pos_iff.2 hk
    rw [div_le_iff₀ hl, mul_comm]
    apply hs
    intro v hv'
    unfold known at hv'
    rw [List.mem_filterMap] at hv'
    obtain ⟨e, he, hev⟩ := hv'
    exact hv e he v hev

theorem sqrt_floatMax_le : 3 * Real.sqrt floatMax < 2 ^ 514 := by
  have h1 : floatMax ≤ (2 ^ 512) ^ 2 := by
    unfold floatMax
    calc (2 - 1 / 2 ^ 52) * (2 : ℝ) ^ 1023 ≤ 2 * 2 ^ 1023 :=
          mul_le_mul_of_nonneg_right (by norm_num) (by positivity)
      _ = (2 ^ 512) ^ 2 := by rw [← pow_mul, ← pow_succ']
  have h2 := Real.sqrt_le_sqrt h1
  rw [Real.sqrt_sq (by positivity)] at h2
  have h3 : (2 : ℝ) ^ 514 = 4 * 2 ^ 512 := by
    rw [show 514 = 512 + 2 from rfl, pow_add]; norm_num [mul_comm]
  have h4 : (0 : ℝ) < 2 ^ 512 := by positivity
  rw [h3]
  clear h3 h1
  generalize (2 : ℝ) ^ 512 = B at *
  linarith

/-- C60: when some evaluation gave a finite value below the penalty (by `2^514`, far less than the spacing of floats
there), the recommendation is a point whose recorded evaluation was finite. Reported noise variances are floats. -/
theorem C60_not_recommended (env : Env d S) (r : Result d) (h : (bayesianOptimize env).2 = .ok r)
    (hv : ∀ e ∈ r.hist, ∀ v, e.v = some v → v ≤ floatMax) (e : Eval d) (he : e ∈ r.hist)
    (hlt : e.y + 2 ^ 514 ≤ hugeValue) :
    r.fx < hugeValue ∧ ∃ k y, (bayesianOptimize env).1.calls[k]? = some r.x ∧
      env.objective ((bayesianOptimize env).1.calls.take k) r.x = .ok (some y) ∧ r.fx = y := by
  have hlt' : r.fx < hugeValue := by
    have h1 := C59_noisy env r h e he
    have h2 : noiseVar r.hist ≤ floatMax := noiseVar_le hv
    have h3 := Real.sqrt_le_sqrt h2
    unfold noiseVar known at h3
    have h4 := sqrt_floatMax_le
    generalize (2 : ℝ) ^ 514 = B at *
    linarith
  refine ⟨hlt', ?_⟩
  obtain ⟨inv, -, b, m, q1, -, q3, q4, -⟩ := (run_projections env).2 r h
  obtain ⟨k, hk⟩ := List.getElem?_of_mem q1
  obtain ⟨val, h1, -, h3, h4, -⟩ := inv.recd.entry k b hk
  cases val with
  | none =>
    rw [q4, h4, stored_none, penalty_eq] at hlt'
    exact absurd hlt' (lt_irrefl _)
  | some y => exact ⟨k, y, by rw [q3]; exact h1, by rw [q3]; exact h3, by rw [q4, h4]; rfl⟩

/-! ## completion and a concrete run -/

theorem evaluate_completes (env : Env d S) (ho : ∀ c t, ∃ v, env.objective c t = .ok v) (s : St d) (u : Pos d) (i : ℕ) :
    ∃ s', evaluate env s u i = (s', .ok ()) ∧ s'.hist ≠ [] := by
  obtain ⟨v, hv⟩ := ho s.calls (fromUnit env.tf u)
  unfold evaluate
  simp only [hv]
  exact ⟨_, rfl, by simp⟩

theorem designLoop_completes (env : Env d S) (ho : ∀ c t, ∃ v, env.objective c t = .ok v) : ∀ (k i : ℕ) (s : St d),
    ∃ s' b, designLoop env k i s = (s', .ok b) ∧ (s.hist ≠ [] → s'.hist ≠ [])
  | 0, i, s => ⟨s, false, rfl, id⟩
  | k + 1, i, s => by
    rw [designLoop]
    split
    · exact ⟨_, true, rfl, id⟩
    · obtain ⟨s1, h1, hne⟩ := evaluate_completes env ho { s with polls := s.polls + 1 } (designPoint env i) i
      simp only [h1]
      obtain ⟨s2, b, h2, h3⟩ := designLoop_completes env ho k (i + 1) s1
      exact ⟨s2, b, h2, fun _ => h3 hne⟩

theorem loop_completes (env : Env d S) (ho : ∀ c t, ∃ v, env.objective c t = .ok v)
    (ha : ∀ g h, ∃ x, env.acquire g h = .ok x) : ∀ (fuel : ℕ) (l : Loop d S), l.st.hist ≠ [] →
    ∃ l' e, loop env fuel l = (l', .ok e) ∧ l'.st.hist ≠ []
  | 0, l, hne => ⟨l, _, rfl, hne⟩
  | fuel + 1, l, hne => by
    rw [loop]
    simp only
    split
    · exact ⟨_, _, rfl, hne⟩
    split
    · exact ⟨_, _, rfl, hne⟩
    split
    · exact ⟨_, _, rfl, hne⟩
    rename_i g _
    obtain ⟨⟨u, ei⟩, hx⟩ := ha g l.st.hist
    simp only [hx]
    split
    · exact ⟨_, _, rfl, hne⟩
    obtain ⟨s1, h1, hne1⟩ := evaluate_completes env ho { l.st with polls := l.st.polls + 1 } u l.st.hist.length
    simp only [h1]
    split
    · exact ⟨_, _, rfl, hne1⟩
    · exact loop_completes env ho ha fuel _ hne1

/-- C59: if the objective and the acquisition optimiser do not raise and the run is not stopped before its first
evaluation, a recommendation is returned (for every budget, tolerance, surrogate and later stop signal). -/
theorem C59_completes (env : Env d S) (ho : ∀ c t, ∃ v, env.objective c t = .ok v)
    (ha : ∀ g h, ∃ x, env.acquire g h = .ok x) (hs : env.stop 0 = false) :
    ∃ r, (bayesianOptimize env).2 = .ok r := by
  have fin : ∀ (gp : Option S) (h : List (Eval d)) (e : Ending), h ≠ [] → ∃ r, finish env gp h e = .ok r := by
    intro gp h e hne
    obtain ⟨b, m, h1, -⟩ := recommend_spec env gp hne
    exact ⟨⟨b.theta, b.y, h, e.1, e.2⟩, by simp only [finish, h1]⟩
  have hn : 2 ≤ designSize d env.nInit env.maxIter := le_max_left _ _
  obtain ⟨k, hk⟩ : ∃ k, (designSize d env.nInit env.maxIter).toNat = k + 1 :=
    ⟨(designSize d env.nInit env.maxIter).toNat - 1, by omega⟩
  obtain ⟨s1, h1, hne1⟩ := evaluate_completes env ho ⟨[], 1, [], []⟩ (designPoint env 0) 0
  obtain ⟨s2, b, h2, h3⟩ := designLoop_completes env ho k 1 s1
  have hd : designLoop env (k + 1) 0 ⟨[], 0, [], []⟩ = (s2, .ok b) := by
    rw [designLoop]
    simp only [hs, Bool.false_eq_true, if_false, zero_add, h1, h2]
  unfold bayesianOptimize
  rw [hk, hd]
  cases b with
  | true => exact fin _ _ _ (h3 hne1)
  | false =>
    simp only
    obtain ⟨l, e, hl, hne⟩ := loop_completes env ho ha (env.maxIter - s2.hist.length).toNat
      ⟨s2, none, 0, bestOf s2.hist, []⟩ (h3 hne1)
    rw [hl]
    exact fin _ _ _ hne

/-- A one-dimensional search over `[1, 4]` (logarithmic) from `2` with budget 7: the objective is `t²` except that it is
not finite above `3`. -/
noncomputable def demo : Env 1 Unit where
  tf := mkTransform (fun _ => (1, 4)) none
  init := fun _ => 2
  maxIter := 7
  nInit := some 3
  patience := 10
  fRtol := 1 / 1000
  xTol := 1 / 1000
  eiTol := 0
  refitEvery := 1
  objective := fun _ t => .ok (if t 0 > 3 then none else some (t 0 ^ 2))
  noise := .unknown
  stop := fun _ => false
  sobol := fun i _ => 1 / i
  fit := fun _ => some ()
  acquire := fun _ h => .ok (fun _ => 1 / (h.length + 2), 1)
  postMean := fun _ _ => none

/-- The run completes, so the hypotheses of the theorems above are met; its value is at most that of the start. -/
example : ∃ r, (bayesianOptimize demo).2 = .ok r ∧ (bayesianOptimize demo).1.calls.length ≤ 7 ∧
    InBox (fun _ => (1, 4)) r.x ∧ r.fx = r.x 0 ^ 2 ∧ r.fx ≤ 4 := by
  obtain ⟨r, hr⟩ := C59_completes demo (fun c t => ⟨_, rfl⟩) (fun g h => ⟨_, rfl⟩) rfl
  have hb : ∀ i : Fin 1, ((fun _ => (1, 4)) i : ℝ × ℝ).1 < ((fun _ => (1, 4)) i : ℝ × ℝ).2 := by intro i; norm_num
  have ht1 : tiny ≤ 1 := by
    unfold tiny
    rw [div_le_one (by positivity)]
    exact one_le_pow₀ (by norm_num)
  have hp : (4 : ℝ) < penalty := by
    unfold penalty floatMax
    rw [lt_div_iff₀ (by positivity)]
    have h1 : (2 : ℝ) ^ 30 ≤ 2 ^ 1023 := pow_le_pow_right₀ (by norm_num) (by norm_num)
    generalize (2 : ℝ) ^ 1023 = B at *
    norm_num at h1 ⊢
    linarith
  have hi : InBox (fun _ => (1, 4)) demo.init := fun i => by simp [demo]; norm_num
  refine ⟨r, hr, by
    have : ((bayesianOptimize demo).1.calls.length : ℤ) ≤ 7 := C58_budget_partial demo (by decide)
    exact_mod_cast this, ?_, ?_⟩
  · exact (C59_evaluated_in_bounds_partial (fun _ => (1, 4)) none hb demo rfl r hr).2.1
  · obtain ⟨y, h1, h2, h3⟩ := C59_not_worse_than_start (fun _ => (1, 4)) none hb (fun _ _ => ht1) demo rfl hi
      (fun t => if t 0 > 3 then none else some (t 0 ^ 2)) (fun _ _ => rfl) rfl r hr 4
      (by simp [demo]; norm_num) hp
    split at h1
    · cases h1
    · obtain rfl := Option.some.inj h1
      exact ⟨h2, by linarith⟩

/-- C60 without the restriction on finite values is violated: if the start's evaluation is not finite and all finite
values exceed the penalty (they may: the largest float is a million times larger), a point with a non-finite evaluation
is recommended although finite evaluations may exist. -/
theorem C60_huge_value_violated (bounds : Fin d → ℝ × ℝ) (ls : Option (Fin d → Bool))
    (hb : ∀ i, (bounds i).1 < (bounds i).2) (ht : ∀ i, 0 < (bounds i).1 → 1 / (10 : ℝ) ^ 300 ≤ (bounds i).1) (env : Env d S)
    (htf : env.tf = mkTransform bounds ls) (hi : InBox bounds env.init) (g : Pos d → Option ℝ)
    (hg : ∀ c t, env.objective c t = .ok (g t)) (hn : env.noise = .unknown) (h0 : g env.init = none)
    (hbig : ∀ t y, g t = some y → hugeValue < y) (r : Result d) (h : (bayesianOptimize env).2 = .ok r) :
    g r.x = none := by
  have hhead := C59_start_evaluated bounds ls hb ht env htf hi r h
  have h2 := (C59_exact_smallest env g hg hn r h).2 env.init (List.mem_of_mem_head? hhead)
  cases hx : g r.x with
  | none => rfl
  | some y =>
    rw [hx, h0] at h2
    simp only [stored] at h2
    exact absurd (hbig _ _ hx) (not_lt.2 h2)

/-- The values needed in `C60_huge_value_violated` exist: floats between the penalty and the largest float. -/
example : ∃ y : ℝ, hugeValue < y ∧ y < floatMax := exists_between penalty_lt.2

end Verif.BO
