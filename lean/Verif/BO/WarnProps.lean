import Verif.BO.WarnModel
import Verif.BO.Props

/-!
C138: the warnings before a Bayesian optimisation tell what the run will do.
-/

namespace Verif.BO

variable {d : ℕ} {S T : Type}

/-- The same search with another surrogate, another acquisition and another posterior mean. -/
def withSurrogate (env : Env d S) (fit : List (Eval d) → Option T) (acquire : T → List (Eval d) → Except String (Pos d × ℝ))
    (postMean : T → List (Eval d) → Option (ℕ → ℝ)) : Env d T where
  tf := env.tf
  init := env.init
  maxIter := env.maxIter
  nInit := env.nInit
  patience := env.patience
  fRtol := env.fRtol
  xTol := env.xTol
  eiTol := env.eiTol
  refitEvery := env.refitEvery
  objective := env.objective
  noise := env.noise
  stop := env.stop
  sobol := env.sobol
  fit := fit
  acquire := acquire
  postMean := postMean

theorem designLoop_withSurrogate (env : Env d S) (fit : List (Eval d) → Option T)
    (acquire : T → List (Eval d) → Except String (Pos d × ℝ)) (postMean : T → List (Eval d) → Option (ℕ → ℝ)) :
    ∀ (k i : ℕ) (s : St d), designLoop (withSurrogate env fit acquire postMean) k i s = designLoop env k i s
  | 0, _, _ => rfl
  | k + 1, i, s => by
    rw [designLoop, designLoop]
    change (if env.stop s.polls = true then _ else _) = _
    split
    · rfl
    · have he : evaluate (withSurrogate env fit acquire postMean) { s with polls := s.polls + 1 }
          (designPoint (withSurrogate env fit acquire postMean) i) i =
          evaluate env { s with polls := s.polls + 1 } (designPoint env i) i := rfl
      rw [he]
      cases evaluate env { s with polls := s.polls + 1 } (designPoint env i) i with
      | mk s'' r =>
        cases r with
        | error e => rfl
        | ok u => exact designLoop_withSurrogate env fit acquire postMean k (i + 1) s''

/-- The number in the warning is the size of the design of the run. -/
theorem warnDesign_eq (env : Env d S) : warnDesign d env.maxIter env.nInit = designSize d env.nInit env.maxIter := by
  unfold warnDesign designSize
  cases env.nInit <;> rfl

theorem budget_mem (n : ℕ) (m : ℤ) (o : Option ℤ) :
    (∃ b k h, Warning.budget b k h ∈ boWarnings n m o) ↔ m ≤ warnDesign n m o := by
  unfold boWarnings
  simp only [List.mem_append]
  constructor
  · rintro ⟨b, k, h, h1 | h1⟩
    · split_ifs at h1 with hc
      · exact hc
      · cases h1
    · split_ifs at h1 <;> simp at h1
  · intro h
    exact ⟨m, warnDesign n m o, n, Or.inl (by rw [if_pos h]; exact List.mem_singleton.2 rfl)⟩

/-- C138: if the budget warning is issued, no Bayesian optimisation takes place: whatever surrogate, acquisition and posterior
mean are used, the run makes the same evaluations and returns the same result (or raises the same exception). -/
theorem C138_warned_no_search (env : Env d S) (hw : ∃ b k h, Warning.budget b k h ∈ boWarnings d env.maxIter env.nInit)
    (fit : List (Eval d) → Option T) (acquire : T → List (Eval d) → Except String (Pos d × ℝ))
    (postMean : T → List (Eval d) → Option (ℕ → ℝ)) :
    bayesianOptimize (withSurrogate env fit acquire postMean) = bayesianOptimize env := by
  rw [budget_mem, warnDesign_eq] at hw
  have hsz : designSize d (withSurrogate env fit acquire postMean).nInit (withSurrogate env fit acquire postMean).maxIter =
    designSize d env.nInit env.maxIter := rfl
  have hmx : (withSurrogate env fit acquire postMean).maxIter = env.maxIter := rfl
  unfold bayesianOptimize
  rw [hsz, hmx, designLoop_withSurrogate]
  cases hd : designLoop env (designSize d env.nInit env.maxIter).toNat 0 ⟨[], 0, [], []⟩ with
  | mk s r =>
    cases r with
    | error e => rfl
    | ok b =>
      cases b with
      | true => rfl
      | false =>
        have hl := ((designLoop_inv env _ 0 ⟨[], 0, [], []⟩ (inv_init env) rfl s (.ok false) hd).2 false rfl).2.2 rfl
        have h0 : (env.maxIter - (s.hist.length : ℤ)).toNat = 0 := by
          simp only [List.length_nil] at hl
          omega
        simp only [h0, loop]
        rfl

/-- A design that neither fails nor is stopped. -/
theorem designLoop_runs (env : Env d S) (ho : ∀ c t, ∃ v, env.objective c t = .ok v) (hs : ∀ k, env.stop k = false) :
    ∀ (k i : ℕ) (s : St d), ∃ s', designLoop env k i s = (s', .ok false)
  | 0, _, s => ⟨s, rfl⟩
  | k + 1, i, s => by
    obtain ⟨s1, h1, -⟩ := evaluate_completes env ho { s with polls := s.polls + 1 } (designPoint env i) i
    obtain ⟨s2, h2⟩ := designLoop_runs env ho hs k (i + 1) s1
    refine ⟨s2, ?_⟩
    rw [designLoop]
    simp only [hs, Bool.false_eq_true, if_false, h1, h2]

theorem evaluate_prefix (env : Env d S) (s : St d) (u : Pos d) (i : ℕ) :
    (evaluate env s u i).1.calls = s.calls ++ [fromUnit env.tf u] := by
  unfold evaluate
  simp only
  split <;> rfl

/-- The main loop only appends evaluations. -/
theorem loop_prefix (env : Env d S) : ∀ (fuel : ℕ) (l : Loop d S), l.st.calls <+: (loop env fuel l).1.st.calls
  | 0, l => List.prefix_refl _
  | fuel + 1, l => by
    rw [loop]
    simp only
    split
    · exact List.prefix_refl _
    split
    · exact List.prefix_refl _
    split
    · exact List.prefix_refl _
    split
    · exact List.prefix_refl _
    split
    · exact List.prefix_refl _
    split
    · rename_i s e he
      have := congrArg (fun x => x.1.calls) he
      simp only [evaluate_prefix] at this
      simp only [← this]
      exact List.prefix_append _ _
    · rename_i s he
      have := congrArg (fun x => x.1.calls) he
      simp only [evaluate_prefix] at this
      have hp : l.st.calls <+: s.calls := by
        rw [← this]
        exact List.prefix_append _ _
      split
      · exact hp
      · refine hp.trans ?_
        have := fun l' => loop_prefix env fuel l'
        exact this ⟨s, _, _, _, _⟩

/-- C138: if it is not issued, a run whose objective, surrogate and acquisition do not fail, that nobody stops and that has
no tolerance for the expected improvement evaluates at least one point proposed by the acquisition. -/
theorem C138_not_warned_search (env : Env d S) (hw : ¬ ∃ b k h, Warning.budget b k h ∈ boWarnings d env.maxIter env.nInit)
    (ho : ∀ c t, ∃ v, env.objective c t = .ok v) (hs : ∀ k, env.stop k = false) (hf : ∀ h, ∃ g, env.fit h = some g)
    (ha : ∀ g h, ∃ x, env.acquire g h = .ok x) (he : env.eiTol ≤ 0) :
    ∃ (g : S) (h : List (Eval d)) (u : Pos d) (ei : ℝ), h.length = (designSize d env.nInit env.maxIter).toNat ∧
      env.fit h = some g ∧ env.acquire g h = .ok (u, ei) ∧
      (bayesianOptimize env).1.calls[h.length]? = some (fromUnit env.tf u) := by
  rw [budget_mem, warnDesign_eq, not_le] at hw
  obtain ⟨s, hd⟩ := designLoop_runs env ho hs (designSize d env.nInit env.maxIter).toNat 0 ⟨[], 0, [], []⟩
  obtain ⟨inv, -, hl⟩ := (designLoop_inv env _ 0 ⟨[], 0, [], []⟩ (inv_init env) rfl s (.ok false) hd).2 false rfl
  have hl := hl rfl
  simp only [List.length_nil, Nat.zero_add] at hl
  have hn : 2 ≤ designSize d env.nInit env.maxIter := le_max_left _ _
  have hc := inv.recd.length
  obtain ⟨g, hg⟩ := hf s.hist
  obtain ⟨⟨u, ei⟩, hu⟩ := ha g s.hist
  refine ⟨g, s.hist, u, ei, hl, hg, hu, ?_⟩
  obtain ⟨k, hk⟩ : ∃ k, (env.maxIter - (s.hist.length : ℤ)).toNat = k + 1 :=
    ⟨(env.maxIter - (s.hist.length : ℤ)).toNat - 1, by omega⟩
  obtain ⟨s1, h1, -⟩ := evaluate_completes env ho { s with polls := s.polls + 1 } u s.hist.length
  have hs1 : s1.calls = s.calls ++ [fromUnit env.tf u] := by
    have := congrArg (fun x => x.1.calls) h1
    simp only [evaluate_prefix] at this
    exact this.symm
  have key : s1.calls <+: (bayesianOptimize env).1.calls := by
    have hlp : s1.calls <+: (loop env (k + 1) ⟨s, none, 0, bestOf s.hist, []⟩).1.st.calls := by
      rw [loop]
      simp only [refit, hg, hu, h1, hs, Bool.false_eq_true, if_false]
      rw [if_neg (by rw [not_not]; omega), if_neg (fun hh => absurd hh.1 (not_lt.2 he))]
      split
      · exact List.prefix_refl _
      · exact loop_prefix env k ⟨s1, _, _, _, _⟩
    unfold bayesianOptimize
    rw [hd]
    simp only [hk]
    cases hh : loop env (k + 1) ⟨s, none, 0, bestOf s.hist, []⟩ with
    | mk l r =>
      rw [hh] at hlp
      cases r with
      | error e => exact hlp
      | ok e => exact hlp
  obtain ⟨t, ht⟩ := key
  rw [← ht, hs1, List.append_assoc, ← hc, List.getElem?_append_right (Nat.le_refl _)]
  simp

/-- C138: the number of evaluations stated in the warning is the number of evaluations of the run, if the objective does not
fail and nobody stops it; it is the number of hyperparameters and the budget given that are stated beside it. -/
theorem C138_number (env : Env d S) (b k : ℤ) (n : ℕ) (hw : Warning.budget b k n ∈ boWarnings d env.maxIter env.nInit)
    (ho : ∀ c t, ∃ v, env.objective c t = .ok v) (hs : ∀ k, env.stop k = false) :
    b = env.maxIter ∧ n = d ∧ ((bayesianOptimize env).1.calls.length : ℤ) = k := by
  have hw' := (budget_mem d env.maxIter env.nInit).1 ⟨b, k, n, hw⟩
  have he : Warning.budget b k n = .budget env.maxIter (warnDesign d env.maxIter env.nInit) d := by
    unfold boWarnings at hw
    simp only [List.mem_append] at hw
    rcases hw with h | h
    · rw [if_pos hw', List.mem_singleton] at h
      exact h
    · split_ifs at h <;> simp at h
  injection he with e1 e2 e3
  refine ⟨e1, e3, ?_⟩
  rw [warnDesign_eq] at e2 hw'
  obtain ⟨s, hd⟩ := designLoop_runs env ho hs (designSize d env.nInit env.maxIter).toNat 0 ⟨[], 0, [], []⟩
  obtain ⟨inv, -, hl⟩ := (designLoop_inv env _ 0 ⟨[], 0, [], []⟩ (inv_init env) rfl s (.ok false) hd).2 false rfl
  have hl := hl rfl
  simp only [List.length_nil, Nat.zero_add] at hl
  have hn : 2 ≤ designSize d env.nInit env.maxIter := le_max_left _ _
  have hc := inv.recd.length
  unfold bayesianOptimize
  rw [hd]
  simp only
  rw [show (env.maxIter - (s.hist.length : ℤ)).toNat = 0 by omega]
  simp only [loop]
  omega

/-- C138: beyond ten hyperparameters there is exactly one warning about their number, up to ten there is none. -/
theorem C138_dimension (n : ℕ) (m : ℤ) (o : Option ℤ) :
    ((boWarnings n m o).filter fun w => match w with | .budget _ _ _ => false | _ => true) =
      if 20 < n then [.many n] else if 10 < n then [.edge n] else [] := by
  unfold boWarnings
  simp only [List.filter_append]
  split_ifs <;> rfl

/-- C138 is violated as to the advice: the number the warning says the design needs is cut at the budget. For every budget
and every factor there are a number of hyperparameters for which the warning states that exactly the budget is needed while
that many times the budget is consumed by the design as well. -/
theorem C138_advice_violated (m f : ℕ) (hm : 2 ≤ m) (hf : 1 ≤ f) :
    ∃ n, .budget m m n ∈ boWarnings n m none ∧
      .budget ((f * m : ℕ) : ℤ) ((f * m : ℕ) : ℤ) n ∈ boWarnings n ((f * m : ℕ) : ℤ) none := by
  have key : ∀ b : ℕ, 2 ≤ b → b ≤ f * m → .budget (b : ℤ) (b : ℤ) (f * m) ∈ boWarnings (f * m) (b : ℤ) none := by
    intro b h2 hb
    have hw : warnDesign (f * m) (b : ℤ) none = b := by
      have : (b : ℤ) ≤ ((f * m : ℕ) : ℤ) := by exact_mod_cast hb
      simp only [warnDesign, defaultInitialDesignSize]
      omega
    unfold boWarnings
    simp only [hw, List.mem_append]
    left
    rw [if_pos (le_refl _)]
    exact List.mem_singleton.2 rfl
  have hle : m ≤ f * m := Nat.le_mul_of_pos_left m hf
  exact ⟨f * m, key m hm hle, key (f * m) (hm.trans hle) (Nat.le_refl _)⟩

/-- C138: without `n_init` the warning comes exactly for budgets of at most `2(d+1)`, or of at most five for a single
hyperparameter. -/
theorem C138_default_threshold (n : ℕ) (m : ℤ) (hm : 2 ≤ m) :
    (∃ b k h, Warning.budget b k h ∈ boWarnings n m none) ↔ m ≤ max 5 (2 * ((n : ℤ) + 1)) := by
  rw [budget_mem]
  simp only [warnDesign, defaultInitialDesignSize]
  omega

/-- Forty hyperparameters and sixty evaluations, the last line of the table in the docstring: two warnings. -/
example : boWarnings 40 60 none = [.budget 60 60 40, .many 40] := by decide

/-- `demo` has a budget of seven and a design of three: no warning, and the fourth point is the acquisition's. -/
example : boWarnings 1 demo.maxIter demo.nInit = [] ∧
    (bayesianOptimize demo).1.calls[3]? = some (fromUnit demo.tf fun _ => 1 / ((3 : ℝ) + 2)) := by
  refine ⟨by decide, ?_⟩
  obtain ⟨g, h, u, ei, h1, -, h3, h4⟩ := C138_not_warned_search demo
    (by rw [budget_mem]; decide) (fun c t => ⟨_, rfl⟩) (fun _ => rfl) (fun _ => ⟨_, rfl⟩) (fun _ _ => ⟨_, rfl⟩) (le_refl _)
  have h5 : h.length = 3 := h1
  simp only [demo, Except.ok.injEq, Prod.mk.injEq] at h3
  rw [h5] at h4 h3
  rw [h4, ← h3.1]
  norm_num [demo]

/-- With the budget lowered to three the warning is issued and three points are evaluated whatever the surrogate. -/
example : (bayesianOptimize { demo with maxIter := 3 }).1.calls.length = 3 ∧
    bayesianOptimize (withSurrogate { demo with maxIter := 3 } (fun _ => (none : Option ℕ)) (fun _ _ => .error "no") fun _ _ => none) =
      bayesianOptimize { demo with maxIter := 3 } := by
  have hw : Warning.budget 3 3 1 ∈ boWarnings 1 ({ demo with maxIter := 3 } : Env 1 Unit).maxIter
      ({ demo with maxIter := 3 } : Env 1 Unit).nInit := by decide
  refine ⟨?_, C138_warned_no_search _ ⟨_, _, _, hw⟩ _ _ _⟩
  have := (C138_number _ 3 3 1 hw (fun c t => ⟨_, rfl⟩) (fun _ => rfl)).2.2
  exact_mod_cast this

end Verif.BO
