import Verif.BO.Props

/-! C100-C102: when Bayesian optimisation stops, what it then reports, and what the callback is told. -/

namespace Verif.BO

variable {d : ℕ} {S : Type}

/-- Everything that holds between two evaluations: `early_stop` was polled once per evaluation and said no; the callback was
called once per evaluation. -/
structure Running (env : Env d S) (s : St d) : Prop where
  polls : s.polls = s.calls.length
  go : ∀ k < s.calls.length, env.stop k = false
  len : s.hist.length = s.calls.length
  told : s.reports = (List.range s.hist.length).flatMap fun k => report (s.hist.take (k + 1)) k

/-- What holds whenever the run has ended, in whatever way. -/
def Polled (env : Env d S) (s : St d) : Prop :=
  s.calls.length ≤ s.polls ∧ s.polls ≤ s.calls.length + 1 ∧ ∀ k < s.calls.length, env.stop k = false

theorem Running.polled {env : Env d S} {s : St d} (h : Running env s) : Polled env s :=
  ⟨h.polls.ge, by have := h.polls; omega, h.go⟩

theorem Running.init (env : Env d S) : Running env ⟨[], 0, [], []⟩ :=
  ⟨rfl, fun k hk => absurd hk (by simp), rfl, rfl⟩

theorem Running.evaluate {env : Env d S} {s : St d} (h : Running env s) (hs : env.stop s.polls = false) (u : Pos d) (i : ℕ)
    (hi : i = s.hist.length) {s' : St d} {r : Except String Unit}
    (he : evaluate env { s with polls := s.polls + 1 } u i = (s', r)) :
    Polled env s' ∧ (r = .ok () → Running env s' ∧ s'.hist.length = s.hist.length + 1 ∧ s.hist <+: s'.hist) := by
  have hgo : ∀ k < s.calls.length + 1, env.stop k = false := by
    intro k hk
    rcases Nat.lt_succ_iff_lt_or_eq.1 hk with hk | rfl
    · exact h.go k hk
    · rw [← h.polls]; exact hs
  have hp := h.polls
  unfold BO.evaluate at he
  simp only at he
  split at he
  · simp only [Prod.mk.injEq] at he
    obtain ⟨rfl, rfl⟩ := he
    refine ⟨⟨by simp [hp], by simp [hp], by simpa using hgo⟩, by simp⟩
  · simp only [Prod.mk.injEq] at he
    obtain ⟨rfl, rfl⟩ := he
    refine ⟨⟨by simp [hp], by simp [hp], by simpa using hgo⟩, fun _ => ⟨⟨by simp [hp], by simpa using hgo, by simp [h.len], ?_⟩,
      by simp, List.prefix_append _ _⟩⟩
    simp only [List.length_append, List.length_singleton, List.range_succ, List.flatMap_append, List.flatMap_singleton]
    congr 1
    · rw [h.told]
      refine List.flatMap_congr fun k hk => ?_
      rw [List.take_append_of_le_length (by have := List.mem_range.1 hk; omega)]
    · rw [hi, List.take_of_length_le (by simp)]

/-- The design loop. -/
theorem designLoop_running (env : Env d S) : ∀ (k i : ℕ) (s : St d), Running env s → i = s.hist.length →
    ∀ s' r, designLoop env k i s = (s', r) →
      Polled env s' ∧
      (r = .ok false → Running env s' ∧ s'.hist.length = s.hist.length + k) ∧
      (r = .ok true → Running env { s' with polls := s'.polls - 1 } ∧ s'.polls = s'.calls.length + 1 ∧
        env.stop s'.calls.length = true ∧ s'.hist.length < s.hist.length + k)
  | 0, i, s, inv, hi, s', r, h => by
    simp only [designLoop, Prod.mk.injEq] at h
    obtain ⟨rfl, rfl⟩ := h
    exact ⟨inv.polled, fun _ => ⟨inv, rfl⟩, by simp⟩
  | k + 1, i, s, inv, hi, s', r, h => by
    rw [designLoop] at h
    have hp := inv.polls
    split at h
    · rename_i hs
      simp only [Prod.mk.injEq] at h
      obtain ⟨rfl, rfl⟩ := h
      refine ⟨⟨by simp [hp], by simp [hp], inv.go⟩, by simp, fun _ => ⟨?_, by simp [hp], ?_, by simp⟩⟩
      · exact ⟨by simp [hp], inv.go, inv.len, inv.told⟩
      · rw [← hp]; exact hs
    · rename_i hs
      have hs : env.stop s.polls = false := by simpa using hs
      split at h
      · rename_i s'' e he
        simp only [Prod.mk.injEq] at h
        obtain ⟨rfl, rfl⟩ := h
        exact ⟨(inv.evaluate hs _ i hi he).1, by simp, by simp⟩
      · rename_i s'' he
        obtain ⟨i1, i2, -⟩ := (inv.evaluate hs _ i hi he).2 rfl
        obtain ⟨j1, j2, j3⟩ := designLoop_running env k (i + 1) s'' i1 (by omega) s' r h
        refine ⟨j1, fun hb => ?_, fun hb => ?_⟩
        · obtain ⟨m1, m2⟩ := j2 hb; exact ⟨m1, by omega⟩
        · obtain ⟨m1, m2, m3, m4⟩ := j3 hb; exact ⟨m1, m2, m3, by omega⟩

/-! ### convergence -/

/-- `b` is the first entry of `h` with the smallest value. -/
def FirstBest (h : List (Eval d)) (b : Eval d) : Prop :=
  ∃ k : ℕ, h[k]? = some b ∧ (∀ e ∈ h, b.y ≤ e.y) ∧ ∀ j < k, ∀ e : Eval d, h[j]? = some e → b.y < e.y

theorem FirstBest.unique {h : List (Eval d)} {b b' : Eval d} (hb : FirstBest h b) (hb' : FirstBest h b') : b = b' := by
  obtain ⟨k, k1, k2, k3⟩ := hb
  obtain ⟨k', k1', k2', k3'⟩ := hb'
  rcases lt_trichotomy k k' with hk | rfl | hk
  · exact absurd (k2 b' (List.mem_of_getElem? k1')) (not_le.2 (k3' k hk b k1))
  · exact Option.some.inj (k1.symm.trans k1')
  · exact absurd (k2' b (List.mem_of_getElem? k1)) (not_le.2 (k3 k' hk b' k1'))

theorem firstBest_argmin {h : List (Eval d)} (hne : h ≠ []) : ∃ b, h[argmin h]? = some b ∧ FirstBest h b := by
  obtain ⟨b, h1, -, h3, h4⟩ := argmin_spec hne
  exact ⟨b, h1, argmin h, h1, h3, fun j hj e he => h4 j e hj he⟩

/-- Evaluation `n` (counted from zero) changed neither the best value, relative to the range `hi - lo` of the values seen (or to
its size when all are equal), nor the best place by more than the tolerances. -/
def Quiet (fRtol xTol : ℝ) (H : List (Eval d)) (n : ℕ) : Prop :=
  ∃ before after hi, FirstBest (H.take n) before ∧ FirstBest (H.take (n + 1)) after ∧
    IsGreatest {y | ∃ e ∈ H.take (n + 1), e.y = y} hi ∧
    (before.y - after.y) / (if hi - after.y > 0 then hi - after.y else max |after.y| 1) ≤ fRtol ∧
    Real.sqrt (∑ i, (after.u i - before.u i) ^ 2) ≤ xTol

theorem Quiet.append {f x : ℝ} {H H' : List (Eval d)} {n : ℕ} (hn : n < H.length) (hp : H <+: H') :
    Quiet f x H' n ↔ Quiet f x H n := by
  obtain ⟨t, rfl⟩ := hp
  unfold Quiet
  rw [List.take_append_of_le_length (by omega), List.take_append_of_le_length (by omega)]

theorem spread_spec {h : List (Eval d)} {b : Eval d} {hi : ℝ} (hb : FirstBest h b)
    (hh : IsGreatest {y | ∃ e ∈ h, e.y = y} hi) : spread h = hi - b.y := by
  obtain ⟨k, k1, k2, -⟩ := hb
  obtain ⟨⟨e, he, rfl⟩, hu⟩ := hh
  have h1 : (h.map Eval.y).max? = some e.y :=
    List.max?_eq_some_iff.2 ⟨List.mem_map_of_mem he, fun y hy => by
      obtain ⟨e', he', rfl⟩ := List.mem_map.1 hy
      exact hu ⟨e', he', rfl⟩⟩
  have h2 : (h.map Eval.y).min? = some b.y :=
    List.min?_eq_some_iff.2 ⟨List.mem_map_of_mem (List.mem_of_getElem? k1), fun y hy => by
      obtain ⟨e', he', rfl⟩ := List.mem_map.1 hy
      exact k2 e' he'⟩
  unfold spread
  rw [h1, h2]; rfl

theorem newStall_spec {f x : ℝ} {H : List (Eval d)} {n stall : ℕ} (hn : 0 < n) (hl : H.length = n + 1) :
    newStall f x H (bestOf (H.take n)) (bestOf H) stall = (open Classical in if Quiet f x H n then stall + 1 else 0) := by
  classical
  have hne : H ≠ [] := by intro e; rw [e] at hl; simp at hl
  have hne' : H.take n ≠ [] := by
    intro e
    have := congrArg List.length e
    simp only [List.length_take, List.length_nil] at this
    omega
  obtain ⟨b, h1, hb⟩ := firstBest_argmin hne'
  obtain ⟨a, h2, ha⟩ := firstBest_argmin hne
  have hH : H.take (n + 1) = H := List.take_of_length_le (by omega)
  obtain ⟨hi, hhi⟩ : ∃ hi, IsGreatest {y | ∃ e ∈ H, e.y = y} hi := by
    have : ∃ hi, (H.map Eval.y).max? = some hi := by
      cases hm : (H.map Eval.y).max? with
      | none => rw [List.max?_eq_none_iff, List.map_eq_nil_iff] at hm; exact absurd hm hne
      | some hi => exact ⟨hi, rfl⟩
    obtain ⟨hi, hm⟩ := this
    obtain ⟨h1, h2⟩ := List.max?_eq_some_iff.1 hm
    obtain ⟨e, he, rfl⟩ := List.mem_map.1 h1
    exact ⟨e.y, ⟨e, he, rfl⟩, by rintro _ ⟨e', he', rfl⟩; exact h2 _ (List.mem_map_of_mem he')⟩
  have hq : Quiet f x H n ↔ ((b.y - a.y) / (if hi - a.y > 0 then hi - a.y else max |a.y| 1) ≤ f ∧
      Real.sqrt (∑ i, (a.u i - b.u i) ^ 2) ≤ x) := by
    unfold Quiet
    rw [hH]
    constructor
    · rintro ⟨b', a', hi', q1, q2, q3, q4⟩
      rw [q1.unique hb, q2.unique ha, q3.unique hhi] at q4
      exact q4
    · intro h
      exact ⟨b, a, hi, hb, ha, hhi, h⟩
  simp only [newStall, bestOf, h1, h2, Option.map_some, spread_spec ha hhi, dist]
  by_cases h : Quiet f x H n
  · rw [if_pos h, if_pos (hq.1 h)]
  · rw [if_neg h, if_neg (fun h' => h (hq.2 h'))]

/-- The last `p` evaluations before number `m` were quiet and came after the design of `D` points. -/
def Settled (f x : ℝ) (H : List (Eval d)) (D p m : ℕ) : Prop :=
  D + p ≤ m ∧ ∀ n, m - p ≤ n → n < m → Quiet f x H n

/-- The stall counter is the number of quiet evaluations at the end of the history (not counting the design). -/
structure Stall (f x : ℝ) (D : ℕ) (H : List (Eval d)) (stall : ℕ) : Prop where
  fits : D + stall ≤ H.length
  quiet : ∀ n, H.length - stall ≤ n → n < H.length → Quiet f x H n
  full : D + stall < H.length → ¬ Quiet f x H (H.length - stall - 1)

theorem Stall.step {f x : ℝ} {D stall : ℕ} {H H' : List (Eval d)} (h : Stall f x D H stall) (hD : 0 < D)
    (hp : H <+: H') (hl : H'.length = H.length + 1) :
    Stall f x D H' (newStall f x H' (bestOf H) (bestOf H') stall) := by
  classical
  have hf := h.fits
  have hH : H = H'.take H.length := List.prefix_iff_eq_take.1 hp
  rw [show bestOf H = bestOf (H'.take H.length) by rw [← hH], newStall_spec (by omega) hl]
  by_cases hq : Quiet f x H' H.length
  · rw [if_pos hq]
    refine ⟨by omega, fun n h1 h2 => ?_, fun h1 => ?_⟩
    · rcases Nat.lt_or_ge n H.length with h3 | h3
      · exact (Quiet.append h3 hp).2 (h.quiet n (by omega) h3)
      · rwa [show n = H.length by omega]
    · rw [show H'.length - (stall + 1) - 1 = H.length - stall - 1 by omega, Quiet.append (by omega) hp]
      exact h.full (by omega)
  · rw [if_neg hq]
    refine ⟨by omega, fun n h1 h2 => by omega, fun _ => ?_⟩
    rwa [show H'.length - 0 - 1 = H.length by omega]

theorem Stall.settled {f x : ℝ} {D stall p : ℕ} {H : List (Eval d)} (h : Stall f x D H stall) :
    Settled f x H D p H.length ↔ p ≤ stall := by
  have hf := h.fits
  constructor
  · rintro ⟨h1, h2⟩
    by_contra hlt
    exact h.full (by omega) (h2 _ (by omega) (by omega))
  · intro hle
    exact ⟨by omega, fun n h1 h2 => h.quiet n (by omega) h2⟩

/-- The state of the main loop between iterations. -/
structure Looping (env : Env d S) (D : ℕ) (l : Loop d S) : Prop where
  run : Running env l.st
  prev : l.prev = bestOf l.st.hist
  stall : Stall env.fRtol env.xTol D l.st.hist l.stall
  open' : ∀ m ≤ l.st.hist.length, 0 < env.patience →
    ¬ Settled env.fRtol env.xTol l.st.hist D env.patience.toNat m

theorem Settled.append {f x : ℝ} {H H' : List (Eval d)} {D p m : ℕ} (hm : m ≤ H.length) (hp : H <+: H') :
    Settled f x H' D p m ↔ Settled f x H D p m := by
  unfold Settled
  constructor
  · rintro ⟨h1, h2⟩
    exact ⟨h1, fun n a b => (Quiet.append (by omega) hp).1 (h2 n a b)⟩
  · rintro ⟨h1, h2⟩
    exact ⟨h1, fun n a b => (Quiet.append (by omega) hp).2 (h2 n a b)⟩

/-- How a run that returned something ended: the flag, the reason, and what they say about the evaluations `H`, of which `D`
formed the initial design. -/
structure Truth (env : Env d S) (D : ℕ) (s : St d) (e : Ending) : Prop where
  stopped : e.1 = true ↔ ∃ k < s.polls, env.stop k = true
  converged : e.2 = "converged" ↔ 0 < env.patience ∧
    Settled env.fRtol env.xTol s.hist D env.patience.toNat s.hist.length
  notSooner : ∀ m < s.hist.length, 0 < env.patience → ¬ Settled env.fRtol env.xTol s.hist D env.patience.toNat m
  ei : e.2 = "ei_tolerance" → 0 < env.eiTol ∧ ∃ g u ei, env.acquire g s.hist = .ok (u, ei) ∧ ei < env.eiTol
  budget : e.1 = false → e.2 = "budget" → env.maxIter ≤ s.hist.length ∨ env.fit s.hist = none
  reasons : e.2 ∈ ["budget", "stopped", "ei_tolerance", "converged"]
  early : e.2 = "stopped" → e.1 = true
  told : s.reports = (List.range s.hist.length).flatMap fun k => report (s.hist.take (k + 1)) k

theorem refit_none {env : Env d S} {gp : Option S} {h : List (Eval d)} (hr : refit env gp h = none) : env.fit h = none := by
  unfold refit at hr
  split at hr
  · exact hr
  · split at hr
    · exact hr
    · cases hr

theorem Running.stop_iff {env : Env d S} {s : St d} (h : Running env s) : ¬ ∃ k < s.polls, env.stop k = true := by
  rintro ⟨k, hk, hs⟩
  rw [h.go k (h.polls ▸ hk)] at hs
  cases hs

theorem loop_truth (env : Env d S) (D : ℕ) (hD : 0 < D) : ∀ (fuel : ℕ) (l : Loop d S), Looping env D l →
    (env.maxIter - l.st.hist.length).toNat ≤ fuel →
    ∀ l' r, loop env fuel l = (l', r) → Polled env l'.st ∧ ∀ e, r = .ok e → Truth env D l'.st e
  | 0, l, inv, hf, l', r, h => by
    simp only [loop, Prod.mk.injEq] at h
    obtain ⟨rfl, rfl⟩ := h
    refine ⟨inv.run.polled, ?_⟩
    rintro _ ⟨⟩
    exact ⟨by simpa using inv.run.stop_iff, by simpa using inv.open' _ le_rfl, fun m hm => inv.open' m hm.le, by simp,
      fun _ _ => .inl (by omega), by simp, by simp, inv.run.told⟩
  | fuel + 1, l, inv, hf, l', r, h => by
    rw [loop] at h
    simp only at h
    have hpl := inv.run.polls
    split at h
    · simp only [Prod.mk.injEq] at h
      obtain ⟨rfl, rfl⟩ := h
      refine ⟨inv.run.polled, ?_⟩
      rintro _ ⟨⟩
      exact ⟨by simpa using inv.run.stop_iff, by simpa using inv.open' _ le_rfl, fun m hm => inv.open' m hm.le, by simp,
        fun _ _ => .inl (by omega), by simp, by simp, inv.run.told⟩
    rename_i hlt
    rw [not_not] at hlt
    split at h
    · rename_i hs
      simp only [Prod.mk.injEq] at h
      obtain ⟨rfl, rfl⟩ := h
      refine ⟨⟨by simp [hpl], by simp [hpl], inv.run.go⟩, ?_⟩
      rintro _ ⟨⟩
      exact ⟨by simpa using ⟨l.st.polls, by omega, hs⟩, by simpa using inv.open' _ le_rfl, fun m hm => inv.open' m hm.le,
        by simp, by simp, by simp, by simp, inv.run.told⟩
    rename_i hs
    have hs : env.stop l.st.polls = false := by simpa using hs
    have hpolled : Polled env { l.st with polls := l.st.polls + 1 } := ⟨by simp [hpl], by simp [hpl], inv.run.go⟩
    have hnot : ¬ ∃ k < l.st.polls + 1, env.stop k = true := by
      rintro ⟨k, hk, h1⟩
      rcases Nat.lt_succ_iff_lt_or_eq.1 hk with hk | rfl
      · exact inv.run.stop_iff ⟨k, hk, h1⟩
      · rw [hs] at h1; cases h1
    split at h
    · rename_i hr
      simp only [Prod.mk.injEq] at h
      obtain ⟨rfl, rfl⟩ := h
      refine ⟨hpolled, ?_⟩
      rintro _ ⟨⟩
      exact ⟨by simpa using hnot, by simpa using inv.open' _ le_rfl, fun m hm => inv.open' m hm.le, by simp,
        fun _ _ => .inr (refit_none hr), by simp, by simp, inv.run.told⟩
    split at h
    · simp only [Prod.mk.injEq] at h
      obtain ⟨rfl, rfl⟩ := h
      exact ⟨hpolled, by simp⟩
    rename_i g hg _ u ei ha
    split at h
    · rename_i hei
      simp only [Prod.mk.injEq] at h
      obtain ⟨rfl, rfl⟩ := h
      refine ⟨hpolled, ?_⟩
      rintro _ ⟨⟩
      exact ⟨by simpa using hnot, by simpa using inv.open' _ le_rfl, fun m hm => inv.open' m hm.le,
        fun _ => ⟨hei.1, g, u, ei, ha, hei.2⟩, by simp, by simp, by simp, inv.run.told⟩
    split at h
    · rename_i s e he
      simp only [Prod.mk.injEq] at h
      obtain ⟨rfl, rfl⟩ := h
      exact ⟨(inv.run.evaluate hs u _ rfl he).1, by simp⟩
    · rename_i s he
      obtain ⟨i1, i2, i3⟩ := (inv.run.evaluate hs u _ rfl he).2 rfl
      have hst := inv.stall.step hD i3 i2
      rw [← inv.prev] at hst
      have hsooner : ∀ m < s.hist.length, 0 < env.patience →
          ¬ Settled env.fRtol env.xTol s.hist D env.patience.toNat m := by
        intro m hm hp
        rw [Settled.append (by omega) i3]
        exact inv.open' m (by omega) hp
      split at h
      · rename_i hpat
        simp only [Prod.mk.injEq] at h
        obtain ⟨rfl, rfl⟩ := h
        refine ⟨i1.polled, ?_⟩
        rintro _ ⟨⟩
        exact ⟨by simpa using i1.stop_iff, by simpa using ⟨hpat.1, hst.settled.2 (by omega)⟩, hsooner, by simp, by simp,
          by simp, by simp, i1.told⟩
      · rename_i hpat
        refine loop_truth env D hD fuel _ ⟨i1, rfl, hst, fun m hm hp => ?_⟩ (by simp only; omega) l' r h
        rcases Nat.lt_or_ge m s.hist.length with h1 | h1
        · exact hsooner m h1 hp
        · simp only at hm
          rw [show m = s.hist.length by omega, hst.settled]
          intro hle
          exact hpat ⟨hp, by omega⟩

/-- The number of points of the initial design. -/
theorem design_pos (env : Env d S) : 2 ≤ (designSize d env.nInit env.maxIter).toNat := by
  have : 2 ≤ designSize d env.nInit env.maxIter := le_max_left _ _
  omega

theorem finish_ending {env : Env d S} {gp : Option S} {h : List (Eval d)} {e : Ending} {r : Result d}
    (hf : finish env gp h e = .ok r) : r.hist = h ∧ (r.stoppedEarly, r.reason) = e := by
  unfold finish at hf
  split at hf
  · cases hf
  · obtain rfl := Except.ok.inj hf
    exact ⟨rfl, rfl⟩

theorem run_truth (env : Env d S) : Polled env (bayesianOptimize env).1 ∧
    ∀ r, (bayesianOptimize env).2 = .ok r → r.hist = (bayesianOptimize env).1.hist ∧
      Truth env (designSize d env.nInit env.maxIter).toNat (bayesianOptimize env).1 (r.stoppedEarly, r.reason) := by
  have hD := design_pos env
  unfold bayesianOptimize
  cases hd : designLoop env (designSize d env.nInit env.maxIter).toNat 0 ⟨[], 0, [], []⟩ with
  | mk s1 r1 =>
  obtain ⟨d1, d2, d3⟩ := designLoop_running env _ 0 _ (Running.init env) rfl s1 r1 hd
  simp only [List.length_nil, zero_add] at d2 d3
  rcases r1 with e | b
  · exact ⟨d1, by simp⟩
  cases b
  · obtain ⟨i1, i2⟩ := d2 rfl
    simp only
    cases hl : loop env (env.maxIter - s1.hist.length).toNat ⟨s1, none, 0, bestOf s1.hist, []⟩ with
    | mk l r2 =>
    have hstart : Looping env (designSize d env.nInit env.maxIter).toNat ⟨s1, none, 0, bestOf s1.hist, []⟩ := by
      refine ⟨i1, rfl, ⟨by simp [i2], fun n h1 h2 => by simp only at h1 h2; omega, fun h1 => by simp [i2] at h1⟩, ?_⟩
      rintro m hm hp ⟨h1, -⟩
      simp only at hm
      omega
    obtain ⟨l1, l2⟩ := loop_truth env _ (by omega) _ _ hstart le_rfl l r2 hl
    rcases r2 with e | e
    · exact ⟨l1, by simp⟩
    · refine ⟨l1, fun r hr => ?_⟩
      obtain ⟨q1, q2⟩ := finish_ending hr
      exact ⟨q1, q2 ▸ l2 e rfl⟩
  · obtain ⟨i1, i2, i3, i4⟩ := d3 rfl
    refine ⟨d1, fun r hr => ?_⟩
    obtain ⟨q1, q2⟩ := finish_ending hr
    rw [q2]
    refine ⟨q1, ⟨by simpa using ⟨s1.calls.length, by omega, i3⟩, ?_, ?_, by simp, by simp, by simp, by simp, i1.told⟩⟩
    · simp only [show ("budget" : String) = "converged" ↔ False by decide, false_iff]
      rintro ⟨-, h1, -⟩
      omega
    · rintro m hm - ⟨h1, -⟩
      have hm : m < s1.hist.length := hm
      omega

/-! ### the properties -/

/-- **C100** (early stop). Once `early_stop` has answered yes at its poll number `k`, the objective is not evaluated again: it
was evaluated at most `k` times, whether the run returned or raised. -/
theorem C100_early_stop (env : Env d S) (k : ℕ) (h : env.stop k = true) : (bayesianOptimize env).1.calls.length ≤ k := by
  obtain ⟨-, -, h3⟩ := (run_truth env).1
  by_contra hk
  rw [h3 k (by omega)] at h
  cases h

/-- **C100** (flag). `stopped_early` is true exactly if `early_stop` answered yes; it is polled before every evaluation. -/
theorem C100_flag (env : Env d S) (r : Result d) (h : (bayesianOptimize env).2 = .ok r) :
    (r.stoppedEarly = true ↔ ∃ k < (bayesianOptimize env).1.polls, env.stop k = true) ∧
    r.hist.length ≤ (bayesianOptimize env).1.polls := by
  obtain ⟨h1, h2⟩ := (run_truth env).2 r h
  have h3 := (run_truth env).1.1
  have h4 := ((run_projections env).2 r h).1.recd.length
  exact ⟨h2.stopped, by rw [h1]; omega⟩

/-- **C101** (converged). The reported reason is "converged" exactly if each of the last `patience` evaluations, all after the
initial design, changed the best value and the best place by no more than the tolerances; and the search never went on past
such a point. -/
theorem C101_converged (env : Env d S) (r : Result d) (h : (bayesianOptimize env).2 = .ok r) :
    (r.reason = "converged" ↔ 0 < env.patience ∧ Settled env.fRtol env.xTol r.hist (designSize d env.nInit env.maxIter).toNat
      env.patience.toNat r.hist.length) ∧
    ∀ m < r.hist.length, 0 < env.patience →
      ¬ Settled env.fRtol env.xTol r.hist (designSize d env.nInit env.maxIter).toNat env.patience.toNat m := by
  obtain ⟨h1, h2⟩ := (run_truth env).2 r h
  rw [h1]
  exact ⟨h2.converged, h2.notSooner⟩

/-- **C101** (other reasons). There are four reasons. "ei_tolerance" is reported only if an acquisition value fell below a positive
tolerance; "budget" of a run that was not stopped only if the budget was used up or the surrogate could not be fitted. -/
theorem C101_reasons (env : Env d S) (r : Result d) (h : (bayesianOptimize env).2 = .ok r) :
    r.reason ∈ ["budget", "stopped", "ei_tolerance", "converged"] ∧
    (r.reason = "stopped" → r.stoppedEarly = true) ∧
    (r.reason = "ei_tolerance" → 0 < env.eiTol ∧ ∃ g u ei, env.acquire g r.hist = .ok (u, ei) ∧ ei < env.eiTol) ∧
    (r.stoppedEarly = false → r.reason = "budget" → env.maxIter ≤ r.hist.length ∨ env.fit r.hist = none) := by
  obtain ⟨h1, h2⟩ := (run_truth env).2 r h
  rw [h1]
  exact ⟨h2.reasons, h2.early, h2.ei, h2.budget⟩

/-- **C101** is violated when `early_stop` answers yes during the initial design: the run is flagged as stopped but the reported
reason is "budget". -/
theorem C101_design_stop_violated (env : Env d S) (ho : ∀ c t, ∃ v, env.objective c t = .ok v) (h0 : env.stop 0 = false)
    (h1 : env.stop 1 = true) : ∃ r, (bayesianOptimize env).2 = .ok r ∧ r.stoppedEarly = true ∧ r.reason = "budget" := by
  have hD := design_pos env
  obtain ⟨k, hk⟩ : ∃ k, (designSize d env.nInit env.maxIter).toNat = k + 2 :=
    ⟨(designSize d env.nInit env.maxIter).toNat - 2, by omega⟩
  obtain ⟨v, hv⟩ := ho [] (fromUnit env.tf (designPoint env 0))
  have hd : ∃ s, designLoop env (k + 2) 0 ⟨[], 0, [], []⟩ = (s, .ok true) ∧ s.hist ≠ [] := by
    rw [designLoop]
    simp only [h0, Bool.false_eq_true, if_false, evaluate, hv]
    rw [designLoop]
    simp only [zero_add, h1, if_true]
    exact ⟨_, rfl, by simp⟩
  obtain ⟨s, hs, hne⟩ := hd
  unfold bayesianOptimize
  rw [hk, hs]
  obtain ⟨b, m, hb, -⟩ := recommend_spec env none hne
  exact ⟨⟨b.theta, b.y, s.hist, true, "budget"⟩, by simp only [finish, hb], rfl, rfl⟩

/-- **C102** (callback). The callback is called once per evaluation; call `k` gets the best point among the first `k + 1`
evaluations, its value and the number `k`. -/
theorem C102_callback (env : Env d S) (r : Result d) (h : (bayesianOptimize env).2 = .ok r) :
    (bayesianOptimize env).1.reports.length = r.hist.length ∧
    ∀ k < r.hist.length, ∃ b, FirstBest (r.hist.take (k + 1)) b ∧
      (bayesianOptimize env).1.reports[k]? = some (b.theta, b.y, k) := by
  obtain ⟨h1, h2⟩ := (run_truth env).2 r h
  have hmap : ∃ g : ℕ → Pos d × ℝ × ℕ, (bayesianOptimize env).1.reports = (List.range r.hist.length).map g ∧
      ∀ k < r.hist.length, ∃ b, FirstBest (r.hist.take (k + 1)) b ∧ g k = (b.theta, b.y, k) := by
    have hk : ∀ k, ∃ p : Pos d × ℝ × ℕ, k < r.hist.length → report (r.hist.take (k + 1)) k = [p] ∧
        ∃ b, FirstBest (r.hist.take (k + 1)) b ∧ p = (b.theta, b.y, k) := by
      intro k
      by_cases hk : k < r.hist.length
      · have hne : r.hist.take (k + 1) ≠ [] := by
          intro e
          have := congrArg List.length e
          simp only [List.length_take, List.length_nil] at this
          omega
        obtain ⟨b, b1, b2⟩ := firstBest_argmin hne
        exact ⟨(b.theta, b.y, k), fun _ => ⟨by simp only [report, b1], b, b2, rfl⟩⟩
      · exact ⟨((fun _ => 0), 0, 0), fun h => absurd h hk⟩
    choose g hg using hk
    refine ⟨g, ?_, fun k hk => ?_⟩
    · rw [h2.told, ← h1, List.map_eq_flatMap]
      exact List.flatMap_congr fun k hk => (hg k (List.mem_range.1 hk)).1
    · obtain ⟨b, b1, b2⟩ := (hg k hk).2
      exact ⟨b, b1, b2⟩
  obtain ⟨g, g1, g2⟩ := hmap
  refine ⟨by rw [g1]; simp, fun k hk => ?_⟩
  obtain ⟨b, b1, b2⟩ := g2 k hk
  exact ⟨b, b1, by rw [g1, List.getElem?_map, List.getElem?_range hk]; simp [b2]⟩

/-- **C60** (noise). The noise variance kept with an evaluation is positive; it is the caller's fixed value (at least `1e-12`),
or what the noise function answered if that is positive, and unknown otherwise. -/
theorem C60_noise (env : Env d S) (r : Result d) (h : (bayesianOptimize env).2 = .ok r) (k : ℕ) (e : Eval d)
    (he : r.hist[k]? = some e) :
    (∀ v, e.v = some v → 0 < v) ∧
    (env.noise = .unknown → e.v = none) ∧
    (∀ v, env.noise = .fixed v → e.v = some (max v 1e-12)) ∧
    ∀ g, env.noise = .function g → ∃ answer, answer = g ((bayesianOptimize env).1.calls.take (k + 1)) e.theta ∧
      ∀ v, e.v = some v ↔ answer = some v ∧ 0 < v := by
  obtain ⟨inv, hh, -⟩ := (run_projections env).2 r h
  rw [hh] at he
  obtain ⟨val, -, -, -, -, h5⟩ := inv.recd.entry k e he
  rw [h5]
  refine ⟨?_, ?_, ?_, ?_⟩
  · intro v hv
    unfold noiseFor at hv
    split at hv
    · cases hv
    · rw [Option.some.injEq] at hv
      rw [← hv]
      exact lt_max_of_lt_right (by positivity)
    · split at hv
      · cases hv
      · split at hv
        · rename_i h1
          rw [Option.some.injEq] at hv
          rw [← hv]; exact h1
        · cases hv
  · intro hn; rw [hn]; rfl
  · intro v hn; rw [hn]; norm_num [noiseFor]
  · intro g hn
    refine ⟨_, rfl, fun v => ?_⟩
    rw [hn]
    simp only [noiseFor]
    cases g ((bayesianOptimize env).1.calls.take (k + 1)) e.theta with
    | none => simp
    | some w =>
      simp only [Option.some.injEq]
      split_ifs with h1
      · rw [Option.some.injEq]
        constructor
        · rintro rfl; exact ⟨rfl, h1⟩
        · rintro ⟨rfl, -⟩; rfl
      · constructor
        · intro h; cases h
        · rintro ⟨rfl, h⟩; exact absurd h h1

/-! ### concrete runs -/

/-- The hypotheses are met by the demonstration run. -/
example : ∃ r, (bayesianOptimize demo).2 = .ok r ∧ r.stoppedEarly = false ∧
    ((bayesianOptimize demo).1.reports.length = r.hist.length) := by
  obtain ⟨r, hr⟩ := C59_completes demo (fun c t => ⟨_, rfl⟩) (fun g h => ⟨_, rfl⟩) rfl
  refine ⟨r, hr, ?_, (C102_callback demo r hr).1⟩
  have := (C100_flag demo r hr).1
  cases hs : r.stoppedEarly with
  | false => rfl
  | true =>
    obtain ⟨k, -, h⟩ := this.1 hs
    cases h

/-- A search over `[1, 4]` whose objective is constant, with patience 2 and budget 100. -/
noncomputable def flat : Env 1 Unit :=
  { demo with maxIter := 100, patience := 2, objective := fun _ _ => .ok (some 1) }

theorem flat_quiet {r : Result 1} (h : (bayesianOptimize flat).2 = .ok r) (n : ℕ) (h1 : 0 < n) (h2 : n < r.hist.length) :
    Quiet flat.fRtol flat.xTol r.hist n := by
  have hy : ∀ e ∈ r.hist, e.y = 1 := by
    intro e he
    obtain ⟨inv, hh, -⟩ := (run_projections flat).2 r h
    rw [hh] at he
    obtain ⟨k, hk⟩ := List.getElem?_of_mem he
    obtain ⟨val, -, -, q3, q4, -⟩ := inv.recd.entry k e hk
    rw [show flat.objective _ e.theta = .ok (some 1) from rfl, Except.ok.injEq] at q3
    rw [q4, ← q3]; rfl
  obtain ⟨b, l, hb⟩ : ∃ b l, r.hist = b :: l := by
    cases hr : r.hist with
    | nil => rw [hr] at h2; simp at h2
    | cons b l => exact ⟨b, l, rfl⟩
  have hfirst : ∀ m, FirstBest (r.hist.take (m + 1)) b := by
    intro m
    refine ⟨0, by rw [hb]; rfl, fun e he => ?_, fun j hj => by omega⟩
    rw [hy b (by rw [hb]; simp), hy e (List.mem_of_mem_take he)]
  obtain ⟨m, rfl⟩ : ∃ m, n = m + 1 := ⟨n - 1, by omega⟩
  refine ⟨b, b, 1, hfirst m, hfirst (m + 1), ⟨⟨b, by rw [hb]; simp, hy b (by rw [hb]; simp)⟩, ?_⟩, ?_, ?_⟩
  · rintro _ ⟨e, he, rfl⟩
    exact (hy e (List.mem_of_mem_take he)).le
  · rw [sub_self, zero_div]; norm_num [flat, demo]
  · simp [flat, demo]

/-- It converges after the design of three points and two quiet evaluations. -/
example : ∃ r, (bayesianOptimize flat).2 = .ok r ∧ r.reason = "converged" ∧ r.hist.length = 5 := by
  obtain ⟨r, hr⟩ := C59_completes flat (fun c t => ⟨_, rfl⟩) (fun g h => ⟨_, rfl⟩) rfl
  have hD : (designSize 1 flat.nInit flat.maxIter).toNat = 3 := by decide
  have hpos : 0 < flat.patience := by decide
  have hp : flat.patience.toNat = 2 := by decide
  obtain ⟨c1, c2⟩ := C101_converged flat r hr
  rw [hD, hp] at c1 c2
  have hle : r.hist.length ≤ 5 := by
    by_contra hlt
    exact c2 5 (by omega) hpos ⟨le_rfl, fun n a b => flat_quiet hr n (by omega) (by omega)⟩
  have hns : r.stoppedEarly = false := by
    cases hs : r.stoppedEarly with
    | false => rfl
    | true =>
      obtain ⟨k, -, h⟩ := (C100_flag flat r hr).1.1 hs
      cases h
  obtain ⟨m1, m2, m3, m4⟩ := C101_reasons flat r hr
  have hc : r.reason = "converged" := by
    simp only [List.mem_cons, List.not_mem_nil, or_false] at m1
    rcases m1 with m | m | m | m
    · rcases m4 hns m with q | q
      · have : (100 : ℤ) ≤ r.hist.length := q
        omega
      · cases q
    · rw [m2 m] at hns; cases hns
    · exact absurd (m3 m).1 (lt_irrefl _)
    · exact m
  have := (c1.1 hc).2.1
  exact ⟨r, hr, hc, by omega⟩

/-- A search stopped at the third poll makes two evaluations. -/
example : (bayesianOptimize { demo with stop := fun k => decide (k = 2) }).1.calls.length ≤ 2 :=
  C100_early_stop _ 2 (by simp)

/-- The demonstration run with a noise function that answers zero at first and two later. -/
noncomputable def noisyDemo : Env 1 Unit :=
  { demo with noise := .function fun c _ => if c.length = 1 then some 0 else some 2 }

/-- The first evaluation's noise is then unknown. -/
example : ∃ r e, (bayesianOptimize noisyDemo).2 = .ok r ∧ r.hist[0]? = some e ∧ e.v = none := by
  obtain ⟨r, h⟩ := C59_completes noisyDemo (fun c t => ⟨_, rfl⟩) (fun g h => ⟨_, rfl⟩) rfl
  obtain ⟨inv, hh, b, -, hb, -⟩ := (run_projections noisyDemo).2 r h
  rw [← hh] at hb
  have h0 : 0 < r.hist.length := List.length_pos_of_mem hb
  refine ⟨r, r.hist[0], h, List.getElem?_eq_getElem h0, ?_⟩
  obtain ⟨h1, -, -, h4⟩ := C60_noise noisyDemo r h 0 _ (List.getElem?_eq_getElem h0)
  obtain ⟨a, ha, h5⟩ := h4 _ rfl
  cases hv : (r.hist[0]).v with
  | none => rfl
  | some v =>
    obtain ⟨q1, q2⟩ := (h5 v).1 hv
    have hlen : ((bayesianOptimize noisyDemo).1.calls.take (0 + 1)).length = 1 := by
      have h6 := inv.recd.length
      rw [← hh] at h6
      simp only [List.length_take]
      omega
    rw [ha] at q1
    simp only [hlen, if_true, Option.some.injEq] at q1
    rw [← q1] at q2
    exact absurd q2 (lt_irrefl _)

end Verif.BO
