import Verif.BO.Model

/-!
Invariants of the Bayesian-optimisation loop.
-/

namespace Verif.BO

variable {d : ℕ} {S : Type}

/-- The history and the objective's arguments belong together: entry `k` was produced by call `k`. -/
inductive Recorded (env : Env d S) : List (Pos d) → List (Eval d) → Prop
  | nil : Recorded env [] []
  | snoc {calls h u val} : Recorded env calls h → env.objective calls (fromUnit env.tf u) = .ok val →
      Recorded env (calls ++ [fromUnit env.tf u])
        (h ++ [⟨u, fromUnit env.tf u, stored val,
          noiseFor env.noise (calls ++ [fromUnit env.tf u]) (fromUnit env.tf u)⟩])

/-- The callback was told the best point so far after each evaluation. -/
def Reported (s : St d) : Prop :=
  ∀ r ∈ s.reports, ∃ h b, h <+: s.hist ∧ h[argmin h]? = some b ∧ r.1 = b.theta ∧ r.2.1 = b.y

/-- Everything that holds between evaluations. -/
structure Inv (env : Env d S) (s : St d) : Prop where
  recd : Recorded env s.calls s.hist
  first : ∀ t, s.calls.head? = some t → t = fromUnit env.tf (toUnit env.tf env.init)
  rep : Reported s

theorem Recorded.length {env : Env d S} {c : List (Pos d)} {h : List (Eval d)} (r : Recorded env c h) :
    c.length = h.length := by
  induction r with
  | nil => rfl
  | snoc _ _ ih => simp [ih]

theorem Recorded.thetas {env : Env d S} {c : List (Pos d)} {h : List (Eval d)} (r : Recorded env c h) :
    h.map Eval.theta = c := by
  induction r with
  | nil => rfl
  | snoc _ _ ih => simp [ih]

theorem Recorded.entry {env : Env d S} {c : List (Pos d)} {h : List (Eval d)} (r : Recorded env c h) :
    ∀ k e, h[k]? = some e → ∃ val, c[k]? = some e.theta ∧ e.theta = fromUnit env.tf e.u ∧
      env.objective (c.take k) e.theta = .ok val ∧ e.y = stored val ∧
      e.v = noiseFor env.noise (c.take (k + 1)) e.theta := by
  induction r with
  | nil => intro k e he; simp at he
  | @snoc calls h u val r ho ih =>
    intro k e he
    have hl := r.length
    rcases lt_trichotomy k h.length with hk | hk | hk
    · rw [List.getElem?_append_left hk] at he
      obtain ⟨v, h1, h2, h3, h4, h5⟩ := ih k e he
      refine ⟨v, ?_, h2, ?_, h4, ?_⟩
      · rw [List.getElem?_append_left (by omega)]; exact h1
      · rw [List.take_append_of_le_length (by omega)]; exact h3
      · rw [List.take_append_of_le_length (by omega)]; exact h5
    · subst hk
      rw [List.getElem?_concat_length] at he
      obtain rfl := Option.some.inj he
      refine ⟨val, ?_, rfl, ?_, rfl, ?_⟩
      · rw [← hl, List.getElem?_concat_length]
      · rw [← hl, List.take_left']
        · exact ho
        · rfl
      · rw [← hl, List.take_of_length_le (by simp)]
    · rw [List.getElem?_eq_none (by simp; omega)] at he
      cases he

theorem evaluate_calls (env : Env d S) (s : St d) (u : Pos d) (i : ℕ) :
    (evaluate env s u i).1.calls.length = s.calls.length + 1 := by
  unfold evaluate
  simp only
  split <;> simp

theorem evaluate_ok {env : Env d S} {s s' : St d} {u : Pos d} {i : ℕ} (inv : Inv env s)
    (hf : s.calls = [] → u = toUnit env.tf env.init) (h : evaluate env s u i = (s', .ok ())) :
    Inv env s' ∧ s'.hist.length = s.hist.length + 1 ∧ s'.calls ≠ [] := by
  unfold evaluate at h
  simp only at h
  split at h
  · simp at h
  · rename_i val ho
    simp only [Prod.mk.injEq, and_true] at h
    subst h
    refine ⟨⟨Recorded.snoc inv.recd ho, ?_, ?_⟩, by simp, by simp⟩
    · intro t ht
      cases hc : s.calls with
      | nil =>
        simp only [hc, List.nil_append, List.head?_cons, Option.some.injEq] at ht
        rw [← ht, hf hc]
      | cons a l =>
        apply inv.first
        simpa [hc] using ht
    · intro r hr
      rw [List.mem_append] at hr
      rcases hr with hr | hr
      · obtain ⟨h', b, h1, h2⟩ := inv.rep r hr
        exact ⟨h', b, h1.trans (List.prefix_append _ _), h2⟩
      · unfold report at hr
        split at hr
        · rename_i b hb
          rw [List.mem_singleton] at hr
          exact ⟨_, b, List.prefix_refl _, hb, by rw [hr], by rw [hr]⟩
        · cases hr

theorem Inv.poll {env : Env d S} {s : St d} (inv : Inv env s) (p : ℕ) : Inv env { s with polls := p } :=
  ⟨inv.recd, inv.first, inv.rep⟩

/-- The design loop. -/
theorem designLoop_inv (env : Env d S) : ∀ (k i : ℕ) (s : St d), Inv env s → i = s.hist.length →
    ∀ s' r, designLoop env k i s = (s', r) →
      s'.calls.length ≤ s.hist.length + k ∧
      ∀ b, r = .ok b → Inv env s' ∧ s'.hist.length ≤ s.hist.length + k ∧
        (b = false → s'.hist.length = s.hist.length + k)
  | 0, i, s, inv, hi, s', r, h => by
    simp only [designLoop, Prod.mk.injEq] at h
    obtain ⟨rfl, rfl⟩ := h
    have := inv.recd.length
    exact ⟨by omega, fun b _ => ⟨inv, by omega, fun _ => by omega⟩⟩
  | k + 1, i, s, inv, hi, s', r, h => by
    have hl := inv.recd.length
    rw [designLoop] at h
    split at h
    · simp only [Prod.mk.injEq] at h
      obtain ⟨rfl, rfl⟩ := h
      refine ⟨by simp only; omega, fun b hb => ⟨inv.poll _, by simp only; omega, fun hb' => ?_⟩⟩
      simp only [Except.ok.injEq] at hb
      rw [hb'] at hb; cases hb
    · split at h
      · rename_i s'' e he
        simp only [Prod.mk.injEq] at h
        obtain ⟨rfl, rfl⟩ := h
        have := evaluate_calls env { s with polls := s.polls + 1 } (designPoint env i) i
        rw [he] at this
        simp only at this
        exact ⟨by omega, fun b hb => by cases hb⟩
      · rename_i s'' he
        have h0 : ({ s with polls := s.polls + 1 } : St d).calls = [] → designPoint env i = toUnit env.tf env.init := by
          intro hc
          have : s.calls = [] := hc
          rw [this] at hl
          simp only [List.length_nil] at hl
          simp [designPoint, hi, ← hl]
        obtain ⟨i1, i2, _⟩ := evaluate_ok (inv.poll _) h0 he
        simp only at i2
        obtain ⟨j1, j2⟩ := designLoop_inv env k (i + 1) s'' i1 (by omega) s' r h
        refine ⟨by omega, fun b hb => ?_⟩
        obtain ⟨m1, m2, m3⟩ := j2 b hb
        exact ⟨m1, by omega, fun hb' => by have := m3 hb'; omega⟩

/-- The main loop. -/
theorem loop_inv (env : Env d S) : ∀ (fuel : ℕ) (l : Loop d S), Inv env l.st → l.st.calls ≠ [] →
    ∀ l' r, loop env fuel l = (l', r) →
      l'.st.calls.length ≤ l.st.hist.length + (env.maxIter - l.st.hist.length).toNat ∧
      ∀ e, r = .ok e → Inv env l'.st ∧ l'.st.calls ≠ []
  | 0, l, inv, hne, l', r, h => by
    simp only [loop, Prod.mk.injEq] at h
    obtain ⟨rfl, rfl⟩ := h
    have := inv.recd.length
    exact ⟨by omega, fun _ _ => ⟨inv, hne⟩⟩
  | fuel + 1, l, inv, hne, l', r, h => by
    have hl := inv.recd.length
    rw [loop] at h
    simp only at h
    split at h
    · simp only [Prod.mk.injEq] at h
      obtain ⟨rfl, rfl⟩ := h
      exact ⟨by omega, fun _ _ => ⟨inv, hne⟩⟩
    rename_i hlt
    rw [not_not] at hlt
    split at h
    · simp only [Prod.mk.injEq] at h
      obtain ⟨rfl, rfl⟩ := h
      exact ⟨by simp only; omega, fun _ _ => ⟨inv.poll _, hne⟩⟩
    split at h
    · simp only [Prod.mk.injEq] at h
      obtain ⟨rfl, rfl⟩ := h
      exact ⟨by simp only; omega, fun _ _ => ⟨inv.poll _, hne⟩⟩
    split at h
    · simp only [Prod.mk.injEq] at h
      obtain ⟨rfl, rfl⟩ := h
      exact ⟨by simp only; omega, fun _ hh => by cases hh⟩
    split at h
    · simp only [Prod.mk.injEq] at h
      obtain ⟨rfl, rfl⟩ := h
      exact ⟨by simp only; omega, fun _ _ => ⟨inv.poll _, hne⟩⟩
    split at h
    · rename_i s e he
      simp only [Prod.mk.injEq] at h
      obtain ⟨rfl, rfl⟩ := h
      have := congrArg (fun x => x.1.calls.length) he
      simp only [evaluate_calls] at this
      exact ⟨by simp only; omega, fun _ hh => by cases hh⟩
    · rename_i s he
      obtain ⟨i1, i2, i3⟩ := evaluate_ok (inv.poll (l.st.polls + 1)) (fun hc => absurd hc hne) he
      simp only at i2
      have hl' := i1.recd.length
      split at h
      · simp only [Prod.mk.injEq] at h
        obtain ⟨rfl, rfl⟩ := h
        exact ⟨by simp only; omega, fun _ _ => ⟨i1, i3⟩⟩
      · obtain ⟨j1, j2⟩ := loop_inv env fuel _ i1 i3 l' r h
        simp only at j1
        exact ⟨by omega, j2⟩

/-- More fuel than evaluations left changes nothing: `loop` is the Python `while` loop. -/
theorem loop_fuel (env : Env d S) : ∀ (fuel fuel' : ℕ) (l : Loop d S), l.st.calls ≠ [] → Inv env l.st →
    (env.maxIter - l.st.hist.length).toNat ≤ fuel → fuel ≤ fuel' → loop env fuel' l = loop env fuel l
  | 0, fuel', l, hne, inv, h, _ => by
    cases fuel' with
    | zero => rfl
    | succ n =>
      rw [loop, loop, if_pos (by omega)]
  | fuel + 1, fuel', l, hne, inv, h, hle => by
    obtain ⟨n, rfl⟩ : ∃ n, fuel' = n + 1 := ⟨fuel' - 1, by omega⟩
    rw [loop, loop]
    simp only
    split
    · rfl
    rename_i hlt
    rw [not_not] at hlt
    split
    · rfl
    split
    · rfl
    split
    · rfl
    split
    · rfl
    split
    · rfl
    · rename_i s he
      obtain ⟨i1, i2, i3⟩ := evaluate_ok (inv.poll (l.st.polls + 1)) (fun hc => absurd hc hne) he
      simp only at i2
      split
      · rfl
      · refine loop_fuel env fuel n _ i3 i1 ?_ (by omega)
        show (env.maxIter - s.hist.length).toNat ≤ fuel
        omega

/-! ## the recommendation -/

theorem argmin_spec {h : List (Eval d)} (hne : h ≠ []) :
    ∃ b, h[argmin h]? = some b ∧ b ∈ h ∧ (∀ e ∈ h, b.y ≤ e.y) ∧
      ∀ k e, k < argmin h → h[k]? = some e → b.y < e.y := by
  have hmin : ∃ b ∈ h, ∀ e ∈ h, b.y ≤ e.y := by
    induction h with
    | nil => exact absurd rfl hne
    | cons a l ih =>
      by_cases hl : l = []
      · exact ⟨a, by simp, by simp [hl]⟩
      · obtain ⟨b, hb, hm⟩ := ih hl
        by_cases hab : a.y ≤ b.y
        · exact ⟨a, by simp, fun e he => by
            rcases List.mem_cons.1 he with rfl | he
            · exact le_rfl
            · exact hab.trans (hm e he)⟩
        · exact ⟨b, by simp [hb], fun e he => by
            rcases List.mem_cons.1 he with rfl | he
            · exact le_of_lt (not_le.1 hab)
            · exact hm e he⟩
  obtain ⟨b0, hb0, hm0⟩ := hmin
  have hlt : argmin h < h.length := by
    unfold argmin
    exact List.findIdx_lt_length_of_exists ⟨b0, hb0, by simpa using hm0⟩
  refine ⟨h[argmin h], List.getElem?_eq_getElem hlt, List.getElem_mem hlt, ?_, ?_⟩
  · have := List.findIdx_getElem (p := fun e : Eval d => @decide (∀ e' ∈ h, e.y ≤ e'.y) (Classical.dec _))
      (xs := h) (w := hlt)
    simp only [decide_eq_true_eq] at this
    exact this
  · intro k e hk he
    have hb : ∀ e ∈ h, h[argmin h].y ≤ e.y := by
      have := List.findIdx_getElem (p := fun e : Eval d => @decide (∀ e' ∈ h, e.y ≤ e'.y) (Classical.dec _))
        (xs := h) (w := hlt)
      simp only [decide_eq_true_eq] at this
      exact this
    have hn := List.not_of_lt_findIdx (p := fun e : Eval d => @decide (∀ e' ∈ h, e.y ≤ e'.y) (Classical.dec _))
      (xs := h) (i := k) hk
    have hke : h[k]'(by omega) = e := by
      rw [List.getElem?_eq_getElem (by omega)] at he
      exact Option.some.inj he
    have hn' : ¬ ∀ e' ∈ h, e.y ≤ e'.y := by
      rw [← hke]
      simpa using hn
    by_contra hcon
    exact hn' fun e' he' => (not_lt.1 hcon).trans (hb e' he')

/-- The recommended entry: it is in the history, and it is the smallest one unless noise was reported, in which case it
is within three standard deviations of the smallest. -/
theorem recommend_spec (env : Env d S) (gp : Option S) {h : List (Eval d)} (hne : h ≠ []) :
    ∃ b m, h[recommend env gp h]? = some b ∧ b ∈ h ∧ m ∈ h ∧ (∀ e ∈ h, m.y ≤ e.y) ∧
      (known h = [] → b = m) ∧ b.y ≤ m.y + 3 * Real.sqrt (noiseVar h) := by
  obtain ⟨m, hm, hmem, hmin, -⟩ := argmin_spec hne
  have base : ∃ b m, h[argmin h]? = some b ∧ b ∈ h ∧ m ∈ h ∧ (∀ e ∈ h, m.y ≤ e.y) ∧
      (known h = [] → b = m) ∧ b.y ≤ m.y + 3 * Real.sqrt (noiseVar h) :=
    ⟨m, m, hm, hmem, hmem, hmin, fun _ => rfl, by have := Real.sqrt_nonneg (noiseVar h); linarith⟩
  unfold recommend
  split
  · exact base
  split
  · rename_i hk
    split
    · exact base
    split
    · rename_i c b hc hb
      split
      · rename_i hle
        rw [hm] at hb
        obtain rfl := Option.some.inj hb
        exact ⟨c, m, hc, List.mem_of_getElem? hc, hmem, hmin, fun hn => absurd hn hk.1, hle⟩
      · exact base
    · exact base
  · exact base

theorem finish_ok {env : Env d S} {gp : Option S} {h : List (Eval d)} {e : Ending} {r : Result d}
    (hf : finish env gp h e = .ok r) :
    ∃ b m, b ∈ h ∧ m ∈ h ∧ r.x = b.theta ∧ r.fx = b.y ∧ r.hist = h ∧ (∀ e ∈ h, m.y ≤ e.y) ∧
      (known h = [] → b = m) ∧ b.y ≤ m.y + 3 * Real.sqrt (noiseVar h) := by
  unfold finish at hf
  split at hf
  · cases hf
  · rename_i b hb
    have hne : h ≠ [] := by
      intro h0; rw [h0] at hb; simp at hb
    obtain ⟨b', m, h1, h2, h3, h4, h5, h6⟩ := recommend_spec env gp hne
    rw [hb] at h1
    obtain rfl := Option.some.inj h1
    obtain rfl := Except.ok.inj hf
    exact ⟨b, m, h2, h3, rfl, rfl, rfl, h4, h5, h6⟩

theorem inv_init (env : Env d S) : Inv env ⟨[], 0, [], []⟩ :=
  ⟨.nil, fun t h => by simp at h, fun r h => by simp at h⟩

/-- What is known about a run. -/
theorem run_spec (env : Env d S) (s : St d) (res : Except String (Result d)) (h : bayesianOptimize env = (s, res)) :
    (s.calls.length : ℤ) ≤ max 2 env.maxIter ∧
    ∀ r, res = .ok r → Inv env s ∧ r.hist = s.hist ∧
      ∃ b m, b ∈ s.hist ∧ m ∈ s.hist ∧ r.x = b.theta ∧ r.fx = b.y ∧ (∀ e ∈ s.hist, m.y ≤ e.y) ∧
        (known s.hist = [] → b = m) ∧ b.y ≤ m.y + 3 * Real.sqrt (noiseVar s.hist) := by
  have hn : 2 ≤ designSize d env.nInit env.maxIter := le_max_left _ _
  have hn2 : designSize d env.nInit env.maxIter ≤ max 2 env.maxIter :=
    max_le_max le_rfl (min_le_right _ _)
  unfold bayesianOptimize at h
  cases hd : designLoop env (designSize d env.nInit env.maxIter).toNat 0 ⟨[], 0, [], []⟩ with
  | mk s1 r1 =>
  obtain ⟨d1, d2⟩ := designLoop_inv env _ 0 _ (inv_init env) rfl s1 r1 hd
  simp only [List.length_nil, zero_add] at d1 d2
  rw [hd] at h
  rcases r1 with e | b
  · simp only [Prod.mk.injEq] at h
    obtain ⟨rfl, rfl⟩ := h
    exact ⟨by omega, fun r hr => by cases hr⟩
  obtain ⟨i1, i2, i3⟩ := d2 b rfl
  cases b
  · simp only at h
    have hlen := i3 rfl
    have hll := i1.recd.length
    have hne : s1.calls ≠ [] := by
      intro h0
      rw [h0] at hll
      simp only [List.length_nil] at hll
      omega
    cases hl : loop env (env.maxIter - s1.hist.length).toNat ⟨s1, none, 0, bestOf s1.hist, []⟩ with
    | mk l r2 =>
    obtain ⟨l1, l2⟩ := loop_inv env _ ⟨s1, none, 0, bestOf s1.hist, []⟩ i1 hne l r2 hl
    simp only at l1
    rw [hl] at h
    rcases r2 with e | e
    · simp only [Prod.mk.injEq] at h
      obtain ⟨rfl, rfl⟩ := h
      exact ⟨by omega, fun r hr => by cases hr⟩
    · simp only [Prod.mk.injEq] at h
      obtain ⟨rfl, rfl⟩ := h
      refine ⟨by omega, fun r hr => ?_⟩
      obtain ⟨b, m, q1, q2, q3, q4, q5, q6, q7, q8⟩ := finish_ok hr
      exact ⟨(l2 e rfl).1, q5, b, m, q1, q2, q3, q4, q6, q7, q8⟩
  · simp only [Prod.mk.injEq] at h
    obtain ⟨rfl, rfl⟩ := h
    refine ⟨by omega, fun r hr => ?_⟩
    obtain ⟨b, m, q1, q2, q3, q4, q5, q6, q7, q8⟩ := finish_ok hr
    exact ⟨i1, q5, b, m, q1, q2, q3, q4, q6, q7, q8⟩

theorem run_projections (env : Env d S) :
    ((bayesianOptimize env).1.calls.length : ℤ) ≤ max 2 env.maxIter ∧
    ∀ r, (bayesianOptimize env).2 = .ok r → Inv env (bayesianOptimize env).1 ∧ r.hist = (bayesianOptimize env).1.hist ∧
      ∃ b m, b ∈ (bayesianOptimize env).1.hist ∧ m ∈ (bayesianOptimize env).1.hist ∧ r.x = b.theta ∧ r.fx = b.y ∧
        (∀ e ∈ (bayesianOptimize env).1.hist, m.y ≤ e.y) ∧ (known (bayesianOptimize env).1.hist = [] → b = m) ∧
        b.y ≤ m.y + 3 * Real.sqrt (noiseVar (bayesianOptimize env).1.hist) := by
  cases h : bayesianOptimize env with
  | mk s res => exact run_spec env s res h

end Verif.BO
