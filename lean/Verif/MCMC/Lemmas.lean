import Verif.MCMC.Model
import Mathlib.Data.List.GetD
import Mathlib.Tactic.Linarith
import Mathlib.Tactic.NormNum
import Mathlib.Tactic.Positivity

/-! Invariants of the sampler's loops. -/

namespace Verif.MCMC

variable {d : ℕ} {f : Pos d → Option ℝ} {prior : Pos d → WithBot ℝ} {w : Draws d} {brk : Trace d → Bool}

/-- The two outcomes of `_jump`. -/
theorem jump_cases {auto : Bool} {s s' : Chain d} {xStar : Pos d} {u jt : ℝ}
    (h : jump f prior auto s xStar u = .ok (s', jt)) :
    (s' = s ∧ jt = 0) ∨ (∃ ps ls : ℝ, prior xStar = some ps ∧ f xStar = some ls ∧ s' = ⟨xStar, some ps, some ls⟩ ∧ jt = 1 ∧
      (metrRatio ps ls s.prior s.lik > u ∨ auto = true)) := by
  unfold jump at h
  cases hp : prior xStar with
  | bot => rw [hp] at h; simp only [Except.ok.injEq, Prod.mk.injEq] at h; exact .inl ⟨h.1.symm, h.2.symm⟩
  | coe ps =>
    rw [hp] at h
    cases hf : f xStar with
    | none => rw [hf] at h; simp at h
    | some ls =>
      rw [hf] at h
      simp only at h
      split_ifs at h with hc
      · simp only [Except.ok.injEq, Prod.mk.injEq] at h
        exact .inr ⟨ps, ls, rfl, rfl, h.1.symm, h.2.symm, hc⟩
      · simp only [Except.ok.injEq, Prod.mk.injEq] at h
        exact .inl ⟨h.1.symm, h.2.symm⟩

theorem sweep_cons {i j : ℕ} {xs : List (Pos d)} {s s' : Chain d} {o : Proposal d} {os os' : List (Proposal d)}
    (h : sweep f prior w i xs j s (o :: os) = .ok (s', os')) :
    ∃ xStar s1 jt o1 os1, propose w i j o s.x = .ok xStar ∧ jump f prior o.autoAccept s xStar (w.u i j) = .ok (s1, jt) ∧
      adapt { o with jumpTrace := o.jumpTrace ++ [jt] } i xs = .ok o1 ∧
      sweep f prior w i xs (j + 1) s1 os = .ok (s', os1) ∧ os' = o1 :: os1 := by
  simp only [sweep, bind, Except.bind] at h
  cases h1 : propose w i j o s.x with
  | error e => rw [h1] at h; simp at h
  | ok xStar =>
    rw [h1] at h; simp only at h
    cases h2 : jump f prior o.autoAccept s xStar (w.u i j) with
    | error e => rw [h2] at h; simp at h
    | ok p =>
      rw [h2] at h; simp only at h
      cases h3 : adapt { o with jumpTrace := o.jumpTrace ++ [p.2] } i xs with
      | error e => rw [h3] at h; simp at h
      | ok o1 =>
        rw [h3] at h; simp only at h
        cases h4 : sweep f prior w i xs (j + 1) p.1 os with
        | error e => rw [h4] at h; simp at h
        | ok q =>
          rw [h4] at h
          simp only [Except.ok.injEq, Prod.mk.injEq] at h
          exact ⟨xStar, p.1, p.2, o1, q.2, rfl, h2, h3, by rw [h4, ← h.1], h.2.symm⟩

/-- What `_jump` preserves, the sweep preserves. -/
theorem sweep_chain (Q : Chain d → Prop) (hQ : ∀ auto s xStar u s' jt, Q s →
      jump f prior auto s xStar u = .ok (s', jt) → Q s') {i : ℕ} {xs : List (Pos d)} :
    ∀ (os : List (Proposal d)) (j : ℕ) (s s' : Chain d) (os' : List (Proposal d)),
      sweep f prior w i xs j s os = .ok (s', os') → Q s → Q s' := by
  intro os
  induction os with
  | nil => intro j s s' os' h hs; simp only [sweep, Except.ok.injEq, Prod.mk.injEq] at h; rw [← h.1]; exact hs
  | cons o os ih =>
    intro j s s' os' h hs
    obtain ⟨xStar, s1, jt, o1, os1, -, h2, -, h4, -⟩ := sweep_cons h
    exact ih _ _ _ _ h4 (hQ _ _ _ _ _ _ hs h2)

/-- What the treatment of one object preserves, the sweep preserves. -/
theorem sweep_objs (Q : Proposal d → Prop) {i : ℕ} {xs : List (Pos d)}
    (hQ : ∀ o jt o', Q o → (jt = 0 ∨ jt = 1) → adapt { o with jumpTrace := o.jumpTrace ++ [jt] } i xs = .ok o' → Q o') :
    ∀ (os : List (Proposal d)) (j : ℕ) (s s' : Chain d) (os' : List (Proposal d)),
      sweep f prior w i xs j s os = .ok (s', os') → (∀ o ∈ os, Q o) → ∀ o ∈ os', Q o := by
  intro os
  induction os with
  | nil => intro j s s' os' h hs; simp only [sweep, Except.ok.injEq, Prod.mk.injEq] at h; rw [← h.2]; exact hs
  | cons o os ih =>
    intro j s s' os' h hs
    obtain ⟨xStar, s1, jt, o1, os1, -, h2, h3, h4, rfl⟩ := sweep_cons h
    have hjt : jt = 0 ∨ jt = 1 := by
      rcases jump_cases h2 with ⟨-, h⟩ | ⟨_, _, _, _, _, h, _⟩
      · exact .inl h
      · exact .inr h
    intro o' ho'
    rcases List.mem_cons.1 ho' with rfl | ho'
    · exact hQ _ _ _ (hs o (by simp)) hjt h3
    · exact ih _ _ _ _ h4 (fun o ho => hs o (by simp [ho])) o' ho'

theorem iteration_ok {i : ℕ} {r r' : Run d} (h : iteration f prior w i r = .ok r') :
    ∃ s objs, sweep f prior w i r.trace.xs 0 r.chain r.objs = .ok (s, objs) ∧
      r' = ⟨⟨r.trace.xs ++ [s.x], r.trace.fs ++ [s.lik], r.trace.ts ++ [w.clock i]⟩, s, objs, r.info⟩ := by
  simp only [iteration, bind, Except.bind] at h
  cases h1 : sweep f prior w i r.trace.xs 0 r.chain r.objs with
  | error e => rw [h1] at h; simp at h
  | ok p =>
    rw [h1] at h
    simp only [Except.ok.injEq] at h
    exact ⟨p.1, p.2, rfl, h.symm⟩

theorem loop_invariant (P : ℕ → Run d → Prop)
    (hstep : ∀ i r r', P i r → iteration f prior w i r = .ok r' → P (i + 1) r')
    (hinfo : ∀ i r0 r, P i r0 → P (i + 1) r → P (i + 1) { r with info := some (collect r.trace) }) :
    ∀ (fuel i : ℕ) (r r' : Run d), loop f prior w brk fuel i r = .ok r' → P i r →
      ∃ j, i ≤ j ∧ j ≤ i + fuel ∧ P j r' ∧ (1 ≤ fuel → i < j) ∧ (j < i + fuel → brk r'.trace = true) := by
  intro fuel
  induction fuel with
  | zero =>
    intro i r r' h hp
    simp only [loop, Except.ok.injEq] at h
    exact ⟨i, le_refl _, le_refl _, h ▸ hp, by simp, by simp⟩
  | succ fuel ih =>
    intro i r r' h hp
    simp only [loop, bind, Except.bind] at h
    cases h1 : iteration f prior w i r with
    | error e => rw [h1] at h; simp at h
    | ok r1 =>
      rw [h1] at h
      simp only at h
      have hp1 := hstep i r r1 hp h1
      by_cases hb : brk r1.trace = true
      · rw [if_pos hb] at h
        simp only [Except.ok.injEq] at h
        exact ⟨i + 1, by omega, by omega, h ▸ hp1, by omega, fun _ => h ▸ hb⟩
      · rw [if_neg hb] at h
        obtain ⟨j, h1, h2, h3, h4, h5⟩ := ih (i + 1) _ r' h (hinfo _ _ _ hp hp1)
        exact ⟨j, by omega, by omega, h3, fun _ => by omega, fun hj => h5 (by omega)⟩

/-- The middle of a list of numbers between two bounds is between the bounds. -/
theorem median_mem {l : List ℝ} {a b : ℝ} (hl : l ≠ []) (h : ∀ x ∈ l, a ≤ x ∧ x ≤ b) : a ≤ median l ∧ median l ≤ b := by
  classical
  unfold median
  set s := l.mergeSort (fun a b => decide (a ≤ b)) with hs
  have hlen : s.length = l.length := List.length_mergeSort l
  have hpos : 0 < s.length := by rw [hlen]; exact List.length_pos_of_ne_nil hl
  have hget : ∀ k < s.length, a ≤ s.getD k 0 ∧ s.getD k 0 ≤ b := by
    intro k hk
    rw [List.getD_eq_getElem _ _ hk]
    refine h _ ?_
    have : s[k] ∈ s := List.getElem_mem hk
    exact (List.mem_mergeSort (le := fun a b => decide (a ≤ b))).1 this
  simp only
  split_ifs with hodd
  · exact hget _ (by omega)
  · have h1 := hget (s.length / 2 - 1) (by omega)
    have h2 := hget (s.length / 2) (by omega)
    constructor <;> linarith [h1.1, h1.2, h2.1, h2.2]

/-- Positions, values and time stamps belong together. -/
structure TraceOK (f : Pos d → Option ℝ) (x0 : Pos d) (n : ℕ) (t : Trace d) : Prop where
  xlen : t.xs.length = n + 1
  flen : t.fs.length = n
  tlen : t.ts.length = n
  first : t.xs.getD 0 x0 = x0
  val : ∀ k < n, t.fs.getD k none = f (t.xs.getD (k + 1) x0)

theorem TraceOK.snoc {x0 : Pos d} {n : ℕ} {t : Trace d} (h : TraceOK f x0 n t) (x : Pos d) (τ : ℝ) :
    TraceOK f x0 (n + 1) ⟨t.xs ++ [x], t.fs ++ [f x], t.ts ++ [τ]⟩ := by
  have hx := h.xlen
  have hf := h.flen
  refine ⟨by simp [hx], by simp [hf], by simp [h.tlen], ?_, ?_⟩
  · have := h.first
    simp only [List.getD_eq_getElem?_getD] at this ⊢
    rw [List.getElem?_append_left (by omega), this]
  · intro k hk
    simp only [List.getD_eq_getElem?_getD]
    rcases Nat.lt_succ_iff_lt_or_eq.1 hk with hk | rfl
    · rw [List.getElem?_append_left (by omega), List.getElem?_append_left (by omega)]
      have := h.val k hk
      simpa only [List.getD_eq_getElem?_getD] using this
    · rw [List.getElem?_append_right (by omega), List.getElem?_append_right (by omega), hf, hx]
      simp

/-- The chain carries the prior and likelihood of its position. -/
def Carried (f : Pos d → Option ℝ) (prior : Pos d → WithBot ℝ) (s : Chain d) : Prop := s.lik = f s.x ∧ s.prior = prior s.x

theorem carried_jump : ∀ auto (s : Chain d) xStar u s' jt, Carried f prior s → jump f prior auto s xStar u = .ok (s', jt) →
    Carried f prior s' := by
  intro auto s xStar u s' jt hs h
  rcases jump_cases h with ⟨rfl, -⟩ | ⟨ps, ls, h1, h2, rfl, -, -⟩
  · exact hs
  · exact ⟨h2.symm, h1.symm⟩

/-- The state of a run after `i - 1` iterations. -/
structure RunOK (f : Pos d → Option ℝ) (prior : Pos d → WithBot ℝ) (x0 : Pos d) (i : ℕ) (r : Run d) : Prop where
  pos : 1 ≤ i
  trace : TraceOK f x0 (i - 1) r.trace
  carried : Carried f prior r.chain
  last : r.trace.xs.getD (i - 1) x0 = r.chain.x
  info : ∀ inf, r.info = some inf → ∃ n t, 1 ≤ n ∧ TraceOK f x0 n t ∧ inf = collect t ∧ t.xs <+: r.trace.xs

theorem runOK_start (objs : List (Proposal d)) (x0 : Pos d) : RunOK f prior x0 1 (start f prior objs x0) :=
  ⟨le_refl _, ⟨rfl, rfl, rfl, rfl, by simp⟩, ⟨rfl, rfl⟩, rfl, by simp [start]⟩

theorem runOK_step {x0 : Pos d} : ∀ i r r', RunOK f prior x0 i r → iteration f prior w i r = .ok r' →
    RunOK f prior x0 (i + 1) r' := by
  intro i r r' h he
  obtain ⟨s, objs, hs, rfl⟩ := iteration_ok he
  have hc := sweep_chain (Carried f prior) carried_jump _ _ _ _ _ hs h.carried
  have hi := h.pos
  refine ⟨by omega, ?_, hc, ?_, ?_⟩
  · have := h.trace.snoc s.x (w.clock i)
    rw [show i - 1 + 1 = i + 1 - 1 by omega] at this
    rw [hc.1]
    exact this
  · have hx := h.trace.xlen
    simp only [List.getD_eq_getElem?_getD]
    rw [List.getElem?_append_right (by omega), hx, show i + 1 - 1 - (i - 1 + 1) = 0 by omega]
    rfl
  · intro inf hinf
    obtain ⟨n, t, hn, h1, h2, h3⟩ := h.info inf hinf
    exact ⟨n, t, hn, h1, h2, h3.trans (List.prefix_append _ _)⟩

theorem runOK_info {x0 : Pos d} : ∀ i (r0 r : Run d), RunOK f prior x0 i r0 → RunOK f prior x0 (i + 1) r →
    RunOK f prior x0 (i + 1) { r with info := some (collect r.trace) } := by
  intro i r0 r h0 h
  refine ⟨h.pos, h.trace, h.carried, h.last, ?_⟩
  intro inf hinf
  have h1 := h.trace
  rw [Nat.add_sub_cancel] at h1
  simp only [Option.some.injEq] at hinf
  exact ⟨i, r.trace, h0.pos, h1, hinf.symm, List.prefix_refl _⟩

theorem run_ok {objs : List (Proposal d)} {x0 : Pos d} {nUpdates : ℕ} {r : Run d}
    (h : runMCMC f prior w brk objs x0 nUpdates = .ok r) :
    ∃ n, 1 ≤ n ∧ n ≤ max nUpdates 2 - 1 ∧ RunOK f prior x0 (n + 1) r ∧ (n < max nUpdates 2 - 1 → brk r.trace = true) := by
  obtain ⟨j, h1, h2, h3, h4, h5⟩ := loop_invariant (RunOK f prior x0) runOK_step runOK_info _ _ _ _ h (runOK_start objs x0)
  have := h4 (by omega)
  refine ⟨j - 1, by omega, by omega, ?_, fun hj => h5 (by omega)⟩
  rwa [show j - 1 + 1 = j by omega]

end Verif.MCMC
