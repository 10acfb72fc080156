import Verif.Actor.Props
import Mathlib.Data.List.Forall2

/-!
C76 and C86: stop requests and failures of asynchronous optimizers; C75 for the three actors.
-/

namespace Verif.Actor

variable {κ V : Type} [DecidableEq κ]

/-! ### C76 -/

/-- Iterations that can still be computed once the flag is cleared. -/
def Pc.left (pollFirst : Bool) : Pc κ V → ℕ
  | .computing _ => 1
  | .launching | .next _ => if pollFirst then 0 else 1
  | _ => 0

/-- The thread has been created. -/
def Pc.started : Pc κ V → Bool
  | .idle => false
  | _ => true

theorem step_started (a : Actor κ V) (s : State κ V) (e : Event) (h : s.pc.started = true) : (step a s e).pc.started = true := by
  cases e with
  | start => unfold step; simp only; split <;> simp_all [Pc.started]
  | stop => exact h
  | work =>
    simp only [step]
    unfold work
    split <;> (try split_ifs) <;> (try split) <;> (try split) <;> (try split) <;> simp_all [Pc.started]
  | fail => simp only [step]; unfold fail; split <;> simp_all [Pc.started]
  | read r => simp only [step]; unfold readStep; split <;> (try split) <;> simp_all

theorem run_started (a : Actor κ V) (es : List Event) : ∀ s : State κ V, s.pc.started = true → (run a s es).pc.started = true := by
  induction es with
  | nil => exact fun _ h => h
  | cons e es ih => exact fun s h => ih _ (step_started a s e h)

theorem start_started (a : Actor κ V) (es : List Event) (h : Event.start ∈ es) : ∀ s : State κ V,
    (run a s es).pc.started = true := by
  induction es with
  | nil => simp at h
  | cons e es ih =>
    intro s
    rcases List.mem_cons.1 h with h | h
    · subst h
      refine run_started a es _ ?_
      simp only [step]
      split <;> simp_all [Pc.started]
    · exact ih h _

theorem stopped_step (a : Actor κ V) (s : State κ V) (e : Event) (hs : s.pc.started = true) (hr : s.running = false) :
    (step a s e).running = false ∧
      (step a s e).iters + (step a s e).pc.left a.pollFirst ≤ s.iters + s.pc.left a.pollFirst := by
  cases e with
  | start => unfold step; simp only; split <;> simp_all [Pc.started]
  | stop => exact ⟨rfl, le_rfl⟩
  | work =>
    simp only [step]
    unfold work
    cases hb : a.pollFirst <;> split <;> (try split_ifs) <;> (try split) <;> (try split) <;> simp_all [Pc.left]
  | fail => simp only [step]; unfold fail; split <;> simp_all [Pc.left]
  | read r => simp only [step]; unfold readStep; split <;> (try split) <;> simp_all

theorem stopped_run (a : Actor κ V) (es : List Event) : ∀ s : State κ V, s.pc.started = true → s.running = false →
    (run a s es).iters + (run a s es).pc.left a.pollFirst ≤ s.iters + s.pc.left a.pollFirst := by
  induction es with
  | nil => exact fun _ _ _ => le_rfl
  | cons e es ih =>
    intro s hs hr
    obtain ⟨h1, h2⟩ := stopped_step a s e hs hr
    exact (ih _ (step_started a s e hs) h1).trans h2

/-- A stop request handled after `start()`: at most one further iteration is computed, wherever the request lands and
whatever happens afterwards. -/
theorem C76_stop_partial (a : Actor κ V) (before after : List Event) (h : Event.start ∈ before) :
    (run a a.init (before ++ .stop :: after)).iters ≤ (run a a.init before).iters + 1 := by
  simp only [run, List.foldl_append, List.foldl_cons]
  have hs := start_started a before h a.init
  have := stopped_run a after (step a (run a a.init before) .stop) hs rfl
  have h1 : ∀ (b : Bool) (p : Pc κ V), p.left b ≤ 1 := by
    intro b p
    cases b <;> cases p <;> simp [Pc.left]
  have h2 := h1 a.pollFirst (step a (run a a.init before) .stop).pc
  have h3 : (step a (run a a.init before) .stop).iters = (run a a.init before).iters := rfl
  simp only [run] at *
  omega

/-- An upper bound for the steps the worker still takes once the flag is cleared. -/
def Pc.remaining (a : Actor κ V) : Pc κ V → ℕ
  | .idle => 0
  | .over _ _ => 0
  | .clearing _ _ => 1
  | .finalWriting _ ops => 2 + ops.length
  | .closing i => 4 + ((a.finish i).getD []).length
  | .polling i => 5 + ((a.finish i).getD []).length
  | .writing i ops => 6 + ((a.finish (i + 1)).getD []).length + ops.length
  | .publishing i => 8 + ((a.finish (i + 1)).getD []).length
  | .computing i => 9 + ((a.finish (i + 1)).getD []).length
  | .next i => if a.pollFirst then 5 + ((a.finish i).getD []).length
      else 10 + ((a.finish i).getD []).length + ((a.finish (i + 1)).getD []).length
  | .launching => 11 + ((a.finish 0).getD []).length + ((a.finish 1).getD []).length

/-- The worker is not waiting for a reader. -/
def State.unblocked (s : State κ V) : Bool :=
  match s.lock with
  | some (.reader _) => false
  | _ => true

/-- The steps the worker takes without waiting for a reader. -/
def turns (a : Actor κ V) : State κ V → List Event → ℕ
  | _, [] => 0
  | s, e :: es =>
      (match e with
        | .work => if s.unblocked then 1 else 0
        | _ => 0) + turns a (step a s e) es

theorem remaining_step {a : Actor κ V} {s : State κ V} {ts : List (ℕ × Bool)} (h : Inv a s ts) (e : Event)
    (hs : s.pc.started = true) (hr : s.running = false) :
    (step a s e).pc.remaining a ≤ s.pc.remaining a ∧
      (e = .work → s.unblocked = true → (step a s e).pc.remaining a ≤ s.pc.remaining a - 1) := by
  cases e with
  | start => refine ⟨?_, by simp⟩; unfold step; simp only; split <;> simp_all [Pc.started]
  | stop => exact ⟨le_rfl, by simp⟩
  | work =>
    have hw := h.worker
    simp only [step]
    have key : ∀ l, s.lock = some l → s.pc.inside = false → s.unblocked = false := by
      intro l hl hi
      cases l with
      | worker => rw [hw.1 hl] at hi; simp at hi
      | reader r => simp [State.unblocked, hl]
    unfold work
    split
    next e => simp_all [Pc.started]
    next e => cases hb : a.pollFirst <;> simp [e, Pc.remaining, hb] <;> omega
    next i e => cases hb : a.pollFirst <;> split_ifs <;> simp_all [Pc.remaining] <;> omega
    next i e => simp only [e, Pc.remaining]; omega
    next i e =>
      split
      next => simp [e, Pc.remaining]; omega
      next l hl =>
        have := key l hl (by simp [e, Pc.inside])
        simp [this]
    next i op ops e => simp [e, Pc.remaining]
    next i e => cases hb : a.pollFirst <;> simp [e, Pc.remaining, hb] <;> omega
    next i e => simp_all [Pc.remaining]
    next i e =>
      split
      next => simp only [e, Pc.remaining]; omega
      next fs hf =>
        split
        next => simp [e, Pc.remaining, hf, finalOps]; omega
        next l hl =>
          have := key l hl (by simp [e, Pc.inside])
          simp [this]
    next i op ops e => simp [e, Pc.remaining]
    next i e => simp [e, Pc.remaining]
    next i f e => simp [e, Pc.remaining]
    next i f e => simp [e, Pc.remaining]
  | fail => refine ⟨?_, by simp⟩; simp only [step]; unfold fail; split <;> simp_all [Pc.remaining]
  | read r => refine ⟨?_, by simp⟩; simp only [step]; unfold readStep; split <;> (try split) <;> simp_all

theorem turns_run {a : Actor κ V} (es : List Event) : ∀ {s : State κ V} {ts : List (ℕ × Bool)}, Inv a s ts →
    s.pc.started = true → s.running = false → (run a s es).pc.remaining a ≤ s.pc.remaining a - turns a s es := by
  induction es with
  | nil => intro s ts _ _ _; simp [run, turns]
  | cons e es ih =>
    intro s ts h hs hr
    obtain ⟨new, h'⟩ := step_inv h e
    have h2 := ih h' (step_started a s e hs) (stopped_step a s e hs hr).1
    obtain ⟨h3, h4⟩ := remaining_step h e hs hr
    refine le_trans h2 ?_
    simp only [turns]
    cases e with
    | work =>
      by_cases hu : s.unblocked = true
      · have := h4 rfl hu
        simp only [hu, if_true]; omega
      · simp only [hu, Bool.false_eq_true, if_false]; omega
    | start => simp only; omega
    | stop => simp only; omega
    | fail => simp only; omega
    | read r => simp only; omega

/-- After a stop request handled after `start()` the thread ends: there is a number of steps of its own (those it does not
spend waiting for a reader) after which it is over, in every interleaving. -/
theorem C76_ends_partial (a : Actor κ V) (before : List Event) (h : Event.start ∈ before) :
    ∃ N, ∀ after, N ≤ turns a (run a a.init (before ++ [.stop])) after →
      ∃ i f, (run a a.init (before ++ .stop :: after)).pc = .over i f := by
  obtain ⟨ts, hi⟩ := run_inv (before ++ [.stop]) (init_inv a)
  have hst : (run a a.init (before ++ [.stop])).pc.started = true := start_started a _ (by simp [h]) _
  have hr : (run a a.init (before ++ [.stop])).running = false := by simp [run, List.foldl_append, step]
  refine ⟨(run a a.init (before ++ [.stop])).pc.remaining a, fun after ht => ?_⟩
  have h1 := turns_run after hi hst hr
  have e : run a a.init (before ++ .stop :: after) = run a (run a a.init (before ++ [.stop])) after := by
    simp [run, List.foldl_append]
  rw [e]
  have h2 := run_started a after _ hst
  have h3 : (run a (run a a.init (before ++ [.stop])) after).pc.remaining a = 0 := by omega
  generalize (run a (run a a.init (before ++ [.stop])) after).pc = p at h2 h3
  cases p <;> simp [Pc.remaining, Pc.started] at h2 h3
  · split_ifs at h3 <;> omega
  · exact ⟨_, _, rfl⟩

/-- A stop request handled before `start()` is lost: the run is the one without it. -/
theorem C76_stop_before_start_violated (a : Actor κ V) (after : List Event) :
    run a a.init (.stop :: .start :: after) = run a a.init (.start :: after) := rfl

/-- Hence a run that does not end by itself goes on for any number of iterations after the request. -/
theorem C76_unbounded_violated (a : Actor κ V) (ha : ∀ i, a.ends i = false) (n : ℕ) :
    ∃ after, (run a a.init (.stop :: .start :: after)).iters = n := by
  have key : ∀ n, ∃ after, (run a a.init (.start :: after)).iters = n ∧ (run a a.init (.start :: after)).pc = .next n ∧
      (run a a.init (.start :: after)).lock = none ∧ (run a a.init (.start :: after)).running = true := by
    intro n
    induction n with
    | zero => exact ⟨[.work], rfl, rfl, rfl, rfl⟩
    | succ n ih =>
      obtain ⟨after, h1, h2, h3, h4⟩ := ih
      cases hp : a.pollFirst with
      | true =>
        refine ⟨after ++ [.work, .work, .work, .work, .work], ?_⟩
        have e : run a a.init (.start :: (after ++ [.work, .work, .work, .work, .work]))
            = run a (run a a.init (.start :: after)) [.work, .work, .work, .work, .work] := by
          simp [run, List.foldl_append]
        rw [e]
        generalize run a a.init (.start :: after) = s at *
        simp [run, step, work, h1, h2, h3, h4, ha, hp]
      | false =>
        refine ⟨after ++ [.work, .work, .work, .work, .work, .work], ?_⟩
        have e : run a a.init (.start :: (after ++ [.work, .work, .work, .work, .work, .work]))
            = run a (run a a.init (.start :: after)) [.work, .work, .work, .work, .work, .work] := by
          simp [run, List.foldl_append]
        rw [e]
        generalize run a a.init (.start :: after) = s at *
        simp [run, step, work, h1, h2, h3, h4, ha, hp]
  obtain ⟨after, h, -⟩ := key n
  exact ⟨after, h⟩

/-! ### C86 -/

/-- What a caller of `get_latest()` can see or wait for. -/
def Same (s t : State κ V) : Prop := s.latest = t.latest ∧ s.lock = t.lock ∧ s.readers = t.readers ∧ s.got = t.got

theorem same_read {s t : State κ V} (h : Same s t) (r : ℕ) : Same (readStep r s) (readStep r t) := by
  obtain ⟨h1, h2, h3, h4⟩ := h
  unfold readStep
  rw [← h3, ← h2, ← h1, ← h4]
  split
  · split
    · exact ⟨rfl, rfl, rfl, rfl⟩
    · exact ⟨h1, h2, h3, h4⟩
  · exact ⟨rfl, rfl, rfl, rfl⟩
  · exact ⟨rfl, rfl, rfl, rfl⟩

/-- The reads among the events. -/
def Event.isRead : Event → Bool
  | .read _ => true
  | _ => false

theorem over_run (a : Actor κ V) (es : List Event) : ∀ {s t : State κ V}, (∃ i f, s.pc = .over i f) → Same s t →
    Same (run a s es) (run a t (es.filter Event.isRead)) := by
  induction es with
  | nil => exact fun _ h => h
  | cons e es ih =>
    rintro s t ⟨i, f, hp⟩ h
    cases e with
    | start => exact ih (s := step a s .start) ⟨i, f, by simp [step, hp]⟩ (by simpa [step, hp] using h)
    | stop => exact ih (s := step a s .stop) ⟨i, f, hp⟩ h
    | work => exact ih (s := step a s .work) ⟨i, f, by simp [step, work, hp]⟩ (by simpa [step, work, hp] using h)
    | fail => exact ih (s := step a s .fail) ⟨i, f, by simp [step, fail, hp]⟩ (by simpa [step, fail, hp] using h)
    | read r =>
      refine ih (s := step a s (.read r)) (t := step a t (.read r)) ⟨i, f, ?_⟩ (same_read h r)
      simp only [step]
      unfold readStep
      split <;> (try split) <;> exact hp

/-- A failed run cannot be told from a slow one: whatever `get_latest()` has returned in an execution, it also returns in
one without any failure. -/
theorem C86_failure_silent_violated (a : Actor κ V) (es : List Event) : ∃ es' : List Event,
    (∀ e ∈ es', e ≠ .fail) ∧ (run a a.init es').got = (run a a.init es).got := by
  suffices H : ∀ s : State κ V, ∃ es' : List Event, (∀ e ∈ es', e ≠ .fail) ∧ (run a s es').got = (run a s es).got from H _
  induction es with
  | nil => exact fun s => ⟨[], by simp, rfl⟩
  | cons e es ih =>
    intro s
    by_cases hf : e = .fail
    · subst hf
      by_cases hc : ∃ i, s.pc = .computing i
      · obtain ⟨i, hc⟩ := hc
        refine ⟨es.filter Event.isRead, fun e he => ?_, ?_⟩
        · have := (List.mem_filter.1 he).2
          rintro rfl
          simp [Event.isRead] at this
        · have := over_run a es (s := step a s .fail) (t := s) ⟨i, false, by simp [step, fail, hc]⟩
            (by simp only [step, fail, hc]; exact ⟨rfl, rfl, rfl, rfl⟩)
          exact this.2.2.2.symm
      · obtain ⟨es', h1, h2⟩ := ih s
        refine ⟨es', h1, ?_⟩
        have : step a s .fail = s := by
          simp only [step]
          unfold fail
          split
          · next i e => exact absurd ⟨i, e⟩ hc
          · rfl
        rw [h2]
        simp only [run, List.foldl_cons, this]
    · obtain ⟨es', h1, h2⟩ := ih (step a s e)
      refine ⟨e :: es', fun x hx => ?_, h2⟩
      rcases List.mem_cons.1 hx with rfl | hx
      · exact hf
      · exact h1 x hx

/-! ### C75 for the three actors -/

/-- Adam: every dict returned holds point, value and gradient norm of the same iteration, or is the initial one; the
iteration numbers never decrease. -/
theorem C75_adam (θ₀ : List ℝ) (θ : ℕ → List ℝ) (f g : ℕ → ℝ) (ends : ℕ → Bool) (es : List Event) :
    ∃ ks : List ℕ, ks.Pairwise (fun later earlier => earlier ≤ later) ∧
      List.Forall₂ (fun k d => d "iteration" = some (.nat k) ∧
        (k = 0 ∧ d "x" = some (.vec θ₀) ∧ d "nlml" = some .none ∧ d "grad_norm" = some .none ∨
          0 < k ∧ d "x" = some (.vec (θ k)) ∧ d "nlml" = some (.num (f k)) ∧ d "grad_norm" = some (.num (g k))))
        ks (run (adamActor θ₀ θ f g ends) (adamActor θ₀ θ f g ends).init es).got := by
  obtain ⟨ts, h1, h2, -⟩ := C75_snapshots (adamActor θ₀ θ f g ends) es
  refine ⟨ts.map Prod.fst, ?_, ?_⟩
  · rw [List.pairwise_map]
    exact h2.imp fun h => by rcases h with h | ⟨h, -⟩ <;> omega
  · rw [h1, List.forall₂_map_left_iff, List.forall₂_map_right_iff, List.forall₂_same]
    rintro ⟨i, fin⟩ -
    have e : snapshot (adamActor θ₀ θ f g ends) i fin = snapshot (adamActor θ₀ θ f g ends) i false := by
      cases fin <;> simp [snapshot, adamActor]
    simp only [e]
    rcases Nat.eq_zero_or_pos i with rfl | hi
    · simp [snapshot, adamActor, ofList]
    · simp [snapshot, adamActor, ofList, hi.ne', hi]

/-- MCMC: every dict returned is empty or holds values, times and points of the same number of iterations (one more point:
the start), and traces only grow. -/
theorem C75_mcmc (x : ℕ → List ℝ) (f stamp : ℕ → ℝ) (ends : ℕ → Bool) (es : List Event) :
    ∃ ks : List ℕ, ks.Pairwise (fun later earlier => earlier ≤ later) ∧
      List.Forall₂ (fun k d => k = 0 ∧ (∀ key, d key = none) ∨
        0 < k ∧ d "f(x)" = some (.vec ((List.range k).map fun j => f (j + 1))) ∧
          d "time stamps" = some (.vec ((List.range k).map fun j => stamp (j + 1))) ∧
          d "x" = some (.vecs ((List.range (k + 1)).map x)))
        ks (run (mcmcActor x f stamp ends) (mcmcActor x f stamp ends).init es).got := by
  obtain ⟨ts, h1, h2, -⟩ := C75_snapshots (mcmcActor x f stamp ends) es
  refine ⟨ts.map Prod.fst, ?_, ?_⟩
  · rw [List.pairwise_map]
    exact h2.imp fun h => by rcases h with h | ⟨h, -⟩ <;> omega
  · rw [h1, List.forall₂_map_left_iff, List.forall₂_map_right_iff, List.forall₂_same]
    rintro ⟨i, fin⟩ -
    have e : snapshot (mcmcActor x f stamp ends) i fin = snapshot (mcmcActor x f stamp ends) i false := by
      cases fin <;> simp [snapshot, mcmcActor]
    simp only [e]
    rcases Nat.eq_zero_or_pos i with rfl | hi
    · simp [snapshot, mcmcActor]
    · simp [snapshot, mcmcActor, ofList, hi.ne', hi]

/-- BO: point, value and number of evaluations belong together, according to the status; once a dict says "finished" every
later one does, and numbers of evaluations never decrease. -/
theorem C75_bo (x₀ : List ℝ) (best : ℕ → List ℝ) (val : ℕ → ℝ) (result : ℕ → Option (List ℝ × ℝ)) (ends : ℕ → Bool)
    (h0 : result 0 = none) (es : List Event) :
    ∃ ts : List (ℕ × Bool), ts.Pairwise (fun later earlier => NotLater earlier later) ∧
      List.Forall₂ (fun t d => d "n_evaluations" = some (.nat t.1) ∧
        (t.1 = 0 ∧ d "status" = some (.str "queued") ∧ d "x" = some (.vec x₀) ∧ d "objective" = some .none ∨
          0 < t.1 ∧ (t.2 = false ∨ result t.1 = none) ∧ d "status" = some (.str "running") ∧ d "x" = some (.vec (best t.1)) ∧
            d "objective" = some (.num (val t.1)) ∨
          0 < t.1 ∧ t.2 = true ∧ d "status" = some (.str "finished") ∧
            ∃ r, result t.1 = some r ∧ d "x" = some (.vec r.1) ∧ d "objective" = some (.num r.2)))
        ts (run (boActor x₀ best val result ends) (boActor x₀ best val result ends).init es).got := by
  obtain ⟨ts, h1, h2, -⟩ := C75_snapshots (boActor x₀ best val result ends) es
  refine ⟨ts, h2, ?_⟩
  rw [h1, List.forall₂_map_right_iff, List.forall₂_same]
  rintro ⟨i, fin⟩ -
  rcases Nat.eq_zero_or_pos i with rfl | hi
  · cases fin <;> simp [snapshot, boActor, ofList, h0]
  · cases hr : result i with
    | none => cases fin <;> simp [snapshot, boActor, ofList, hi.ne', hi, hr]
    | some r => cases fin <;> simp [snapshot, boActor, ofList, hi.ne', hi, hr, Dict.set]

/-! ### the flag after the end -/

/-- The thread runs. -/
def Pc.live : Pc κ V → Bool
  | .idle | .over _ _ => false
  | _ => true

theorem flag_step (a : Actor κ V) (s : State κ V) (e : Event) (ha : e = .fail → a.clearsOnError = true)
    (h : s.running = true → s.pc.live = true) : (step a s e).running = true → (step a s e).pc.live = true := by
  cases e with
  | start => unfold step; simp only; split <;> simp_all [Pc.live]
  | stop => simp [step]
  | work =>
    simp only [step]
    unfold work
    split <;> (try split_ifs) <;> (try split) <;> (try split) <;> (try split) <;> simp_all [Pc.live]
  | fail =>
    have := ha rfl
    simp only [step]; unfold fail; split <;> simp_all
  | read r => simp only [step]; unfold readStep; split <;> (try split) <;> simp_all

/-- While `_running` is set the optimizer works: the flag is cleared when the thread ends, by itself or on request. For the BO
actor this includes an end by an exception. -/
theorem C86_flag_means_working (a : Actor κ V) (es : List Event) (ha : .fail ∈ es → a.clearsOnError = true) :
    (run a a.init es).running = true → (run a a.init es).pc.live = true := by
  suffices ∀ s : State κ V, (s.running = true → s.pc.live = true) → (run a s es).running = true → (run a s es).pc.live = true
    from this _ (by simp [Actor.init])
  induction es with
  | nil => exact fun _ h => h
  | cons e es ih =>
    intro s h
    exact ih (fun h => ha (List.mem_cons_of_mem _ h)) _
      (flag_step a s e (fun he => ha (he ▸ List.mem_cons_self)) h)

/-- The Adam and MCMC actors keep `_running` set for good once an iteration has raised. -/
theorem C86_flag_after_failure_violated (a : Actor κ V) (ha : a.clearsOnError = false) (he : a.ends 0 = false) :
    ∃ es : List Event, ∀ n, (run a a.init (es ++ List.replicate n .work)).running = true ∧
      (run a a.init (es ++ List.replicate n .work)).pc.live = false := by
  refine ⟨[.start, .work, .work, .fail], fun n => ?_⟩
  have h0 : ∀ n, run a ⟨true, a.initial, none, .over 0 false, fun _ => .idle, 0, []⟩ (List.replicate n .work)
      = ⟨true, a.initial, none, .over 0 false, fun _ => .idle, 0, []⟩ := by
    intro n
    induction n with
    | zero => rfl
    | succ n ih => rw [List.replicate_succ]; exact ih
  have h1 : run a a.init [.start, .work, .work, .fail] = ⟨true, a.initial, none, .over 0 false, fun _ => .idle, 0, []⟩ := by
    simp [run, step, work, fail, Actor.init, he, ha]
  have h2 : run a a.init ([.start, .work, .work, .fail] ++ List.replicate n .work)
      = ⟨true, a.initial, none, .over 0 false, fun _ => .idle, 0, []⟩ := by
    rw [← h0 n, ← h1]; exact List.foldl_append
  rw [h2]
  exact ⟨rfl, rfl⟩

/-- For the BO actor the flag means that the optimizer works, whatever happens. -/
theorem C86_bo_flag (x₀ : List ℝ) (best : ℕ → List ℝ) (val : ℕ → ℝ) (result : ℕ → Option (List ℝ × ℝ)) (ends : ℕ → Bool) (es : List Event) :
    (run (boActor x₀ best val result ends) (boActor x₀ best val result ends).init es).running = true →
      (run (boActor x₀ best val result ends) (boActor x₀ best val result ends).init es).pc.live = true :=
  C86_flag_means_working _ es fun _ => rfl

/-- For the Adam and MCMC actors it does not: each has a schedule after which the flag stays set for good though nothing runs. -/
theorem C86_adam_mcmc_flag_violated (θ₀ : List ℝ) (θ : ℕ → List ℝ) (f g stamp : ℕ → ℝ) (ends : ℕ → Bool) (he : ends 0 = false) :
    (∃ es : List Event, ∀ n, (run (adamActor θ₀ θ f g ends) (adamActor θ₀ θ f g ends).init (es ++ List.replicate n .work)).running = true ∧
      (run (adamActor θ₀ θ f g ends) (adamActor θ₀ θ f g ends).init (es ++ List.replicate n .work)).pc.live = false) ∧
    ∃ es : List Event, ∀ n, (run (mcmcActor θ f stamp ends) (mcmcActor θ f stamp ends).init (es ++ List.replicate n .work)).running = true ∧
      (run (mcmcActor θ f stamp ends) (mcmcActor θ f stamp ends).init (es ++ List.replicate n .work)).pc.live = false :=
  ⟨C86_flag_after_failure_violated _ rfl he, C86_flag_after_failure_violated _ rfl he⟩

/-- The BO actor clears the flag after a failure. -/
example : (run (boActor [0] (fun _ => [1]) (fun _ => 2) (fun _ => none) fun _ => false)
    (boActor [0] (fun _ => [1]) (fun _ => 2) (fun _ => none) fun _ => false).init
    [.start, .work, .work, .fail]).running = false := rfl

/-- A run with a read between two iterations and one after the request to stop. -/
example : (run (adamActor [0] (fun _ => [1]) (fun _ => 2) (fun _ => 3) fun _ => false)
    (adamActor [0] (fun _ => [1]) (fun _ => 2) (fun _ => 3) fun _ => false).init
    [.start, .work, .work, .work, .work, .work, .work, .read 7, .read 7, .stop, .read 7, .work, .work]).iters = 1 := rfl

end Verif.Actor
