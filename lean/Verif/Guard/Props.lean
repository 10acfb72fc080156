import Verif.Guard.Model
import Mathlib.Data.List.Induction

/-!
C78: one live gp2Scale GP per client.
-/

namespace Verif.Guard

/-- No client serves two live GPs. -/
def Exclusive (s : Reg) : Prop := ∀ g h c, (g, c) ∈ s.live → (h, c) ∈ s.live → g = h

theorem act_create (s : Reg) (g c : ℕ) (ok : Bool) : s.act (.create g c ok) =
    if (s.entry c = none ∨ s.entry c = some g) ∧ ok = true then
      ({ s with inside := (g, c) :: s.inside } : Reg).register g c else s := by
  simp only [Reg.act, Reg.enter]
  cases he : s.entry c with
  | none => cases ok <;> simp [Reg.abort]
  | some h =>
    by_cases hg : h = g
    · cases ok <;> simp [hg, Reg.abort]
    · cases ok <;> simp [hg]

/-- The registry knows the live GP of every client. -/
theorem history_entry (l : List Act) : ∀ g c, (history l).entry c = some g ↔ (g, c) ∈ (history l).live := by
  unfold history
  induction l using List.reverseRecOn with
  | nil => simp [Reg.empty]
  | append_singleton l a ih =>
    rw [List.foldl_append, List.foldl_cons, List.foldl_nil]
    generalize l.foldl Reg.act .empty = s at ih
    intro g c
    cases a with
    | create g' c' ok =>
      rw [act_create]
      split_ifs with h
      · simp only [Reg.register, List.mem_cons, Prod.mk.injEq]
        by_cases hc : c = c'
        · subst hc
          have := ih g c
          simp only [if_true, and_true, Option.some.injEq, ← this]
          rcases h.1 with e | e
          · simp [e, eq_comm]
          · simp [e, eq_comm]
        · simp [hc, ih g c]
      · exact ih g c
    | collect g' =>
      unfold Reg.act Reg.collect
      simp only [List.mem_filter, decide_eq_true_eq, ← ih g c]
      cases he : s.entry c with
      | none => simp
      | some h =>
        by_cases hg : h = g'
        · subst hg
          simp only [if_true, reduceCtorEq, Option.some.injEq, false_iff, not_and, not_not]
          exact fun e => e.symm
        · simp only [hg, if_false, Option.some.injEq]
          constructor
          · rintro rfl; exact ⟨rfl, hg⟩
          · exact fun h => h.1

/-- After every history of creations and destructions in one thread no client serves two live GPs. -/
theorem C78_exclusive (l : List Act) : Exclusive (history l) := by
  intro g h c hg hh
  have h1 := (history_entry l g c).2 hg
  have h2 := (history_entry l h c).2 hh
  rw [h1] at h2
  exact Option.some.inj h2

/-- Creation is refused exactly if another GP on that client is alive. -/
theorem C78_refused (l : List Act) (g c : ℕ) :
    (history l).create g c true = .error "Another GP instance is already active on this dask client" ↔
      ∃ h, h ≠ g ∧ (h, c) ∈ (history l).live := by
  simp only [← history_entry]
  unfold Reg.create Reg.enter
  cases he : (history l).entry c with
  | none => simp [bind, Except.bind]
  | some h =>
    by_cases hg : h = g
    · subst hg; simp [bind, Except.bind]
    · simp [bind, Except.bind, hg]

/-- Once the GPs of a client are gone creation succeeds, and the new one is alive. -/
theorem C78_after_collect (l : List Act) (g h c : ℕ) (hh : (h, c) ∈ (history l).live) :
    ∃ t, (history (l ++ [.collect h])).create g c true = .ok t ∧ (g, c) ∈ t.live := by
  have hn : (history (l ++ [.collect h])).entry c = none := by
    have h1 := (history_entry l h c).2 hh
    simp only [history, List.foldl_append, List.foldl_cons, List.foldl_nil] at h1 ⊢
    simp [Reg.act, Reg.collect, h1]
  generalize history (l ++ [.collect h]) = s at hn
  refine ⟨({ s with inside := (g, c) :: s.inside } : Reg).register g c, ?_, ?_⟩
  · unfold Reg.create Reg.enter
    simp [hn, bind, Except.bind]
  · simp [Reg.register]

/-- A constructor that fails behind the guard does not block the client. -/
theorem C78_failed_constructor (l : List Act) (g c : ℕ) : history (l ++ [.create g c false]) = history l := by
  simp only [history, List.foldl_append, List.foldl_cons, List.foldl_nil]
  generalize l.foldl Reg.act .empty = s
  rw [act_create]
  simp

/-- Between the calls of one thread no constructor is under way. -/
theorem C78_none_inside (l : List Act) : (history l).inside = [] := by
  unfold history
  induction l using List.reverseRecOn with
  | nil => rfl
  | append_singleton l a ih =>
    rw [List.foldl_append, List.foldl_cons, List.foldl_nil]
    generalize l.foldl Reg.act .empty = s at ih
    cases a with
    | create g c ok =>
      rw [act_create]
      split_ifs with h
      · simp [Reg.register, ih]
      · exact ih
    | collect g => exact ih

/-- Constructors that overlap in two threads both pass the guard: two live GPs on one client. -/
theorem C78_threads_violated : ∃ l : List Micro, ¬ Exclusive (l.foldl Reg.micro .empty) := by
  refine ⟨[.enter 1 0, .enter 2 0, .register 1 0, .register 2 0], fun h => ?_⟩
  have := h 1 2 0 (by decide) (by decide)
  cases this

/-- Two clients, a failed attempt on the first, a successor. -/
example : (history [.create 1 0 true, .create 2 0 true, .create 3 5 true, .collect 1, .create 4 0 true]).live
    = [(4, 0), (3, 5)] := by decide

end Verif.Guard
