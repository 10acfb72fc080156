import Verif.Actor.Model
import Mathlib.Data.Prod.Lex

/-!
C75, C76 and C86: snapshots, stop requests and failures of asynchronous optimizers.
-/

namespace Verif.Actor

variable {κ V : Type} [DecidableEq κ]

/-- The record of one past iteration: the initial dict, the dict of iteration `i`, or that of the completed run. -/
def snapshot (a : Actor κ V) (i : ℕ) (fin : Bool) : Dict κ V :=
  let d := if i = 0 then a.initial else a.record i
  if fin then ((a.finish i).getD []).foldl (fun d f => Dict.set d f.1 f.2) d else d

/-- `(i, fin)` is not later than `(j, fin')`. -/
def NotLater (p q : ℕ × Bool) : Prop := p.1 < q.1 ∨ p.1 = q.1 ∧ (p.2 = true → q.2 = true)

theorem NotLater.refl (p : ℕ × Bool) : NotLater p p := Or.inr ⟨rfl, id⟩

theorem NotLater.trans {p q r : ℕ × Bool} (h : NotLater p q) (h' : NotLater q r) : NotLater p r := by
  rcases h with h | ⟨h, g⟩ <;> rcases h' with h' | ⟨h', g'⟩
  · exact Or.inl (h.trans h')
  · exact Or.inl (h' ▸ h)
  · exact Or.inl (h ▸ h')
  · exact Or.inr ⟨h.trans h', g' ∘ g⟩

/-- The last record written completely. -/
def Pc.stamp : Pc κ V → ℕ × Bool
  | .idle | .launching => (0, false)
  | .next i | .computing i | .publishing i | .writing i _ | .polling i | .closing i | .finalWriting i _ => (i, false)
  | .clearing i f | .over i f => (i, f)

/-- The worker is between acquiring and releasing the lock. -/
def Pc.inside : Pc κ V → Bool
  | .writing _ _ | .finalWriting _ _ => true
  | _ => false

/-- The iterations computed. -/
def Pc.count : Pc κ V → ℕ
  | .idle | .launching => 0
  | .next i | .computing i | .polling i | .closing i | .finalWriting i _ | .clearing i _ | .over i _ => i
  | .publishing i | .writing i _ => i + 1

/-- What is left to write leads to a complete record. -/
def Pc.pending (a : Actor κ V) (latest : Dict κ V) : Pc κ V → Prop
  | .writing i ops => ops.foldl Op.apply latest = snapshot a (i + 1) false
  | .finalWriting i ops => ops.foldl Op.apply latest = snapshot a i true
  | _ => True

/-- What every execution maintains. -/
structure Inv (a : Actor κ V) (s : State κ V) (ts : List (ℕ × Bool)) : Prop where
  worker : s.lock = some .worker ↔ s.pc.inside = true
  reader : ∀ r, s.lock = some (.reader r) ↔ ∃ d, s.readers r = .copied d ∨ s.readers r = .holding
  latest : s.pc.inside = false → s.latest = snapshot a s.pc.stamp.1 s.pc.stamp.2
  pending : s.pc.pending a s.latest
  copied : ∀ r d, s.readers r = .copied d → d = snapshot a s.pc.stamp.1 s.pc.stamp.2
  got : s.got = ts.map fun t => snapshot a t.1 t.2
  sorted : ts.Pairwise fun later earlier => NotLater earlier later
  past : ∀ t ∈ ts, NotLater t s.pc.stamp
  iters : s.iters = s.pc.count

theorem init_inv (a : Actor κ V) : Inv a a.init [] := by
  refine ⟨by simp [Actor.init, Pc.inside], fun r => by simp [Actor.init], fun _ => ?_, trivial, fun r d h => ?_, rfl,
    List.Pairwise.nil, by simp, rfl⟩
  · simp [Actor.init, Pc.stamp, snapshot]
  · simp [Actor.init] at h

/-- Moving the worker outside the lock without publishing anything. -/
theorem move_inv {a : Actor κ V} {s : State κ V} {ts : List (ℕ × Bool)} (h : Inv a s ts) (hi : s.pc.inside = false)
    (pc : Pc κ V) (running : Bool) (n : ℕ) (hp : pc.inside = false) (hs : pc.stamp = s.pc.stamp) (hn : n = pc.count) :
    Inv a { s with pc := pc, running := running, iters := n } ts := by
  refine ⟨?_, h.reader, fun _ => ?_, ?_, fun r d hr => ?_, h.got, h.sorted, fun t ht => ?_, hn⟩
  · have := h.worker
    rw [hi] at this
    simp only
    rw [hp]
    exact this
  · simp only [hs]; exact h.latest hi
  · cases pc <;> simp_all [Pc.pending, Pc.inside]
  · simp only [hs]; exact h.copied r d hr
  · simp only [hs]; exact h.past t ht

theorem finalOps_fold (a : Actor κ V) (i : ℕ) (fs : List (κ × V)) (hf : a.finish i = some fs) :
    (finalOps (snapshot a i false) fs).foldl Op.apply (snapshot a i false) = snapshot a i true := by
  unfold finalOps
  rw [List.foldl_cons, List.foldl_map]
  simp only [Op.apply, snapshot, hf, Option.getD_some, if_true, Bool.false_eq_true, if_false]

theorem work_inv {a : Actor κ V} {s : State κ V} {ts : List (ℕ × Bool)} (h : Inv a s ts) : Inv a (work a s) ts := by
  have hit := h.iters
  have hw := h.worker
  have hl := h.latest
  have hpe := h.pending
  have hc := h.copied
  have hpa := h.past
  unfold work
  split
  next => exact h
  next e => exact move_inv h (by simp [e, Pc.inside]) _ _ s.iters rfl (by simp [e, Pc.stamp]) (by simp [hit, e, Pc.count])
  next i e =>
    split_ifs
    · exact move_inv h (by simp [e, Pc.inside]) _ _ s.iters rfl (by simp [e, Pc.stamp]) (by simp [hit, e, Pc.count])
    · exact move_inv h (by simp [e, Pc.inside]) _ _ s.iters rfl (by simp [e, Pc.stamp]) (by simp [hit, e, Pc.count])
    · exact move_inv h (by simp [e, Pc.inside]) _ _ s.iters rfl (by simp [e, Pc.stamp]) (by simp [hit, e, Pc.count])
  next i e => exact move_inv h (by simp [e, Pc.inside]) _ _ _ rfl (by simp [e, Pc.stamp]) (by simp [hit, e, Pc.count])
  next i e =>
    split
    next hlock =>
      refine ⟨by simp [Pc.inside], fun r => ?_, fun hi => by simp [Pc.inside] at hi, ?_, fun r d hr => ?_, h.got, h.sorted,
        fun t ht => ?_, by simp [hit, e, Pc.count]⟩
      · have := h.reader r
        simp only [hlock, reduceCtorEq, false_iff] at this
        simp only [Option.some.injEq, reduceCtorEq, false_iff]
        exact this
      · simp [Pc.pending, Op.apply, snapshot]
      · have := hc r d hr
        simpa [e, Pc.stamp] using this
      · have := hpa t ht
        simpa [e, Pc.stamp] using this
    next => exact h
  next i op ops e =>
    refine ⟨?_, h.reader, fun hi => by simp [Pc.inside] at hi, ?_, fun r d hr => ?_, h.got, h.sorted, fun t ht => ?_,
      by simp [hit, e, Pc.count]⟩
    · simpa [e, Pc.inside] using hw
    · simpa [e, Pc.pending] using hpe
    · have := hc r d hr
      simpa [e, Pc.stamp] using this
    · have := hpa t ht
      simpa [e, Pc.stamp] using this
  next i e =>
    have hlock : s.lock = some .worker := hw.2 (by simp [e, Pc.inside])
    have hnr : ∀ r, ¬ ∃ d, s.readers r = .copied d ∨ s.readers r = .holding := by
      intro r hr
      have := (h.reader r).2 hr
      rw [hlock] at this
      simp at this
    have hlat : s.latest = snapshot a (i + 1) false := by simpa [e, Pc.pending] using hpe
    have hst : ∀ b : Bool, (if b then Pc.next (i + 1) else Pc.polling (i + 1) : Pc κ V).stamp = (i + 1, false) := by
      intro b; cases b <;> rfl
    have hin : ∀ b : Bool, (if b then Pc.next (i + 1) else Pc.polling (i + 1) : Pc κ V).inside = false := by
      intro b; cases b <;> rfl
    refine ⟨?_, fun r => ?_, fun _ => ?_, ?_, fun r d hr => absurd ⟨d, Or.inl hr⟩ (hnr r), h.got, h.sorted, fun t ht => ?_, ?_⟩
    · simp only [hin]; simp
    · simp only [reduceCtorEq, false_iff]; exact hnr r
    · simp only [hst]; exact hlat
    · cases a.pollFirst <;> trivial
    · simp only [hst]
      have := hpa t ht
      rw [e] at this
      exact this.trans (Or.inl (Nat.lt_succ_self i))
    · rw [hit, e]
      cases a.pollFirst <;> rfl
  next i e =>
    split_ifs
    · exact move_inv h (by simp [e, Pc.inside]) _ _ s.iters rfl (by simp [e, Pc.stamp]) (by simp [hit, e, Pc.count])
    · exact move_inv h (by simp [e, Pc.inside]) _ _ s.iters rfl (by simp [e, Pc.stamp]) (by simp [hit, e, Pc.count])
  next i e =>
    split
    next => exact move_inv h (by simp [e, Pc.inside]) _ _ s.iters rfl (by simp [e, Pc.stamp]) (by simp [hit, e, Pc.count])
    next fs hf =>
      split
      next hlock =>
        refine ⟨by simp [Pc.inside], fun r => ?_, fun hi => by simp [Pc.inside] at hi, ?_, fun r d hr => ?_, h.got, h.sorted,
          fun t ht => ?_, by simp [hit, e, Pc.count]⟩
        · have := h.reader r
          simp only [hlock, reduceCtorEq, false_iff] at this
          simp only [Option.some.injEq, reduceCtorEq, false_iff]
          exact this
        · have hs : s.latest = snapshot a i false := by
            have := hl (by simp [e, Pc.inside])
            simpa [e, Pc.stamp] using this
          simp only [Pc.pending, hs]
          exact finalOps_fold a i fs hf
        · have := hc r d hr
          simpa [e, Pc.stamp] using this
        · have := hpa t ht
          simpa [e, Pc.stamp] using this
      next => exact h
  next i op ops e =>
    refine ⟨?_, h.reader, fun hi => by simp [Pc.inside] at hi, ?_, fun r d hr => ?_, h.got, h.sorted, fun t ht => ?_,
      by simp [hit, e, Pc.count]⟩
    · simpa [e, Pc.inside] using hw
    · simpa [e, Pc.pending] using hpe
    · have := hc r d hr
      simpa [e, Pc.stamp] using this
    · have := hpa t ht
      simpa [e, Pc.stamp] using this
  next i e =>
    have hlock : s.lock = some .worker := hw.2 (by simp [e, Pc.inside])
    have hnr : ∀ r, ¬ ∃ d, s.readers r = .copied d ∨ s.readers r = .holding := by
      intro r hr
      have := (h.reader r).2 hr
      rw [hlock] at this
      simp at this
    refine ⟨by simp [Pc.inside], fun r => ?_, fun _ => ?_, trivial, fun r d hr => absurd ⟨d, Or.inl hr⟩ (hnr r), h.got, h.sorted,
      fun t ht => ?_, by simp [hit, e, Pc.count]⟩
    · simp only [reduceCtorEq, false_iff]; exact hnr r
    · simpa [e, Pc.pending, Pc.stamp] using hpe
    · have := hpa t ht
      rw [e] at this
      exact this.trans (Or.inr ⟨rfl, fun _ => rfl⟩)
  next i f e => exact move_inv h (by simp [e, Pc.inside]) _ _ s.iters rfl (by simp [e, Pc.stamp]) (by simp [hit, e, Pc.count])
  next => exact h

theorem read_inv {a : Actor κ V} {s : State κ V} {ts : List (ℕ × Bool)} (r : ℕ) (h : Inv a s ts) :
    ∃ new, Inv a (readStep r s) (new ++ ts) := by
  unfold readStep
  split
  next e =>
    split
    next hlock =>
      have hw := h.worker
      rw [hlock] at hw
      refine ⟨[], ⟨?_, fun q => ?_, h.latest, h.pending, fun q d hq => ?_, h.got, h.sorted, h.past, h.iters⟩⟩
      · simpa using hw
      · by_cases hq : q = r
        · subst hq; simp
        · have := h.reader q
          rw [hlock] at this
          simp only [reduceCtorEq, false_iff] at this
          simp only [Option.some.injEq, Owner.reader.injEq, hq, if_false]
          constructor
          · intro e'; exact absurd e'.symm hq
          · intro e'; exact absurd e' this
      · by_cases hq' : q = r
        · simp [hq'] at hq
        · simp only [hq', if_false] at hq
          exact h.copied q d hq
    next => exact ⟨[], h⟩
  next e =>
    have hlock := (h.reader r).2 ⟨s.latest, Or.inr e⟩
    have hin : s.pc.inside = false := by
      cases hi : s.pc.inside with
      | false => rfl
      | true => have := h.worker.2 hi; rw [hlock] at this; simp at this
    refine ⟨[], ⟨h.worker, fun q => ?_, h.latest, h.pending, fun q d hq => ?_, h.got, h.sorted, h.past, h.iters⟩⟩
    · by_cases hq : q = r
      · subst hq; simp [hlock]
      · simp only [hq, if_false]; exact h.reader q
    · by_cases hq' : q = r
      · simp only [hq', if_true, ReaderPc.copied.injEq] at hq
        rw [← hq]; exact h.latest hin
      · simp only [hq', if_false] at hq
        exact h.copied q d hq
  next d e =>
    have hlock := (h.reader r).2 ⟨d, Or.inl e⟩
    have hin : s.pc.inside = false := by
      cases hi : s.pc.inside with
      | false => rfl
      | true => have := h.worker.2 hi; rw [hlock] at this; simp at this
    refine ⟨[s.pc.stamp], ⟨?_, fun q => ?_, h.latest, h.pending, fun q d' hq => ?_, ?_, ?_, ?_, h.iters⟩⟩
    · simp [hin]
    · by_cases hq : q = r
      · subst hq; simp
      · have := h.reader q
        rw [hlock] at this
        simp only [Option.some.injEq, Owner.reader.injEq] at this
        simp only [hq, if_false, reduceCtorEq, false_iff]
        exact fun e' => hq (this.2 e').symm
    · by_cases hq' : q = r
      · simp [hq'] at hq
      · simp only [hq', if_false] at hq
        exact h.copied q d' hq
    · simp only [List.singleton_append, List.map_cons, ← h.got]
      rw [h.copied r d e]
    · rw [List.singleton_append]
      exact List.pairwise_cons.2 ⟨h.past, h.sorted⟩
    · intro t ht
      rcases List.mem_cons.1 ht with rfl | ht
      · exact NotLater.refl _
      · exact h.past t ht

theorem step_inv {a : Actor κ V} {s : State κ V} {ts : List (ℕ × Bool)} (h : Inv a s ts) (e : Event) :
    ∃ new, Inv a (step a s e) (new ++ ts) := by
  cases e with
  | start =>
    refine ⟨[], ?_⟩
    unfold step
    simp only
    split
    next e =>
      exact move_inv h (by simp [e, Pc.inside]) _ _ s.iters rfl (by simp [e, Pc.stamp]) (by simp [h.iters, e, Pc.count])
    next => exact h
  | stop => exact ⟨[], ⟨h.worker, h.reader, h.latest, h.pending, h.copied, h.got, h.sorted, h.past, h.iters⟩⟩
  | work => exact ⟨[], work_inv h⟩
  | fail =>
    refine ⟨[], ?_⟩
    unfold step fail
    simp only
    split
    next i e =>
      exact move_inv h (by simp [e, Pc.inside]) _ _ s.iters rfl (by simp [e, Pc.stamp]) (by simp [h.iters, e, Pc.count])
    next => exact h
  | read r => exact read_inv r h

theorem run_inv {a : Actor κ V} (es : List Event) : ∀ {s : State κ V} {ts : List (ℕ × Bool)}, Inv a s ts →
    ∃ new, Inv a (run a s es) (new ++ ts) := by
  induction es with
  | nil => exact fun h => ⟨[], h⟩
  | cons e es ih =>
    intro s ts h
    obtain ⟨n₁, h₁⟩ := step_inv h e
    obtain ⟨n₂, h₂⟩ := ih h₁
    exact ⟨n₂ ++ n₁, by rw [List.append_assoc]; exact h₂⟩

/-! ### C75 -/

/-- Whatever the interleaving: the dicts returned by `get_latest()`, latest first, are complete records of iterations that
have taken place, and no record is followed by an earlier one. -/
theorem C75_snapshots (a : Actor κ V) (es : List Event) :
    ∃ ts : List (ℕ × Bool), (run a a.init es).got = ts.map (fun t => snapshot a t.1 t.2) ∧
      ts.Pairwise (fun later earlier => NotLater earlier later) ∧ ∀ t ∈ ts, t.1 ≤ (run a a.init es).iters := by
  obtain ⟨ts, h⟩ := run_inv es (init_inv a)
  rw [List.append_nil] at h
  refine ⟨ts, h.got, h.sorted, fun t ht => ?_⟩
  have h1 : t.1 ≤ (run a a.init es).pc.stamp.1 := by
    rcases h.past t ht with h | ⟨h, -⟩
    · exact h.le
    · exact h.le
  refine h1.trans ?_
  rw [h.iters]
  cases (run a a.init es).pc <;> simp [Pc.stamp, Pc.count]

/-- Reads return: whoever holds the lock lets go after finitely many of its own steps, so a caller that waits gets it. -/
theorem C75_lock_released (a : Actor κ V) (es : List Event) :
    ∃ more : List Event, (run a a.init (es ++ more)).lock = none := by
  obtain ⟨ts, h⟩ := run_inv es (init_inv a)
  rw [List.append_nil] at h
  simp only [run, List.foldl_append]
  change ∃ more : List Event, (run a (run a a.init es) more).lock = none
  generalize run a a.init es = s at h
  have hw : ∀ (ops : List (Op κ V)) (s : State κ V), (∃ i, s.pc = .writing i ops ∨ s.pc = .finalWriting i ops) →
      ∃ more : List Event, (run a s more).lock = none := by
    intro ops
    induction ops with
    | nil =>
      rintro s ⟨i, e | e⟩ <;> exact ⟨[.work], by simp [run, step, work, e]⟩
    | cons op ops ih =>
      rintro s ⟨i, e | e⟩
      · obtain ⟨more, hm⟩ := ih (work a s) ⟨i, Or.inl (by simp [work, e])⟩
        exact ⟨.work :: more, hm⟩
      · obtain ⟨more, hm⟩ := ih (work a s) ⟨i, Or.inr (by simp [work, e])⟩
        exact ⟨.work :: more, hm⟩
  cases hl : s.lock with
  | none => exact ⟨[], hl⟩
  | some o =>
    cases o with
    | worker =>
      have hi := h.worker.1 hl
      cases hp : s.pc <;> rw [hp] at hi <;> simp [Pc.inside] at hi
      next i ops => exact hw ops s ⟨i, Or.inl hp⟩
      next i ops => exact hw ops s ⟨i, Or.inr hp⟩
    | reader r =>
      obtain ⟨d, hr | hr⟩ := (h.reader r).1 hl
      · exact ⟨[.read r], by simp [run, step, readStep, hr]⟩
      · exact ⟨[.read r, .read r], by simp [run, step, readStep, hr]⟩

end Verif.Actor
