import Verif.Ggmp.TraceModel
import Verif.MCMC.StopProps
import Mathlib.Data.Nat.Digits.Lemmas

/-!
C139: traces saved to disk. A crash at any moment leaves every trace file as it was or whole; the files of different components and tags
are kept apart; the rows kept by thinning.
-/

namespace Verif.Ggmp

/-! ### Names -/

theorem padded_ne (w k : ℕ) : ∀ c ∈ padded w k, c ≠ '_' ∧ c ≠ '.' := by
  have key : ∀ n < 10, Nat.digitChar n ≠ '_' ∧ Nat.digitChar n ≠ '.' := by decide
  intro c hc
  simp only [padded, List.mem_map, List.mem_reverse, List.mem_append, List.mem_replicate] at hc
  obtain ⟨n, hn | hn, rfl⟩ := hc
  · exact key n (Nat.digits_lt_base (by norm_num) hn)
  · rw [hn.2]
    exact key 0 (by norm_num)

theorem padded_inj (w k k' : ℕ) (h : padded w k = padded w k') : k = k' := by
  have hinj : ∀ a < 10, ∀ b < 10, Nat.digitChar a = Nat.digitChar b → a = b := by decide
  have hlt : ∀ k, ∀ a ∈ Nat.digits 10 k ++ List.replicate (w - (Nat.digits 10 k).length) 0, a < 10 := by
    intro k a ha
    rw [List.mem_append, List.mem_replicate] at ha
    rcases ha with ha | ha
    · exact Nat.digits_lt_base (by norm_num) ha
    · rw [ha.2]; norm_num
  have hof : ∀ k, Nat.ofDigits 10 (Nat.digits 10 k ++ List.replicate (w - (Nat.digits 10 k).length) 0) = k := by
    intro k
    rw [Nat.ofDigits_append, Nat.ofDigits_digits, Nat.ofDigits_replicate_zero]
    simp
  have hl : ∀ l l' : List ℕ, (∀ a ∈ l, a < 10) → (∀ a ∈ l', a < 10) → l.map Nat.digitChar = l'.map Nat.digitChar → l = l' := by
    intro l
    induction l with
    | nil => intro l' _ _ h; simpa using h.symm
    | cons a l ih =>
      intro l' h1 h2 h
      cases l' with
      | nil => simp at h
      | cons b l' =>
        simp only [List.map_cons, List.cons.injEq] at h
        rw [hinj a (h1 a (by simp)) b (h2 b (by simp)) h.1,
          ih l' (fun c hc => h1 c (by simp [hc])) (fun c hc => h2 c (by simp [hc])) h.2]
  unfold padded at h
  have := hl _ _ (fun a ha => hlt k a (List.mem_reverse.1 ha)) (fun a ha => hlt k' a (List.mem_reverse.1 ha)) h
  rw [List.reverse_inj] at this
  rw [← hof k, ← hof k', this]

/-- Everything of a name before `.npz`. -/
def base (k : ℕ) (tag : List Char) : List Char := 'g' :: 'p' :: (padded 2 k ++ (traceWord ++ tagSuffix tag))

theorem traceName_eq (k : ℕ) (tag : List Char) : traceName k tag = base k tag ++ npz := by
  simp [traceName, base]

theorem tmpName_eq (k : ℕ) (tag : List Char) : tmpName (traceName k tag) = base k tag ++ dotTmp ++ npz := by
  have h : nameStem (base k tag ++ npz) = base k tag := by
    obtain ⟨a, s, hs⟩ : ∃ a s, (base k tag).reverse = a :: s := by
      cases h : (base k tag).reverse with
      | nil => simp [base] at h
      | cons a s => exact ⟨a, s, rfl⟩
    have e : (base k tag ++ npz).reverse = 'z' :: 'p' :: 'n' :: '.' :: a :: s := by
      rw [List.reverse_append, hs]; rfl
    unfold nameStem
    rw [e]
    have d : List.dropWhile (fun c => decide (c ≠ '.')) ('z' :: 'p' :: 'n' :: '.' :: a :: s) = '.' :: a :: s := by
      simp [List.dropWhile]
    have t : List.takeWhile (fun c => decide (c ≠ '.')) ('z' :: 'p' :: 'n' :: '.' :: a :: s) = ['z', 'p', 'n'] := by
      simp [List.takeWhile]
    rw [d, t]
    simp only
    rw [← hs, List.reverse_reverse]
  rw [traceName_eq, tmpName, h, List.append_assoc]

/-- The number of the component can be read off a name. -/
theorem base_component (k k' : ℕ) (tag tag' r r' : List Char) (h : base k tag ++ r = base k' tag' ++ r') : k = k' := by
  have ht : ∀ (k : ℕ) (tag r : List Char), ((base k tag ++ r).drop 2).takeWhile (· ≠ '_') = padded 2 k := by
    intro k tag r
    simp only [base, List.cons_append, List.drop_succ_cons, List.drop_zero, List.append_assoc]
    rw [List.takeWhile_append_of_pos (fun c hc => by simpa using (padded_ne 2 k c hc).1)]
    simp [traceWord, List.takeWhile]
  have := congrArg (fun n => (List.drop 2 n).takeWhile (· ≠ '_')) h
  simp only [ht] at this
  exact padded_inj 2 k k' this

theorem base_tag (k : ℕ) (tag tag' : List Char) (h : base k tag = base k tag') : tag = tag' := by
  simp only [base, List.cons.injEq, true_and, List.append_cancel_left_eq] at h
  unfold tagSuffix at h
  split_ifs at h with h1 h2 h2
  · rw [h1, h2]
  · simpa using h

/-- **C139**, names: trace files of different components or different tags have different names. -/
theorem C139_names (k k' : ℕ) (tag tag' : List Char) (h : traceName k tag = traceName k' tag') : k = k' ∧ tag = tag' := by
  rw [traceName_eq, traceName_eq] at h
  obtain rfl := base_component _ _ _ _ _ _ h
  exact ⟨rfl, base_tag k tag tag' (List.append_cancel_right h)⟩

theorem tmp_ne_trace (k k' : ℕ) (tag tag' : List Char) (h : tmpName (traceName k tag) = traceName k' tag') :
    k = k' ∧ tag ≠ [] ∧ tag' = tag ++ dotTmp := by
  rw [tmpName_eq, traceName_eq] at h
  have hk : k = k' := by
    rw [List.append_assoc] at h
    exact base_component _ _ _ _ _ _ h
  subst hk
  have h := List.append_cancel_right h
  simp only [base, List.cons_append, List.cons.injEq, true_and, List.append_assoc, List.append_cancel_left_eq] at h
  unfold tagSuffix at h
  split_ifs at h with h1 h2 h2
  · simp [dotTmp] at h
  · simp [dotTmp] at h
  · simp at h
  · exact ⟨rfl, h1, by simpa using h.symm⟩

theorem tmp_component (k k' : ℕ) (tag tag' : List Char) (h : tmpName (traceName k tag) = tmpName (traceName k' tag')) : k = k' := by
  rw [tmpName_eq, tmpName_eq, List.append_assoc, List.append_assoc] at h
  exact base_component _ _ _ _ _ _ h

/-! ### Writing -/

variable {β : Type}

/-- The last payload saved with a tag. -/
def lastSave [DecidableEq (List Char)] (saves : List (List Char × β)) (tag : List Char) : Option β :=
  ((saves.filter fun s => s.1 = tag).getLast?).map (·.2)

/-- What a reader finds under a name that held `old` after some saves. -/
def expected (old : Option (Content β)) (saves : List (List Char × β)) (tag : List Char) : Option (Content β) :=
  match lastSave saves tag with
  | some p => some (.whole p)
  | none => old

theorem expected_snoc (old : Option (Content β)) (saves : List (List Char × β)) (t : List Char) (p : β) (tag : List Char) :
    expected old (saves ++ [(t, p)]) tag = if t = tag then some (.whole p) else expected old saves tag := by
  unfold expected lastSave
  rw [List.filter_append]
  split_ifs with h
  · simp [h]
  · simp [h]

/-- How far a writer has come. -/
inductive Phase (k : ℕ) (fs : Dir β) : List (List Char × β) → List (Op β) → Prop where
  | idle (rest : List (List Char × β)) : Phase k fs rest (plan k rest)
  | created (t : List Char) (p : β) (rest : List (List Char × β)) :
      Phase k fs ((t, p) :: rest) (.fill (tmpName (traceName k t)) p :: .move (tmpName (traceName k t)) (traceName k t) :: plan k rest)
  | filled (t : List Char) (p : β) (rest : List (List Char × β)) (h : fs (tmpName (traceName k t)) = some (.whole p)) :
      Phase k fs ((t, p) :: rest) (.move (tmpName (traceName k t)) (traceName k t) :: plan k rest)

/-- The invariant for one component. -/
structure Writer (k : ℕ) (fs0 fs : Dir β) (saves : List (List Char × β)) (prog : List (Op β)) (done : List (List Char × β)) : Prop where
  rest : ∃ r, saves = done ++ r ∧ Phase k fs r prog
  files : ∀ tag, (∀ s ∈ saves, s.1 ≠ [] → tag ≠ s.1 ++ dotTmp) → fs (traceName k tag) = expected (fs0 (traceName k tag)) done tag

/-- The own step of a writer. -/
theorem Writer.own {k : ℕ} {fs0 fs : Dir β} {saves done : List (List Char × β)} {op : Op β} {rest : List (Op β)}
    (w : Writer k fs0 fs saves (op :: rest) done) : ∃ done', Writer k fs0 (op.exec fs) saves rest done' := by
  obtain ⟨r, hr, ph⟩ := w.rest
  have hset : ∀ (t : List Char) (c : Option (Content β)) (fs : Dir β) (tag : List Char), (t ≠ [] → tag ≠ t ++ dotTmp) →
      (fs.set (tmpName (traceName k t)) c) (traceName k tag) = fs (traceName k tag) := by
    intro t c fs tag h
    rw [Dir.set, if_neg]
    intro e
    obtain ⟨-, h1, h2⟩ := tmp_ne_trace k k t tag e.symm
    exact h h1 h2
  generalize hp : op :: rest = prog at ph
  cases ph with
  | idle =>
    cases r with
    | nil => simp [plan] at hp
    | cons s r =>
      obtain ⟨t, p⟩ := s
      simp only [plan, List.flatMap_cons, atomicSave, List.cons_append, List.nil_append, List.cons.injEq] at hp
      obtain ⟨rfl, rfl⟩ := hp
      refine ⟨done, ⟨_, hr, .created t p r⟩, fun tag ht => ?_⟩
      rw [← w.files tag ht]
      exact hset t _ _ tag (ht (t, p) (by simp [hr]))
  | created t p r =>
    simp only [List.cons.injEq] at hp
    obtain ⟨rfl, rfl⟩ := hp
    refine ⟨done, ⟨_, hr, .filled t p r (by simp [Op.exec, Dir.set])⟩, fun tag ht => ?_⟩
    rw [← w.files tag ht]
    exact hset t _ _ tag (ht (t, p) (by simp [hr]))
  | filled t p r h =>
    simp only [List.cons.injEq] at hp
    obtain ⟨rfl, rfl⟩ := hp
    refine ⟨done ++ [(t, p)], ⟨r, by simp [hr], .idle r⟩, fun tag ht => ?_⟩
    rw [expected_snoc, ← w.files tag ht]
    change ((fs.set (traceName k t) (fs (tmpName (traceName k t)))).set (tmpName (traceName k t)) none) _ = _
    rw [hset t _ _ tag (ht (t, p) (by simp [hr])), Dir.set, h]
    by_cases htt : t = tag
    · rw [if_pos htt, if_pos (by rw [htt])]
    · rw [if_neg htt, if_neg fun e => htt (C139_names _ _ _ _ e).2.symm]

/-- The names a step may change. -/
def Op.touches (n : List Char) : Op β → Prop
  | .create m => n = m
  | .fill m _ => n = m
  | .move m m' => n = m ∨ n = m'

theorem Op.exec_other (fs : Dir β) (op : Op β) (n : List Char) (h : ¬ op.touches n) : op.exec fs n = fs n := by
  cases op with
  | create m => exact if_neg h
  | fill m p => exact if_neg h
  | move m m' =>
    simp only [Op.touches, not_or] at h
    simp [Op.exec, Dir.set, h.1, h.2]

/-- All steps of a writer are on its own names. -/
theorem Phase.own_names {k : ℕ} {fs : Dir β} {r : List (List Char × β)} {prog : List (Op β)} (ph : Phase k fs r prog) :
    ∀ op ∈ prog, ∀ n, op.touches n → ∃ t, n = traceName k t ∨ n = tmpName (traceName k t) := by
  have hplan : ∀ r : List (List Char × β), ∀ op ∈ plan k r, ∀ n, op.touches n → ∃ t, n = traceName k t ∨ n = tmpName (traceName k t) := by
    intro r op hop n hn
    simp only [plan, List.mem_flatMap, atomicSave, List.mem_cons, List.not_mem_nil, or_false] at hop
    obtain ⟨s, -, rfl | rfl | rfl⟩ := hop
    · exact ⟨s.1, .inr hn⟩
    · exact ⟨s.1, .inr hn⟩
    · exact ⟨s.1, hn.symm⟩
  cases ph with
  | idle => exact hplan r
  | created t p r =>
    intro op hop n hn
    simp only [List.mem_cons] at hop
    rcases hop with rfl | rfl | hop
    · exact ⟨t, .inr hn⟩
    · exact ⟨t, hn.symm⟩
    · exact hplan r op hop n hn
  | filled t p r h =>
    intro op hop n hn
    simp only [List.mem_cons] at hop
    rcases hop with rfl | hop
    · exact ⟨t, hn.symm⟩
    · exact hplan r op hop n hn

/-- A step of another component does not matter. -/
theorem Writer.other {k : ℕ} {fs0 fs : Dir β} {saves done : List (List Char × β)} {prog : List (Op β)} (w : Writer k fs0 fs saves prog done)
    (op : Op β) (h : ∀ t, ¬ op.touches (traceName k t) ∧ ¬ op.touches (tmpName (traceName k t))) : Writer k fs0 (op.exec fs) saves prog done := by
  obtain ⟨r, hr, ph⟩ := w.rest
  refine ⟨⟨r, hr, ?_⟩, fun tag ht => ?_⟩
  · cases ph with
    | idle => exact .idle r
    | created t p r => exact .created t p r
    | filled t p r hf => exact .filled t p r (by rw [Op.exec_other fs op _ (h t).2, hf])
  · rw [Op.exec_other fs op _ (h tag).1, w.files tag ht]

theorem run_writers (fs0 : Dir β) (saves : ℕ → List (List Char × β)) : ∀ (sched : List ℕ) (s : Sys β),
    (∀ k, ∃ done, Writer k fs0 s.fs (saves k) (s.prog k) done) →
    ∀ k, ∃ done, Writer k fs0 (s.run sched).fs (saves k) ((s.run sched).prog k) done
  | [], s, h => h
  | i :: is, s, h => by
    rw [Sys.run]
    refine run_writers fs0 saves is (s.step i) fun k => ?_
    unfold Sys.step
    split
    · exact h k
    · rename_i op rest hp
      simp only
      by_cases hk : k = i
      · rw [if_pos hk]
        obtain ⟨done, w⟩ := h k
        rw [hk, hp] at w
        rw [hk]
        exact w.own
      · rw [if_neg hk]
        obtain ⟨done, w⟩ := h k
        obtain ⟨done', w'⟩ := h i
        obtain ⟨r, -, ph⟩ := w'.rest
        have hn := ph.own_names op (by rw [hp]; simp)
        refine ⟨done, w.other op fun t => ⟨fun ht => ?_, fun ht => ?_⟩⟩
        · obtain ⟨t', h1 | h1⟩ := hn _ ht
          · exact hk (C139_names _ _ _ _ h1).1
          · exact hk (tmp_ne_trace _ _ _ _ h1.symm).1.symm
        · obtain ⟨t', h1 | h1⟩ := hn _ ht
          · exact hk (tmp_ne_trace _ _ _ _ h1).1
          · exact hk (tmp_component _ _ _ _ h1)

/-- **C139**, the part that holds: whatever the order in which the threads of the components make their steps and wherever a crash cuts
them off, the file of component `k` with a tag is either untouched or the whole payload of the latest of the saves of `k` that have been
completed (`done`); when the thread of `k` has finished, these are all its saves. This is for tags that are not another tag of the
component followed by `.tmp`; component `k` is written by one thread. -/
theorem C139_atomic_partial (fs0 : Dir β) (saves : ℕ → List (List Char × β)) (sched : List ℕ) (k : ℕ) :
    ∃ done, done <+: saves k ∧
      ((Sys.run ⟨fs0, fun k => plan k (saves k)⟩ sched).prog k = [] → done = saves k) ∧
      ∀ tag, (∀ s ∈ saves k, s.1 ≠ [] → tag ≠ s.1 ++ dotTmp) →
        (Sys.run ⟨fs0, fun k => plan k (saves k)⟩ sched).fs (traceName k tag) =
          match ((done.filter fun s => s.1 = tag).getLast?) with
          | some s => some (.whole s.2)
          | none => fs0 (traceName k tag) := by
  obtain ⟨done, w⟩ := run_writers fs0 saves sched ⟨fs0, fun k => plan k (saves k)⟩
    (fun k => ⟨[], ⟨saves k, rfl, .idle _⟩, fun tag _ => rfl⟩) k
  obtain ⟨r, hr, ph⟩ := w.rest
  refine ⟨done, ⟨r, hr.symm⟩, fun he => ?_, fun tag ht => ?_⟩
  · rw [he] at ph
    generalize hp : ([] : List (Op β)) = prog at ph
    cases ph with
    | idle =>
      cases r with
      | nil => rw [hr, List.append_nil]
      | cons s r => simp [plan, atomicSave] at hp
    | created t p r => simp at hp
    | filled t p r h => simp at hp
  · rw [w.files tag ht]
    unfold expected lastSave
    cases (done.filter fun s => s.1 = tag).getLast? <;> rfl

theorem chunkTag_no_tmp (n : ℕ) (t : List Char) : chunkTag n ≠ t ++ dotTmp := by
  intro h
  have hm : '.' ∈ chunkTag n := by rw [h]; simp [dotTmp]
  simp only [chunkTag, List.mem_append] at hm
  rcases hm with hm | hm
  · simp at hm
  · exact (padded_ne 6 n '.' hm).2 rfl

/-- **C139** for the tags that training uses (`chunk000100`, … for the parts of a run and no tag at its end): no restriction is needed.
The files of different numbers of iterations are different ones. -/
theorem C139_training (fs0 : Dir β) (saves : ℕ → List (List Char × β)) (hs : ∀ k, ∀ s ∈ saves k, s.1 = [] ∨ ∃ n, s.1 = chunkTag n)
    (sched : List ℕ) (k : ℕ) (tag : List Char) (ht : tag = [] ∨ ∃ n, tag = chunkTag n) :
    ((Sys.run ⟨fs0, fun k => plan k (saves k)⟩ sched).fs (traceName k tag) = fs0 (traceName k tag) ∨
      ∃ p, (tag, p) ∈ saves k ∧ (Sys.run ⟨fs0, fun k => plan k (saves k)⟩ sched).fs (traceName k tag) = some (.whole p)) ∧
    (∀ n m, chunkTag n = chunkTag m → n = m) := by
  refine ⟨?_, fun n m h => padded_inj 6 n m (List.append_cancel_left h)⟩
  obtain ⟨done, ⟨r, hr⟩, -, h⟩ := C139_atomic_partial fs0 saves sched k
  have h := h tag (fun s hs' hne => by
    rcases ht with rfl | ⟨n, rfl⟩
    · simp [dotTmp]
    · exact chunkTag_no_tmp n s.1)
  rw [h]
  cases hl : (done.filter fun s => s.1 = tag).getLast? with
  | none => exact .inl rfl
  | some s =>
    right
    have hm := List.mem_of_getLast? hl
    rw [List.mem_filter, decide_eq_true_eq] at hm
    refine ⟨s.2, ?_, rfl⟩
    rw [← hr, ← hm.2]
    exact List.mem_append_left _ hm.1

/-- Two components, the first saving two parts and its end, cut off in the middle. -/
example (a b c e : β) :
    let s := Sys.run (⟨fun _ => none, fun k => plan k (if k = 0 then [(chunkTag 100, a), (chunkTag 200, b), ([], c)] else if k = 1 then [([], e)] else [])⟩ : Sys β)
      [0, 1, 0, 0, 0, 1]
    s.fs (traceName 0 (chunkTag 100)) = some (.whole a) ∧ s.fs (traceName 0 (chunkTag 200)) = none ∧ s.fs (traceName 1 []) = none := by
  refine ⟨rfl, rfl, rfl⟩

/-- **C139** is violated for tags in general: saving with tag `t` destroys the file saved before with tag `t.tmp`. -/
theorem C139_tmp_violated (fs : Dir β) (k : ℕ) (t : List Char) (ht : t ≠ []) (p q : β) :
    let s := Sys.run ⟨fs, fun j => if j = k then plan k [(t ++ dotTmp, p), (t, q)] else []⟩ [k, k, k, k, k, k]
    s.prog k = [] ∧ s.fs (traceName k (t ++ dotTmp)) = none := by
  have e : tmpName (traceName k t) = traceName k (t ++ dotTmp) := by
    rw [tmpName_eq, traceName_eq]
    simp [base, tagSuffix, ht]
  simp only [Sys.run, Sys.step, plan, List.flatMap_cons, List.flatMap_nil, atomicSave, List.cons_append, List.nil_append, if_true, e]
  exact ⟨trivial, by simp [Op.exec, Dir.set]⟩

/-- **C139** is violated for two writers of the same file (two runs with the same directory): the file that was whole can be left torn
although nothing failed; both use the same temporary name. -/
theorem C139_two_writers_violated (fs : Dir β) (k : ℕ) (tag : List Char) (p q : β) :
    ∃ sched, (Sys.run ⟨fs, fun j => if j = 0 then atomicSave (traceName k tag) p else if j = 1 then atomicSave (traceName k tag) q else []⟩
      sched).fs (traceName k tag) = some .torn := by
  refine ⟨[0, 0, 1, 0], ?_⟩
  have hne : traceName k tag ≠ tmpName (traceName k tag) := by
    intro h
    have := (tmp_ne_trace k k tag tag h.symm).2.2
    simp [dotTmp] at this
  simp [Sys.run, Sys.step, atomicSave, Op.exec, Dir.set, hne]

/-! ### Thinning -/

/-- Thinning keeps the entries `0, n, 2n, …`. -/
theorem every_getElem? {α : Type} (n : ℕ) (hn : 1 ≤ n) (l : List α) : ∀ j, (every n l)[j]? = l[j * n]? := by
  induction l using every.induct n with
  | case1 => simp [every]
  | case2 a l ih =>
    intro j
    rw [every]
    cases j with
    | zero => simp
    | succ j =>
      rw [List.getElem?_cons_succ, ih j, List.getElem?_drop, show (j + 1) * n = (n - 1 + j * n) + 1 by
        rw [Nat.add_mul, Nat.one_mul]; omega, List.getElem?_cons_succ]

/-- **C139**, the part that holds of the contents: a thinning below one means one; row `j` of the file is row `j * thin` of the trace,
for positions, values and time stamps alike, and the summaries are those of the whole trace. -/
theorem C139_thinned {d : ℕ} (k : ℕ) (thin : ℤ) (tag : List Char) (i : MCMC.Info d) (j : ℕ) :
    let t := tracePayload k thin tag i
    (t.thin : ℤ) = max 1 thin ∧ t.k = k ∧ t.tag = tag ∧ t.x[j]? = i.xs[j * t.thin]? ∧ t.f[j]? = i.fs[j * t.thin]? ∧
      t.time[j]? = i.ts[j * t.thin]? ∧ t.medianX = i.medianX ∧ t.meanX = i.meanX ∧ t.varX = i.varX ∧ t.map = i.map ∧
      t.maxX = i.maxX ∧ t.maxF = i.maxF := by
  have hn : 1 ≤ (max 1 thin).toNat := by omega
  exact ⟨by simp only [tracePayload]; omega, rfl, rfl, every_getElem? _ hn _ _, every_getElem? _ hn _ _, every_getElem? _ hn _ _, rfl, rfl, rfl,
    rfl, rfl, rfl⟩

/-- **C139**: what the value in row `j` of a file belongs to: not to the position in the same row of the file but to the position after it
in the trace. -/
theorem C139_value {d : ℕ} {f : MCMC.Pos d → Option ℝ} {prior : MCMC.Pos d → WithBot ℝ} {w : MCMC.Draws d} {brk : MCMC.Trace d → Bool}
    (objs : List (MCMC.Proposal d)) (x0 : MCMC.Pos d) (nUpdates : ℕ) (r : MCMC.Run d)
    (h : MCMC.runMCMC f prior w brk objs x0 nUpdates = .ok r) (hb : brk r.trace = false) (i : MCMC.Info d) (hi : r.returned = some i)
    (k : ℕ) (thin : ℤ) (tag : List Char) (j : ℕ) (v : Option ℝ) (hv : (tracePayload k thin tag i).f[j]? = some v) :
    ∃ x, i.xs[j * (tracePayload k thin tag i).thin + 1]? = some x ∧ v = f x := by
  obtain ⟨i', h1, h2, h3, -⟩ := MCMC.C98_result_partial objs x0 nUpdates r h hb
  rw [hi, Option.some.injEq] at h1
  subst h1
  obtain ⟨n, -, -, -, e1, e2, -, -, e3, -⟩ := MCMC.C53_trace objs x0 nUpdates r h
  obtain ⟨-, -, -, -, h5, -⟩ := C139_thinned k thin tag i j
  rw [h5, h3] at hv
  obtain ⟨hlt, hv⟩ := List.getElem?_eq_some_iff.1 hv
  rw [e2] at hlt
  have hx := e3 _ hlt
  have hlt' : j * (tracePayload k thin tag i).thin + 1 < r.trace.xs.length := by omega
  refine ⟨r.trace.xs[j * (tracePayload k thin tag i).thin + 1], ?_, ?_⟩
  · rw [h2]
    exact List.getElem?_eq_getElem hlt'
  · rw [List.getD_eq_getElem _ _ (by omega), List.getD_eq_getElem _ _ (by omega)] at hx
    rw [← hv]
    exact hx

/-- A proposal object and draws that always move one to the right. -/
def walkProposal (jt : List ℝ) : MCMC.Proposal 1 := ⟨[0], false, false, 10, 10, 0, 0, true, true, jt, none, none⟩

def walkDraws : MCMC.Draws 1 := ⟨fun _ _ _ x => x, fun _ _ _ x k => x k + 1, fun _ _ => 0, fun _ => 0⟩

/-- A constant log prior. -/
def flat (_ : MCMC.Pos 1) : WithBot ℝ := ((0 : ℝ) : WithBot ℝ)

/-- The positions `0, 1, …, n`. -/
def walk (n : ℕ) : List (MCMC.Pos 1) := (List.range (n + 1)).map fun (i : ℕ) _ => (i : ℝ)

theorem walk_run : ∀ (fuel n : ℕ) (fs : List (Option ℝ)) (ts jt : List ℝ) (inf : Option (MCMC.Info 1)),
    ∃ r, MCMC.loop (fun x : MCMC.Pos 1 => some (x 0)) flat walkDraws (fun _ => false) fuel (n + 1)
        ⟨⟨walk n, fs, ts⟩, ⟨fun _ => n, ((0 : ℝ) : WithBot ℝ), some (n : ℝ)⟩, [walkProposal jt], inf⟩ = .ok r ∧ r.trace.xs = walk (n + fuel)
  | 0, n, fs, ts, jt, inf => ⟨_, rfl, rfl⟩
  | fuel + 1, n, fs, ts, jt, inf => by
    have hit : MCMC.iteration (fun x : MCMC.Pos 1 => some (x 0)) flat walkDraws (n + 1)
        ⟨⟨walk n, fs, ts⟩, ⟨fun _ => n, ((0 : ℝ) : WithBot ℝ), some (n : ℝ)⟩, [walkProposal jt], inf⟩ =
        .ok ⟨⟨walk (n + 1), fs ++ [some ((n + 1 : ℕ) : ℝ)], ts ++ [0]⟩, ⟨fun _ => ((n + 1 : ℕ) : ℝ), ((0 : ℝ) : WithBot ℝ), some ((n + 1 : ℕ) : ℝ)⟩,
          [walkProposal (jt ++ [1])], inf⟩ := by
      have hp : MCMC.propose walkDraws (n + 1) 0 (walkProposal jt) (fun _ => (n : ℝ)) = .ok fun _ => ((n + 1 : ℕ) : ℝ) := by
        simp only [MCMC.propose, walkProposal, walkDraws, Bool.false_eq_true, if_false, Except.ok.injEq]
        funext k; fin_cases k; simp
      have hj : MCMC.jump (fun x : MCMC.Pos 1 => some (x 0)) flat (walkProposal jt).autoAccept
          ⟨fun _ => n, ((0 : ℝ) : WithBot ℝ), some (n : ℝ)⟩ (fun _ => ((n + 1 : ℕ) : ℝ)) (walkDraws.u (n + 1) 0) =
          .ok (⟨fun _ => ((n + 1 : ℕ) : ℝ), ((0 : ℝ) : WithBot ℝ), some ((n + 1 : ℕ) : ℝ)⟩, 1) := by
        have : (walkProposal jt).autoAccept = true := rfl
        simp only [MCMC.jump, flat, this, or_true, if_true]
        rfl
      have hw : walk (n + 1) = walk n ++ [fun _ => ((n + 1 : ℕ) : ℝ)] := by
        rw [walk, List.range_succ, List.map_append]
        rfl
      rw [hw, MCMC.iteration]
      simp only [MCMC.sweep, bind, Except.bind, hp, hj]
      rfl
    obtain ⟨r, h1, h2⟩ := walk_run fuel (n + 1) (fs ++ [some ((n + 1 : ℕ) : ℝ)]) (ts ++ [0]) (jt ++ [1])
      (some (MCMC.collect ⟨walk (n + 1), fs ++ [some ((n + 1 : ℕ) : ℝ)], ts ++ [0]⟩))
    refine ⟨r, ?_, by rw [h2]; congr 1; omega⟩
    rw [MCMC.loop.eq_def]
    simp only [hit, bind, Except.bind, Bool.false_eq_true, if_false]
    exact h1

/-- **C139** is violated as to the pairing of positions and values. A chain walks `0, 1, 2, …`, the likelihood of `x` is `x`. Whatever
the thinning and the length of the run, in every row of the file the value is not the likelihood of the position; thinned by two or
more, it is not the likelihood of any position in the file. -/
theorem C139_pairing_violated (nUpdates : ℕ) (thin : ℤ) :
    ∃ (r : MCMC.Run 1) (i : MCMC.Info 1), MCMC.runMCMC (fun x : MCMC.Pos 1 => some (x 0)) flat walkDraws
        (fun _ => false) [walkProposal []] (fun _ => 0) nUpdates = .ok r ∧ r.returned = some i ∧ (tracePayload 0 thin [] i).f ≠ [] ∧
      ∀ (j : ℕ) (x : MCMC.Pos 1) (v : Option ℝ), (tracePayload 0 thin [] i).x[j]? = some x → (tracePayload 0 thin [] i).f[j]? = some v →
        v ≠ some (x 0) ∧ (2 ≤ thin → ∀ y ∈ (tracePayload 0 thin [] i).x, v ≠ some (y 0)) := by
  obtain ⟨r, hr, hx⟩ := walk_run (max nUpdates 2 - 1) 0 [] [] [] none
  have hrun : MCMC.runMCMC (fun x : MCMC.Pos 1 => some (x 0)) flat walkDraws (fun _ => false) [walkProposal []] (fun _ => 0)
      nUpdates = .ok r := by
    rw [MCMC.runMCMC, ← hr, MCMC.start]
    simp [walk, flat]
  obtain ⟨i, hi, h2, h3, -⟩ := MCMC.C98_result_partial _ _ nUpdates r hrun rfl
  have hget : ∀ (m : ℕ) (x : MCMC.Pos 1), i.xs[m]? = some x → x = fun _ => (m : ℝ) := by
    intro m x h
    rw [h2, hx, walk, List.getElem?_map] at h
    obtain ⟨a, ha, rfl⟩ := Option.map_eq_some_iff.1 h
    rw [List.getElem?_eq_some_iff] at ha
    obtain ⟨_, rfl⟩ := ha
    simp
  obtain ⟨n, hn, -, -, -, e2, -⟩ := MCMC.C53_trace _ _ nUpdates r hrun
  refine ⟨r, i, hrun, hi, ?_, fun j x v hxj hv => ?_⟩
  · have := (C139_thinned 0 thin [] i 0).2.2.2.2.1
    intro e
    rw [e, h3, Nat.zero_mul] at this
    simp only [List.getElem?_nil] at this
    have := List.getElem?_eq_none_iff.1 this.symm
    omega
  · obtain ⟨x', hx', rfl⟩ := C139_value _ _ nUpdates r hrun rfl i hi 0 thin [] j v hv
    have ex := hget _ _ hx'
    have key : ∀ j' y, (tracePayload 0 thin [] i).x[j']? = some y → (j' = j ∨ 2 ≤ thin) → some (x' 0) ≠ some (y 0) := by
      intro j' y hy hor he
      have ht := C139_thinned 0 thin [] i j'
      have h4 := ht.2.2.2.1
      have h1 := ht.1
      rw [hy] at h4
      have ey := hget _ _ h4.symm
      rw [ex, ey] at he
      simp only [Option.some.injEq] at he
      have he : j * (tracePayload 0 thin [] i).thin + 1 = j' * (tracePayload 0 thin [] i).thin := by exact_mod_cast he
      rcases hor with rfl | h2
      · omega
      · have hd : (tracePayload 0 thin [] i).thin ∣ 1 := by
          rw [← Nat.dvd_add_right (Nat.dvd_mul_left _ j), he]
          exact Nat.dvd_mul_left _ _
        have := Nat.le_of_dvd Nat.one_pos hd
        omega
    refine ⟨key j x hxj (.inl rfl), fun h2 y hy => ?_⟩
    obtain ⟨j', hj'⟩ := List.mem_iff_getElem?.1 hy
    exact key j' y hj' (.inr h2)

end Verif.Ggmp
