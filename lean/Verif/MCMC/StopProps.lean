import Verif.MCMC.AdaptProps
import Mathlib.Data.List.Sort

/-! C96: every proposal moves only its own coordinates. C97: the default break condition. C98: what a run returns. -/

namespace Verif.MCMC

open Finset Verif.LinAlg

variable {d : ℕ} {f : Pos d → Option ℝ} {prior : Pos d → WithBot ℝ} {w : Draws d} {brk : Trace d → Bool}

/-! ## C96 -/

theorem propose_outside {i j : ℕ} {o : Proposal d} {x y : Pos d} (h : propose w i j o x = .ok y) (k : Fin d)
    (hk : k ∉ o.idx) : y k = x k := by
  unfold propose at h
  split_ifs at h
  · cases hS : o.Sigma with
    | none => rw [hS] at h; simp at h
    | some S =>
      rw [hS] at h
      simp only [Except.ok.injEq] at h
      rw [← h]
      exact if_neg hk
  · simp only [Except.ok.injEq] at h
    rw [← h]
    exact if_neg hk

theorem adapt_idx {o o' : Proposal d} {i : ℕ} {xs : List (Pos d)} (h : adapt o i xs = .ok o') : o'.idx = o.idx := by
  unfold adapt at h
  split_ifs at h <;> simp only [Except.ok.injEq] at h <;> rw [← h]

theorem sweep_frozen {i : ℕ} {xs : List (Pos d)} (k : Fin d) :
    ∀ (os : List (Proposal d)) (j : ℕ) (s s' : Chain d) (os' : List (Proposal d)),
      sweep f prior w i xs j s os = .ok (s', os') → (∀ o ∈ os, k ∉ o.idx) → s'.x k = s.x k ∧ ∀ o ∈ os', k ∉ o.idx := by
  intro os
  induction os with
  | nil =>
    intro j s s' os' h hk
    simp only [sweep, Except.ok.injEq, Prod.mk.injEq] at h
    rw [← h.1, ← h.2]
    exact ⟨rfl, hk⟩
  | cons o os ih =>
    intro j s s' os' h hk
    obtain ⟨xStar, s1, jt, o1, os1, h1, h2, h3, h4, rfl⟩ := sweep_cons h
    obtain ⟨e1, e2⟩ := ih _ _ _ _ h4 fun o ho => hk o (by simp [ho])
    constructor
    · rw [e1]
      rcases jump_cases h2 with ⟨rfl, -⟩ | ⟨_, _, -, -, rfl, -, -⟩
      · rfl
      · exact propose_outside h1 k (hk o (by simp))
    · intro o' ho'
      rcases List.mem_cons.1 ho' with rfl | ho'
      · rw [adapt_idx h3]
        exact hk o (by simp)
      · exact e2 o' ho'

/-- **C96**. A coordinate that belongs to no proposal object keeps its starting value at every position of the chain,
whatever the proposals draw. -/
theorem C96_frozen (objs : List (Proposal d)) (x0 : Pos d) (nUpdates : ℕ) (r : Run d)
    (h : runMCMC f prior w brk objs x0 nUpdates = .ok r) (k : Fin d) (hk : ∀ o ∈ objs, k ∉ o.idx) :
    ∀ x ∈ r.trace.xs, x k = x0 k := by
  have key := loop_invariant (brk := brk) (f := f) (prior := prior) (w := w) (fun _ r => r.chain.x k = x0 k ∧
      (∀ x ∈ r.trace.xs, x k = x0 k) ∧ ∀ o ∈ r.objs, k ∉ o.idx)
    (by
      rintro i r r' ⟨h1, h2, h3⟩ he
      obtain ⟨s, objs, hs, rfl⟩ := iteration_ok he
      obtain ⟨e1, e2⟩ := sweep_frozen k _ _ _ _ _ hs h3
      refine ⟨e1.trans h1, fun x hx => ?_, e2⟩
      rcases List.mem_append.1 hx with hx | hx
      · exact h2 x hx
      · rw [List.mem_singleton.1 hx]; exact e1.trans h1)
    (fun i r0 r _ h => h) _ _ _ _ h ⟨rfl, by simp [start], hk⟩
  obtain ⟨-, -, -, ⟨-, h2, -⟩, -⟩ := key
  exact h2

/-- **C96** (one proposal object). In an iteration with a single proposal object the new position differs from the old one
only in the coordinates of that object. -/
theorem C96_block (o : Proposal d) (i : ℕ) (r r' : Run d) (ho : r.objs = [o]) (h : iteration f prior w i r = .ok r')
    (k : Fin d) (hk : k ∉ o.idx) : r'.chain.x k = r.chain.x k := by
  obtain ⟨s, objs, hs, rfl⟩ := iteration_ok h
  exact (sweep_frozen k _ _ _ _ _ hs (by rw [ho]; simpa using hk)).1

/-- The second coordinate of a two-dimensional chain whose only (normal) proposal owns the first one. -/
example (F : Pos 2 → ℝ) (w : Draws 2) (x0 : Pos 2) (n : ℕ) :
    ∃ r, runMCMC (fun x => some (F x)) (fun _ => some (0 : ℝ)) w (fun _ => false)
      [⟨[0], true, true, 10, 10, 0.8, 0.234, false, true, [], some fun _ _ => 1, some 1⟩] x0 n = .ok r ∧
      ∀ x ∈ r.trace.xs, x 1 = x0 1 := by
  obtain ⟨r, hr⟩ := C53_completes (prior := fun _ => some (0 : ℝ)) (w := w) (brk := fun _ => false) F
    [⟨[0], true, true, 10, 10, 0.8, 0.234, false, true, [], some fun _ _ => 1, some 1⟩] x0 n (by
      intro o ho
      rw [List.mem_singleton.1 ho]
      refine ⟨by norm_num, by norm_num, ⟨_, rfl, ?_⟩, 1, rfl, by norm_num⟩
      have : toMat 1 (fun _ _ => (1 : ℝ)) = 1 := by
        ext a b
        fin_cases a; fin_cases b
        simp [toMat]
      change (toMat 1 (fun _ _ => (1 : ℝ))).PosSemidef
      rw [this]
      exact Matrix.PosSemidef.one)
  exact ⟨r, hr, C96_frozen _ x0 n r hr 1 (by simp)⟩

/-! ## C97 -/

/-- The trace as it was after `m` iterations. -/
def Trace.upTo (t : Trace d) (m : ℕ) : Trace d := ⟨t.xs.take (m + 1), t.fs.take m, t.ts.take m⟩

/-- The break condition held at none of the earlier iterations, and at the last one if the run was cut short. -/
theorem loop_break : ∀ (fuel i : ℕ) (r r' : Run d), loop f prior w brk fuel i r = .ok r' →
    r.trace.xs.length = i → r.trace.fs.length + 1 = i → r.trace.ts.length + 1 = i →
    r'.trace.xs.length = r'.trace.fs.length + 1 ∧ r'.trace.ts.length = r'.trace.fs.length ∧
    r.trace.xs <+: r'.trace.xs ∧ r.trace.fs <+: r'.trace.fs ∧ r.trace.ts <+: r'.trace.ts ∧
    (∀ m, i ≤ m → m < r'.trace.fs.length → brk (r'.trace.upTo m) = false) ∧
    (r'.trace.fs.length + 1 < i + fuel → brk r'.trace = true) := by
  intro fuel
  induction fuel with
  | zero =>
    intro i r r' h hx hf ht
    simp only [loop, Except.ok.injEq] at h
    subst h
    exact ⟨by omega, by omega, List.prefix_refl _, List.prefix_refl _, List.prefix_refl _, fun m h1 h2 => by omega,
      fun h => by omega⟩
  | succ fuel ih =>
    intro i r r' h hx hf ht
    simp only [loop, bind, Except.bind] at h
    cases h1 : iteration f prior w i r with
    | error e => rw [h1] at h; simp at h
    | ok r1 =>
      rw [h1] at h
      simp only at h
      obtain ⟨s, objs, hs, rfl⟩ := iteration_ok h1
      by_cases hb : brk ⟨r.trace.xs ++ [s.x], r.trace.fs ++ [s.lik], r.trace.ts ++ [w.clock i]⟩ = true
      · rw [if_pos hb] at h
        simp only [Except.ok.injEq] at h
        subst h
        refine ⟨by simp; omega, by simp; omega, List.prefix_append _ _, List.prefix_append _ _, List.prefix_append _ _, ?_,
          fun _ => hb⟩
        intro m h1 h2
        simp at h2
        omega
      · rw [if_neg hb] at h
        obtain ⟨e1, e2, e3, e4, e5, e6, e7⟩ := ih (i + 1) _ _ h (by simp; omega) (by simp; omega) (by simp; omega)
        refine ⟨e1, e2, (List.prefix_append _ _).trans e3, (List.prefix_append _ _).trans e4,
          (List.prefix_append _ _).trans e5, ?_, fun hlt => e7 (by omega)⟩
        intro m hm1 hm2
        rcases Nat.lt_or_ge i m with hm | hm
        · exact e6 m hm hm2
        · obtain rfl : m = i := by omega
          have : r'.trace.upTo m = ⟨r.trace.xs ++ [s.x], r.trace.fs ++ [s.lik], r.trace.ts ++ [w.clock m]⟩ := by
            unfold Trace.upTo
            have t1 := List.prefix_iff_eq_take.1 e3
            have t2 := List.prefix_iff_eq_take.1 e4
            have t3 := List.prefix_iff_eq_take.1 e5
            simp only [List.length_append, List.length_singleton, hx, hf, ht] at t1 t2 t3
            rw [← t1, ← t2, ← t3]
          rw [this]
          simpa using hb

/-- The average likelihood of the 100 positions from index `a` on. -/
noncomputable def windowAverage (F : Pos d → ℝ) (xs : List (Pos d)) (x0 : Pos d) (a : ℕ) : ℝ :=
  (∑ k ∈ range 100, F (xs.getD (a + k) x0)) / 100

/-- After `m` iterations the average log likelihood of the last 100 iterations and that of the 100 before differ by less than
one thousandth. -/
def Stabilized (F : Pos d → ℝ) (xs : List (Pos d)) (x0 : Pos d) (m : ℕ) : Prop :=
  |windowAverage F xs x0 (m - 99) - windowAverage F xs x0 (m - 199)| < 1 / 1000

theorem slice_sum (F : Pos d → ℝ) (x0 : Pos d) (t : Trace d) (m a : ℕ) (ha : a + 100 ≤ m)
    (ht : TraceOK (fun x => some (F x)) x0 m t) :
    ((slice t.fs a (a + 100)).map (·.getD 0)).sum = ∑ k ∈ range 100, F (t.xs.getD (a + 1 + k) x0) := by
  have hl : (slice t.fs a (a + 100)).map (·.getD 0) = (List.range 100).map fun k => F (t.xs.getD (a + 1 + k) x0) := by
    refine List.ext_getElem ?_ fun k h1 h2 => ?_
    · have := ht.flen
      simp only [slice, List.length_map, List.length_drop, List.length_take, List.length_range]
      omega
    · have := ht.flen
      simp only [List.length_map, List.length_range] at h2
      have hv := ht.val (a + k) (by omega)
      rw [List.getD_eq_getElem _ _ (by omega)] at hv
      simp only [slice, List.getElem_map, List.getElem_drop, List.getElem_take, List.getElem_range, hv, Option.getD_some]
      rw [show a + k + 1 = a + 1 + k by omega]
  rw [hl]
  rfl

theorem defaultBreak_iff (F : Pos d → ℝ) (x0 : Pos d) (t : Trace d) (m : ℕ)
    (ht : TraceOK (fun x => some (F x)) x0 m t) :
    defaultBreak t = true ↔ 1000 ≤ m ∧ Stabilized F t.xs x0 m := by
  have hf := ht.flen
  unfold defaultBreak
  rw [hf]
  by_cases hm : m < 1000
  · rw [if_pos hm]
    simp only [Bool.false_eq_true, false_iff, not_and]
    intro h; omega
  rw [if_neg hm]
  have hn : (slice t.fs (m - 200) m).any (·.isNone) = false := by
    rw [List.any_eq_false]
    intro a ha
    have : a ∈ t.fs := List.mem_of_mem_take (List.mem_of_mem_drop ha)
    obtain ⟨k, hk, rfl⟩ := List.mem_iff_getElem.1 this
    have hv := ht.val k (by omega)
    rw [List.getD_eq_getElem _ _ hk] at hv
    rw [hv]; simp
  have h1 := slice_sum F x0 t m (m - 100) (by omega) ht
  have h2 := slice_sum F x0 t m (m - 200) (by omega) ht
  rw [show m - 100 + 100 = m by omega, show m - 100 + 1 = m - 99 by omega] at h1
  rw [show m - 200 + 100 = m - 100 by omega, show m - 200 + 1 = m - 199 by omega] at h2
  rw [hn, h1, h2, Bool.not_false, Bool.true_and, decide_eq_true_eq, Stabilized, windowAverage, windowAverage]
  constructor
  · intro h
    refine ⟨by omega, ?_⟩
    norm_num at h ⊢
    exact h
  · rintro ⟨-, h⟩
    norm_num at h ⊢
    exact h

theorem TraceOK.upTo {x0 : Pos d} {n m : ℕ} {t : Trace d} (h : TraceOK f x0 n t) (hm : m ≤ n) :
    TraceOK f x0 m (t.upTo m) := by
  have hx := h.xlen
  have hf := h.flen
  have ht := h.tlen
  refine ⟨by simp [Trace.upTo]; omega, by simp [Trace.upTo]; omega, by simp [Trace.upTo]; omega, ?_, fun k hk => ?_⟩
  · have := h.first
    simp only [Trace.upTo, List.getD_eq_getElem?_getD] at this ⊢
    rw [List.getElem?_take_of_lt (by omega)]
    exact this
  · have := h.val k (by omega)
    simp only [Trace.upTo, List.getD_eq_getElem?_getD] at this ⊢
    rw [List.getElem?_take_of_lt (by omega), List.getElem?_take_of_lt (by omega)]
    exact this

/-- **C97**. A run with the default break condition makes `max(n_updates, 2) - 1` iterations, or stops earlier, after at
least 1000 iterations, at the first iteration at which the log likelihood has stabilized. -/
theorem C97_default_break (F : Pos d → ℝ) (objs : List (Proposal d)) (x0 : Pos d) (nUpdates : ℕ) (r : Run d)
    (h : runMCMC (fun x => some (F x)) prior w defaultBreak objs x0 nUpdates = .ok r) :
    ∃ n, r.trace.fs.length = n ∧ r.trace.xs.length = n + 1 ∧
      (n = max nUpdates 2 - 1 ∨ n < max nUpdates 2 - 1 ∧ 1000 ≤ n ∧ Stabilized F r.trace.xs x0 n) ∧
      ∀ m, 1000 ≤ m → m < n → ¬ Stabilized F r.trace.xs x0 m := by
  obtain ⟨n, hn1, hn2, hr, -⟩ := run_ok h
  have ht := hr.trace
  rw [Nat.add_sub_cancel] at ht
  obtain ⟨-, -, -, -, -, e6, e7⟩ := loop_break _ _ _ _ h rfl rfl rfl
  refine ⟨n, ht.flen, ht.xlen, ?_, fun m hm1 hm2 hs => ?_⟩
  · rcases Nat.lt_or_ge n (max nUpdates 2 - 1) with hlt | hge
    · exact .inr ⟨hlt, (defaultBreak_iff F x0 r.trace n ht).1 (e7 (by rw [ht.flen]; omega))⟩
    · exact .inl (by omega)
  · have hb := e6 m (by omega) (by rw [ht.flen]; exact hm2)
    rw [Bool.eq_false_iff] at hb
    refine hb ((defaultBreak_iff F x0 _ m (ht.upTo hm2.le)).2 ⟨hm1, ?_⟩)
    have hw : ∀ a, a + 99 ≤ m → windowAverage F (r.trace.upTo m).xs x0 a = windowAverage F r.trace.xs x0 a := by
      intro a ha
      unfold windowAverage
      congr 1
      refine Finset.sum_congr rfl fun k hk => ?_
      have := Finset.mem_range.1 hk
      simp only [Trace.upTo, List.getD_eq_getElem?_getD]
      rw [List.getElem?_take_of_lt (by omega)]
    unfold Stabilized at hs ⊢
    rw [hw _ (by omega), hw _ (by omega)]
    exact hs

/-- A likelihood that is constant stops a long run after exactly 1000 iterations. -/
example (c : ℝ) (w : Draws d) (lo hi : Pos d) (hd : 0 < d) (x0 : Pos d) :
    ∃ r, runMCMC (fun _ => some c) (boxPrior lo hi) w defaultBreak [defaultProposal lo hi] x0 5000 = .ok r ∧
      r.trace.fs.length = 1000 := by
  obtain ⟨r, hr⟩ := C53_completes (prior := boxPrior lo hi) (w := w) (brk := defaultBreak) (fun _ => c)
    [defaultProposal lo hi] x0 5000 (defaultProposal_ok lo hi hd)
  obtain ⟨n, h1, -, h2, h3⟩ := C97_default_break _ _ _ _ _ hr
  have hs : ∀ m, Stabilized (fun _ => c) r.trace.xs x0 m := by
    intro m
    simp only [Stabilized, windowAverage, sub_self, abs_zero]
    norm_num
  refine ⟨r, hr, ?_⟩
  rw [h1]
  have h4 : ¬ 1000 < n := fun hlt => h3 1000 (le_refl _) hlt (hs _)
  rcases h2 with h2 | ⟨-, h2, -⟩
  · norm_num at h2; omega
  · omega

/-! ## C98 -/

/-- What `mcmc_info` is at the end of the loop. -/
theorem loop_info : ∀ (fuel i : ℕ) (r r' : Run d), loop f prior w brk (fuel + 1) i r = .ok r' →
    r.trace.xs.length = i → r.trace.fs.length + 1 = i → r.trace.ts.length + 1 = i →
    (brk r'.trace = false → r'.info = some (collect r'.trace)) ∧
    (brk r'.trace = true → (r'.trace.fs.length = i → r'.info = r.info) ∧
      (i < r'.trace.fs.length → r'.info = some (collect (r'.trace.upTo (r'.trace.fs.length - 1))))) := by
  intro fuel
  induction fuel with
  | zero =>
    intro i r r' h hx hf ht
    simp only [loop, bind, Except.bind] at h
    cases h1 : iteration f prior w i r with
    | error e => rw [h1] at h; simp at h
    | ok r1 =>
      rw [h1] at h
      simp only at h
      obtain ⟨s, objs, hs, rfl⟩ := iteration_ok h1
      split_ifs at h with hb
      · simp only [Except.ok.injEq] at h
        subst h
        refine ⟨fun h => ?_, fun _ => ⟨fun _ => rfl, fun hlt => ?_⟩⟩
        · rw [hb] at h; exact absurd h (by simp)
        · simp at hlt; omega
      · simp only [Except.ok.injEq] at h
        subst h
        exact ⟨fun _ => rfl, fun h => absurd h hb⟩
  | succ fuel ih =>
    intro i r r' h hx hf ht
    rw [loop] at h
    simp only [bind, Except.bind] at h
    cases h1 : iteration f prior w i r with
    | error e => rw [h1] at h; simp at h
    | ok r1 =>
      rw [h1] at h
      simp only at h
      obtain ⟨s, objs, hs, rfl⟩ := iteration_ok h1
      by_cases hb : brk ⟨r.trace.xs ++ [s.x], r.trace.fs ++ [s.lik], r.trace.ts ++ [w.clock i]⟩ = true
      · rw [if_pos hb] at h
        simp only [Except.ok.injEq] at h
        subst h
        refine ⟨fun h => ?_, fun _ => ⟨fun _ => rfl, fun hlt => ?_⟩⟩
        · rw [hb] at h; exact absurd h (by simp)
        · simp at hlt; omega
      · rw [if_neg hb] at h
        obtain ⟨i1, i2⟩ := ih (i + 1) _ _ h (by simp; omega) (by simp; omega) (by simp; omega)
        obtain ⟨-, -, e3, e4, e5, -, -⟩ := loop_break _ _ _ _ h (by simp; omega) (by simp; omega) (by simp; omega)
        have hlong : i + 1 ≤ r'.trace.fs.length := by
          obtain ⟨j, -, -, hj, hj', -⟩ := loop_invariant (brk := brk) (f := f) (prior := prior) (w := w)
            (fun i r => r.trace.fs.length + 1 = i)
            (fun i r r' h he => by obtain ⟨s, objs, hs, rfl⟩ := iteration_ok he; simp; omega)
            (fun i r0 r _ h => h) _ _ _ _ h (by simp; omega)
          have := hj' (by omega)
          omega
        refine ⟨i1, fun hbt => ⟨fun he => by omega, fun _ => ?_⟩⟩
        rcases Nat.lt_or_ge (i + 1) r'.trace.fs.length with hlt | hge
        · exact (i2 hbt).2 hlt
        · have he : r'.trace.fs.length = i + 1 := by omega
          rw [(i2 hbt).1 he, he, Nat.add_sub_cancel]
          have : r'.trace.upTo i = ⟨r.trace.xs ++ [s.x], r.trace.fs ++ [s.lik], r.trace.ts ++ [w.clock i]⟩ := by
            unfold Trace.upTo
            have t1 := List.prefix_iff_eq_take.1 e3
            have t2 := List.prefix_iff_eq_take.1 e4
            have t3 := List.prefix_iff_eq_take.1 e5
            simp only [List.length_append, List.length_singleton, hx, hf, ht] at t1 t2 t3
            rw [← t1, ← t2, ← t3]
          rw [this]

/-- The median of a list: the middle of the sorted list, the average of the two middle elements for even length. -/
theorem median_spec (l s : List ℝ) (hp : s.Perm l) (hs : s.Pairwise (· ≤ ·)) (hl : l ≠ []) :
    median l = (s.getD ((l.length - 1) / 2) 0 + s.getD (l.length / 2) 0) / 2 := by
  classical
  have e : l.mergeSort (fun a b => decide (a ≤ b)) = s := by
    refine List.Perm.eq_of_pairwise (le := (· ≤ ·)) (fun a b _ _ => le_antisymm) ?_ hs ((List.mergeSort_perm _ _).trans hp.symm)
    have := List.pairwise_mergeSort (le := fun a b : ℝ => decide (a ≤ b)) (fun a b c h1 h2 => by
        simp only [decide_eq_true_eq] at *; exact h1.trans h2) (fun a b => by
        simp only [Bool.or_eq_true, decide_eq_true_eq]; exact le_total a b) l
    simpa using this
  have hlen : s.length = l.length := hp.length_eq
  have hpos : 0 < l.length := List.length_pos_of_ne_nil hl
  unfold median
  simp only
  have e' : l.mergeSort (fun a b => @decide (a ≤ b) (Classical.propDecidable _)) = s := by
    rw [← e]
  rw [e', hlen]
  split_ifs with hodd
  · rw [show (l.length - 1) / 2 = l.length / 2 by omega]
    ring
  · rw [show (l.length - 1) / 2 = l.length / 2 - 1 by omega]

/-- Mean, median and variance of the last hundredth (rounded up) of the positions. -/
structure TailStatistics (i : Info d) : Prop where
  stats : ∃ tail, tail <:+ i.xs ∧ tail.length = (i.xs.length + 99) / 100 ∧ ∀ k,
    i.meanX k = (tail.map fun x => x k).sum / tail.length ∧
    i.varX k = (tail.map fun x => (x k - i.meanX k) ^ 2).sum / tail.length ∧
    ∀ s : List ℝ, s.Perm (tail.map fun x => x k) → s.Pairwise (· ≤ ·) →
      i.medianX k = (s.getD ((tail.length - 1) / 2) 0 + s.getD (tail.length / 2) 0) / 2

theorem collect_tail (t : Trace d) (hx : t.xs ≠ []) : TailStatistics (collect t) := by
  refine ⟨t.xs.drop (99 * t.xs.length / 100), List.drop_suffix _ _, ?_, fun k => ⟨?_, ?_, ?_⟩⟩
  · simp only [collect, List.length_drop]; omega
  · simp only [collect, List.length_map]
  · simp only [collect, variance, List.length_map, List.map_map]
    rfl
  · intro s hp hs
    have := median_spec _ s hp hs (by
      intro e
      have hl := congrArg List.length e
      have := List.length_pos_of_ne_nil hx
      simp only [List.length_map, List.length_drop, List.length_nil] at hl
      omega)
    simpa only [collect, List.length_map] using this

/-- **C98**, the part that holds: a run whose break condition does not hold at the end returns all positions, all values and
all time stamps, and the statistics of the last hundredth of the positions. -/
theorem C98_result_partial (objs : List (Proposal d)) (x0 : Pos d) (nUpdates : ℕ) (r : Run d)
    (h : runMCMC f prior w brk objs x0 nUpdates = .ok r) (hb : brk r.trace = false) :
    ∃ i, r.returned = some i ∧ i.xs = r.trace.xs ∧ i.fs = r.trace.fs ∧ i.ts = r.trace.ts ∧ TailStatistics i := by
  obtain ⟨n, hn1, hn2, hr, -⟩ := run_ok h
  have hx := hr.trace.xlen
  obtain ⟨k, hk⟩ : ∃ k, max nUpdates 2 - 1 = k + 1 := ⟨max nUpdates 2 - 2, by omega⟩
  rw [runMCMC, hk] at h
  obtain ⟨i1, -⟩ := loop_info _ _ _ _ h rfl rfl rfl
  refine ⟨{ collect r.trace with fs := r.trace.fs, ts := r.trace.ts }, ?_, rfl, rfl, rfl, ?_⟩
  · rw [Run.returned, i1 hb]; rfl
  · obtain ⟨hc⟩ := collect_tail r.trace (by intro e; rw [e] at hx; simp at hx)
    exact ⟨hc⟩

/-- **C98** is violated when the break condition ends the run: the last position is missing from `x` and the statistics although its
value and time stamp are reported, so that `x` and `f(x)` have the same length. -/
theorem C98_break_violated (objs : List (Proposal d)) (x0 : Pos d) (nUpdates : ℕ) (r : Run d)
    (h : runMCMC f prior w brk objs x0 nUpdates = .ok r) (hb : brk r.trace = true) (h2 : 2 ≤ r.trace.fs.length) :
    ∃ i, r.returned = some i ∧ i.xs = r.trace.xs.dropLast ∧ i.fs = r.trace.fs ∧ i.xs.length = i.fs.length := by
  obtain ⟨n, hn1, hn2, hr, -⟩ := run_ok h
  have hx := hr.trace.xlen
  have hf := hr.trace.flen
  obtain ⟨k, hk⟩ : ∃ k, max nUpdates 2 - 1 = k + 1 := ⟨max nUpdates 2 - 2, by omega⟩
  rw [runMCMC, hk] at h
  obtain ⟨-, i2⟩ := loop_info _ _ _ _ h rfl rfl rfl
  refine ⟨{ collect (r.trace.upTo (r.trace.fs.length - 1)) with fs := r.trace.fs, ts := r.trace.ts }, ?_, ?_, rfl, ?_⟩
  · rw [Run.returned, (i2 hb).2 (by omega)]; rfl
  · simp only [collect, Trace.upTo, List.dropLast_eq_take]
    congr 1
    omega
  · simp only [collect, Trace.upTo, List.length_take]
    omega

/-- **C98** is violated in the extreme when a break condition holds after the first iteration: nothing is returned (`{}`). -/
theorem C98_first_break_violated (objs : List (Proposal d)) (x0 : Pos d) (nUpdates : ℕ) (r : Run d)
    (h : runMCMC f prior w (fun _ => true) objs x0 nUpdates = .ok r) : r.returned = none := by
  obtain ⟨k, hk⟩ : ∃ k, max nUpdates 2 - 1 = k + 1 := ⟨max nUpdates 2 - 2, by omega⟩
  rw [runMCMC, hk, loop] at h
  simp only [bind, Except.bind, if_true] at h
  cases h1 : iteration f prior w 1 (start f prior objs x0) with
  | error e => rw [h1] at h; simp at h
  | ok r1 =>
    rw [h1] at h
    simp only [Except.ok.injEq] at h
    obtain ⟨s, objs, hs, rfl⟩ := iteration_ok h1
    rw [← h]
    rfl

/-- The three cases on runs with the default proposal: no break condition, the default one (constant likelihood), one that
holds at once. -/
example (c : ℝ) (w : Draws d) (lo hi : Pos d) (hd : 0 < d) (x0 : Pos d) :
    (∃ r i, runMCMC (fun _ => some c) (boxPrior lo hi) w (fun _ => false) [defaultProposal lo hi] x0 5000 = .ok r ∧
      r.returned = some i ∧ i.xs = r.trace.xs ∧ i.fs = r.trace.fs ∧ TailStatistics i) ∧
    (∃ r i, runMCMC (fun _ => some c) (boxPrior lo hi) w defaultBreak [defaultProposal lo hi] x0 5000 = .ok r ∧
      r.returned = some i ∧ i.xs = r.trace.xs.dropLast ∧ i.xs.length = i.fs.length) ∧
    ∃ r, runMCMC (fun _ => some c) (boxPrior lo hi) w (fun _ => true) [defaultProposal lo hi] x0 5000 = .ok r ∧
      r.returned = none := by
  refine ⟨?_, ?_, ?_⟩
  · obtain ⟨r, hr⟩ := C53_completes (prior := boxPrior lo hi) (w := w) (brk := fun _ => false) (fun _ => c)
      [defaultProposal lo hi] x0 5000 (defaultProposal_ok lo hi hd)
    obtain ⟨i, h1, h2, h3, -, h4⟩ := C98_result_partial _ _ _ _ hr rfl
    exact ⟨r, i, hr, h1, h2, h3, h4⟩
  · obtain ⟨r, hr⟩ := C53_completes (prior := boxPrior lo hi) (w := w) (brk := defaultBreak) (fun _ => c)
      [defaultProposal lo hi] x0 5000 (defaultProposal_ok lo hi hd)
    obtain ⟨n, h1, h1', h2, h3⟩ := C97_default_break _ _ _ _ _ hr
    have hs : ∀ m, Stabilized (fun _ => c) r.trace.xs x0 m := by
      intro m
      simp only [Stabilized, windowAverage, sub_self, abs_zero]
      norm_num
    have h4 : ¬ 1000 < n := fun hlt => h3 1000 (le_refl _) hlt (hs _)
    have h5 : n < max 5000 2 - 1 := by omega
    obtain ⟨-, -, -, -, -, -, e7⟩ := loop_break _ _ _ _ hr rfl rfl rfl
    have hn : 1000 ≤ n := by omega
    obtain ⟨i, i1, i2, -, i4⟩ := C98_break_violated _ _ _ _ hr (e7 (by omega)) (by omega)
    exact ⟨r, i, hr, i1, i2, i4⟩
  · obtain ⟨r, hr⟩ := C53_completes (prior := boxPrior lo hi) (w := w) (brk := fun _ => true) (fun _ => c)
      [defaultProposal lo hi] x0 5000 (defaultProposal_ok lo hi hd)
    exact ⟨r, hr, C98_first_break_violated _ _ _ _ hr⟩

end Verif.MCMC
