import Verif.MCMC.Lemmas
import Mathlib.MeasureTheory.Measure.Lebesgue.Basic
import Mathlib.LinearAlgebra.Matrix.PosDef
import Mathlib.Algebra.BigOperators.Fin
import Mathlib.Algebra.Order.Star.Real

/-! C52-C56 and the MCMC part of C49. -/

namespace Verif.MCMC

variable {d : ℕ} {f : Pos d → Option ℝ} {prior : Pos d → WithBot ℝ} {w : Draws d} {brk : Trace d → Bool}

/-! ## C52 -/

/-- C52 for any prior: a chain started where the prior is positive never records a position where it is zero. -/
theorem C52_support (objs : List (Proposal d)) (x0 : Pos d) (hx0 : prior x0 ≠ ⊥) (nUpdates : ℕ) (r : Run d)
    (h : runMCMC f prior w brk objs x0 nUpdates = .ok r) : ∀ x ∈ r.trace.xs, prior x ≠ ⊥ := by
  have key := loop_invariant (f := f) (prior := prior) (w := w) (brk := brk)
    (fun _ r => prior r.chain.x ≠ ⊥ ∧ ∀ x ∈ r.trace.xs, prior x ≠ ⊥)
    (by
      intro i r r' hp he
      obtain ⟨s, objs, hs, rfl⟩ := iteration_ok he
      have hq : prior s.x ≠ ⊥ := sweep_chain (fun s => prior s.x ≠ ⊥) (by
        intro auto s xStar u s' jt hq hj
        rcases jump_cases hj with ⟨rfl, -⟩ | ⟨ps, ls, h1, h2, rfl, -, -⟩
        · exact hq
        · simp only; rw [h1]; exact WithBot.coe_ne_bot) _ _ _ _ _ hs hp.1
      refine ⟨hq, ?_⟩
      intro x hx
      rcases List.mem_append.1 hx with hx | hx
      · exact hp.2 x hx
      · rw [List.mem_singleton.1 hx]; exact hq)
    (fun _ _ _ _ h => h)
  obtain ⟨j, -, -, hj, -⟩ := key _ _ _ _ h ⟨hx0, by simpa [start] using hx0⟩
  exact hj.2

/-- C52 with the default prior: every recorded position is inside the bounds. -/
theorem C52_in_bounds (lo hi : Pos d) (objs : List (Proposal d)) (x0 : Pos d) (hx0 : ∀ k, lo k ≤ x0 k ∧ x0 k ≤ hi k)
    (nUpdates : ℕ) (r : Run d) (h : runMCMC f (boxPrior lo hi) w brk objs x0 nUpdates = .ok r) :
    ∀ x ∈ r.trace.xs, ∀ k, lo k ≤ x k ∧ x k ≤ hi k := by
  intro x hx
  have := C52_support (prior := boxPrior lo hi) objs x0 (by simp [boxPrior, hx0]) nUpdates r h x hx
  by_contra hc
  exact this (by simp only [boxPrior, if_neg hc])

/-! ## C49, MCMC -/

/-- C49 for `method="mcmc"` with the default prior: a run that ends normally reports a median, and it is inside the
bounds. (`train` returns this vector.) -/
theorem C49_mcmc_in_bounds (lo hi : Pos d) (objs : List (Proposal d)) (x0 : Pos d) (hx0 : ∀ k, lo k ≤ x0 k ∧ x0 k ≤ hi k)
    (nUpdates : ℕ) (r : Run d) (h : runMCMC f (boxPrior lo hi) w defaultBreak objs x0 nUpdates = .ok r) :
    ∃ inf, r.info = some inf ∧ ∀ k, lo k ≤ inf.medianX k ∧ inf.medianX k ≤ hi k := by
  have hbox := C52_in_bounds lo hi objs x0 hx0 nUpdates r h
  obtain ⟨n, -, -, hr, -⟩ := run_ok h
  have hsome : ∃ inf, r.info = some inf := by
    have hfirst : ∀ fuel i (r r' : Run d), loop f (boxPrior lo hi) w defaultBreak fuel i r = .ok r' →
        ((∃ inf, r.info = some inf) ∨ (1 ≤ fuel ∧ r.trace.fs = [])) → ∃ inf, r'.info = some inf := by
      intro fuel
      induction fuel with
      | zero =>
        intro i r r' h hor
        simp only [loop, Except.ok.injEq] at h
        rcases hor with hor | hor
        · exact h ▸ hor
        · omega
      | succ fuel ih =>
        intro i r r' h hor
        simp only [loop, bind, Except.bind] at h
        cases h1 : iteration f (boxPrior lo hi) w i r with
        | error e => rw [h1] at h; simp at h
        | ok r1 =>
          rw [h1] at h
          simp only at h
          by_cases hb : defaultBreak r1.trace = true
          · rw [if_pos hb] at h
            simp only [Except.ok.injEq] at h
            obtain ⟨s, objs, hs, rfl⟩ := iteration_ok h1
            rcases hor with ⟨inf, hor⟩ | hor
            · exact ⟨inf, by rw [← h]; exact hor⟩
            · simp [defaultBreak, hor.2] at hb
          · rw [if_neg hb] at h
            exact ih _ _ _ h (.inl ⟨_, rfl⟩)
    exact hfirst _ _ _ _ h (.inr ⟨by omega, rfl⟩)
  obtain ⟨inf, hinf⟩ := hsome
  refine ⟨inf, hinf, fun k => ?_⟩
  obtain ⟨m, t, hm, ht, rfl, hpre⟩ := hr.info inf hinf
  refine median_mem ?_ ?_
  · have := ht.xlen
    intro e
    have hl := congrArg List.length e
    simp only [List.length_map, List.length_drop, List.length_nil] at hl
    omega
  · intro y hy
    obtain ⟨x, hx, rfl⟩ := List.mem_map.1 hy
    exact hbox x (hpre.subset (List.mem_of_mem_drop hx)) k

/-! ## C53 -/

/-- C53: after a run of `n` iterations there are `n + 1` positions, the first of which is the start, `n` likelihood
values and `n` time stamps; the `k`-th value is the likelihood of the `k`-th position after the start; the chain ends at
the last recorded position and carries its likelihood and prior. The run makes `n_updates - 1` iterations (at least one)
unless the break condition holds. -/
theorem C53_trace (objs : List (Proposal d)) (x0 : Pos d) (nUpdates : ℕ) (r : Run d)
    (h : runMCMC f prior w brk objs x0 nUpdates = .ok r) :
    ∃ n, 1 ≤ n ∧ n ≤ max nUpdates 2 - 1 ∧ (n < max nUpdates 2 - 1 → brk r.trace = true) ∧
      r.trace.xs.length = n + 1 ∧ r.trace.fs.length = n ∧ r.trace.ts.length = n ∧ r.trace.xs.getD 0 x0 = x0 ∧
      (∀ k < n, r.trace.fs.getD k none = f (r.trace.xs.getD (k + 1) x0)) ∧
      r.chain.x = r.trace.xs.getD n x0 ∧ r.chain.lik = f r.chain.x ∧ r.chain.prior = prior r.chain.x := by
  obtain ⟨n, h1, h2, hr, h3⟩ := run_ok h
  have ht := hr.trace
  have hl := hr.last
  rw [Nat.add_sub_cancel] at ht hl
  exact ⟨n, h1, h2, h3, ht.xlen, ht.flen, ht.tlen, ht.first, ht.val, hl.symm, hr.carried.1, hr.carried.2⟩

/-- C53: an iteration in which every proposal was rejected (every proposal object recorded a zero) repeats the
position, and its prior and likelihood. -/
theorem C53_rejected_repeats (i : ℕ) (r r' : Run d) (h : iteration f prior w i r = .ok r')
    (hrej : ∀ o ∈ r'.objs, o.jumpTrace.getLast? = some 0) :
    r'.chain = r.chain ∧ r'.trace.xs = r.trace.xs ++ [r.chain.x] := by
  obtain ⟨s, objs, hs, rfl⟩ := iteration_ok h
  have key : ∀ (os : List (Proposal d)) (j : ℕ) (s s' : Chain d) (os' : List (Proposal d)),
      sweep f prior w i r.trace.xs j s os = .ok (s', os') → (∀ o ∈ os', o.jumpTrace.getLast? = some 0) → s' = s := by
    intro os
    induction os with
    | nil => intro j s s' os' h _; simp only [sweep, Except.ok.injEq, Prod.mk.injEq] at h; exact h.1.symm
    | cons o os ih =>
      intro j s s' os' h hall
      obtain ⟨xStar, s1, jt, o1, os1, -, h2, h3, h4, rfl⟩ := sweep_cons h
      have e1 : s' = s1 := ih _ _ _ _ h4 fun o ho => hall o (by simp [ho])
      have hj : o1.jumpTrace = o.jumpTrace ++ [jt] := by
        unfold adapt at h3
        split_ifs at h3 <;> simp only [Except.ok.injEq] at h3 <;> rw [← h3]
      have := hall o1 (by simp)
      rw [hj, List.getLast?_append] at this
      simp only [List.getLast?_singleton, Option.some_or, Option.some.injEq] at this
      rcases jump_cases h2 with ⟨e2, -⟩ | ⟨_, _, _, _, _, h1, _⟩
      · rw [e1, e2]
      · rw [this] at h1; norm_num at h1
  have := key _ _ _ _ _ hs hrej
  subst this
  exact ⟨rfl, rfl⟩

/-! ## C54 -/

/-- The unnormalised density the sampler targets: prior times likelihood. -/
noncomputable def target (p : WithBot ℝ) (l : ℝ) : ℝ := match p with
  | none => 0
  | some p => Real.exp (p + l)

/-- The probability that the jump from `x` to `y` is accepted, the draw being uniform on `[0, 1)`. -/
noncomputable def acceptProb (f : Pos d → ℝ) (prior : Pos d → WithBot ℝ) (x y : Pos d) : ℝ :=
  (MeasureTheory.volume {u : ℝ | 0 ≤ u ∧ u < 1 ∧
    ∃ s', jump (fun x => some (f x)) prior false ⟨x, prior x, some (f x)⟩ y u = .ok (s', 1)}).toReal

/-- C54: the acceptance probability is the Metropolis one, also where the code guards against overflow. -/
theorem C54_acceptance (f : Pos d → ℝ) (x y : Pos d) (px : ℝ) (hx : prior x = some px) :
    acceptProb f prior x y = min 1 (target (prior y) (f y) / target (prior x) (f x)) := by
  unfold acceptProb
  cases hy : prior y with
  | bot =>
    have : {u : ℝ | 0 ≤ u ∧ u < 1 ∧
        ∃ s', jump (fun x => some (f x)) prior false ⟨x, prior x, some (f x)⟩ y u = .ok (s', 1)} = ∅ := by
      ext u
      simp only [Set.mem_setOf_eq, Set.mem_empty_iff_false, iff_false, not_and, not_exists]
      intro _ _ s' h
      simp [jump, hy] at h
    rw [this]
    simp [target]
  | coe py =>
    have hset : {u : ℝ | 0 ≤ u ∧ u < 1 ∧
        ∃ s', jump (fun x => some (f x)) prior false ⟨x, prior x, some (f x)⟩ y u = .ok (s', 1)}
        = Set.Ico 0 (min 1 (Real.exp (py + f y - px - f x))) := by
      ext u
      have hj : jump (fun x => some (f x)) prior false ⟨x, prior x, some (f x)⟩ y u
          = if metrRatio py (f y) (prior x) (some (f x)) > u then .ok (⟨y, some py, some (f y)⟩, 1)
            else .ok (⟨x, prior x, some (f x)⟩, 0) := by
        rw [jump, hy]
        simp
      simp only [Set.mem_setOf_eq, Set.mem_Ico, lt_min_iff, hj]
      constructor
      · rintro ⟨h0, h1, s', hs'⟩
        refine ⟨h0, h1, ?_⟩
        split_ifs at hs' with hm
        · rw [hx] at hm
          simp only [metrRatio] at hm
          split_ifs at hm with h50
          · exact hm
          · have : (1 : ℝ) ≤ Real.exp (py + f y - px - f x) := Real.one_le_exp (by linarith)
            linarith
        · simp at hs'
      · rintro ⟨h0, h1, h2⟩
        refine ⟨h0, h1, _, if_pos ?_⟩
        rw [hx]
        simp only [metrRatio]
        split_ifs with h50
        · exact h2
        · norm_num; linarith
    rw [hset, Real.volume_Ico, sub_zero, ENNReal.toReal_ofReal (by positivity), hx]
    congr 1
    simp only [target]
    rw [← Real.exp_sub]
    congr 1
    ring

/-- C54, detailed balance: `π(x) a(x → y) = π(y) a(y → x)`, hence with a symmetric proposal density the transition is
reversible. -/
theorem C54_detailed_balance (f : Pos d → ℝ) (x y : Pos d) (px py : ℝ) (hx : prior x = some px) (hy : prior y = some py) :
    target (prior x) (f x) * acceptProb f prior x y = target (prior y) (f y) * acceptProb f prior y x := by
  rw [C54_acceptance f x y px hx, C54_acceptance f y x py hy, hx, hy]
  have h1 : 0 < target (some px) (f x) := Real.exp_pos _
  have h2 : 0 < target (some py) (f y) := Real.exp_pos _
  rcases le_total (target (some px) (f x)) (target (some py) (f y)) with h | h
  · rw [min_eq_left ((one_le_div h1).2 h), min_eq_right ((div_le_one h2).2 h)]
    field_simp
  · rw [min_eq_right ((div_le_one h1).2 h), min_eq_left ((one_le_div h2).2 h)]
    field_simp

/-- C54: leaving the support has probability zero. -/
theorem C54_support (f : Pos d → ℝ) (x y : Pos d) (px : ℝ) (hx : prior x = some px) (hy : prior y = ⊥) :
    acceptProb f prior x y = 0 := by
  rw [C54_acceptance f x y px hx, hy]
  simp [target]

open Finset in
/-- C54, consequence: on any finite set of positions in the support, with any symmetric proposal matrix, the chain that
proposes with `q` and accepts with the code's rule leaves prior times likelihood invariant. -/
theorem C54_stationary {ι : Type} [Fintype ι] [DecidableEq ι] (f : Pos d → ℝ) (pt : ι → Pos d)
    (hp : ∀ a, ∃ p : ℝ, prior (pt a) = some p) (q : ι → ι → ℝ) (hq : ∀ a b, q a b = q b a) (b : ι) :
    let P : ι → ι → ℝ := fun a b => q a b * acceptProb f prior (pt a) (pt b)
      + if a = b then 1 - ∑ c, q a c * acceptProb f prior (pt a) (pt c) else 0
    ∑ a, target (prior (pt a)) (f (pt a)) * P a b = target (prior (pt b)) (f (pt b)) := by
  intro P
  have hdb : ∀ a, target (prior (pt a)) (f (pt a)) * (q a b * acceptProb f prior (pt a) (pt b))
      = target (prior (pt b)) (f (pt b)) * (q b a * acceptProb f prior (pt b) (pt a)) := by
    intro a
    obtain ⟨p1, h1⟩ := hp a
    obtain ⟨p2, h2⟩ := hp b
    have := C54_detailed_balance (prior := prior) f (pt a) (pt b) p1 p2 h1 h2
    rw [hq a b]
    linear_combination q b a * this
  simp only [P, mul_add, sum_add_distrib, mul_ite, mul_zero, sum_ite_eq', mem_univ, if_true]
  rw [sum_congr rfl fun a _ => hdb a, ← mul_sum]
  ring

/-- The hypotheses of C54 are met by the default prior. -/
example (f : Pos 2 → ℝ) (x y : Pos 2) (hx : ∀ k, 0 ≤ x k ∧ x k ≤ 1) (hy : ∀ k, 0 ≤ y k ∧ y k ≤ 1) :
    Real.exp (f x) * acceptProb f (boxPrior 0 1) x y = Real.exp (f y) * acceptProb f (boxPrior 0 1) y x := by
  have h1 : boxPrior 0 1 x = some (0 : ℝ) := if_pos hx
  have h2 : boxPrior 0 1 y = some (0 : ℝ) := if_pos hy
  have := C54_detailed_balance f x y 0 0 h1 h2
  rw [h1, h2] at this
  simpa [target] using this

/-! ## C55 -/

theorem exists_max : ∀ l : List ℝ, l ≠ [] → ∃ a ∈ l, ∀ b ∈ l, b ≤ a := by
  intro l
  induction l with
  | nil => intro h; exact absurd rfl h
  | cons x xs ih =>
    intro _
    by_cases hxs : xs = []
    · subst hxs; exact ⟨x, by simp, by simp⟩
    · obtain ⟨a, ha, hm⟩ := ih hxs
      rcases le_total a x with h | h
      · exact ⟨x, by simp, by
          intro b hb
          rcases List.mem_cons.1 hb with rfl | hb
          · exact le_refl _
          · exact (hm b hb).trans h⟩
      · exact ⟨a, by simp [ha], by
          intro b hb
          rcases List.mem_cons.1 hb with rfl | hb
          · exact h
          · exact hm b hb⟩

theorem argmax_spec (l : List (Option ℝ)) (hl : l ≠ []) (hs : ∀ a ∈ l, a.isSome = true) :
    argmax l < l.length ∧ ∀ b ∈ l, b.getD 0 ≤ (l.getD (argmax l) none).getD 0 := by
  classical
  have hno : l.any (·.isNone) = false := by
    rw [List.any_eq_false]
    intro a ha
    have := hs a ha
    cases a with
    | none => simp at this
    | some v => simp
  have harg : argmax l = l.findIdx fun a => decide (∀ b ∈ l, b.getD 0 ≤ a.getD 0) := by
    simp only [argmax, hno, Bool.false_eq_true, if_false]
  obtain ⟨v, hv, hm⟩ := exists_max (l.map (·.getD 0)) (by simpa using hl)
  obtain ⟨a, ha, rfl⟩ := List.mem_map.1 hv
  have hlt : l.findIdx (fun a => decide (∀ b ∈ l, b.getD 0 ≤ a.getD 0)) < l.length := by
    rw [List.findIdx_lt_length]
    exact ⟨a, ha, by
      rw [decide_eq_true_eq]
      intro b hb
      exact hm _ (List.mem_map_of_mem hb)⟩
  rw [harg]
  refine ⟨hlt, ?_⟩
  have := List.findIdx_getElem (w := hlt)
  rw [decide_eq_true_eq] at this
  rw [List.getD_eq_getElem _ _ hlt]
  exact this

/-- C55, the part that holds: `max f(x)` is the largest likelihood of the positions after the start and is the
likelihood of one of them. Missing: the start itself is not considered, and `max x` is another position. -/
theorem C55_max_f_partial (F : Pos d → ℝ) (objs : List (Proposal d)) (x0 : Pos d) (nUpdates : ℕ) (r : Run d) (inf : Info d)
    (h : runMCMC (fun x => some (F x)) prior w brk objs x0 nUpdates = .ok r) (hinf : r.info = some inf) :
    ∃ v, inf.maxF = some v ∧ (∀ k, 1 ≤ k → k < inf.xs.length → F (inf.xs.getD k x0) ≤ v) ∧
      ∃ k, 1 ≤ k ∧ k < inf.xs.length ∧ F (inf.xs.getD k x0) = v := by
  obtain ⟨n, -, -, hr, -⟩ := run_ok h
  obtain ⟨m, t, hm, ht, rfl, -⟩ := hr.info inf hinf
  have hne : t.fs ≠ [] := by
    intro e; have := ht.flen; rw [e] at this; simp at this; omega
  have hval : ∀ k < m, t.fs.getD k none = some (F (t.xs.getD (k + 1) x0)) := ht.val
  have hsome : ∀ a ∈ t.fs, a.isSome = true := by
    intro a ha
    obtain ⟨k, hk, rfl⟩ := List.mem_iff_getElem.1 ha
    have := hval k (by rw [← ht.flen]; exact hk)
    rw [List.getD_eq_getElem _ _ hk] at this
    rw [this]; rfl
  obtain ⟨h1, h2⟩ := argmax_spec t.fs hne hsome
  have hx := ht.xlen
  have hf := ht.flen
  have hv := hval (argmax t.fs) (by omega)
  refine ⟨F (t.xs.getD (argmax t.fs + 1) x0), hv, ?_, argmax t.fs + 1, by omega, by simp only [collect]; omega, rfl⟩
  intro k hk1 hk2
  simp only [collect] at hk2 ⊢
  have hk := hval (k - 1) (by omega)
  rw [show k - 1 + 1 = k by omega] at hk
  have := h2 (some (F (t.xs.getD k x0))) (by
    rw [← hk, List.getD_eq_getElem _ _ (by omega)]; exact List.getElem_mem _)
  rw [hv] at this
  simpa using this

/-- A proposal object that always proposes what `step` says. -/
def fixedProposal : Proposal 1 := ⟨[0], false, false, 10, 10, 0, 0, false, true, [], none, none⟩

/-- Draws that always propose `1` and accept whenever possible. -/
def fixedDraws : Draws 1 := ⟨fun _ _ _ x => x, fun _ _ _ _ _ => 1, fun _ _ => 0, fun _ => 0⟩

/-- C55 is violated: `x` starts at 0 and jumps to 1, the likelihood is `x`. The result reports `max f(x) = 1` but
`max x = 0`, a position whose likelihood is 0. (`f(x)` has no entry for the start, so the index found in it is one too
small for `x`.) -/
theorem C55_max_x_violated : ∃ r inf, runMCMC (fun x : Pos 1 => some (x 0)) (fun _ => some (0 : ℝ)) fixedDraws
      (fun _ => false) [fixedProposal] (fun _ => 0) 2 = .ok r ∧ r.info = some inf ∧
      inf.maxF = some 1 ∧ inf.maxX = fun _ => 0 := by
  have hit : iteration (fun x : Pos 1 => some (x 0)) (fun _ => some (0 : ℝ)) fixedDraws 1
      (start (fun x : Pos 1 => some (x 0)) (fun _ => some (0 : ℝ)) [fixedProposal] fun _ => 0)
      = .ok ⟨⟨[fun _ => 0, fun _ => 1], [some 1], [0]⟩, ⟨fun _ => 1, some 0, some 1⟩,
          [{ fixedProposal with jumpTrace := [1] }], none⟩ := by
    have hp : (fun k : Fin 1 => if k ∈ ([0] : List (Fin 1)) then (1 : ℝ) else 0) = fun _ => 1 := by
      funext k; fin_cases k; simp
    have hj : jump (fun x : Pos 1 => some (x 0)) (fun _ => some (0 : ℝ)) false ⟨fun _ => 0, some 0, some 0⟩ (fun _ => 1) 0
        = .ok (⟨fun _ => 1, some 0, some 1⟩, 1) := by
      simp only [jump, metrRatio]
      rw [if_pos (.inl (by norm_num; positivity))]
    simp only [iteration, start, sweep, propose, fixedProposal, fixedDraws, bind, Except.bind, Bool.false_eq_true, if_false,
      hp, hj, adapt]
    simp
  set t : Trace 1 := ⟨[fun _ => 0, fun _ => 1], [some 1], [0]⟩ with ht
  refine ⟨⟨t, ⟨fun _ => 1, some 0, some 1⟩, [{ fixedProposal with jumpTrace := [1] }], some (collect t)⟩, collect t, ?_, rfl, ?_, ?_⟩
  · simp only [runMCMC, max_self, Nat.add_one_sub_one, loop, hit, bind, Except.bind, Bool.false_eq_true, if_false]
  all_goals
    have hlt := (argmax_spec t.fs (by simp [ht]) (by simp [ht])).1
    have ha : argmax t.fs = 0 := by simpa [ht] using hlt
    simp only [collect, ha]
    simp [ht]

end Verif.MCMC
