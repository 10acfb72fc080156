import Verif.Actor.AsyncModel
import Verif.Actor.StopProps
import Verif.Train.TrainProps
import Verif.MCMC.StopProps

/-!
C122: polling a finished asynchronous run against the result of a synchronous one. C123: starting, stopping and adopting
asynchronous runs.
-/

namespace Verif.Actor

open Verif.Train Verif.MCMC

/-! ## C122: Adam -/

theorem adamActorLoop_spec {d : ℕ} (c : AdamCfg) (f : (Fin d → ℝ) → ℝ) (g : (Fin d → ℝ) → Fin d → ℝ) (stop : ℕ → Bool) :
    ∀ (fuel t : ℕ) (theta m v : Fin d → ℝ) (latest : AdamLatest d) (hist : AdamHist d),
    fuel = 0 ∧ adamActorLoop c f g stop fuel t theta m v latest = (theta, latest) ∨
    ∃ k < fuel, ∃ x,
      (∀ n ≥ k, (adamLoop c f g (fun _ => false) k t theta m v hist).1 = x ∧
        (adamLoop c f g (fun _ => false) n t theta m v hist).2.theta.length ≥ hist.theta.length + k) ∧
      (adamActorLoop c f g stop fuel t theta m v latest).2 = ⟨x, t + k, some (f x), some (norm2 (g x))⟩ ∧
      (k + 1 = fuel ∨ stop (t + k) = true ∨
        ∀ n > k, (adamLoop c f g (fun _ => false) n t theta m v hist).2.theta.length = hist.theta.length + k + 1) := by
  intro fuel
  induction fuel with
  | zero => intro t theta m v latest hist; exact Or.inl ⟨rfl, rfl⟩
  | succ fuel ih =>
    intro t theta m v latest hist
    right
    set gr := g theta with hgr
    set m' : Fin d → ℝ := fun i => c.beta1 * m i + (1 - c.beta1) * gr i with hm'
    set v' : Fin d → ℝ := fun i => c.beta2 * v i + (1 - c.beta2) * gr i ^ 2 with hv'
    set new : Fin d → ℝ := fun i => theta i - c.lr * (m' i / (1 - c.beta1 ^ t)) / (Real.sqrt (v' i / (1 - c.beta2 ^ t)) + c.eps) with hnew
    set hist' : AdamHist d := ⟨hist.theta ++ [theta], hist.nlml ++ [f theta], hist.gradNorm ++ [norm2 gr]⟩ with hh'
    have hlen : hist'.theta.length = hist.theta.length + 1 := by simp [hh']
    have eA : ∀ latest, adamActorLoop c f g stop (fuel + 1) t theta m v latest =
        if norm2 (fun i => new i - theta i) < c.tol ∨ stop t = true then (new, adamCallback theta (f theta) gr t)
        else adamActorLoop c f g stop fuel (t + 1) new m' v' (adamCallback theta (f theta) gr t) := fun _ => rfl
    have eS : ∀ n, adamLoop c f g (fun _ => false) (n + 1) t theta m v hist =
        if norm2 (fun i => new i - theta i) < c.tol ∨ false = true then (new, hist')
        else adamLoop c f g (fun _ => false) n (t + 1) new m' v' hist' := fun _ => rfl
    have mono : ∀ (n t : ℕ) (theta m v : Fin d → ℝ) (hist : AdamHist d),
        hist.theta.length ≤ (adamLoop c f g (fun _ => false) n t theta m v hist).2.theta.length := by
      intro n
      induction n with
      | zero => intro t theta m v hist; exact le_rfl
      | succ n ihn =>
        intro t theta m v hist
        simp only [adamLoop]
        split_ifs <;> first
          | exact le_trans (by simp) (ihn _ _ _ _ _)
          | simp
    by_cases hstop : norm2 (fun i => new i - theta i) < c.tol ∨ stop t = true
    · refine ⟨0, Nat.succ_pos _, theta, fun n _ => ⟨rfl, mono _ _ _ _ _ _⟩, ?_, ?_⟩
      · rw [eA, if_pos hstop]; rfl
      · rcases hstop with h | h
        · right; right
          intro n hn
          obtain ⟨n, rfl⟩ : ∃ n', n = n' + 1 := ⟨n - 1, by omega⟩
          rw [eS, if_pos (Or.inl h), hlen]
        · right; left; exact h
    · have hns : ¬ (norm2 (fun i => new i - theta i) < c.tol ∨ false = true) := by
        rintro (h | h)
        · exact hstop (Or.inl h)
        · cases h
      rcases ih (t + 1) new m' v' (adamCallback theta (f theta) gr t) hist' with ⟨h0, h1⟩ | ⟨k, hk, x, h1, h2, h3⟩
      · refine ⟨0, by omega, theta, fun n _ => ⟨rfl, mono _ _ _ _ _ _⟩, ?_, Or.inl (by omega)⟩
        rw [eA, if_neg hstop, h1]; rfl
      · refine ⟨k + 1, by omega, x, fun n hn => ?_, ?_, ?_⟩
        · obtain ⟨n, rfl⟩ : ∃ n', n = n' + 1 := ⟨n - 1, by omega⟩
          rw [eS, if_neg hns, eS, if_neg hns]
          obtain ⟨a1, a2⟩ := h1 n (by omega)
          exact ⟨a1, by rw [hlen] at a2; omega⟩
        · rw [eA, if_neg hstop, h2, Nat.add_right_comm, Nat.add_assoc]
        · rcases h3 with h3 | h3 | h3
          · left; omega
          · right; left; rwa [Nat.add_right_comm, Nat.add_assoc] at h3
          · right; right
            intro n hn
            obtain ⟨n, rfl⟩ : ∃ n', n = n' + 1 := ⟨n - 1, by omega⟩
            rw [eS, if_neg hns, h3 n (by omega), hlen]
            omega

/-- **C122** (Adam, what is reported). When an asynchronous Adam run is over, the last snapshot is that of its last iteration `k`: value and
gradient norm are those of the reported point, and the point is what a *synchronous* run of `k - 1` iterations returns. `k` is the
budget unless the run was stopped or a synchronous run of any larger budget also ends with iteration `k`. -/
theorem C122_adam_report {d : ℕ} (f : (Fin d → ℝ) → ℝ) (g : (Fin d → ℝ) → Fin d → ℝ) (stop : ℕ → Bool) (maxIter : ℕ)
    (hm : 1 ≤ maxIter) (theta0 : Fin d → ℝ) :
    ∃ k, 1 ≤ k ∧ k ≤ maxIter ∧ (adamAsync f g stop maxIter theta0).iteration = k ∧
      (adamAsync f g stop maxIter theta0).x = adamSync f g (k - 1) theta0 ∧
      (adamAsync f g stop maxIter theta0).nlml = some (f (adamAsync f g stop maxIter theta0).x) ∧
      (adamAsync f g stop maxIter theta0).gradNorm = some (norm2 (g (adamAsync f g stop maxIter theta0).x)) ∧
      (k = maxIter ∨ stop k = true ∨
        ∀ n ≥ k, (adamOptimize syncAdamCfg f g (fun _ => false) n theta0).2.theta.length = k) := by
  rcases adamActorLoop_spec asyncAdamCfg f g stop maxIter 1 theta0 (fun _ => 0) (fun _ => 0) ⟨theta0, 0, none, none⟩ ⟨[], [], []⟩ with
    ⟨h0, -⟩ | ⟨k, hk, x, h1, h2, h3⟩
  · omega
  · have e : adamAsync f g stop maxIter theta0 = ⟨x, 1 + k, some (f x), some (norm2 (g x))⟩ := h2
    refine ⟨k + 1, by omega, by omega, ?_, ?_, ?_, ?_, ?_⟩
    · rw [e]; exact Nat.add_comm 1 k
    · rw [e]; exact (h1 k le_rfl).1.symm
    · rw [e]
    · rw [e]
    · rcases h3 with h3 | h3 | h3
      · exact Or.inl h3
      · right; left; rwa [Nat.add_comm] at h3
      · right; right
        intro n hn
        have := h3 n (by omega)
        rw [List.length_nil, Nat.zero_add] at this
        exact this

/-- **C122** is violated for Adam: the run of one iteration on a parabola moves the synchronous GP downhill and leaves the polled vector at
the start. -/
theorem C122_adam_violated : ∃ (f : (Fin 1 → ℝ) → ℝ) (g : (Fin 1 → ℝ) → Fin 1 → ℝ) (theta0 : Fin 1 → ℝ),
    (∀ stop, (adamAsync f g stop 1 theta0).x = theta0) ∧ f (adamSync f g 1 theta0) < f theta0 := by
  refine ⟨fun θ => θ 0 ^ 2, fun θ _ => 2 * θ 0, fun _ => 1, fun stop => ?_, ?_⟩
  · obtain ⟨k, h1, h2, h3, h4, -⟩ := C122_adam_report (fun θ : Fin 1 → ℝ => θ 0 ^ 2) (fun θ _ => 2 * θ 0) stop 1 le_rfl fun _ => 1
    have : k = 1 := by omega
    subst this
    rw [h4]; rfl
  · have hs : Real.sqrt (4 : ℝ) = 2 := by
      rw [show (4 : ℝ) = 2 ^ 2 by norm_num, Real.sqrt_sq (by norm_num)]
    have e2 : adamSync (fun θ : Fin 1 → ℝ => θ 0 ^ 2) (fun θ _ => 2 * θ 0) 1 (fun _ => 1) 0 = 1 - 0.01 * 2 / (2 + 1e-8) := by
      have h4 : ((1 - 0.999 : ℝ) * (2 * 1) ^ 2) / (1 - 0.999 ^ 1) = 4 := by norm_num
      have h2 : ((1 - 0.9 : ℝ) * (2 * 1)) / (1 - 0.9 ^ 1) = 2 := by norm_num
      simp only [adamSync, adamOptimize, adamLoop, syncAdamCfg, ite_self, mul_zero, zero_add, apply_ite, h4, h2, hs]
    simp only [e2]
    norm_num

/-- A run of at most 50 iterations stopped by the caller in the third. -/
example (f : (Fin 2 → ℝ) → ℝ) (g : (Fin 2 → ℝ) → Fin 2 → ℝ) (theta0 : Fin 2 → ℝ) : ∃ k ≤ 50,
    (adamAsync f g (fun t => decide (3 ≤ t)) 50 theta0).x = adamSync f g (k - 1) theta0 := by
  obtain ⟨k, -, h, -, h4, -⟩ := C122_adam_report f g (fun t => decide (3 ≤ t)) 50 (by omega) theta0
  exact ⟨k, h, h4⟩

/-! ## C122: MCMC -/

theorem mcmcActorLoop_spec {d : ℕ} (f : Pos d → Option ℝ) (prior : Pos d → WithBot ℝ) (w : Draws d) (brk : Trace d → Bool) :
    ∀ (fuel i : ℕ) (r : Run d) (latest : Option (Info d)),
    (∀ e, mcmcActorLoop f prior w brk fuel i r latest = .error e ↔ loop f prior w brk fuel i r = .error e) ∧
    ∀ r' L, mcmcActorLoop f prior w brk fuel i r latest = .ok (r', L) ↔
      loop f prior w brk fuel i r = .ok r' ∧ L = if fuel = 0 then latest else some (collect r'.trace) := by
  intro fuel
  induction fuel with
  | zero =>
    intro i r latest
    refine ⟨fun e => by simp [mcmcActorLoop, loop], fun r' L => ?_⟩
    simp only [mcmcActorLoop, loop, Except.ok.injEq, Prod.mk.injEq, if_true]
    exact and_congr_right fun _ => eq_comm
  | succ fuel ih =>
    intro i r latest
    simp only [mcmcActorLoop, loop, bind, Except.bind]
    cases h1 : iteration f prior w i r with
    | error e => simp
    | ok r1 =>
      simp only
      by_cases hb : brk r1.trace = true
      · simp only [hb, if_true, Except.ok.injEq, Prod.mk.injEq, Nat.succ_ne_zero, if_false, reduceCtorEq, implies_true, true_and]
        intro r' L
        constructor
        · rintro ⟨rfl, rfl⟩; exact ⟨rfl, rfl⟩
        · rintro ⟨rfl, rfl⟩; exact ⟨rfl, rfl⟩
      · simp only [hb, Bool.false_eq_true, if_false, Nat.succ_ne_zero]
        obtain ⟨i1, i2⟩ := ih (i + 1) { r1 with info := some (collect r1.trace) } (some (collect r1.trace))
        refine ⟨i1, fun r' L => (i2 r' L).trans (and_congr_right fun hl => ?_)⟩
        by_cases hf : fuel = 0
        · subst hf
          simp only [loop, Except.ok.injEq] at hl
          subst hl
          simp
        · rw [if_neg hf]

/-- **C122** (MCMC). An asynchronous run fails exactly when the synchronous one with the same draws and break condition does. When it is over, the last
snapshot lists every position of the run and the statistics of the last hundredth of them; if it has not been stopped, the positions are
those of the synchronous run. -/
theorem C122_mcmc {d : ℕ} (f : Pos d → Option ℝ) (prior : Pos d → WithBot ℝ) (w : Draws d) (objs : List (Proposal d)) (x0 : Pos d)
    (maxIter : ℕ) (stopped : ℕ → Bool) :
    (∀ r L, mcmcAsync f prior w stopped objs x0 maxIter = .ok (r, L) →
      ∃ i, L = some i ∧ i.xs = r.trace.xs ∧ i.fs = r.trace.fs ∧ i.ts = r.trace.ts ∧ TailStatistics i) ∧
    ((∀ n, stopped n = false) →
      (∀ e, mcmcAsync f prior w stopped objs x0 maxIter = .error e ↔ mcmcSync f prior w objs x0 maxIter = .error e) ∧
      ∀ r, mcmcSync f prior w objs x0 maxIter = .ok r ↔ ∃ L, mcmcAsync f prior w stopped objs x0 maxIter = .ok (r, L)) := by
  obtain ⟨s1, s2⟩ := mcmcActorLoop_spec f prior w (actorBreak stopped) (max maxIter 2 - 1) 1 (start f prior objs x0) none
  have hf : max maxIter 2 - 1 ≠ 0 := by omega
  constructor
  · intro r L h
    obtain ⟨h1, h2⟩ := (s2 r L).1 h
    rw [if_neg hf] at h2
    obtain ⟨n, hn1, hn2, hr, -⟩ := run_ok (show runMCMC f prior w (actorBreak stopped) objs x0 maxIter = .ok r from h1)
    have hx := hr.trace.xlen
    exact ⟨collect r.trace, h2, rfl, rfl, rfl, collect_tail r.trace (by intro e; rw [e] at hx; simp at hx)⟩
  · intro hs
    have hb : actorBreak stopped = (defaultBreak : Trace d → Bool) := by
      funext t; simp [actorBreak, hs]
    rw [hb] at s1 s2
    have e : mcmcAsync f prior w stopped objs x0 maxIter
        = mcmcActorLoop f prior w defaultBreak (max maxIter 2 - 1) 1 (start f prior objs x0) none := by rw [← hb]; rfl
    rw [e]
    refine ⟨s1, fun r => ⟨fun h => ⟨_, (s2 r _).2 ⟨h, rfl⟩⟩, fun ⟨L, h⟩ => ((s2 r L).1 h).1⟩⟩

/-- **C122** (MCMC, same result). If the default break condition does not hold at the end of an unstopped run, the last snapshot is what the synchronous
run returns, its median included. -/
theorem C122_mcmc_same_partial {d : ℕ} (f : Pos d → Option ℝ) (prior : Pos d → WithBot ℝ) (w : Draws d) (objs : List (Proposal d)) (x0 : Pos d)
    (maxIter : ℕ) (stopped : ℕ → Bool) (hs : ∀ n, stopped n = false) (r : Run d)
    (h : mcmcSync f prior w objs x0 maxIter = .ok r) (hb : defaultBreak r.trace = false) :
    mcmcAsync f prior w stopped objs x0 maxIter = .ok (r, r.returned) := by
  obtain ⟨s1, s2⟩ := mcmcActorLoop_spec f prior w (actorBreak stopped) (max maxIter 2 - 1) 1 (start f prior objs x0) none
  have hbk : actorBreak stopped = (defaultBreak : Trace d → Bool) := by
    funext t; simp [actorBreak, hs]
  refine (s2 r _).2 ⟨by rw [hbk]; exact h, ?_⟩
  rw [if_neg (by omega)]
  obtain ⟨k, hk⟩ : ∃ k, max maxIter 2 - 1 = k + 1 := ⟨max maxIter 2 - 2, by omega⟩
  have h' := h
  rw [mcmcSync, runMCMC, hk] at h'
  obtain ⟨i1, -⟩ := loop_info _ _ _ _ h' rfl rfl rfl
  rw [Run.returned, i1 hb]
  rfl

/-- A run of the default length limit 100 with the default proposal: too short for the break condition. -/
example {d : ℕ} (F : Pos d → ℝ) (w : Draws d) (lo hi : Pos d) (hd : 0 < d) (x0 : Pos d) : ∃ r,
    mcmcAsync (fun x => some (F x)) (boxPrior lo hi) w (fun _ => false) [defaultProposal lo hi] x0 100 = .ok (r, r.returned) := by
  obtain ⟨r, hr⟩ := C53_completes (prior := boxPrior lo hi) (w := w) (brk := defaultBreak) F
    [defaultProposal lo hi] x0 100 (defaultProposal_ok lo hi hd)
  obtain ⟨n, h1, -, h2, -⟩ := C97_default_break _ _ _ _ _ hr
  refine ⟨r, C122_mcmc_same_partial _ _ w _ x0 100 _ (fun _ => rfl) r hr ?_⟩
  have : r.trace.fs.length < 1000 := by omega
  simp [defaultBreak, this]

/-- **C122** is violated for MCMC runs that the default break condition ends: the snapshot has one position more than the result of the synchronous
run, so the two medians are of different samples. -/
theorem C122_mcmc_break_violated {d : ℕ} (c : ℝ) (w : Draws d) (lo hi : Pos d) (hd : 0 < d) (x0 : Pos d) :
    ∃ r i L, mcmcSync (fun _ => some c) (boxPrior lo hi) w [defaultProposal lo hi] x0 5000 = .ok r ∧ r.returned = some i ∧
      mcmcAsync (fun _ => some c) (boxPrior lo hi) w (fun _ => false) [defaultProposal lo hi] x0 5000 = .ok (r, some L) ∧
      L.xs = r.trace.xs ∧ i.xs = L.xs.dropLast ∧ i.xs.length + 1 = L.xs.length := by
  obtain ⟨r, hr⟩ := C53_completes (prior := boxPrior lo hi) (w := w) (brk := defaultBreak) (fun _ => c)
    [defaultProposal lo hi] x0 5000 (defaultProposal_ok lo hi hd)
  obtain ⟨n, h1, h1', h2, h3⟩ := C97_default_break _ _ _ _ _ hr
  have hs : ∀ m, Stabilized (fun _ => c) r.trace.xs x0 m := by
    intro m
    simp only [Stabilized, windowAverage, sub_self, abs_zero]
    norm_num
  have h4 : ¬ 1000 < n := fun hlt => h3 1000 (le_refl _) hlt (hs _)
  have h5 : n < max 5000 2 - 1 := by omega
  obtain ⟨-, -, -, -, -, -, e7⟩ := loop_break _ _ _ _ hr rfl rfl rfl
  have hn : 1000 ≤ n := by omega
  obtain ⟨i, i1, i2, -, i4⟩ := C98_break_violated _ _ _ _ hr (e7 (by omega)) (by omega)
  obtain ⟨c1, c2⟩ := C122_mcmc (fun _ => some c) (boxPrior lo hi) w [defaultProposal lo hi] x0 5000 fun _ => false
  obtain ⟨L, hL⟩ := ((c2 fun _ => rfl).2 r).1 hr
  obtain ⟨L', rfl, l1, -⟩ := c1 r L hL
  refine ⟨r, i, L', hr, i1, hL, l1, by rw [l1, i2], ?_⟩
  rw [i2, l1, List.length_dropLast]
  omega

/-! ## C122: Bayesian optimization -/

/-- **C122** (BO). In every execution that reaches the end of the search without failure, `get_latest()` reports the recommendation and its value as
returned by `bayesian_optimize`, with status "finished". -/
theorem C122_bo (x₀ : List ℝ) (best : ℕ → List ℝ) (val : ℕ → ℝ) (result : ℕ → Option (List ℝ × ℝ)) (ends : ℕ → Bool)
    (es : List Event) (i : ℕ) (r : List ℝ × ℝ) (hr : result i = some r)
    (h : (run (boActor x₀ best val result ends) (boActor x₀ best val result ends).init es).pc = .over i true) :
    let latest := (run (boActor x₀ best val result ends) (boActor x₀ best val result ends).init es).latest
    latest "x" = some (.vec r.1) ∧ latest "objective" = some (.num r.2) ∧ latest "status" = some (.str "finished") := by
  obtain ⟨ts, inv⟩ := run_inv es (init_inv (boActor x₀ best val result ends))
  have hl := inv.latest (by rw [h]; rfl)
  rw [h] at hl
  have hf : (boActor x₀ best val result ends).finish i = some [("x", .vec r.1), ("objective", .num r.2), ("n_evaluations", .nat i),
      ("status", .str "finished")] := by simp [boActor, hr]
  simp only [Pc.stamp, snapshot, hf, Option.getD_some, if_true, List.foldl_cons, List.foldl_nil] at hl
  simp only [hl]
  refine ⟨?_, ?_, ?_⟩ <;> simp [Dict.set]

/-- A search that ends after no further evaluation. -/
example : (run (boActor [0] (fun _ => [1]) (fun _ => 2) (fun _ => some ([3], 4)) fun _ => true)
    (boActor [0] (fun _ => [1]) (fun _ => 2) (fun _ => some ([3], 4)) fun _ => true).init
    (.start :: List.replicate 10 .work)).pc = .over 0 true := rfl

/-! ## C123 -/

/-- **C123** (starts). With as many numbers as bounds every asynchronous method starts where the synchronous one does: inside the bounds, at the given
(or present) vector if that is inside and at the draw otherwise. -/
theorem C123_start (bounds : Bounds) (m : MethodArg) (hm : asyncMethod m = true) (init : Option (List ℝ)) (current draw : List ℝ)
    (hl : (init.getD current).length = bounds.length) (hd : InBox draw bounds) :
    asyncStart bounds m init current draw = trainStart bounds init current draw ∧
      ∃ s, asyncStart bounds m init current draw = .ok s ∧ InBox s bounds := by
  obtain ⟨t1, t2⟩ := C48_start_used bounds init current draw hl hd
  have key : ∃ s, chooseStart bounds init current draw = .ok s ∧ InBox s bounds := by
    by_cases hb : InBox (init.getD current) bounds
    · have h := t1 hb
      simp only [trainStart, bind, Except.bind] at h
      cases hc : chooseStart bounds init current draw with
      | error e => rw [hc] at h; simp at h
      | ok s =>
        rw [hc] at h
        simp only [checkStart, bind, Except.bind] at h
        cases hi : inBounds s bounds with
        | error e => rw [hi] at h; simp at h
        | ok b =>
          rw [hi] at h
          cases b with
          | false => simp at h
          | true => simp only [if_true, Except.ok.injEq] at h; exact ⟨s, rfl, h ▸ hb⟩
    · have h := t2 hb
      simp only [trainStart, bind, Except.bind] at h
      cases hc : chooseStart bounds init current draw with
      | error e => rw [hc] at h; simp at h
      | ok s =>
        rw [hc] at h
        simp only [checkStart, bind, Except.bind] at h
        cases hi : inBounds s bounds with
        | error e => rw [hi] at h; simp at h
        | ok b =>
          rw [hi] at h
          cases b with
          | false => simp at h
          | true => simp only [if_true, Except.ok.injEq] at h; exact ⟨s, rfl, h ▸ hd⟩
  obtain ⟨s, hs, hin⟩ := key
  have e1 : checkStart bounds s = .ok s := (C48_trainer_raises bounds s hin.length_eq).1 hin
  have e2 : asyncCheck bounds m s = .ok s := by
    cases m with
    | other s' => simp [asyncMethod] at hm
    | known k => cases k <;> simp [asyncMethod] at hm <;> simp [asyncCheck, e1]
  refine ⟨?_, s, ?_, hin⟩
  · simp only [asyncStart, trainStart, hs, bind, Except.bind, e1, e2]
  · simp only [asyncStart, hs, bind, Except.bind, e2]

/-- An Adam run whose start lies outside one of the bounds. -/
example : asyncStart [(0, 1), (2, 3)] (.known .adam) (some [5, 2]) [0, 0] [1 / 2, 5 / 2] = .ok [1 / 2, 5 / 2] := by
  rw [(C123_start [(0, 1), (2, 3)] (.known .adam) rfl (some [5, 2]) [0, 0] [1 / 2, 5 / 2] rfl (by norm_num [InBox])).1]
  exact (C48_start_used [(0, 1), (2, 3)] (some [5, 2]) [0, 0] [1 / 2, 5 / 2] rfl (by norm_num [InBox])).2 (by norm_num [InBox])

/-- **C123** is violated for starts of the wrong length: two numbers for three bounds are refused by a synchronous run and by an asynchronous `hgdl`
run, and handed to the asynchronous MCMC, Adam and BO optimizers. -/
theorem C123_start_violated (current draw : List ℝ) :
    (∃ e, trainStart [(0, 1), (0, 1), (0, 1)] (some [1 / 2, 1 / 2]) current draw = .error e) ∧
    (∃ e, asyncStart [(0, 1), (0, 1), (0, 1)] (.known .hgdl) (some [1 / 2, 1 / 2]) current draw = .error e) ∧
    ∀ m, m = .mcmc ∨ m = .adam ∨ m = .bo →
      asyncStart [(0, 1), (0, 1), (0, 1)] (.known m) (some [1 / 2, 1 / 2]) current draw = .ok [1 / 2, 1 / 2] := by
  have e1 : Verif.Train.outOfBounds [1 / 2, 1 / 2] [(0, 1), (0, 1), (0, 1)] = .ok false := by
    norm_num [Verif.Train.outOfBounds]
  have e2 : chooseStart [(0, 1), (0, 1), (0, 1)] (some [1 / 2, 1 / 2]) current draw = .ok [1 / 2, 1 / 2] := by
    simp only [chooseStart, e1, bind, Except.bind, Bool.false_eq_true, if_false]
  have e3 : ∃ e, checkStart [(0, 1), (0, 1), (0, 1)] [1 / 2, 1 / 2] = .error e := by
    exact ⟨"ValueError: operands could not be broadcast together", by simp [checkStart, inBounds, bind, Except.bind]⟩
  refine ⟨?_, ?_, ?_⟩
  · obtain ⟨e, he⟩ := e3
    exact ⟨e, by simp only [trainStart, e2, bind, Except.bind, he]⟩
  · obtain ⟨e, he⟩ := e3
    exact ⟨e, by simp only [asyncStart, e2, bind, Except.bind, asyncCheck, he]⟩
  · rintro m (rfl | rfl | rfl) <;> simp only [asyncStart, e2, bind, Except.bind, asyncCheck]

/-- **C123** (stop). `stop_training` never raises and never closes the client; the run ends unless a warning is issued, and a warning means that
nothing has changed. -/
theorem C123_stop (h : Handle) (w : World) :
    (stopTraining h w).1.clientAlive = w.clientAlive ∧
      ((stopTraining h w).2 = false → (stopTraining h w).1.running = false) ∧
      ((stopTraining h w).2 = true → (stopTraining h w).1 = w) ∧
      ((stopTraining h w).2 = false ↔ h ≠ .foreign ∧ w.reachable = true ∧ w.clientAlive = true) := by
  obtain ⟨a, b, c⟩ := w
  cases h <;> cases a <;> cases b <;> cases c <;> decide

/-- **C123** is violated when the worker does not answer: the warning says that no training is running while it runs on. -/
theorem C123_stop_warning_violated : ∃ w : World, w.running = true ∧ (stopTraining .actor w).2 = true ∧
    (stopTraining .actor w).1.running = true := ⟨⟨true, true, false⟩, rfl, rfl, rfl⟩

/-- **C123** (kill). `kill_client` never raises; without a warning the run has ended, and for `hgdl` the client is closed. -/
theorem C123_kill_partial (h : Handle) (w : World) :
    ((killClient h w).2 = false → (killClient h w).1.running = false ∧ (h = .hgdl → (killClient h w).1.clientAlive = false)) ∧
      ((killClient h w).2 = true → (killClient h w).1 = w) := by
  obtain ⟨a, b, c⟩ := w
  cases h <;> cases a <;> cases b <;> cases c <;> decide

/-- **C123** is violated for MCMC, Adam and BO: `kill_client`, said to shut the Dask client down, succeeds without warning and leaves it connected. -/
theorem C123_kill_violated (w : World) (h : (killClient .actor w).2 = false) :
    w.clientAlive = true ∧ (killClient .actor w).1.clientAlive = true := by
  obtain ⟨a, b, c⟩ := w
  revert h
  cases a <;> cases b <;> cases c <;> decide

/-- Such a world exists. -/
example : (killClient .actor ⟨true, true, true⟩).2 = false := rfl

/-- **C123** (adopting results). On a GP in order, `update_hyperparameters` sets the vector carried by the answer, after which the GP cannot be told from one
freshly built with it; keeps everything if nothing has been reported yet; and otherwise raises without changing anything. If `set_hyperparameters` refuses the vector
reported, so does `update_hyperparameters`. -/
theorem C123_update {α : Type} (c : Verif.GP.Config α (List ℝ)) (he : Verif.GP.SpluContract c.ext) (eu : Bool) (s : Verif.State.Spec α (List ℝ))
    (o : Verif.State.Obj α (List ℝ)) (g : Verif.State.Good c eu s o) (a : Answer) :
    (∀ v, Carries a v → Verif.GP.Admissible c s.data v →
      ∃ o' fresh, updateHyperparameters o a = (o', .ok v) ∧ Verif.State.build c s.data eu s.width v = .ok fresh ∧ Verif.State.Same o' fresh) ∧
    (NothingYet a → ∃ o', updateHyperparameters o a = (o', .ok o.hps) ∧ Verif.State.Same o' o) ∧
    ((¬ ∃ v, Carries a v) → ¬ NothingYet a → ∃ e, updateHyperparameters o a = (o, .error e)) ∧
    ∀ v e, Carries a v → (Verif.State.setHyperparameters o v).2 = .error e → (updateHyperparameters o a).2 = .error e := by
  refine ⟨fun v hv ha => ?_, fun hn => ?_, fun h1 h2 => ?_, fun v e hv hs => ?_⟩
  · have hp := (C50_only_genuine_results o.hps a v).2 (Or.inl hv)
    obtain ⟨o', h1, g1⟩ := Verif.State.setHyperparameters_good c he eu s o g v ha
    obtain ⟨fr, hf, gf⟩ := Verif.State.build_good c he eu { s with hps := v } g.len ha
    exact ⟨o', fr, by simp only [updateHyperparameters, hp, h1], hf, Verif.State.good_same g1 gf⟩
  · have hp := (C50_only_genuine_results o.hps a o.hps).2 (Or.inr ⟨hn, rfl⟩)
    have ha : Verif.GP.Admissible c s.data o.hps := by rw [g.hps]; exact g.adm
    obtain ⟨o', h1, g1⟩ := Verif.State.setHyperparameters_good c he eu s o g o.hps ha
    rw [g.hps] at g1
    exact ⟨o', by simp only [updateHyperparameters, hp, h1], Verif.State.good_same g1 g⟩
  · cases hp : pullHyperparameters o.hps a with
    | error e => exact ⟨e, by simp only [updateHyperparameters, hp]⟩
    | ok v =>
      rcases (C50_only_genuine_results o.hps a v).1 hp with h | ⟨h, -⟩
      · exact absurd ⟨v, h⟩ h1
      · exact absurd h h2
  · have hp := (C50_only_genuine_results o.hps a v).2 (Or.inl hv)
    rcases hr : Verif.State.setHyperparameters o v with ⟨o', r⟩
    rw [hr] at hs
    simp only at hs
    subst hs
    simp only [updateHyperparameters, hp, hr]

/-- A kernel with one hyperparameter, as a vector. -/
noncomputable def vecCfg : Verif.GP.Config ℕ (List ℝ) where
  kernel h a b := if a = b then h.headD 1 else 0
  mean := some fun _ _ => 0
  noise := .default
  mode := .chol
  sparseK := false
  ext := Verif.GP.cholExt

/-- Adopting a polled vector, and keeping the present one. -/
example : ∃ o o' fresh, Verif.State.build vecCfg Verif.State.dData true 1 [1] = .ok o ∧
    updateHyperparameters o (.dict ⟨5, some (.vector [3]), none⟩) = (o', .ok [3]) ∧
    Verif.State.build vecCfg Verif.State.dData true 1 [3] = .ok fresh ∧ Verif.State.Same o' fresh := by
  have adm : ∀ t : ℝ, 0 < t → Verif.GP.Admissible vecCfg Verif.State.dData [t] := by
    intro t ht
    refine ⟨rfl, ?_⟩
    have e : Verif.GP.KVmat vecCfg Verif.State.dData [t] = Matrix.diagonal fun _ => t + 1 := by
      ext i j
      fin_cases i; fin_cases j
      norm_num [Verif.GP.KVmat, Verif.GP.Kmat, Verif.GP.calcV, vecCfg, Verif.GP.Noise.mat, Verif.GP.Data.yAbsMean, Verif.State.dData]
    rw [e]
    exact Matrix.PosDef.diagonal fun i => by positivity
  obtain ⟨o, ho, g⟩ := Verif.State.build_good vecCfg Verif.GP.cholExt_contract true ⟨Verif.State.dData, 1, [1]⟩ rfl (adm 1 one_pos)
  obtain ⟨o', fr, h1, h2, h3⟩ := (C123_update vecCfg Verif.GP.cholExt_contract true _ o g (.dict ⟨5, some (.vector [3]), none⟩)).1 [3]
    (.position _ _ (by simp) rfl rfl) (adm 3 (by norm_num))
  exact ⟨o, o', fr, ho, h1, h2, h3⟩

end Verif.Actor
