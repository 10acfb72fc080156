import Verif.Train.SeqProps

/-! C99: which starting guesses the iterative solvers get when warm starts are switched on. -/

namespace Verif.Train

open Classical

variable {P Ω : Type}

/-- The iterative solver of a mode. -/
def krylov (ext : Ext P Ω) : Mode → Option (Dict → KVMat → Arr → Option P → Option Arr → Except String Arr)
  | .cg | .cgPre => some ext.cg
  | .minres | .minresPre => some ext.minres
  | .direct _ => none

/-- An evaluation made of one solver call with the given preconditioner and starting guess and one log-determinant. -/
def oneSolve (ext : Ext P Ω) (solver : Dict → KVMat → Arr → Option P → Option Arr → Except String Arr) (mode : Mode)
    (args : Dict) (A : KVMat) (y : Arr) (ω : Ω) (M : Option P) (x0 : Option Arr) : Except String (Arr × ℝ) := do
  let sol ← solver args A y M x0
  let ld ← ext.logdet args mode A ω
  .ok (sol, ld)

/-- `A` is within the drift limit `r` of `B`: same size, trace and Frobenius norm changed by at most the fraction `r`. -/
def Near (r : ℝ) (A B : KVMat) : Prop :=
  0 ≤ r ∧ A.n = B.n ∧ Within r (trace' A) (trace' B) ∧ Within r (frobenius A) (frobenius B)

theorem driftGt_iff {A B : KVMat} {r : ℝ} :
    driftGt (fpDrift (some (fingerprint B)) (some (fingerprint A))) r = false ↔ Near r A B := by
  by_cases hn : A.n = B.n
  · have hs : ¬ (fingerprint B).shape ≠ (fingerprint A).shape := by simp [fingerprint, hn]
    have pos : ∀ x y : ℝ, 0 < max (max |x| |y|) tiny :=
      fun x y => lt_max_of_lt_right (by unfold tiny; positivity)
    unfold fpDrift Near
    simp only [if_neg hs, List.foldl_cons, List.foldl_nil, Option.map_some, driftGt, decide_eq_false_iff_not,
      not_lt, max_le_iff, div_le_iff₀ (pos _ _)]
    constructor
    · rintro ⟨⟨h0, h1⟩, h2⟩
      exact ⟨h0, hn, h1, h2⟩
    · rintro ⟨h0, -, h1, h2⟩
      exact ⟨⟨h0, h1⟩, h2⟩
  · have hs : (fingerprint B).shape ≠ (fingerprint A).shape := fun e => hn e.symm
    unfold fpDrift
    simp only [if_pos hs, driftGt]
    constructor
    · intro h; exact absurd h (by simp)
    · intro h; exact absurd h.2.1 hn

theorem Limit.maxDrift {args : Dict} {r : ℝ} (h : Limit args r) : maxDrift args = .ok r := by
  unfold Limit at h
  unfold Train.maxDrift dictGet? driftKey
  cases hl : List.lookup "sparse_preconditioner_max_matrix_drift".toList args with
  | none => rw [hl] at h; simp only at h; rw [h]; rfl
  | some v => rw [hl] at h; simp only at h; simp [Val.toFloat, h]

/-- The refresh interval is a number or not given. -/
def IntervalOK (args : Dict) : Prop := ∃ z, refreshInterval args = .ok z

theorem getOrRefresh_ok {args : Dict} {r : ℝ} (hl : Limit args r) (hi : IntervalOK args)
    (build : Dict → KVMat → Except String P) (pre : Bool) (c : Cache P) (A : KVMat) :
    ∃ M c', getOrRefresh build pre args c A false = (.ok M, c') := by
  obtain ⟨z, hz⟩ := hi
  have hc : ∃ b, canReuse pre args c A = .ok b := by
    unfold canReuse
    split_ifs
    · exact ⟨_, rfl⟩
    · exact ⟨_, rfl⟩
    · exact ⟨_, rfl⟩
    · exact ⟨_, rfl⟩
    · simp only [hz, hl.maxDrift, bind, Except.bind]
      split_ifs <;> exact ⟨_, rfl⟩
  obtain ⟨b, hb⟩ := hc
  cases pre with
  | false => exact ⟨_, _, rfl⟩
  | true =>
    unfold getOrRefresh
    simp only [Bool.not_true, Bool.false_eq_true, if_false, hb]
    cases b with
    | true => exact ⟨_, _, rfl⟩
    | false =>
      simp only
      cases build args A <;> exact ⟨_, _, rfl⟩

/-- An evaluation is one solver call with the validated guess. -/
theorem evaluate_oneSolve {ext : Ext P Ω} {self mode : Mode} {args : Dict} {s : LinState P} {A : KVMat} {y : Arr} {ω : Ω}
    {r : ℝ} (hl : Limit args r) (hi : IntervalOK args) {solver} (hk : krylov ext mode = some solver) {x0 : Option Arr}
    (hv : validatedWarmStart args s A (initialGuess args s y.rows y.cols) = .ok x0) :
    ∃ M, (evaluate ext self mode args s A y ω).1 = oneSolve ext solver mode args A y ω M x0 := by
  obtain ⟨M, c', hM⟩ := getOrRefresh_ok hl hi ext.build self.pre s.cache A
  have hs : ∃ M c, solveStep ext self mode args s.cache A y x0 = (solver args A y M x0, c) := by
    cases mode with
    | direct n => simp [krylov] at hk
    | cg => simp only [krylov, Option.some.injEq] at hk; subst hk; exact ⟨none, _, rfl⟩
    | minres => simp only [krylov, Option.some.injEq] at hk; subst hk; exact ⟨none, _, rfl⟩
    | cgPre => simp only [krylov, Option.some.injEq] at hk; subst hk; exact ⟨M, c', by simp only [solveStep, hM]⟩
    | minresPre => simp only [krylov, Option.some.injEq] at hk; subst hk; exact ⟨M, c', by simp only [solveStep, hM]⟩
  obtain ⟨M', c, hs⟩ := hs
  refine ⟨M', ?_⟩
  unfold evaluate oneSolve
  simp only [hv, hs]
  cases solver args A y M' x0 with
  | error e => rfl
  | ok sol =>
    simp only [bind, Except.bind]
    cases ext.logdet args mode A ω <;> rfl

/-- What a successful evaluation leaves behind. -/
theorem evaluate_state {ext : Ext P Ω} {self mode : Mode} {args : Dict} {s s' : LinState P} {A : KVMat} {y sol : Arr} {ω : Ω}
    {ld : ℝ} (h : evaluate ext self mode args s A y ω = (.ok (sol, ld), s')) :
    s'.warmFp = some (fingerprint A) ∧ s'.committed = s.committed ∧
      s'.warmSol = if warmEnabled args then some sol else s.warmSol := by
  unfold evaluate at h
  simp only at h
  split at h
  · simp at h
  · split at h
    · simp at h
    · split at h
      · simp at h
      · simp only [Prod.mk.injEq, Except.ok.injEq] at h
        obtain ⟨⟨rfl, rfl⟩, rfl⟩ := h
        split_ifs <;> exact ⟨rfl, rfl, rfl⟩

theorem enabled_of_lookup {args : Dict} (h : ∃ v : Val, args.lookup "sparse_krylov_warm_start".toList = some v ∧ v.truthy = true) :
    warmEnabled args = true := by
  obtain ⟨v, h, hv⟩ := h
  change args.lookup warmKey = some v at h
  simp [warmEnabled, dictGet?, h, hv]

theorem disabled_of_lookup {args : Dict}
    (h : ∀ v : Val, args.lookup "sparse_krylov_warm_start".toList = some v → v.truthy = false) : warmEnabled args = false := by
  change ∀ v : Val, args.lookup warmKey = some v → v.truthy = false at h
  unfold warmEnabled dictGet?
  cases hl : args.lookup warmKey with
  | none => rfl
  | some v => exact h v hl

/-- **C99**, the part that holds. With warm starts on, the evaluation after a successful one (with the same right-hand-side
shape) starts its solver from that solution if the matrix is within the drift limit of the previous one, and from nothing
otherwise. Missing: the first evaluation and the one after a failed evaluation, see below. -/
theorem C99_after_success_partial (ext : Ext P Ω) (self mode mode' : Mode) (args : Dict) (s s' : LinState P) (A A' : KVMat)
    (y y' sol : Arr) (ω ω' : Ω) (ld r : ℝ) (hw : ∃ v : Val, args.lookup "sparse_krylov_warm_start".toList = some v ∧ v.truthy = true) (hl : Limit args r) (hi : IntervalOK args)
    (h : evaluate ext self mode args s A y ω = (.ok (sol, ld), s')) (hrow : sol.rows = y'.rows) (hcol : sol.cols = y'.cols)
    (solver : Dict → KVMat → Arr → Option P → Option Arr → Except String Arr) (hk : krylov ext mode' = some solver) :
    ∃ M, (evaluate ext self mode' args s' A' y' ω').1
      = oneSolve ext solver mode' args A' y' ω' M (if Near r A' A then some sol else none) := by
  obtain ⟨h1, -, h3⟩ := evaluate_state h
  replace hw := enabled_of_lookup hw
  rw [if_pos hw] at h3
  refine evaluate_oneSolve hl hi hk ?_
  have hg : initialGuess args s' y'.rows y'.cols = some sol := by
    unfold initialGuess
    simp [hw, h3, fitGuess, hrow, hcol]
  rw [hg]
  unfold validatedWarmStart
  simp only [h1, hl.maxDrift, bind, Except.bind]
  by_cases hn : Near r A' A
  · rw [if_pos hn, driftGt_iff.2 hn]; rfl
  · rw [if_neg hn]
    have : driftGt (fpDrift (some (fingerprint A)) (some (fingerprint A'))) r = true := by
      by_contra hc
      exact hn (driftGt_iff.1 (by simpa using hc))
    rw [this]; rfl

/-- **C99** (shape). A guess always has the shape of the right-hand side, or none is used, whatever was stored before. -/
theorem C99_shape (ext : Ext P Ω) (self mode : Mode) (args : Dict) (s : LinState P) (A : KVMat) (y : Arr) (ω : Ω) (r : ℝ)
    (hl : Limit args r) (hi : IntervalOK args)
    (solver : Dict → KVMat → Arr → Option P → Option Arr → Except String Arr) (hk : krylov ext mode = some solver) :
    ∃ M x0, (evaluate ext self mode args s A y ω).1 = oneSolve ext solver mode args A y ω M x0 ∧
      ∀ g, x0 = some g → g.rows = y.rows ∧ g.cols = y.cols := by
  have hfit : ∀ g g', fitGuess y.rows y.cols g = some g' → g'.rows = y.rows ∧ g'.cols = y.cols := by
    intro g g' h
    unfold fitGuess at h
    split_ifs at h with h1 h2 h3
    · rw [Option.some.injEq] at h; subst h; exact ⟨by simpa using h1, h2⟩
    · rw [Option.some.injEq] at h; subst h; exact ⟨by simpa using h1, rfl⟩
  have hguess : ∀ g, initialGuess args s y.rows y.cols = some g → g.rows = y.rows ∧ g.cols = y.cols := by
    intro g h
    unfold initialGuess at h
    split_ifs at h
    cases hb : s.warmSol.bind (fitGuess y.rows y.cols) with
    | none =>
      rw [hb] at h
      obtain ⟨a, -, h⟩ := Option.bind_eq_some_iff.1 h
      exact hfit _ _ h
    | some g' =>
      rw [hb] at h
      obtain ⟨a, -, hb⟩ := Option.bind_eq_some_iff.1 hb
      rw [show g = g' from (Option.some.inj h).symm]
      exact hfit _ _ hb
  have hval : ∃ x0, validatedWarmStart args s A (initialGuess args s y.rows y.cols) = .ok x0 ∧
      ∀ g, x0 = some g → g.rows = y.rows ∧ g.cols = y.cols := by
    cases hg : initialGuess args s y.rows y.cols with
    | none => exact ⟨none, rfl, by simp⟩
    | some g =>
      have hs := hguess g hg
      unfold validatedWarmStart
      cases s.warmFp with
      | none => exact ⟨some g, rfl, by rintro _ ⟨⟩; exact hs⟩
      | some fp =>
        simp only [hl.maxDrift, bind, Except.bind]
        split_ifs
        · exact ⟨none, rfl, by simp⟩
        · exact ⟨some g, rfl, by rintro _ ⟨⟩; exact hs⟩
  obtain ⟨x0, hv, hx⟩ := hval
  obtain ⟨M, hM⟩ := evaluate_oneSolve (ext := ext) (self := self) (ω := ω) hl hi hk hv
  exact ⟨M, x0, hM, hx⟩

/-- **C99** (switched off). With the setting absent or false every evaluation starts from nothing and no solution is kept. -/
theorem C99_off (ext : Ext P Ω) (self mode : Mode) (args : Dict) (s : LinState P) (A : KVMat) (y : Arr) (ω : Ω) (r : ℝ)
    (hw : ∀ v : Val, args.lookup "sparse_krylov_warm_start".toList = some v → v.truthy = false) (hl : Limit args r) (hi : IntervalOK args)
    (solver : Dict → KVMat → Arr → Option P → Option Arr → Except String Arr) (hk : krylov ext mode = some solver) :
    (∃ M, (evaluate ext self mode args s A y ω).1 = oneSolve ext solver mode args A y ω M none) ∧
    (evaluate ext self mode args s A y ω).2.warmSol = s.warmSol := by
  replace hw := disabled_of_lookup hw
  constructor
  · refine evaluate_oneSolve hl hi hk ?_
    unfold initialGuess
    rw [hw]; rfl
  · unfold evaluate
    simp only
    split
    · rfl
    · split
      · rfl
      · split
        · rfl
        · rw [hw]; rfl

/-- The settings of the examples: warm starts on, everything else at its default. -/
noncomputable def warmArgs : Dict := [(warmKey, .bool true)]

theorem warmArgs_enabled : warmEnabled warmArgs = true := by
  simp [warmEnabled, dictGet?, List.lookup, Val.truthy, warmArgs]

theorem warmArgs_set : ∃ v : Val, warmArgs.lookup "sparse_krylov_warm_start".toList = some v ∧ v.truthy = true := by
  refine ⟨.bool true, ?_, rfl⟩
  change warmArgs.lookup warmKey = _
  simp [warmArgs, List.lookup]

theorem warmArgs_limit : Limit warmArgs 0.1 := by
  have : ¬ "sparse_preconditioner_max_matrix_drift".toList = warmKey := by decide
  unfold Limit warmArgs
  rw [lookup_cons', if_neg this]
  rfl

theorem warmArgs_interval : IntervalOK warmArgs := by
  refine ⟨none, ?_⟩
  have : ¬ intervalKey = warmKey := fun h => warm_ne_interval h.symm
  unfold refreshInterval dictGet? warmArgs
  rw [lookup_cons', if_neg this]
  rfl

/-- A solver that returns its starting guess, or the right-hand side when there is none, and fails on the matrix
`1000`. -/
noncomputable def echoExt : Ext Unit Unit where
  build := fun _ _ => .ok ()
  direct := fun _ _ _ y => .ok y
  cg := fun _ A y _ g => if trace' A = 1000 then .error "solver failed" else .ok (g.getD y)
  minres := fun _ _ y _ g => .ok (g.getD y)
  logdet := fun _ _ _ _ => .ok 0

theorem trace_exMat (x : ℝ) : trace' (exMat x) = x := by
  unfold trace'
  exact Fin.sum_univ_one (fun _ => x)

theorem frobenius_exMat (x : ℝ) : frobenius (exMat x) = |x| := by
  unfold frobenius
  rw [show (∑ i : Fin (exMat x).n, ∑ j : Fin (exMat x).n, (exMat x).M i j * (exMat x).M i j) = x * x from
    (Fin.sum_univ_one (fun _ => ∑ _j : Fin 1, x * x)).trans (Fin.sum_univ_one (fun _ => x * x))]
  exact Real.sqrt_mul_self_eq_abs x

theorem near_self {r : ℝ} (hr : 0 ≤ r) (A : KVMat) : Near r A A := by
  have : ∀ x : ℝ, Within r x x := by
    intro x
    unfold Within
    rw [sub_self, abs_zero]
    exact mul_nonneg hr (le_max_of_le_right (by unfold tiny; positivity))
  exact ⟨hr, rfl, this _, this _⟩

theorem first_ok : ∃ s', evaluate echoExt .cg .cg warmArgs ⟨Cache.empty, none, none, none⟩ (exMat 1)
    ⟨1, 1, fun _ _ => 5⟩ () = (.ok (⟨1, 1, fun _ _ => 5⟩, 0), s') := by
  have hg : initialGuess warmArgs (⟨Cache.empty, none, none, none⟩ : LinState Unit) 1 1 = none := by
    simp [initialGuess, warmArgs_enabled]
  unfold evaluate
  simp only [hg, validatedWarmStart, solveStep, echoExt, trace_exMat]
  rw [if_neg (by norm_num)]
  exact ⟨_, rfl⟩

/-- The hypotheses are met: the second evaluation of the same matrix starts from the first solution. -/
example : ∃ s', evaluate echoExt .cg .cg warmArgs ⟨Cache.empty, none, none, none⟩ (exMat 1) ⟨1, 1, fun _ _ => 5⟩ ()
      = (.ok (⟨1, 1, fun _ _ => 5⟩, 0), s') ∧
    (evaluate echoExt .cg .cg warmArgs s' (exMat 1) ⟨1, 1, fun _ _ => 7⟩ ()).1 = .ok (⟨1, 1, fun _ _ => 5⟩, 0) := by
  obtain ⟨s', h1⟩ := first_ok
  refine ⟨s', h1, ?_⟩
  obtain ⟨M, hM⟩ := C99_after_success_partial echoExt .cg .cg .cg warmArgs _ s' (exMat 1) (exMat 1) _ ⟨1, 1, fun _ _ => 7⟩ _
    () () 0 0.1 warmArgs_set warmArgs_limit warmArgs_interval h1 rfl rfl echoExt.cg rfl
  rw [hM, if_pos (near_self (by norm_num) _)]
  simp only [oneSolve, echoExt, trace_exMat]
  rw [if_neg (by norm_num)]
  rfl

theorem not_near : ¬ Near 0.1 (exMat 1001) (exMat 1) := by
  rintro ⟨-, -, h, -⟩
  rw [trace_exMat, trace_exMat, Within] at h
  have ht : tiny ≤ 1001 := by
    unfold tiny
    have h : (1 : ℝ) ≤ 10 ^ 300 := one_le_pow₀ (by norm_num)
    generalize (10 : ℝ) ^ 300 = t at h
    rw [div_le_iff₀ (by linarith)]
    linarith
  rw [abs_of_pos (by norm_num : (0:ℝ) < 1), abs_of_pos (by norm_num : (0:ℝ) < 1001),
    max_eq_right (by norm_num : (1:ℝ) ≤ 1001), max_eq_left ht, abs_of_pos (by norm_num)] at h
  norm_num at h

/-- The hypotheses are met on the other side of the limit: the next evaluation starts from nothing. -/
example (s' : LinState Unit)
    (h : evaluate echoExt .cg .cg warmArgs ⟨Cache.empty, none, none, none⟩ (exMat 1) ⟨1, 1, fun _ _ => 5⟩ ()
      = (.ok (⟨1, 1, fun _ _ => 5⟩, 0), s')) :
    (evaluate echoExt .cg .cg warmArgs s' (exMat 1001) ⟨1, 1, fun _ _ => 7⟩ ()).1 = .ok (⟨1, 1, fun _ _ => 7⟩, 0) := by
  obtain ⟨M, hM⟩ := C99_after_success_partial echoExt .cg .cg .cg warmArgs _ s' (exMat 1) (exMat 1001) _
    ⟨1, 1, fun _ _ => 7⟩ _ () () 0 0.1 warmArgs_set warmArgs_limit warmArgs_interval h rfl rfl echoExt.cg rfl
  rw [hM, if_neg not_near]
  simp only [oneSolve, echoExt, trace_exMat]
  rw [if_neg (by norm_num)]
  rfl

/-- **C99** is violated at the first evaluation of a training run: the committed solution is used as starting guess however far
the new matrix is from the one it was computed for (here 1 and 1001; the old solution comes back). -/
theorem C99_first_evaluation_violated : ∃ c : Arr, ¬ Near 0.1 (exMat 1001) (exMat 1) ∧
    (evaluate echoExt .cg .cg warmArgs ⟨Cache.empty, none, none, some c⟩ (exMat 1001) ⟨1, 1, fun _ _ => 7⟩ ()).1
      = .ok (c, 0) ∧ c.val 0 0 = 5 := by
  refine ⟨⟨1, 1, fun _ _ => 5⟩, not_near, ?_, rfl⟩
  have hg : initialGuess warmArgs (⟨Cache.empty, none, none, some ⟨1, 1, fun _ _ => 5⟩⟩ : LinState Unit) 1 1
      = some ⟨1, 1, fun _ _ => 5⟩ := by
    simp [initialGuess, warmArgs_enabled, fitGuess]
  unfold evaluate
  simp only [hg, validatedWarmStart, solveStep, echoExt, trace_exMat]
  rw [if_neg (by norm_num)]
  rfl

theorem near_fail : Near 0.1 (exMat 1001) (exMat 1000) := by
  have : Within 0.1 1001 1000 := by
    unfold Within
    refine le_trans ?_ (mul_le_mul_of_nonneg_left (le_max_left _ _) (by norm_num))
    refine le_trans ?_ (mul_le_mul_of_nonneg_left (le_max_left _ _) (by norm_num))
    norm_num [abs_of_pos]
  refine ⟨by norm_num, rfl, ?_, ?_⟩
  · rw [trace_exMat, trace_exMat]; exact this
  · rw [frobenius_exMat, frobenius_exMat, abs_of_pos (by norm_num), abs_of_pos (by norm_num)]; exact this

/-- The second and third step of the run below. -/
theorem failed_step (s : LinState Unit) (h : s.warmFp = some (fingerprint (exMat 1)))
    (hs : s.warmSol = some ⟨1, 1, fun _ _ => 5⟩) : ∃ s' e,
    evaluate echoExt .cg .cg warmArgs s (exMat 1000) ⟨1, 1, fun _ _ => 7⟩ () = (.error e, s') ∧
    ¬ Near 0.1 (exMat 1001) (exMat 1) ∧
    (evaluate echoExt .cg .cg warmArgs s' (exMat 1001) ⟨1, 1, fun _ _ => 7⟩ ()).1 = .ok (⟨1, 1, fun _ _ => 5⟩, 0) := by
  have hval : ∃ g, validatedWarmStart warmArgs s (exMat 1000) (initialGuess warmArgs s 1 1) = .ok g := by
    cases hg : initialGuess warmArgs s 1 1 with
    | none => exact ⟨none, rfl⟩
    | some g =>
      unfold validatedWarmStart
      simp only [h, warmArgs_limit.maxDrift, bind, Except.bind]
      split_ifs
      · exact ⟨none, rfl⟩
      · exact ⟨some g, rfl⟩
  obtain ⟨g, hval⟩ := hval
  refine ⟨{ s with warmFp := some (fingerprint (exMat 1000)) }, "solver failed", ?_, not_near, ?_⟩
  · unfold evaluate
    simp only [hval, solveStep, echoExt, trace_exMat, if_true]
  · have hg : initialGuess warmArgs { s with warmFp := some (fingerprint (exMat 1000)) } 1 1
        = some ⟨1, 1, fun _ _ => 5⟩ := by
      simp [initialGuess, warmArgs_enabled, fitGuess, hs]
    unfold evaluate
    simp only [hg, validatedWarmStart, warmArgs_limit.maxDrift, bind, Except.bind, driftGt_iff.2 near_fail, solveStep, echoExt,
      trace_exMat]
    simp only [Bool.false_eq_true, if_false]
    rw [if_neg (by norm_num : ¬ (1001 : ℝ) = 1000)]
    rfl

/-- **C99** is violated after a failed evaluation: it moves the reference matrix but not the solution, so the third evaluation
starts from the solution for the matrix 1 although its own matrix is 1001. -/
theorem C99_failed_evaluation_violated : ∃ s1 s2 e,
    evaluate echoExt .cg .cg warmArgs ⟨Cache.empty, none, none, none⟩ (exMat 1) ⟨1, 1, fun _ _ => 5⟩ ()
      = (.ok (⟨1, 1, fun _ _ => 5⟩, 0), s1) ∧
    evaluate echoExt .cg .cg warmArgs s1 (exMat 1000) ⟨1, 1, fun _ _ => 7⟩ () = (.error e, s2) ∧
    ¬ Near 0.1 (exMat 1001) (exMat 1) ∧
    (evaluate echoExt .cg .cg warmArgs s2 (exMat 1001) ⟨1, 1, fun _ _ => 7⟩ ()).1 = .ok (⟨1, 1, fun _ _ => 5⟩, 0) := by
  obtain ⟨s1, h1⟩ := first_ok
  obtain ⟨hfp, -, hsol⟩ := evaluate_state h1
  rw [if_pos warmArgs_enabled] at hsol
  obtain ⟨s2, e, h2, h3, h4⟩ := failed_step s1 hfp hsol
  exact ⟨s1, s2, e, h1, h2, h3, h4⟩

end Verif.Train
