import Verif.MCMC.CtorModel

/-! C147, first part: what a proposal object does after construction. -/

namespace Verif.MCMC

/-- **C147** (construction, partial: with the default proposal). A covariance given to the constructor is the one the first
draw uses, if no `prop_args` are given. -/
theorem C147_given_covariance_partial (heap : List ArgsDict) (dim : ℕ) (hd : dim ≠ 0) (S : Cov) (ad : AdaptArg) :
    ∃ heap' o, construct heap dim .normal (some S) ad none = .ok (heap', o) ∧ drawCov heap' o = .ok S ∧
      ∀ o' : PropObj, o'.args < heap.length → drawCov heap' o' = drawCov heap o' := by
  cases ad <;> refine ⟨_, _, by simp only [construct, chooseAdapt, startScale, hd, bind, Except.bind, if_false]; rfl, ?_, ?_⟩ <;>
    first
      | (simp [drawCov, startSigma]; done)
      | (intro o' ho'; simp [drawCov, List.getElem?_append_left ho'])

/-- **C147** (construction, defaults). Without a covariance and without `prop_args` the first draw has independent coordinates
of variance one. -/
theorem C147_default_covariance (heap : List ArgsDict) (dim : ℕ) (hd : dim ≠ 0) (ad : AdaptArg) :
    ∃ heap' o S, construct heap dim .normal none ad none = .ok (heap', o) ∧ drawCov heap' o = .ok S ∧
      (∀ a, S a a = 1) ∧ ∀ a b, a ≠ b → S a b = 0 := by
  cases ad <;> refine ⟨_, _, fun a b => if a = b then 1 else 0,
    by simp only [construct, chooseAdapt, startScale, hd, bind, Except.bind, if_false]; rfl, ?_, by simp, ?_⟩ <;>
    first
      | (intro a b hab; exact if_neg hab)
      | (simp only [drawCov, List.getElem?_concat_length]; rfl)

/-- **C147** (construction, exactly). With the default proposal and a dictionary `prop_args`, the object can be drawn from if
and only if adaptation was requested by the string `"normal"` or the dictionary already contains a covariance. -/
theorem C147_args_usable_iff (heap : List ArgsDict) (dim : ℕ) (hd : dim ≠ 0) (sigma : Option Cov) (ad : AdaptArg) (a : ℕ)
    (d : ArgsDict) (ha : heap[a]? = some d) :
    (∃ heap' o S, construct heap dim .normal sigma ad (some a) = .ok (heap', o) ∧ drawCov heap' o = .ok S) ↔
      ad = .normal ∨ ∃ S, d.sigma = some (some S) := by
  have hlt : a < heap.length := (List.getElem?_eq_some_iff.1 ha).1
  by_cases hn : ad = .normal
  · subst hn
    simp only [true_or, iff_true]
    cases sigma with
    | none => exact ⟨_, _, identityCov, by simp only [construct, chooseAdapt, startScale, hd, bind, Except.bind, if_false, if_true]; rfl,
        by simp [drawCov, startSigma, hlt]⟩
    | some S => exact ⟨_, _, S, by simp only [construct, chooseAdapt, startScale, hd, bind, Except.bind, if_false, if_true]; rfl,
        by simp [drawCov, startSigma, hlt]⟩
  · have hc : ∃ k, construct heap dim .normal sigma ad (some a) = .ok (heap, ⟨.normal, k, a⟩) := by
      cases ad <;> first | exact absurd rfl hn | exact ⟨_, rfl⟩
    obtain ⟨k, hk⟩ := hc
    simp only [hn, false_or]
    constructor
    · rintro ⟨heap', o, S, h1, h2⟩
      rw [hk] at h1
      cases h1
      simp only [drawCov, ha] at h2
      refine ⟨S, ?_⟩
      split at h2
      · cases h2
      · cases h2
      · rename_i S' hS'
        cases h2
        exact hS'
    · rintro ⟨S, hS⟩
      exact ⟨heap, _, S, hk, by simp [drawCov, ha, hS]⟩

/-- The documentation says that `adapt_callable=None`, the default, means no adaptation. With the default proposal nothing
but a callable switches the default adaptation off, not even a string that is not documented. -/
theorem C147_no_adaptation_violated (heap : List ArgsDict) (dim : ℕ) (hd : dim ≠ 0) (sigma : Option Cov) (ad : AdaptArg)
    (had : ad ≠ .callable) :
    ∃ heap' o, construct heap dim .normal sigma ad none = .ok (heap', o) ∧ o.adapt = .default := by
  cases ad <;> first
    | exact absurd rfl had
    | exact ⟨_, _, by simp only [construct, chooseAdapt, startScale, hd, bind, Except.bind, if_false]; rfl, rfl⟩

/-- For a user's proposal the documentation is followed: no adaptation by default, a callable or `"normal"` if requested, and
other strings are refused. -/
theorem C147_user_proposal (heap : List ArgsDict) (dim : ℕ) (hd : dim ≠ 0) (sigma : Option Cov) (ad : AdaptArg) :
    match ad with
    | .otherString => ∃ e, construct heap dim .callable sigma ad none = .error e
    | .callable => ∃ heap' o, construct heap dim .callable sigma ad none = .ok (heap', o) ∧ o.adapt = .user
    | .normal => ∃ heap' o, construct heap dim .callable sigma ad none = .ok (heap', o) ∧ o.adapt = .default
    | _ => ∃ heap' o, construct heap dim .callable sigma ad none = .ok (heap', o) ∧ o.adapt = .off ∧
        ∀ b C g e, adaptHeap b C g e heap' o = .ok heap' := by
  cases ad
  case otherString => exact ⟨_, rfl⟩
  case none => exact ⟨_, _, by simp only [construct, chooseAdapt, startScale, hd, bind, Except.bind, if_false]; rfl, rfl, fun _ _ _ _ => rfl⟩
  case other => exact ⟨_, _, by simp only [construct, chooseAdapt, startScale, hd, bind, Except.bind, if_false]; rfl, rfl, fun _ _ _ _ => rfl⟩
  all_goals exact ⟨_, _, by simp only [construct, chooseAdapt, startScale, hd, bind, Except.bind, if_false]; rfl, rfl⟩

/-- The default adaptation of a user's proposal without `init_prop_Sigma` is accepted at construction and raises at the first
adaptation. -/
theorem C147_missing_covariance_violated (heap : List ArgsDict) (dim : ℕ) (hd : dim ≠ 0) :
    ∃ heap' o, construct heap dim .callable none .normal none = .ok (heap', o) ∧
      ∀ C g e, ∃ m, adaptHeap true C g e heap' o = .error m := by
  refine ⟨_, _, by simp only [construct, chooseAdapt, startScale, hd, bind, Except.bind, if_false]; rfl, fun C g e => ?_⟩
  exact ⟨_, by simp only [adaptHeap, startSigma, List.getElem?_concat_length, if_true]; rfl⟩

/-- A covariance passed together with `prop_args` that do not contain one is dropped, and the first draw raises. -/
theorem C147_dropped_covariance_violated (heap : List ArgsDict) (dim : ℕ) (S : Cov) (ad : AdaptArg)
    (had : ad ≠ .normal) (a : ℕ) (d : ArgsDict) (ha : heap[a]? = some d) (hkey : d.sigma = none) :
    ∃ heap' o m, construct heap dim .normal (some S) ad (some a) = .ok (heap', o) ∧ drawCov heap' o = .error m := by
  have hc : ∃ k, construct heap dim .normal (some S) ad (some a) = .ok (heap, ⟨.normal, k, a⟩) := by
    cases ad <;> first | exact absurd rfl had | exact ⟨_, rfl⟩
  obtain ⟨k, hk⟩ := hc
  exact ⟨heap, _, _, hk, by simp only [drawCov, ha, hkey]; rfl⟩

/-- Two objects given the same dictionary share it: the second construction replaces the covariance of the first. -/
theorem C147_shared_violated (heap : List ArgsDict) (dim : ℕ) (hd : dim ≠ 0) (S T : Cov) (a : ℕ) (ha : a < heap.length) :
    ∃ heap₁ o₁ heap₂ o₂, construct heap dim .normal (some S) .normal (some a) = .ok (heap₁, o₁) ∧ drawCov heap₁ o₁ = .ok S ∧
      construct heap₁ dim .normal (some T) .normal (some a) = .ok (heap₂, o₂) ∧ drawCov heap₂ o₁ = .ok T := by
  refine ⟨_, _, _, _, by simp only [construct, chooseAdapt, startScale, hd, bind, Except.bind, if_false, if_true]; rfl, ?_,
    by simp only [construct, chooseAdapt, startScale, hd, bind, Except.bind, if_false, if_true]; rfl, ?_⟩
  · simp [drawCov, startSigma, ha]
  · simp [drawCov, startSigma, ha]

/-- Two proposals, for one and for two coordinates, with a shared dictionary that holds a user's settings only. -/
example : ∃ heap₁ o₁ heap₂ o₂, construct [⟨none, none⟩] 1 .normal (some fun _ _ => 4) .normal (some 0) = .ok (heap₁, o₁) ∧
    drawCov heap₁ o₁ = .ok (fun _ _ => 4) ∧
    construct heap₁ 1 .normal (some identityCov) .normal (some 0) = .ok (heap₂, o₂) ∧ drawCov heap₂ o₁ = .ok identityCov :=
  C147_shared_violated [⟨none, none⟩] 1 one_ne_zero (fun _ _ => 4) identityCov 0 (by simp)

/-- An adaptation moves the covariance with which the object draws a share `g` of the way to the covariance of the recent trace, or leaves
it if it is not to be adapted, multiplies the scale, and touches no dictionary of another object. -/
theorem C147_adaptation (heap : List ArgsDict) (o : PropObj) (ho : o.adapt = .default) (S C : Cov) (s g e : ℝ) (hs : 0 < s)
    (hh : heap[o.args]? = some ⟨some (some S), some s⟩) (b : Bool) :
    ∃ heap' T, adaptHeap b C g e heap o = .ok heap' ∧ drawCov heap' o = .ok T ∧
      (∀ i j, T i j = if b then (1 - g) * S i j + g * C i j else S i j) ∧
      heap'[o.args]? = some ⟨some (some T), some (s * Real.exp e)⟩ ∧ ∀ k, k ≠ o.args → heap'[k]? = heap[k]? := by
  have hlt : o.args < heap.length := (List.getElem?_eq_some_iff.1 hh).1
  have hexp : Real.exp (Real.log s + e) = s * Real.exp e := by rw [Real.exp_add, Real.exp_log hs]
  cases b with
  | true =>
    refine ⟨heap.set o.args ⟨some (some fun a b => S a b + g * (C a b - S a b)), some (s * Real.exp e)⟩,
      fun a b => S a b + g * (C a b - S a b), ?_, ?_, fun i j => by simp; ring, ?_, fun k hk => ?_⟩
    · simp [adaptHeap, ho, hh, hexp]
    · simp [drawCov, hlt]
    · simp [hlt]
    · rw [List.getElem?_set_ne (Ne.symm hk)]
  | false =>
    refine ⟨heap.set o.args ⟨some (some S), some (s * Real.exp e)⟩, S, ?_, ?_, fun i j => by simp, ?_, fun k hk => ?_⟩
    · simp [adaptHeap, ho, hh, hexp]
    · simp [drawCov, hlt]
    · simp [hlt]
    · rw [List.getElem?_set_ne (Ne.symm hk)]

/-- Two objects; the second one adapts half of the way. -/
example : ∃ heap' T, adaptHeap true (fun _ _ => 3) (1 / 2) 0 [⟨none, none⟩, ⟨some (some fun _ _ => 1), some 2⟩] ⟨.normal, .default, 1⟩ = .ok heap' ∧
    drawCov heap' ⟨.normal, .default, 1⟩ = .ok T ∧ T 0 0 = 2 := by
  obtain ⟨h, T, h1, h2, h3, -⟩ := C147_adaptation [⟨none, none⟩, ⟨some (some fun _ _ => 1), some 2⟩] ⟨.normal, .default, 1⟩ rfl (fun _ _ => 1)
    (fun _ _ => 3) 2 (1 / 2) 0 (by norm_num) rfl true
  exact ⟨h, T, h1, h2, by rw [h3]; norm_num⟩

/-! ### A second run with the same objects -/

/-- `run_mcmc` starts a new trace (gp_mcmc.py:140) but keeps the jumps of earlier runs in the proposal objects
(gp_mcmc.py:156, 290): after an earlier run of at least `i` iterations the acceptance rate used at iteration `i` is that of
the earlier run, whatever happens in this one. -/
theorem C147_second_run_violated {d : ℕ} (o : Proposal d) (i : ℕ) (earlier : i ≤ o.jumpTrace.length) (now now' : List ℝ) :
    newScale { o with jumpTrace := o.jumpTrace ++ now } i = newScale { o with jumpTrace := o.jumpTrace ++ now' } i := by
  have h : ∀ l : List ℝ, slice (o.jumpTrace ++ l) (i - o.K + 1) i = slice o.jumpTrace (i - o.K + 1) i := by
    intro l
    rw [slice, slice, List.take_append_of_le_length earlier]
  simp only [newScale, h]

/-- In a first run the rate does depend on the jumps. -/
example : newScale { defaultProposal (d := 1) (fun _ => 0) (fun _ => 1) with jumpTrace := List.replicate 10 1 } 10 ≠
    newScale { defaultProposal (d := 1) (fun _ => 0) (fun _ => 1) with jumpTrace := List.replicate 10 0 } 10 := by
  have e : ∀ a : ℝ, newScale { defaultProposal (d := 1) (fun _ => 0) (fun _ => 1) with jumpTrace := List.replicate 10 a } 10 =
      some (Real.exp (Real.log (2.4 ^ 2 / ((1 : ℕ) : ℝ)) + 10 * gamma2 10 0.8 10 * (a - 0.234))) := by
    intro a
    simp only [newScale, defaultProposal, slice, mean]
    rw [List.take_of_length_le (by simp), List.drop_replicate]
    rw [if_neg (by simp)]
    simp only [List.sum_replicate, List.length_replicate, nsmul_eq_mul, Option.some.injEq]
    congr 3
    norm_num
  rw [e, e]
  intro h
  have h1 := Real.exp_injective (Option.some.inj h)
  have hg : 0 < gamma2 10 0.8 10 := by unfold gamma2; positivity
  nlinarith

end Verif.MCMC
