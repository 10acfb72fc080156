import Verif.Train.SeqModel
import Mathlib.Tactic.Linarith
import Mathlib.Tactic.NormNum
import Mathlib.Tactic.Positivity
import Mathlib.Algebra.BigOperators.Fin
import Mathlib.Data.List.Perm.Basic
import Mathlib.LinearAlgebra.Matrix.NonsingularInverse
import Mathlib.Analysis.SpecialFunctions.Log.Basic

/-!
C45 (training leaves the settings untouched), C46 (likelihood values outside MCMC do not depend on evaluation order) and
C47 (a reused preconditioner is fresh enough).
-/

namespace Verif.Train

open Classical

/-! ### Dictionaries -/

theorem lookup_cons' (k : Str) (e : Str × Val) (d : Dict) :
    List.lookup k (e :: d) = if k = e.1 then some e.2 else List.lookup k d := by
  obtain ⟨a, b⟩ := e
  rw [List.lookup_cons]
  by_cases h : k = a
  · subst h; simp
  · have : (k == a) = false := by simpa using h
    rw [this, if_neg h]

theorem any_iff_lookup (d : Dict) (k : Str) : d.any (fun e => e.1 == k) = (d.lookup k).isSome := by
  induction d with
  | nil => rfl
  | cons e d ih =>
    rw [List.any_cons, lookup_cons', ih]
    by_cases h : k = e.1
    · subst h; simp
    · have : (e.1 == k) = false := by simpa using fun h' => h h'.symm
      rw [this, if_neg h]; rfl

theorem lookup_map_set (d : Dict) (k k' : Str) (v : Val) :
    List.lookup k (d.map fun e => if e.1 = k' then (k', v) else e)
      = if k = k' ∧ (d.lookup k').isSome then some v else if k = k' then none else d.lookup k := by
  induction d with
  | nil => simp [List.lookup]
  | cons e d ih =>
    rw [List.map_cons, lookup_cons', ih, lookup_cons', lookup_cons']
    by_cases he : e.1 = k'
    · rw [if_pos he]
      by_cases hk : k = k'
      · subst hk; simp [he]
      · have : ¬ k = e.1 := fun h => hk (h.trans he)
        simp [hk, he]
    · rw [if_neg he]
      have he' : ¬ k' = e.1 := fun h => he h.symm
      by_cases hk : k = k'
      · subst hk; simp [he']
      · simp [hk]

theorem lookup_append' (d d' : Dict) (k : Str) :
    List.lookup k (d ++ d') = (d.lookup k).or (d'.lookup k) := by
  induction d with
  | nil => simp [List.lookup]
  | cons e d ih =>
    rw [List.cons_append, lookup_cons', lookup_cons', ih]
    by_cases h : k = e.1 <;> simp [h]

theorem lookup_dictSet (d : Dict) (k k' : Str) (v : Val) :
    (dictSet d k' v).lookup k = if k = k' then some v else d.lookup k := by
  unfold dictSet
  rw [any_iff_lookup]
  by_cases hs : (d.lookup k').isSome
  · rw [if_pos hs, lookup_map_set]
    by_cases hk : k = k' <;> simp [hk, hs]
  · rw [if_neg hs, lookup_append', lookup_cons']
    by_cases hk : k = k'
    · subst hk
      have : List.lookup k d = none := by cases h : List.lookup k d with
        | none => rfl
        | some v => rw [h] at hs; simp at hs
      rw [this, if_pos rfl, if_pos rfl]; rfl
    · simp [hk, List.lookup]

theorem lookup_dictPop (d : Dict) (k k' : Str) :
    (dictPop d k').lookup k = if k = k' then none else d.lookup k := by
  unfold dictPop
  induction d with
  | nil => simp [List.lookup]
  | cons e d ih =>
    rw [List.filter_cons, lookup_cons']
    by_cases he : e.1 = k'
    · simp only [he, ne_eq, not_true_eq_false, decide_false, Bool.false_eq_true, if_false]
      rw [ih]
      by_cases hk : k = k' <;> simp [hk]
    · simp only [he, ne_eq, not_false_eq_true, decide_true, if_true]
      rw [lookup_cons', ih]
      by_cases hk : k = k'
      · subst hk
        have : ¬ k = e.1 := fun h => he h.symm
        simp [this]
      · simp [hk]

theorem lookup_eq_some_iff_mem {d : Dict} (hd : d.WF) (k : Str) (v : Val) :
    d.lookup k = some v ↔ (k, v) ∈ d := by
  induction d with
  | nil => simp [List.lookup]
  | cons e d ih =>
    have hd' : Dict.WF d := (List.nodup_cons.mp hd).2
    have hn : e.1 ∉ d.map Prod.fst := (List.nodup_cons.mp hd).1
    rw [lookup_cons', List.mem_cons]
    by_cases hk : k = e.1
    · subst hk
      rw [if_pos rfl]
      constructor
      · intro h; left; exact Prod.ext rfl (Option.some.inj h).symm
      · rintro (h | h)
        · rw [← h]
        · exact absurd (List.mem_map_of_mem (f := Prod.fst) h) hn
    · rw [if_neg hk, ih hd']
      constructor
      · exact Or.inr
      · rintro (h | h)
        · exact absurd (congrArg Prod.fst h) hk
        · exact h

theorem set_set_self {d : Dict} (hd : d.WF) (k : Str) (v v0 : Val) (h : d.lookup k = some v0) :
    dictSet (dictSet d k v) k v0 = d := by
  have h1 : (dictSet d k v).lookup k = some v := by rw [lookup_dictSet, if_pos rfl]
  unfold dictSet
  rw [any_iff_lookup, any_iff_lookup, h]
  simp only [Option.isSome_some, if_true]
  rw [lookup_map_set]
  simp only [h, Option.isSome_some, and_self, if_true, List.map_map]
  conv_rhs => rw [← List.map_id d]
  apply List.map_congr_left
  intro e he
  simp only [Function.comp, id]
  by_cases hk : e.1 = k
  · rw [if_pos hk, if_pos rfl]
    have : d.lookup k = some e.2 := (lookup_eq_some_iff_mem hd k e.2).mpr (by rw [← hk]; exact he)
    rw [h] at this
    rw [Option.some.inj this, ← hk]
  · rw [if_neg hk, if_neg hk]

theorem filter_ne_of_absent (d : Dict) (k : Str) (h : d.lookup k = none) : dictPop d k = d := by
  unfold dictPop
  apply List.filter_eq_self.mpr
  intro e he
  have : d.any (fun e => e.1 == k) = false := by rw [any_iff_lookup, h]; rfl
  have := List.any_eq_false.mp this e he
  simpa using this

theorem pop_set_self (d : Dict) (k : Str) (v : Val) (h : d.lookup k = none) :
    dictPop (dictSet d k v) k = d := by
  have hs : dictSet d k v = d ++ [(k, v)] := by
    unfold dictSet; rw [any_iff_lookup, h]; rfl
  rw [hs]
  have : dictPop (d ++ [(k, v)]) k = dictPop d k := by
    unfold dictPop; rw [List.filter_append]; simp
  rw [this, filter_ne_of_absent d k h]

theorem set_comm {d : Dict} {a b : Str} (hab : a ≠ b) (v w : Val) (h : (d.lookup a).isSome) :
    dictSet (dictSet d b w) a v = dictSet (dictSet d a v) b w := by
  have ha : (dictSet d b w).lookup a = d.lookup a := by rw [lookup_dictSet, if_neg hab]
  have hb : (dictSet d a v).lookup b = d.lookup b := by rw [lookup_dictSet, if_neg hab.symm]
  have e1 : ∀ d' : Dict, (d'.lookup a).isSome →
      dictSet d' a v = d'.map fun e => if e.1 = a then (a, v) else e := by
    intro d' h'; unfold dictSet; rw [any_iff_lookup, if_pos h']
  rw [e1 _ (by rw [ha]; exact h), e1 _ h]
  rw [e1 _ h] at hb
  unfold dictSet
  rw [any_iff_lookup, any_iff_lookup, hb]
  by_cases hbs : (d.lookup b).isSome
  · rw [if_pos hbs, if_pos hbs, List.map_map, List.map_map]
    apply List.map_congr_left
    intro e _
    simp only [Function.comp]
    by_cases h1 : e.1 = b
    · have h2 : ¬ e.1 = a := fun h => hab (h.symm.trans h1)
      rw [if_pos h1, if_neg h2, if_neg hab.symm, if_pos h1]
    · by_cases h2 : e.1 = a
      · rw [if_neg h1, if_pos h2, if_neg hab]
      · rw [if_neg h1, if_neg h2, if_neg h1]
  · rw [if_neg hbs, if_neg hbs, List.map_append]
    simp [hab.symm]

theorem pop_comm {d : Dict} {a b : Str} (hab : a ≠ b) (w : Val) :
    dictPop (dictSet d b w) a = dictSet (dictPop d a) b w := by
  have hb : (dictPop d a).lookup b = d.lookup b := by rw [lookup_dictPop, if_neg hab.symm]
  unfold dictSet
  rw [any_iff_lookup, any_iff_lookup, hb]
  by_cases hbs : (d.lookup b).isSome
  · rw [if_pos hbs, if_pos hbs]
    unfold dictPop
    rw [List.filter_map]
    congr 1
    apply List.filter_congr
    intro e _
    simp only [Function.comp]
    have : (if e.1 = b then (b, w) else e).1 = e.1 := by
      by_cases h1 : e.1 = b
      · rw [if_pos h1, h1]
      · rw [if_neg h1]
    simp only [this]
  · rw [if_neg hbs, if_neg hbs]
    unfold dictPop
    rw [List.filter_append]
    simp [hab.symm]

theorem warm_ne_interval : warmKey ≠ intervalKey := by decide

/-! ### C45 -/

/-- The settings in force during the run. -/
def during (args : Dict) : Dict := seqDefaults.foldl (fun d kv => dictSet d kv.1 kv.2) args

def savedOf (args : Dict) : Dict :=
  seqDefaults.filterMap fun kv => (dictGet? args kv.1).map fun v => (kv.1, v)

theorem during_eq (args : Dict) :
    during args = dictSet (dictSet args warmKey (.bool false)) intervalKey (.int 1) := rfl

theorem saved_lookup (args : Dict) :
    (savedOf args).lookup warmKey = args.lookup warmKey
      ∧ (savedOf args).lookup intervalKey = args.lookup intervalKey := by
  unfold savedOf seqDefaults dictGet?
  have hne : ¬ intervalKey = warmKey := fun h => warm_ne_interval h.symm
  have hne' : ¬ warmKey = intervalKey := warm_ne_interval
  cases h1 : args.lookup warmKey <;> cases h2 : args.lookup intervalKey <;>
    simp [h1, h2, lookup_cons', hne, hne']

theorem restore_eq (saved args : Dict) :
    restore saved args =
      (match saved.lookup intervalKey with
        | some v => fun d => dictSet d intervalKey v
        | none => fun d => dictPop d intervalKey)
      ((match saved.lookup warmKey with
        | some v => dictSet args warmKey v
        | none => dictPop args warmKey)) := by
  unfold restore seqDefaults dictGet?
  simp only [List.foldl_cons, List.foldl_nil]
  cases saved.lookup warmKey <;> cases saved.lookup intervalKey <;> rfl

theorem withSeq_cases {R : Type} (warnRaises : Bool) (args : Dict) (body : Dict → Except String R × Dict) :
    withSequentialState false warnRaises args body
        = (.error "UserWarning: method disables sequential state", args)
      ∨ withSequentialState false warnRaises args body
        = ((body (during args)).1, restore (savedOf args) (body (during args)).2) := by
  unfold withSequentialState
  simp only [Bool.false_eq_true, if_false]
  split_ifs
  · left; rfl
  · right; rfl

/-- C45. After the run the settings dictionary is the one from before, order of the entries included, whatever the
run returned or raised, when the run itself does not write to it. -/
theorem C45_restored_exactly {R : Type} (isMcmc warnRaises : Bool) (args : Dict) (hw : args.WF)
    (body : Dict → Except String R × Dict) (hbody : ∀ d, (body d).2 = d) :
    (withSequentialState isMcmc warnRaises args body).2 = args := by
  cases isMcmc with
  | true => unfold withSequentialState; rw [if_pos rfl]; exact hbody args
  | false =>
    rcases withSeq_cases warnRaises args body with h | h
    · rw [h]
    · rw [h]
      show restore (savedOf args) (body (during args)).2 = args
      rw [hbody, during_eq, restore_eq, (saved_lookup args).1, (saved_lookup args).2]
      have hA : (match args.lookup warmKey with
          | some v => dictSet (dictSet (dictSet args warmKey (.bool false)) intervalKey (.int 1)) warmKey v
          | none => dictPop (dictSet (dictSet args warmKey (.bool false)) intervalKey (.int 1)) warmKey)
          = dictSet args intervalKey (.int 1) := by
        cases h1 : args.lookup warmKey with
        | none => simp only; rw [pop_comm warm_ne_interval, pop_set_self _ _ _ h1]
        | some v =>
          simp only
          rw [set_comm warm_ne_interval _ _ (by rw [lookup_dictSet, if_pos rfl]; rfl), set_set_self hw _ _ _ h1]
      rw [hA]
      cases h2 : args.lookup intervalKey with
      | none => exact pop_set_self _ _ _ h2
      | some v => exact set_set_self hw _ _ _ h2

/-- C45. Even when the run writes to the dictionary (a user-supplied optimizer may), the two settings that were
overridden come back with their old values or absence, and nothing else is touched by the guard. -/
theorem C45_restored_any_run {R : Type} (warnRaises : Bool) (args : Dict) (body : Dict → Except String R × Dict)
    (hok : (withSequentialState false warnRaises args body).1
      ≠ .error "UserWarning: method disables sequential state") (k : Str) :
    ((withSequentialState false warnRaises args body).2).lookup k
      = if k = "sparse_krylov_warm_start".toList ∨ k = "sparse_preconditioner_refresh_interval".toList
        then args.lookup k
        else ((body (during args)).2).lookup k := by
  rcases withSeq_cases warnRaises args body with h | h
  · rw [h] at hok; exact absurd rfl hok
  · rw [h]
    show (restore (savedOf args) (body (during args)).2).lookup k = _
    rw [restore_eq, (saved_lookup args).1, (saved_lookup args).2]
    show _ = if k = warmKey ∨ k = intervalKey then _ else _
    have hne : ¬ intervalKey = warmKey := fun h => warm_ne_interval h.symm
    have hne' : ¬ warmKey = intervalKey := warm_ne_interval
    cases h1 : args.lookup warmKey <;> cases h2 : args.lookup intervalKey <;>
      simp only [lookup_dictSet, lookup_dictPop] <;>
      (by_cases ki : k = intervalKey
       · subst ki; simp [h2, hne]
       · by_cases kw : k = warmKey
         · subst kw; simp [h1, hne']
         · simp [ki, kw])

/-- C45. During a run with a method other than MCMC warm starts are off and the preconditioner is refreshed at every
evaluation; every other setting is the user's. With MCMC the run sees the user's dictionary itself. -/
theorem C45_settings_in_force (args : Dict) (k : Str) {R : Type} (warnRaises : Bool)
    (body : Dict → Except String R × Dict) :
    (∃ d, (withSequentialState false warnRaises args body = (.error "UserWarning: method disables sequential state", args)
        ∨ (withSequentialState false warnRaises args body).1 = (body d).1)
      ∧ d.lookup k = if k = "sparse_krylov_warm_start".toList then some (.bool false)
          else if k = "sparse_preconditioner_refresh_interval".toList then some (.int 1) else args.lookup k)
    ∧ withSequentialState true warnRaises args body = body args := by
  constructor
  · refine ⟨during args, ?_, ?_⟩
    · rcases withSeq_cases warnRaises args body with h | h
      · exact Or.inl h
      · right; rw [h]
    · rw [during_eq, lookup_dictSet, lookup_dictSet]
      show _ = if k = warmKey then _ else if k = intervalKey then _ else _
      by_cases kw : k = warmKey
      · subst kw; rw [if_neg warm_ne_interval, if_pos rfl, if_pos rfl]
      · by_cases ki : k = intervalKey
        · subst ki; rw [if_pos rfl, if_neg kw, if_pos rfl]
        · simp [ki, kw]
  · unfold withSequentialState; rw [if_pos rfl]

/-- C45. The run is refused (with a warning that the filter turns into an exception) exactly if the filter does so and the user has given one of the
two settings another value; otherwise it takes place. -/
theorem C45_refused_iff {R : Type} (warnRaises : Bool) (args : Dict) (body : Dict → Except String R × Dict) :
    (warnRaises = true ∧ ((∃ v, args.lookup "sparse_krylov_warm_start".toList = some v ∧ v.pyEq (.bool false) = false) ∨
        ∃ v, args.lookup "sparse_preconditioner_refresh_interval".toList = some v ∧ v.pyEq (.int 1) = false) →
      withSequentialState false warnRaises args body = (.error "UserWarning: method disables sequential state", args)) ∧
    (¬ (warnRaises = true ∧ ((∃ v, args.lookup "sparse_krylov_warm_start".toList = some v ∧ v.pyEq (.bool false) = false) ∨
        ∃ v, args.lookup "sparse_preconditioner_refresh_interval".toList = some v ∧ v.pyEq (.int 1) = false)) →
      (withSequentialState false warnRaises args body).1 = (body (during args)).1) := by
  show (warnRaises = true ∧ ((∃ v, args.lookup warmKey = some v ∧ v.pyEq (.bool false) = false) ∨
        ∃ v, args.lookup intervalKey = some v ∧ v.pyEq (.int 1) = false) → _) ∧
    (¬ (warnRaises = true ∧ ((∃ v, args.lookup warmKey = some v ∧ v.pyEq (.bool false) = false) ∨
        ∃ v, args.lookup intervalKey = some v ∧ v.pyEq (.int 1) = false)) → _)
  have key : (seqDefaults.filter fun kv => match dictGet? args kv.1 with
      | some v => !(v.pyEq kv.2)
      | Option.none => false) ≠ [] ↔ ((∃ v, args.lookup warmKey = some v ∧ v.pyEq (.bool false) = false) ∨
        ∃ v, args.lookup intervalKey = some v ∧ v.pyEq (.int 1) = false) := by
    rw [Ne, List.filter_eq_nil_iff]
    simp only [seqDefaults, List.mem_cons, List.not_mem_nil, or_false, forall_eq_or_imp, forall_eq, dictGet?]
    cases h1 : args.lookup warmKey <;> cases h2 : args.lookup intervalKey <;> simp
    rw [imp_iff_not_or]
    simp
  constructor
  · rintro ⟨hw, h⟩
    unfold withSequentialState
    simp only [Bool.false_eq_true, if_false]
    rw [if_pos ⟨key.2 h, hw⟩]
  · intro h
    unfold withSequentialState
    simp only [Bool.false_eq_true, if_false]
    rw [if_neg fun hc => h ⟨hc.2, key.1 hc.1⟩]
    rfl

/-- Both cases occur: warm starts switched on by the user, with and without a raising filter. -/
example : withSequentialState (R := Unit) false true [(warmKey, .bool true)] (fun d => (.ok (), d))
    = (.error "UserWarning: method disables sequential state", [(warmKey, .bool true)]) :=
  (C45_refused_iff true _ _).1 ⟨rfl, .inl ⟨.bool true, rfl, by simp [Val.pyEq, Val.num]⟩⟩

/-- A run that raises, with one of the two settings given by the user. -/
example : (withSequentialState (R := Unit) false false [("a".toList, .int 3), (intervalKey, .int 7)]
    (fun d => (.error "singular matrix", d))).2 = [("a".toList, .int 3), (intervalKey, .int 7)] :=
  C45_restored_exactly _ _ _ (by unfold Dict.WF; decide) _ (fun _ => rfl)

/-- The hypothesis of `C45_restored_any_run` is met by a run that rewrites the dictionary. -/
example : (withSequentialState (R := Unit) false false [(warmKey, .bool true)] (fun _ => (.ok (), []))).1
    ≠ .error "UserWarning: method disables sequential state" := by
  rcases withSeq_cases (R := Unit) false [(warmKey, .bool true)] (fun _ => (.ok (), [])) with h | h
  · unfold withSequentialState at h; simp at h
  · rw [h]; simp

/-! ### C47 -/

/-- Same values of every preconditioner setting. -/
def SameSettings (a b : Dict) : Prop :=
  ∀ k, precondPrefix.isPrefixOf k = true → a.lookup k = b.lookup k

/-- The drift limit in force. -/
def Limit (args : Dict) (r : ℝ) : Prop :=
  match args.lookup "sparse_preconditioner_max_matrix_drift".toList with
  | none => r = 0.1
  | some v => v.num = some r

/-- `x` differs from `x0` by at most the fraction `r` of the larger magnitude. -/
def Within (r x x0 : ℝ) : Prop := |x - x0| ≤ r * max (max |x0| |x|) tiny

def trace' (A : KVMat) : ℝ := ∑ i, A.M i i
noncomputable def frobenius (A : KVMat) : ℝ := Real.sqrt (∑ i, ∑ j, A.M i j * A.M i j)

def Ev.isReused {P : Type} : Ev P → Bool
  | .reused .. => true
  | _ => false

/-- `p` may be reused for `A` after the events `older` (newest first): it was built for a matrix of the same size, under
the same preconditioner settings, with trace and Frobenius norm within the limit, and has since been reused fewer than
`interval - 1` times without having been dropped or replaced. -/
def Justified {P : Type} (A : KVMat) (args : Dict) (p : P) (older : List (Ev P)) : Prop :=
  ∃ (mid : List (Ev P)) (A0 : KVMat) (args0 : Dict) (rest : List (Ev P)),
    older = mid ++ .built A0 args0 p :: rest
    ∧ (∀ e ∈ mid, e = .raised ∨ ∃ B b, e = .reused B b p)
    ∧ A.n = A0.n ∧ SameSettings args args0
    ∧ (∃ r, Limit args r ∧ Within r (trace' A) (trace' A0) ∧ Within r (frobenius A) (frobenius A0))
    ∧ ∀ z, args.lookup "sparse_preconditioner_refresh_interval".toList = some (.int z) →
        ((mid.countP Ev.isReused : ℕ) : ℤ) + 1 ≤ max 1 z - 1

/-- Every event of a history is as it should be. -/
def TraceOK {P : Type} (build : Dict → KVMat → Except String P) : List (Ev P) → Prop
  | [] => True
  | .built A args p :: t => build args A = .ok p ∧ TraceOK build t
  | .reused A args p :: t => Justified A args p t ∧ TraceOK build t
  | _ :: t => TraceOK build t

theorem signature_same {a b : Dict} (ha : a.WF) (hb : b.WF) (h : signature a = signature b) : SameSettings a b := by
  intro k hk
  have key : ∀ d : Dict, d.WF → ∀ v, d.lookup k = some v ↔ (k, v) ∈ signature d := by
    intro d hd v
    rw [lookup_eq_some_iff_mem hd]
    unfold signature
    rw [(List.mergeSort_perm _ _).mem_iff, List.mem_filter]
    exact ⟨fun h => ⟨h, hk⟩, fun h => h.1⟩
  apply Option.ext
  intro v
  rw [key a ha, key b hb, h]

theorem isPrefix_interval : precondPrefix.isPrefixOf intervalKey = true := by decide

theorem driftGt_false {A A0 : KVMat} {lim : ℝ} (hn : A.n = A0.n)
    (h : driftGt (fpDrift (some (fingerprint A0)) (some (fingerprint A))) lim = false) :
    Within lim (trace' A) (trace' A0) ∧ Within lim (frobenius A) (frobenius A0) := by
  unfold fpDrift at h
  have hs : ¬ (fingerprint A0).shape ≠ (fingerprint A).shape := by simp [fingerprint, hn]
  simp only [if_neg hs, List.foldl_cons, List.foldl_nil, Option.map_some, driftGt, decide_eq_false_iff_not,
    not_lt, max_le_iff] at h
  obtain ⟨⟨_, h1⟩, h2⟩ := h
  have pos : ∀ x y : ℝ, 0 < max (max |x| |y|) tiny :=
    fun x y => lt_max_of_lt_right (by unfold tiny; positivity)
  constructor
  · exact (div_le_iff₀ (pos _ _)).mp h1
  · exact (div_le_iff₀ (pos _ _)).mp h2

/-- What the cache says about its operator is true of the history. -/
def CacheInv {P : Type} (c : Cache P) (trace : List (Ev P)) : Prop :=
  ∀ p, c.operator = some p → ∃ (mid : List (Ev P)) (A0 : KVMat) (args0 : Dict) (rest : List (Ev P)),
    trace = mid ++ .built A0 args0 p :: rest
    ∧ (∀ e ∈ mid, e = .raised ∨ ∃ B b, e = .reused B b p)
    ∧ args0.WF ∧ c.signature = some (signature args0) ∧ c.shape = some A0.n ∧ c.fp = some (fingerprint A0)
    ∧ c.counter = mid.countP Ev.isReused

theorem canReuse_true {P : Type} {pre : Bool} {args : Dict} {c : Cache P} {A : KVMat}
    (h : canReuse pre args c A = .ok true) :
    c.operator.isSome ∧ c.shape = some A.n ∧ c.signature = some (signature args)
      ∧ (∀ z, args.lookup intervalKey = some (.int z) → (c.counter : ℤ) < max 1 z - 1)
      ∧ ∃ lim, Limit args lim ∧ driftGt (fpDrift c.fp (some (fingerprint A))) lim = false := by
  unfold canReuse at h
  by_cases h1 : (!pre) = true
  · rw [if_pos h1] at h; simp at h
  rw [if_neg h1] at h
  by_cases h2 : c.operator.isNone = true
  · rw [if_pos h2] at h; simp at h
  rw [if_neg h2] at h
  by_cases h3 : c.shape ≠ some A.n
  · rw [if_pos h3] at h; simp at h
  rw [if_neg h3] at h
  by_cases h4 : c.signature ≠ some (signature args)
  · rw [if_pos h4] at h; simp at h
  rw [if_neg h4] at h
  refine ⟨by simpa [Option.isSome_iff_ne_none] using h2, by simpa using h3, by simpa using h4, ?_, ?_⟩
  · intro z hz
    have hi : refreshInterval args = .ok (some (max 1 z)) := by
      unfold refreshInterval dictGet?; rw [hz]; rfl
    rw [hi] at h
    simp only [bind, Except.bind] at h
    by_contra hc
    have : (max 1 z - 1 ≤ (c.counter : ℤ)) := not_lt.mp hc
    rw [if_pos (by simpa using this)] at h
    simp at h
  · cases hi : refreshInterval args with
    | error e => rw [hi] at h; simp [bind, Except.bind] at h
    | ok i =>
      rw [hi] at h
      simp only [bind, Except.bind] at h
      have h' : ∃ lim, maxDrift args = .ok lim ∧ driftGt (fpDrift c.fp (some (fingerprint A))) lim = false := by
        split_ifs at h
        · simp at h
        cases hm : maxDrift args with
        | error e => rw [hm] at h; simp at h
        | ok lim =>
          rw [hm] at h
          refine ⟨lim, rfl, ?_⟩
          cases hd : driftGt (fpDrift c.fp (some (fingerprint A))) lim with
          | false => rfl
          | true => simp [hd] at h
      obtain ⟨lim, hm, hd⟩ := h'
      refine ⟨lim, ?_, hd⟩
      show (match args.lookup driftKey with | none => lim = 0.1 | some v => v.num = some lim)
      unfold maxDrift dictGet? at hm
      cases hv : args.lookup driftKey with
      | none =>
        rw [hv] at hm
        simp only [Option.getD_none, Val.toFloat, Val.num] at hm
        exact (Except.ok.inj hm).symm
      | some v =>
        rw [hv] at hm
        simp only [Option.getD_some, Val.toFloat] at hm
        cases hn : v.num with
        | none => rw [hn] at hm; simp at hm
        | some r => rw [hn] at hm; simp only [Except.ok.injEq] at hm; rw [← hm]; exact hn

theorem getOrRefresh_cases {P : Type} (build : Dict → KVMat → Except String P) (pre : Bool) (args : Dict)
    (c : Cache P) (A : KVMat) (force : Bool) :
    (pre = false ∧ getOrRefresh build pre args c A force = (.ok none, c))
    ∨ (∃ e, getOrRefresh build pre args c A force = (.error e, c))
    ∨ (canReuse pre args c A = .ok true
        ∧ getOrRefresh build pre args c A force = (.ok c.operator, { c with counter := c.counter + 1 }))
    ∨ (pre = true ∧ getOrRefresh build pre args c A force = (.ok none, Cache.empty))
    ∨ (∃ p, build args A = .ok p ∧ getOrRefresh build pre args c A force =
        (.ok (some p), ⟨some p, some (signature args), some A.n, some (fingerprint A), 0, none⟩)) := by
  unfold getOrRefresh
  cases pre with
  | false => left; exact ⟨rfl, rfl⟩
  | true =>
    right
    simp only [Bool.not_true, Bool.false_eq_true, if_false]
    have hb : ∀ (hr : (if force = true then (Except.ok false : Except String Bool) else canReuse true args c A)
        = .ok false), True := fun _ => trivial
    cases hr : (if force = true then (Except.ok false : Except String Bool) else canReuse true args c A) with
    | error e => left; exact ⟨e, rfl⟩
    | ok b =>
      right
      cases b with
      | true =>
        left
        cases force with
        | true => simp at hr
        | false => exact ⟨by simpa using hr, rfl⟩
      | false =>
        right
        cases hbd : build args A with
        | error e => left; exact ⟨by trivial, by simp⟩
        | ok p => right; exact ⟨p, rfl, by simp⟩

def COp.WF : COp → Prop
  | .setArgs d => d.WF
  | _ => True

theorem cstep_inv {P : Type} (build : Dict → KVMat → Except String P) (pre : Bool) (st : Dict × Cache P × List (Ev P))
    (op : COp) (hop : op.WF) (hw : st.1.WF) (ht : TraceOK build st.2.2) (hc : CacheInv st.2.1 st.2.2) :
    (cstep build pre st op).1.WF ∧ TraceOK build (cstep build pre st op).2.2
      ∧ CacheInv (cstep build pre st op).2.1 (cstep build pre st op).2.2 := by
  obtain ⟨args, c, tr⟩ := st
  simp only at hw ht hc
  have none_inv : ∀ (c' : Cache P) tr', c'.operator = none → CacheInv c' tr' := by
    intro c' tr' hn p hp; rw [hn] at hp; exact absurd hp (by simp)
  have raise_inv : CacheInv c tr → CacheInv c (.raised :: tr) := by
    intro hc p hp
    obtain ⟨mid, A0, args0, rest, h1, h2, h3, h4, h5, h6, h7⟩ := hc p hp
    refine ⟨.raised :: mid, A0, args0, rest, by rw [h1]; rfl, ?_, h3, h4, h5, h6, ?_⟩
    · intro e he
      rcases List.mem_cons.mp he with rfl | he
      · exact Or.inl rfl
      · exact h2 e he
    · rw [h7, List.countP_cons]; simp [Ev.isReused]
  cases op with
  | setArgs d => exact ⟨hop, ht, hc⟩
  | reset => exact ⟨hw, ht, none_inv _ _ rfl⟩
  | pickle => exact ⟨hw, ht, none_inv _ _ rfl⟩
  | request A force =>
    rcases getOrRefresh_cases build pre args c A force with ⟨hp, h⟩ | ⟨e, h⟩ | ⟨hr, h⟩ | ⟨hp, h⟩ | ⟨p, hb, h⟩
    · unfold cstep; simp only; rw [h]; simp only [hp, Bool.false_eq_true, if_false]
      exact ⟨hw, ht, raise_inv hc⟩
    · unfold cstep; simp only; rw [h]
      exact ⟨hw, ht, raise_inv hc⟩
    · obtain ⟨hs, hshape, hsig, hcap, lim, hlim, hd⟩ := canReuse_true hr
      obtain ⟨p, hp⟩ := Option.isSome_iff_exists.mp hs
      have hst : cstep build pre (args, c, tr) (.request A force)
          = (args, { c with counter := c.counter + 1 }, .reused A args p :: tr) := by
        unfold cstep; simp only; rw [h, hp]; simp
      rw [hst]
      obtain ⟨mid, A0, args0, rest, h1, h2, h3, h4, h5, h6, h7⟩ := hc p hp
      refine ⟨hw, ⟨⟨mid, A0, args0, rest, h1, h2, ?_, ?_, ?_, ?_⟩, ht⟩, ?_⟩
      · exact Option.some.inj (hshape.symm.trans h5)
      · exact signature_same hw h3 (Option.some.inj (hsig.symm.trans h4))
      · refine ⟨lim, hlim, driftGt_false (Option.some.inj (hshape.symm.trans h5)) ?_⟩
        rw [h6] at hd; exact hd
      · intro z hz
        have := hcap z hz
        have h7' : (c.counter : ℤ) = ((mid.countP Ev.isReused : ℕ) : ℤ) := by rw [← h7]
        omega
      · intro p' hp'
        have hpp : p' = p := Option.some.inj (hp'.symm.trans hp)
        subst hpp
        refine ⟨.reused A args p' :: mid, A0, args0, rest, by rw [h1]; rfl, ?_, h3, h4, h5, h6, ?_⟩
        · intro e he
          rcases List.mem_cons.mp he with rfl | he
          · exact Or.inr ⟨A, args, rfl⟩
          · exact h2 e he
        · show c.counter + 1 = _
          rw [h7, List.countP_cons]; simp [Ev.isReused]
    · have hst : cstep build pre (args, c, tr) (.request A force) = (args, Cache.empty, .dropped :: tr) := by
        unfold cstep; simp only; rw [h]; simp [hp]
      rw [hst]
      exact ⟨hw, ht, none_inv _ _ rfl⟩
    · have hst : cstep build pre (args, c, tr) (.request A force)
          = (args, ⟨some p, some (signature args), some A.n, some (fingerprint A), 0, none⟩, .built A args p :: tr) := by
        unfold cstep; simp only; rw [h]; simp
      rw [hst]
      refine ⟨hw, ⟨hb, ht⟩, ?_⟩
      intro p' hp'
      have hpp : p = p' := Option.some.inj hp'
      subst hpp
      exact ⟨[], A, args, tr, rfl, by simp, hw, rfl, rfl, rfl, rfl⟩

/-- C47. In every history of requests (forced or not), resets, setting changes and pickling, a preconditioner handed out
again was built for a matrix of the same size, under the same preconditioner settings, whose trace and Frobenius norm
are within the drift limit of the present ones, with at most `interval - 1` reuses in a row; and what is reported as
built was built for the matrix at hand. -/
theorem C47_reuse_is_fresh {P : Type} (build : Dict → KVMat → Except String P) (pre : Bool) (args : Dict) (hw : args.WF)
    (ops : List COp) (hops : ∀ op ∈ ops, op.WF) :
    TraceOK build (crun build pre (args, Cache.empty, []) ops).2.2 := by
  have : ∀ (ops : List COp) (st : Dict × Cache P × List (Ev P)), (∀ op ∈ ops, op.WF) → st.1.WF → TraceOK build st.2.2 →
      CacheInv st.2.1 st.2.2 → TraceOK build (crun build pre st ops).2.2 := by
    intro ops
    induction ops with
    | nil => intro st _ _ ht _; exact ht
    | cons op ops ih =>
      intro st ho hw ht hc
      obtain ⟨a, b, c⟩ := cstep_inv build pre st op (ho op (by simp)) hw ht hc
      exact ih _ (fun o h => ho o (by simp [h])) a b c
  exact this ops _ hops hw trivial (by intro p hp; simp [Cache.empty] at hp)

/-- C47. After pickling, a reset, or a failed construction nothing is reused before a new construction. -/
theorem C47_nothing_reused_after_drop {P : Type} (build : Dict → KVMat → Except String P) (pre : Bool) (args : Dict)
    (c : Cache P) (A : KVMat) (force : Bool) (p : P)
    (h : (getOrRefresh build pre args c.pickle A force).1 = .ok (some p)) : build args A = .ok p := by
  rcases getOrRefresh_cases build pre args c.pickle A force with ⟨_, h'⟩ | ⟨e, h'⟩ | ⟨hr, h'⟩ | ⟨_, h'⟩ | ⟨q, hb, h'⟩
  · rw [h'] at h; simp at h
  · rw [h'] at h; simp at h
  · obtain ⟨hs, _⟩ := canReuse_true hr; simp [Cache.pickle] at hs
  · rw [h'] at h; simp at h
  · rw [h'] at h
    have : q = p := by simpa using h
    rw [← this]; exact hb

/-- The 1×1 matrix used below. -/
def exMat (x : ℝ) : KVMat := ⟨1, 1, fun _ _ => x⟩

/-- A reuse does occur: the second request for a matrix that moved by less than a tenth gets the first operator. -/
theorem exReuse : (crun (P := ℕ) (fun _ A => .ok A.nnz) true ([], Cache.empty, [])
    [.request (exMat 10) false, .request (exMat 9.5) false]).2.2
      = [.reused (exMat 9.5) [] 1, .built (exMat 10) [] 1] := by
  have hs : Real.sqrt (10 * 10) = 10 := Real.sqrt_mul_self (by norm_num)
  have hs' : Real.sqrt (9.5 * 9.5) = 9.5 := Real.sqrt_mul_self (by norm_num)
  have hc : canReuse true [] (⟨some 1, some (signature []), some 1, some (fingerprint (exMat 10)), 0, none⟩ : Cache ℕ)
      (exMat 9.5) = .ok true := by
    have hd : driftGt (fpDrift (some (fingerprint (exMat 10))) (some (fingerprint (exMat 9.5)))) 0.1 = false := by
      have e1 : fingerprint (exMat 10) = ⟨1, 1, 10, 10⟩ := by
        unfold fingerprint exMat; simp only [Finset.univ_unique, Finset.sum_singleton, Finset.sum_const, Finset.card_singleton, one_smul, hs]
      have e2 : fingerprint (exMat 9.5) = ⟨1, 1, 9.5, 9.5⟩ := by
        unfold fingerprint exMat; simp only [Finset.univ_unique, Finset.sum_singleton, Finset.sum_const, Finset.card_singleton, one_smul, hs']
      have ht : tiny ≤ 10 := by
        unfold tiny
        have h : (1 : ℝ) ≤ 10 ^ 300 := one_le_pow₀ (by norm_num)
        generalize (10 : ℝ) ^ 300 = t at h
        rw [div_le_iff₀ (by linarith)]
        linarith
      have hm : max (max |(10 : ℝ)| |9.5|) tiny = 10 := by
        rw [abs_of_pos (by norm_num), abs_of_pos (by norm_num), max_eq_left (by norm_num : (9.5 : ℝ) ≤ 10), max_eq_left ht]
      rw [e1, e2]
      simp only [fpDrift, ne_eq, not_true_eq_false, if_false, List.foldl_cons, List.foldl_nil, Option.map_some, driftGt, hm]
      norm_num [abs_of_neg]
    have hl : maxDrift [] = .ok 0.1 := rfl
    have hi : refreshInterval [] = .ok none := rfl
    unfold canReuse
    rw [if_neg (by simp), if_neg (by simp), if_neg (by simp [exMat]), if_neg (by simp), hi]
    simp only [bind, Except.bind]
    rw [if_neg (by simp), hl]
    simp only
    rw [hd]; rfl
  have h1 : cstep (P := ℕ) (fun _ A => .ok A.nnz) true ([], Cache.empty, []) (.request (exMat 10) false)
      = ([], ⟨some 1, some (signature []), some 1, some (fingerprint (exMat 10)), 0, none⟩, [.built (exMat 10) [] 1]) := by
    unfold cstep getOrRefresh canReuse Cache.empty
    simp [exMat]
  unfold crun
  rw [List.foldl_cons, h1, List.foldl_cons, List.foldl_nil]
  unfold cstep getOrRefresh
  simp only [Bool.not_true, Bool.false_eq_true, if_false]
  rw [hc]
  simp

example : TraceOK (fun _ A => .ok A.nnz) (crun (P := ℕ) (fun _ A => .ok A.nnz) true ([], Cache.empty, [])
    [.request (exMat 10) false, .request (exMat 9.5) false]).2.2 :=
  C47_reuse_is_fresh _ _ _ (by unfold Dict.WF; simp) _ (by intro op h; simp at h; rcases h with rfl | rfl <;> trivial)

/-! ### C46 -/

theorem canReuse_off {P : Type} {pre : Bool} {args : Dict} {c : Cache P} {A : KVMat}
    (hi : args.lookup intervalKey = some (.int 1)) : canReuse pre args c A = .ok false := by
  unfold canReuse
  split_ifs
  · rfl
  · rfl
  · rfl
  · rfl
  · have : refreshInterval args = .ok (some 1) := by unfold refreshInterval dictGet?; rw [hi]; rfl
    rw [this]
    simp only [bind, Except.bind]
    rw [if_pos (by simp)]

theorem getOrRefresh_off {P : Type} (build : Dict → KVMat → Except String P) {pre : Bool} {args : Dict}
    (hi : args.lookup intervalKey = some (.int 1)) (c c' : Cache P) (A : KVMat) :
    (getOrRefresh build pre args c A false).1 = (getOrRefresh build pre args c' A false).1 := by
  unfold getOrRefresh
  simp only [Bool.false_eq_true, if_false, canReuse_off hi]
  cases pre with
  | false => rfl
  | true => cases build args A <;> rfl

theorem negLogLik_off {P Ω H : Type} (ext : Ext P Ω) (pr : Problem H) {args : Dict} (c : ℝ)
    (hwm : args.lookup warmKey = some (.bool false)) (hi : args.lookup intervalKey = some (.int 1))
    (s s' : LinState P) (h : H) (ω : Ω) :
    (negLogLik ext pr args c s h ω).1 = (negLogLik ext pr args c s' h ω).1 := by
  have hw : warmEnabled args = false := by unfold warmEnabled dictGet?; rw [hwm]; rfl
  have hg : ∀ s : LinState P, ∀ r k, initialGuess args s r k = none := by
    intro s r k; unfold initialGuess; rw [hw]; rfl
  have hv : ∀ s : LinState P, ∀ A, validatedWarmStart args s A none = .ok none := fun _ _ => rfl
  have hsolve : ∀ (cc cc' : Cache P) A y, ∀ m,
      (solveStep ext pr.self m args cc A y none).1 = (solveStep ext pr.self m args cc' A y none).1 := by
    intro cc cc' A y m
    cases m with
    | direct _ => rfl
    | cg => rfl
    | minres => rfl
    | cgPre =>
      have := getOrRefresh_off ext.build (pre := pr.self.pre) hi cc cc' A
      unfold solveStep
      cases h1 : getOrRefresh ext.build pr.self.pre args cc A false with
      | mk a b =>
        cases h2 : getOrRefresh ext.build pr.self.pre args cc' A false with
        | mk a' b' =>
          rw [h1, h2] at this; simp only at this; subst this
          cases a <;> rfl
    | minresPre =>
      have := getOrRefresh_off ext.build (pre := pr.self.pre) hi cc cc' A
      unfold solveStep
      cases h1 : getOrRefresh ext.build pr.self.pre args cc A false with
      | mk a b =>
        cases h2 : getOrRefresh ext.build pr.self.pre args cc' A false with
        | mk a' b' =>
          rw [h1, h2] at this; simp only at this; subst this
          cases a <;> rfl
  have heval : ∀ A y m, (evaluate ext pr.self m args s A y ω).1 = (evaluate ext pr.self m args s' A y ω).1 := by
    intro A y m
    unfold evaluate
    simp only [hg, hv]
    have := hsolve s.cache s'.cache A y m
    cases h1 : solveStep ext pr.self m args s.cache A y none with
    | mk a b =>
      cases h2 : solveStep ext pr.self m args s'.cache A y none with
      | mk a' b' =>
        rw [h1, h2] at this; simp only at this; subst this
        cases a with
        | error e => rfl
        | ok sol =>
          simp only
          cases ext.logdet args m A ω <;> rfl
  unfold negLogLik
  simp only
  have := heval (pr.kv h) (pr.resid h) (pr.select (pr.kv h))
  cases h1 : evaluate ext pr.self (pr.select (pr.kv h)) args s (pr.kv h) (pr.resid h) ω with
  | mk a b =>
    cases h2 : evaluate ext pr.self (pr.select (pr.kv h)) args s' (pr.kv h) (pr.resid h) ω with
    | mk a' b' =>
      rw [h1, h2] at this; simp only at this; subst this
      cases a <;> rfl

/-- C46. Inside the guard for a method other than MCMC there is one function of hyperparameters and random draw that
gives every likelihood value of every sequence of evaluations, whatever state earlier work left behind and whatever
settings the user had. -/
theorem C46_function_of_hyperparameters {P Ω H : Type} (ext : Ext P Ω) (pr : Problem H) (args : Dict) (c : ℝ) :
    ∃ f : H → Ω → Except String ℝ, ∀ (warnRaises : Bool) (s : LinState P) (seq : List (H × Ω)),
      (withSequentialState false warnRaises args fun d => (.ok (evaluations ext pr d c s seq).1, d)).1
        = .error "UserWarning: method disables sequential state"
      ∨ (withSequentialState false warnRaises args fun d => (.ok (evaluations ext pr d c s seq).1, d)).1
        = .ok (seq.map fun p => f p.1 p.2) := by
  let s0 : LinState P := ⟨Cache.empty, none, none, none⟩
  refine ⟨fun h ω => (negLogLik ext pr (during args) c s0 h ω).1, ?_⟩
  intro warnRaises s seq
  have hwm : (during args).lookup warmKey = some (.bool false) := by
    rw [during_eq, lookup_dictSet, lookup_dictSet, if_neg warm_ne_interval, if_pos rfl]
  have hi : (during args).lookup intervalKey = some (.int 1) := by
    rw [during_eq, lookup_dictSet, if_pos rfl]
  have key : ∀ (seq : List (H × Ω)) (s : LinState P), (evaluations ext pr (during args) c s seq).1
      = seq.map fun p => (negLogLik ext pr (during args) c s0 p.1 p.2).1 := by
    intro seq
    induction seq with
    | nil => intro s; rfl
    | cons p seq ih =>
      intro s
      obtain ⟨h, ω⟩ := p
      show _ :: _ = _ :: _
      rw [ih, negLogLik_off ext pr c hwm hi s s0]
  rcases withSeq_cases warnRaises args
    (fun d => (Except.ok (ε := String) (evaluations ext pr d c s seq).1, d)) with h | h
  · left; rw [h]
  · right; rw [h]; show Except.ok _ = _; rw [key]

/-- C46. The value at a point does not depend on what was evaluated before it. -/
theorem C46_order_independent {P Ω H : Type} (ext : Ext P Ω) (pr : Problem H) (args : Dict) (c : ℝ)
    (s s' : LinState P) (before before' : List (H × Ω)) (h : H) (ω : Ω) :
    (negLogLik ext pr (during args) c (evaluations ext pr (during args) c s before).2 h ω).1
      = (negLogLik ext pr (during args) c (evaluations ext pr (during args) c s' before').2 h ω).1 :=
  negLogLik_off ext pr c
    (by rw [during_eq, lookup_dictSet, lookup_dictSet, if_neg warm_ne_interval, if_pos rfl])
    (by rw [during_eq, lookup_dictSet, if_pos rfl]) _ _ _ _

/-- C47: only a GP whose own mode is preconditioned gives its solver a preconditioner; without a stored one it is built from the
matrix at hand. -/
theorem C47_who_gets_a_preconditioner {P Ω : Type} (ext : Ext P Ω) (self : Mode) (args : Dict) (c : Cache P) (A : KVMat)
    (y : Arr) (x0 : Option Arr) :
    (self ≠ .cgPre → self ≠ .minresPre →
      solveStep ext self .cgPre args c A y x0 = (ext.cg args A y none x0, c) ∧
      solveStep ext self .minresPre args c A y x0 = (ext.minres args A y none x0, c)) ∧
    (self = .cgPre ∨ self = .minresPre → c.operator = none → ∀ p, ext.build args A = .ok p →
      (solveStep ext self .cgPre args c A y x0).1 = ext.cg args A y (some p) x0 ∧
      (solveStep ext self .minresPre args c A y x0).1 = ext.minres args A y (some p) x0) := by
  constructor
  · intro h1 h2
    cases self <;> first | exact absurd rfl h1 | exact absurd rfl h2 | exact ⟨rfl, rfl⟩
  · intro h ho p hp
    have hpre : self.pre = true := by rcases h with rfl | rfl <;> rfl
    have : getOrRefresh ext.build self.pre args c A false =
        (.ok (some p), ⟨some p, some (signature args), some A.n, some (fingerprint A), 0, none⟩) := by
      simp [getOrRefresh, hpre, canReuse, ho, hp]
    simp only [solveStep, this, and_self]

/-- Specification: `x` solves `A x = y` in every column of `y`. -/
def Solves (A : KVMat) (y x : Arr) : Prop :=
  ∀ j < y.cols, A.M.mulVec (fun i => x.val i j) = fun i : Fin A.n => y.val i j

/-- C46: the value. If the routines solve exactly and return the logarithm of the determinant, then a likelihood evaluation
returns half of `yᵀ(K+V)⁻¹y` (averaged over the columns of `y`) plus `log det (K+V)` plus `n` times the constant. -/
theorem C46_value {P Ω H : Type} (ext : Ext P Ω) (pr : Problem H) (args : Dict) (c : ℝ) (s s' : LinState P) (h : H) (ω : Ω)
    (v : ℝ) (hd : ∀ d n A y x, ext.direct d n A y = .ok x → Solves A y x)
    (hc : ∀ d A y M g x, ext.cg d A y M g = .ok x → Solves A y x)
    (hm : ∀ d A y M g x, ext.minres d A y M g = .ok x → Solves A y x)
    (hl : ∀ d m A ω l, ext.logdet d m A ω = .ok l → l = Real.log A.M.det)
    (hdet : (pr.kv h).M.det ≠ 0) (hn : (pr.resid h).rows = (pr.kv h).n)
    (hv : negLogLik ext pr args c s h ω = (.ok v, s')) :
    v = ((∑ j ∈ Finset.range (pr.resid h).cols,
        dotProduct (fun i : Fin (pr.kv h).n => (pr.resid h).val i j)
          ((pr.kv h).M⁻¹.mulVec fun i => (pr.resid h).val i j)) / (pr.resid h).cols
        + Real.log (pr.kv h).M.det + (pr.kv h).n * c) / 2 := by
  have hstep : ∀ mode cc x0 x c', solveStep ext pr.self mode args cc (pr.kv h) (pr.resid h) x0 = (.ok x, c') →
      Solves (pr.kv h) (pr.resid h) x := by
    intro mode cc x0 x c' hs
    cases mode with
    | direct n => exact hd _ _ _ _ _ (Prod.mk.inj hs).1
    | cg => exact hc _ _ _ _ _ _ (Prod.mk.inj hs).1
    | minres => exact hm _ _ _ _ _ _ (Prod.mk.inj hs).1
    | cgPre =>
      simp only [solveStep] at hs
      split at hs
      · simp at hs
      · exact hc _ _ _ _ _ _ (Prod.mk.inj hs).1
    | minresPre =>
      simp only [solveStep] at hs
      split at hs
      · simp at hs
      · exact hm _ _ _ _ _ _ (Prod.mk.inj hs).1
  unfold negLogLik at hv
  simp only at hv
  split at hv
  · simp at hv
  next sol ld s'' he =>
  have hx : Solves (pr.kv h) (pr.resid h) sol ∧ ld = Real.log (pr.kv h).M.det := by
    unfold evaluate at he
    simp only at he
    split at he
    · simp at he
    · split at he
      · simp at he
      next x cc hs =>
      split at he
      · simp at he
      next l hlo =>
      simp only [Prod.mk.injEq, Except.ok.injEq] at he
      obtain ⟨⟨rfl, rfl⟩, -⟩ := he
      exact ⟨hstep _ _ _ _ _ hs, hl _ _ _ _ _ hlo⟩
  obtain ⟨hx, rfl⟩ := hx
  simp only [Prod.mk.injEq, Except.ok.injEq] at hv
  have hsum : ∑ i ∈ Finset.range (pr.resid h).rows, ∑ j ∈ Finset.range (pr.resid h).cols,
        (pr.resid h).val i j * sol.val i j
      = ∑ j ∈ Finset.range (pr.resid h).cols,
        dotProduct (fun i : Fin (pr.kv h).n => (pr.resid h).val i j)
          ((pr.kv h).M⁻¹.mulVec fun i => (pr.resid h).val i j) := by
    rw [Finset.sum_comm, hn]
    refine Finset.sum_congr rfl fun j hj => ?_
    rw [← hx j (Finset.mem_range.1 hj), Matrix.mulVec_mulVec,
      Matrix.nonsing_inv_mul _ (isUnit_iff_ne_zero.2 hdet), Matrix.one_mulVec]
    rw [hx j (Finset.mem_range.1 hj), Finset.sum_range]
    rfl
  rw [← hv.1, hsum, hn]
  ring

/-- A solver that returns its starting guess, or the right-hand side when there is none. -/
def exExt : Ext Unit Unit where
  build := fun _ _ => .ok ()
  direct := fun _ _ _ y => .ok y
  cg := fun _ _ y _ g => .ok (g.getD y)
  minres := fun _ _ y _ g => .ok (g.getD y)
  logdet := fun _ _ _ _ => .ok 0

/-- One data point with residual `h`. -/
def exProblem : Problem ℝ := ⟨fun _ => exMat 1, fun h => ⟨1, 1, fun _ _ => h⟩, .cg, fun _ => .cg⟩

/-- C46, the other side: without the guard, with warm starts on, the same evaluation gives different values after
different histories. So the guard is what makes `C46_order_independent` true. -/
theorem C46_without_guard_order_matters :
    (negLogLik exExt exProblem [(warmKey, .bool true)] 0
        (evaluations exExt exProblem [(warmKey, .bool true)] 0 ⟨Cache.empty, none, none, none⟩ []).2 2 ()).1
      ≠ (negLogLik exExt exProblem [(warmKey, .bool true)] 0
        (evaluations exExt exProblem [(warmKey, .bool true)] 0 ⟨Cache.empty, none, none, none⟩ [((1 : ℝ), ())]).2 2 ()).1 := by
  have hw : warmEnabled [(warmKey, .bool true)] = true := by simp [warmEnabled, dictGet?, List.lookup, Val.truthy]
  have hm : maxDrift [(warmKey, .bool true)] = .ok 0.1 := by
    have : ¬ driftKey = warmKey := by decide
    unfold maxDrift dictGet?
    rw [lookup_cons', if_neg this]; rfl
  have hd : driftGt (fpDrift (some (fingerprint (exMat 1))) (some (fingerprint (exMat 1)))) 0.1 = false := by
    simp [fpDrift, driftGt]; norm_num
  simp only [evaluations, negLogLik, evaluate, exProblem, exExt, initialGuess, hw, validatedWarmStart, solveStep,
    Bool.not_true, Bool.false_eq_true, if_false, if_true, fitGuess, Option.bind_none, Option.bind_some, Option.orElse, hm,
    bind, Except.bind, hd]
  norm_num [fitGuess]

/-- The hypotheses of `C46_value`: `exExt` solves exactly when K+V is the one by one matrix 1, whose determinant has logarithm 0. -/
example : (negLogLik { exExt with cg := fun _ _ y _ _ => .ok y } exProblem [] 0 ⟨Cache.empty, none, none, none⟩ 3 ()).1
    = .ok (9 / 2) := by
  simp only [negLogLik, evaluate, exProblem, exExt, initialGuess, validatedWarmStart, solveStep,
    show warmEnabled [] = false from rfl, Bool.not_false, if_true]
  norm_num

end Verif.Train
