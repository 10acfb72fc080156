import Verif.LinAlg.DispatchModel

/-!
C133: the preconditioner named in the linear-algebra mode or in `args` is the one that is built.
-/

namespace Verif.LinAlg.Modes

/-- Specification: the user code leaves the dictionary of the GP alone (it may write to all others). -/
def LeavesAlone (a : ℕ) : SOp → Prop
  | .write b _ _ => b ≠ a
  | .alloc _ => True
  | .setArgs _ => False

theorem dictGetD_of_get {d : Dict} {k : Str} {v w : PyVal} (h : dictGet d k = v) (hv : v ≠ .none) : dictGetD d k w = v := by
  unfold dictGet at h
  unfold dictGetD
  cases hf : d.find? (fun e => e.1 == k) with
  | none => rw [hf] at h; exact absurd h.symm hv
  | some e => rw [hf] at h; exact h

theorem dictGetD_absent {d : Dict} {k : Str} {w : PyVal} (h : ∀ e ∈ d, e.1 ≠ k) : dictGetD d k w = w := by
  have : d.find? (fun e => e.1 == k) = none := List.find?_eq_none.2 fun e he => by simpa using h e he
  unfold dictGetD; rw [this]

/-- The heap at one address below its length is not changed by user code that leaves it alone. -/
theorem run_dict (ops : List SOp) : ∀ (s : Settings), s.args < s.heap.length → (∀ op ∈ ops, LeavesAlone s.args op) →
    (runS s ops).dict = s.dict ∧ (runS s ops).mode = s.mode := by
  induction ops with
  | nil => intro s _ _; exact ⟨rfl, rfl⟩
  | cons op ops ih =>
    intro s hs ho
    have h1 := ho op (by simp)
    cases op with
    | write b k v =>
      have := ih (SOp.apply s (.write b k v)) (by simpa [SOp.apply] using hs) (fun o h => ho o (by simp [h]))
      refine ⟨this.1.trans ?_, this.2⟩
      simp only [Settings.dict, SOp.apply, List.getD_eq_getElem?_getD]
      rw [List.getElem?_set_ne h1]
    | alloc d =>
      have := ih (SOp.apply s (.alloc d)) (by simp only [SOp.apply, List.length_append, List.length_singleton]; omega)
        (fun o h => ho o (by simp [h]))
      refine ⟨this.1.trans ?_, this.2⟩
      simp only [Settings.dict, SOp.apply, List.getD_eq_getElem?_getD]
      rw [List.getElem?_append_left hs]
    | setArgs b => exact absurd h1 id

/-- Construction with a prefixed mode: result. -/
theorem construct_prefix (lower : Str → Str) (m pre canonical t : Str)
    (hp : (pre, canonical) ∈ prefixes) (hm : pre.isPrefixOf (lower m) = true) (args : Option ℕ) (h : Heap)
    (ht : normalizeType lower (.str ((lower m).drop pre.length)) = .ok t)
    (hex : dictGet (callerDict h args) typeKey = .none
      ∨ normalizeType lower (dictGet (callerDict h args) typeKey) = .ok t) :
    ∃ s, construct lower (.str m) args h = .ok s ∧ s.mode = .str canonical ∧ s.args < s.heap.length ∧
      h.length ≤ s.args ∧ dictGet s.dict typeKey = .str t ∧
      ∀ k, k ≠ typeKey → dictGet s.dict k = dictGet (callerDict h args) k := by
  obtain ⟨h₁, hh₁, hcd, hlen⟩ : ∃ h₁, argsHeap args h = h₁ ∧
      callerDict h₁ (some (args.getD h.length)) = callerDict h args ∧ h.length ≤ h₁.length := by
    cases args with
    | none => exact ⟨_, rfl, by simp [callerDict, argsHeap], by simp [argsHeap]⟩
    | some a => exact ⟨_, rfl, rfl, Nat.le_refl _⟩
  have hr : resolve lower (.str m) (some (args.getD h.length)) h₁
      = .ok (.str canonical, h₁ ++ [dictSet (callerDict h args) typeKey (.str t)], h₁.length) := by
    rw [resolve_prefix lower m pre canonical hp hm, hcd]
    simp only [bind, Except.bind, ht]
    by_cases he : dictGet (callerDict h args) typeKey = .none
    · simp [he]
    · rw [if_pos he]
      rcases hex with hex | hex
      · exact absurd hex he
      · simp [hex]
  refine ⟨⟨h₁ ++ [dictSet (callerDict h args) typeKey (.str t)], h₁.length, .str canonical⟩, ?_, rfl, by simp, hlen, ?_, ?_⟩
  · unfold construct
    simp only [hh₁, hr, bind, Except.bind]
  · simp only [Settings.dict, List.getD_eq_getElem?_getD, List.getElem?_concat_length, Option.getD_some]
    rw [dictGet_set, if_pos rfl]
  · intro k hk
    simp only [Settings.dict, List.getD_eq_getElem?_getD, List.getElem?_concat_length, Option.getD_some]
    rw [dictGet_set, if_neg hk]

variable {P : Type}

/-- C133: a preconditioner named in the mode is built by every solve, with the other settings of the caller, whatever
the caller does meanwhile to the dictionary passed as `args` or to any other dictionary of theirs. -/
theorem C133_mode_decides (lower : Str → Str) (hlow : ∀ t ∈ canonicalTypes, lower t = t) (m pre canonical t : Str)
    (hp : (pre, canonical) ∈ prefixes) (hm : pre.isPrefixOf (lower m) = true) (args : Option ℕ) (h : Heap)
    (ht : normalizeType lower (.str ((lower m).drop pre.length)) = .ok t)
    (hex : dictGet (callerDict h args) typeKey = .none
      ∨ normalizeType lower (dictGet (callerDict h args) typeKey) = .ok t)
    (builders : Str → Dict → Except String P) :
    ∃ s, construct lower (.str m) args h = .ok s ∧
      ∀ ops : List SOp, (∀ op ∈ ops, LeavesAlone s.args op) →
        (runS s ops).mode = .str canonical ∧
        (∀ k, k ≠ typeKey → dictGet (runS s ops).dict k = dictGet (callerDict h args) k) ∧
        (∀ p, builders t (runS s ops).dict = .ok p → request lower builders (runS s ops) = (some p, 0)) ∧
        (∀ e, builders t (runS s ops).dict = .error e → request lower builders (runS s ops) = (none, 1)) := by
  obtain ⟨s, hs, hmo, hlt, -, hty, hk⟩ := construct_prefix lower m pre canonical t hp hm args h ht hex
  refine ⟨s, hs, fun ops ho => ?_⟩
  obtain ⟨hd, hm'⟩ := run_dict ops s hlt ho
  have hsel : selected lower (runS s ops).dict = .ok t := by
    rw [hd]
    unfold selected
    rw [dictGetD_of_get hty (by simp)]
    exact C22_type_idempotent lower hlow _ t ht
  refine ⟨hm'.trans hmo, fun k hk' => by rw [hd]; exact hk k hk', fun p hb => ?_, fun e hb => ?_⟩
  · simp only [request, hsel, bind, Except.bind, hb]
  · simp only [request, hsel, bind, Except.bind, hb]

/-- C133: a GP without `args` looks at a new empty dictionary; those of other objects are unchanged. -/
theorem C133_no_args (lower : Str → Str) (h : Heap) :
    ∃ s, construct lower .none none h = .ok s ∧ s.dict = [] ∧ s.args < s.heap.length ∧ h.length ≤ s.args ∧
      s.mode = .str "Chol".toList ∧ ∀ a < h.length, s.heap[a]? = h[a]? := by
  refine ⟨⟨h ++ [[]], h.length, .str "Chol".toList⟩, rfl, ?_, by simp, Nat.le_refl _, rfl, fun a ha => ?_⟩
  · simp [Settings.dict, List.getD_eq_getElem?_getD]
  · exact List.getElem?_append_left ha

/-- C133: with any other mode the preconditioner is the one named in the dictionary of the GP at the time of the solve,
`"ilu"` if none is named; an unknown name leads to an unpreconditioned solve with a warning, never to another
preconditioner. -/
theorem C133_args_decide (lower : Str → Str) (hilu : lower "ilu".toList = "ilu".toList)
    (builders : Str → Dict → Except String P) (s : Settings) :
    (∀ v t p, dictGet s.dict typeKey = v → v ≠ .none → normalizeType lower v = .ok t →
      builders t s.dict = .ok p → request lower builders s = (some p, 0)) ∧
    (∀ p, (∀ e ∈ s.dict, e.1 ≠ typeKey) → builders "ilu".toList s.dict = .ok p → request lower builders s = (some p, 0)) ∧
    (∀ v, dictGet s.dict typeKey = v → v ≠ .none → (∀ t ∈ canonicalTypes, normalizeType lower v ≠ .ok t) →
      request lower builders s = (none, 1)) := by
  refine ⟨fun v t p hv hn ht hb => ?_, fun p hn hb => ?_, fun v hv hn hu => ?_⟩
  · have : selected lower s.dict = .ok t := by
      unfold selected; rw [dictGetD_of_get hv hn]; exact ht
    simp only [request, this, bind, Except.bind, hb]
  · have : selected lower s.dict = .ok "ilu".toList := by
      unfold selected; rw [dictGetD_absent hn]
      unfold normalizeType
      rw [show (PyVal.str "ilu".toList).toStr = "ilu".toList from rfl, hilu]
      rfl
    simp only [request, this, bind, Except.bind, hb]
  · unfold request selected
    rw [dictGetD_of_get hv hn]
    cases hno : normalizeType lower v with
    | error e => simp [bind, Except.bind]
    | ok t => exact absurd hno (hu t (C22_type_is_canonical lower v t hno))

/-- C133 (partial): `set_args` keeps the preconditioner named in the mode if the new dictionary names it too. -/
theorem C133_set_args_partial (lower : Str → Str) (hilu : lower "ilu".toList = "ilu".toList) (s : Settings) (a : ℕ) (t : Str)
    (ht : normalizeType lower (dictGet (s.heap.getD a []) typeKey) = .ok t) (hn : dictGet (s.heap.getD a []) typeKey ≠ .none)
    (builders : Str → Dict → Except String P) (p : P) (hb : builders t (s.heap.getD a []) = .ok p) :
    request lower builders (runS s [.setArgs a]) = (some p, 0) :=
  (C133_args_decide lower hilu builders _).1 _ t p rfl hn ht hb

/-- C133 is violated by `set_args`: the name of the preconditioner in the mode is kept in the dictionary that
`set_args` replaces. A GP built with any preconditioner `t` other than `"ilu"` in its mode keeps the mode but builds
`"ilu"` after `set_args` with a dictionary that does not name a preconditioner, without a warning. -/
theorem C133_set_args_violated (lower : Str → Str) (hlow : ∀ t ∈ canonicalTypes, lower t = t) (m pre canonical t : Str)
    (hp : (pre, canonical) ∈ prefixes) (hm : pre.isPrefixOf (lower m) = true) (args : Option ℕ) (h : Heap)
    (ht : normalizeType lower (.str ((lower m).drop pre.length)) = .ok t)
    (hex : dictGet (callerDict h args) typeKey = .none) (d : Dict) (hd : ∀ e ∈ d, e.1 ≠ typeKey) :
    ∃ s, construct lower (.str m) args h = .ok s ∧ request lower (fun u _ => .ok u) s = (some t, 0) ∧
      let s' := runS s [.alloc d, .setArgs s.heap.length]
      s'.mode = s.mode ∧ request lower (fun u _ => .ok u) s' = (some "ilu".toList, 0) := by
  obtain ⟨s, hs, hreq⟩ := C133_mode_decides lower hlow m pre canonical t hp hm args h ht (Or.inl hex)
    (fun u _ => .ok u)
  refine ⟨s, hs, ((hreq [] (by simp)).2.2.1 t rfl), rfl, ?_⟩
  refine (C133_args_decide lower (hlow _ (by decide)) (fun u _ => .ok u) _).2.1 _ ?_ rfl
  have : (runS s [.alloc d, .setArgs s.heap.length]).dict = d := by
    simp [runS, SOp.apply, Settings.dict]
  rw [this]
  exact hd

/-- C133: after `set_args` the dictionary is shared: what the user writes into it later takes effect at the next solve,
whereas the one passed at construction together with a mode was copied. -/
theorem C133_sharing (lower : Str → Str) (hlow : ∀ t ∈ canonicalTypes, lower t = t) (s : Settings) (a : ℕ) (ha : a < s.heap.length)
    (t : Str) (ht : t ∈ canonicalTypes) :
    request lower (fun u _ => .ok u) (runS s [.setArgs a, .write a typeKey (.str t)]) = (some t, 0) := by
  have hdict : (runS s [.setArgs a, .write a typeKey (.str t)]).dict = dictSet (s.heap.getD a []) typeKey (.str t) := by
    simp [runS, SOp.apply, Settings.dict, ha]
  have hn : normalizeType lower (.str t) = .ok t := by
    have hself : ∀ t ∈ canonicalTypes, (aliases.find? fun p => p.1 == t).map Prod.snd = some t := by decide
    unfold normalizeType
    rw [show (PyVal.str t).toStr = t from rfl, hlow t ht]
    obtain ⟨p, hp, hpt⟩ := Option.map_eq_some_iff.1 (hself t ht)
    rw [hp]
    simp only
    rw [hpt]
  refine (C133_args_decide lower (hlow _ (by decide)) (fun u _ => .ok u) _).1 (.str t) t t ?_ (by simp) hn rfl
  rw [hdict, dictGet_set, if_pos rfl]

/-- `str.lower` on ASCII. -/
def asciiLower (s : Str) : Str := s.map Char.toLower

example : ∃ s, construct asciiLower (.str "SparseCGpre_AMG".toList) (some 0) [[("a".toList, .none)]] = .ok s ∧
    request asciiLower (fun u _ => .ok u) s = (some "amg".toList, 0) ∧
    let s' := runS s [.alloc [("sparse_cg_tol".toList, .other "1e-8".toList)], .setArgs s.heap.length]
    s'.mode = s.mode ∧ request asciiLower (fun u _ => .ok u) s' = (some "ilu".toList, 0) :=
  C133_set_args_violated asciiLower (by decide) _ "sparsecgpre_".toList "sparseCGpre".toList "amg".toList (by decide) (by decide)
    (some 0) [[("a".toList, .none)]] (by decide) (by decide) _ (by decide)

example : ∃ s, construct asciiLower (.str "sparseMINRESpre_ic".toList) none [] = .ok s ∧
    ∀ ops : List SOp, (∀ op ∈ ops, LeavesAlone s.args op) →
      (runS s ops).mode = .str "sparseMINRESpre".toList ∧
      (∀ k, k ≠ typeKey → dictGet (runS s ops).dict k = dictGet (callerDict [] none) k) ∧
      (∀ p, (Except.ok "ichol".toList : Except String Str) = .ok p →
        request asciiLower (fun u _ => .ok u) (runS s ops) = (some p, 0)) ∧
      (∀ e, (Except.ok "ichol".toList : Except String Str) = .error e →
        request asciiLower (fun u _ => .ok u) (runS s ops) = (none, 1)) :=
  C133_mode_decides asciiLower (by decide) _ "sparseminrespre_".toList _ "ichol".toList (by decide) (by decide) none []
    (by decide) (Or.inl (by decide)) (fun u _ => .ok u)

/-- A misspelt name in `args` with an unprefixed mode. -/
example : ∃ s, construct asciiLower (.str "sparseCGpre".toList) (some 0) [[(typeKey, .str "amgg".toList)]] = .ok s ∧
    request asciiLower (fun u _ => (.ok u : Except String Str)) s = (none, 1) :=
  ⟨⟨[[(typeKey, .str "amgg".toList)], [(typeKey, .str "amgg".toList)]], 1, .str "sparseCGpre".toList⟩, rfl, by decide⟩

example : request asciiLower (fun u _ => (.ok u : Except String Str))
    (runS ⟨[[], [(typeKey, .str "ichol0".toList)]], 0, .str "sparseCGpre".toList⟩ [.setArgs 1]) = (some "ichol0".toList, 0) :=
  C133_set_args_partial asciiLower (by decide) _ 1 _ (by decide) (by decide) _ _ rfl

end Verif.LinAlg.Modes
