import Mathlib.Data.List.Basic
import Mathlib.Tactic.Common

/-!
Model of the mode-name resolution of `/repo/fvgp/gp_lin_alg.py` lines 397-427, 474-505 and 937-960, with
property C22.

Strings are lists of characters. Python's `str.lower` is a parameter `lower`; the theorems that depend on it
state what they need. Dictionaries live in a heap so that "the caller's dictionary is not modified" is a
statement about aliasing: `dict(...)` allocates a new dictionary.
-/

namespace Verif.LinAlg.Modes

abbrev Str := List Char

/-- A Python value as far as it matters here: a string, `None`, or something else with a `str()`. -/
inductive PyVal where
  | str (s : Str)
  | none
  | other (repr : Str)
deriving DecidableEq

/-- `str(v)`. -/
def PyVal.toStr : PyVal → Str
  | .str s => s
  | .none => "None".toList
  | .other r => r

/-- Dictionary as association list, keys distinct by construction of `dictSet`. -/
abbrev Dict := List (Str × PyVal)

/-- `d.get(k)` (`None` when absent). -/
def dictGet (d : Dict) (k : Str) : PyVal :=
  match d.find? (fun e => e.1 == k) with
  | some e => e.2
  | none => .none

/-- `d[k] = v`. -/
def dictSet (d : Dict) (k : Str) (v : PyVal) : Dict :=
  if d.any (fun e => e.1 == k) then d.map fun e => if e.1 = k then (k, v) else e else d ++ [(k, v)]

/-- Heap of dictionaries; addresses are positions. -/
abbrev Heap := List Dict

/-- The alias table of gp_lin_alg.py:400-417. -/
def aliases : List (Str × Str) :=
  [("ilu", "ilu"), ("ic", "ichol"), ("ichol", "ichol"), ("incomplete_cholesky", "ichol"),
   ("ichol0", "ichol0"), ("native_ic", "native_incomplete_cholesky"),
   ("native_ichol", "native_incomplete_cholesky"), ("legacy_ic", "native_incomplete_cholesky"),
   ("legacy_ichol", "native_incomplete_cholesky"),
   ("native_incomplete_cholesky", "native_incomplete_cholesky"),
   ("legacy_incomplete_cholesky", "native_incomplete_cholesky"),
   ("block_jacobi", "block_jacobi"), ("blockjacobi", "block_jacobi"), ("schwarz", "additive_schwarz"),
   ("additive_schwarz", "additive_schwarz"), ("amg", "amg")].map fun p => (p.1.toList, p.2.toList)

/-- `normalize_sparse_preconditioner_type(preconditioner_type)`, gp_lin_alg.py:397-427. -/
def normalizeType (lower : Str → Str) (v : PyVal) : Except String Str :=
  match aliases.find? (fun p => p.1 == lower v.toStr) with
  | some p => .ok p.2
  | none => .error "ValueError: unknown preconditioner"

/-- The prefix table of gp_lin_alg.py:485-488. -/
def prefixes : List (Str × Str) :=
  [("sparsecgpre_".toList, "sparseCGpre".toList), ("sparseminrespre_".toList, "sparseMINRESpre".toList)]

def typeKey : Str := "sparse_preconditioner_type".toList

/-- The loop over prefixes, gp_lin_alg.py:489-505. `a` is the address of the private copy. -/
def resolveLoop (lower : Str → Str) (mode : Str) (h : Heap) (a : ℕ) :
    List (Str × Str) → Except String (PyVal × Heap × ℕ)
  | [] => .ok (.str mode, h, a)
  | (pre, canonical) :: rest =>
      if pre.isPrefixOf (lower mode) then do
        let inferred ← normalizeType lower (.str ((lower mode).drop pre.length))
        let args := h.getD a []
        let explicit := dictGet args typeKey
        if explicit ≠ .none then do
          let e ← normalizeType lower explicit
          if e ≠ inferred then .error "ValueError: conflict"
          else .ok (.str canonical, h.set a (dictSet args typeKey (.str inferred)), a)
        else .ok (.str canonical, h.set a (dictSet args typeKey (.str inferred)), a)
      else resolveLoop lower mode h a rest

/-- `resolve_gp2scale_linalg_mode(mode, args)`, gp_lin_alg.py:474-505. `args` is the address of the caller's
dictionary or `none`. The first step `dict(_normalize_args(args))` allocates a fresh copy. -/
def resolve (lower : Str → Str) (mode : PyVal) (args : Option ℕ) (h : Heap) :
    Except String (PyVal × Heap × ℕ) :=
  let copy : Dict := match args with
    | none => []
    | some a => h.getD a []
  let h' := h ++ [copy]
  let a' := h.length
  match mode with
  | .str m => resolveLoop lower m h' a' prefixes
  | m => .ok (m, h', a')

/-! ### Specification -/

/-- The canonical preconditioner names. -/
def canonicalTypes : List Str :=
  ["ilu", "ichol", "ichol0", "native_incomplete_cholesky", "block_jacobi", "additive_schwarz", "amg"].map
    String.toList

/-! ### C22 -/

/-- C22: every accepted preconditioner name maps to one of the seven canonical types. -/
theorem C22_type_is_canonical (lower : Str → Str) (v : PyVal) (t : Str) (h : normalizeType lower v = .ok t) :
    t ∈ canonicalTypes := by
  unfold normalizeType at h
  split at h
  · rename_i p hp
    simp only [Except.ok.injEq] at h
    subst h
    have hm := List.mem_of_find?_eq_some hp
    revert hm
    have : ∀ p ∈ aliases, p.2 ∈ canonicalTypes := by decide
    exact this p
  · simp at h

/-- C22: normalisation is idempotent: a canonical name normalises to itself. -/
theorem C22_type_idempotent (lower : Str → Str) (hlow : ∀ t ∈ canonicalTypes, lower t = t) (v : PyVal)
    (t : Str) (h : normalizeType lower v = .ok t) : normalizeType lower (.str t) = .ok t := by
  have ht := C22_type_is_canonical lower v t h
  have hself : ∀ t ∈ canonicalTypes, (aliases.find? fun p => p.1 == t).map Prod.snd = some t := by decide
  unfold normalizeType
  rw [show (PyVal.str t).toStr = t from rfl, hlow t ht]
  have := hself t ht
  rw [Option.map_eq_some_iff] at this
  obtain ⟨p, hp, hpt⟩ := this
  rw [hp]
  simp only
  rw [hpt]

/-- C22: names that differ only in case are treated alike. -/
theorem C22_type_case_insensitive (lower : Str → Str) (v w : PyVal) (h : lower v.toStr = lower w.toStr) :
    normalizeType lower v = normalizeType lower w := by
  unfold normalizeType; rw [h]

theorem prefixes_exclusive (m : Str) (h1 : "sparsecgpre_".toList.isPrefixOf m = true)
    (h2 : "sparseminrespre_".toList.isPrefixOf m = true) : False := by
  rw [List.isPrefixOf_iff_prefix] at h1 h2
  have := List.prefix_of_prefix_length_le h1 h2 (by decide)
  revert this
  decide

theorem dictGet_set (d : Dict) (k : Str) (v : PyVal) (k' : Str) :
    dictGet (dictSet d k v) k' = if k' = k then v else dictGet d k' := by
  unfold dictSet
  split
  · rename_i hany
    induction d with
    | nil => simp at hany
    | cons e d ih =>
      rw [List.map_cons]
      unfold dictGet
      rw [List.find?_cons, List.find?_cons]
      by_cases hek : e.1 = k
      · simp only [hek, if_true]
        by_cases hk : k = k'
        · subst hk; simp
        · have hk1 : (k == k') = false := by simpa using hk
          have hk2 : ¬ k' = k := fun hh => hk hh.symm
          simp only [hk1, hk2, if_false]
          by_cases hany' : d.any (fun e => e.1 == k) = true
          · have := ih hany'
            rw [if_neg hk2] at this
            exact this
          · have hmap : d.map (fun e => if e.1 = k then (k, v) else e) = d := by
              conv_rhs => rw [← List.map_id d]
              apply List.map_congr_left
              intro e' he'
              rw [if_neg]
              · rfl
              · intro hh
                apply hany'
                rw [List.any_eq_true]
                exact ⟨e', he', by simpa using hh⟩
            rw [hmap]
      · simp only [hek, if_false]
        by_cases hk : e.1 = k'
        · have hk2 : ¬ k' = k := fun hh => hek (hk.trans hh)
          simp [hk, hk2]
        · have hk1 : (e.1 == k') = false := by simpa using hk
          simp only [hk1]
          have hany' : d.any (fun e => e.1 == k) = true := by
            rw [List.any_cons] at hany
            have : (e.1 == k) = false := by simpa using hek
            simpa [this] using hany
          exact ih hany'
  · rename_i hany
    unfold dictGet
    rw [List.find?_append]
    by_cases hk : k' = k
    · subst hk
      have : d.find? (fun e => e.1 == k') = none := by
        rw [List.find?_eq_none]
        intro e he hh
        apply hany
        rw [List.any_eq_true]
        exact ⟨e, he, hh⟩
      rw [this]
      simp
    · have hk1 : (k == k') = false := by simpa using fun hh : k = k' => hk hh.symm
      rw [if_neg hk]
      cases hf : d.find? (fun e => e.1 == k') with
      | none => simp [hk1]
      | some e => simp

/-- The dictionary the caller passed. -/
def callerDict (h : Heap) (args : Option ℕ) : Dict :=
  match args with
  | none => []
  | some a => h.getD a []

/-- Outcome of resolving a mode that starts (in any case) with one of the two prefixes. -/
theorem resolve_prefix (lower : Str → Str) (m pre canonical : Str) (hp : (pre, canonical) ∈ prefixes)
    (hm : pre.isPrefixOf (lower m) = true) (args : Option ℕ) (h : Heap) :
    resolve lower (.str m) args h = (do
      let inferred ← normalizeType lower (.str ((lower m).drop pre.length))
      let explicit := dictGet (callerDict h args) typeKey
      let new := dictSet (callerDict h args) typeKey (.str inferred)
      if explicit ≠ .none then do
        let e ← normalizeType lower explicit
        if e ≠ inferred then .error "ValueError: conflict"
        else .ok (.str canonical, h ++ [new], h.length)
      else .ok (.str canonical, h ++ [new], h.length)) := by
  have hget : ∀ c : Dict, (h ++ [c]).getD h.length [] = c := by
    intro c; simp
  have hset : ∀ c d : Dict, (h ++ [c]).set h.length d = h ++ [d] := by
    intro c d; simp
  unfold resolve
  simp only
  rw [show (match args with
    | none => ([] : Dict)
    | some a => h.getD a []) = callerDict h args from rfl]
  simp only [prefixes, List.mem_cons, List.not_mem_nil, or_false, Prod.mk.injEq] at hp
  rcases hp with ⟨rfl, rfl⟩ | ⟨rfl, rfl⟩
  · rw [prefixes, resolveLoop, if_pos hm]
    simp only [hget, hset]
  · have hno : ¬ "sparsecgpre_".toList.isPrefixOf (lower m) = true := fun hh => prefixes_exclusive _ hh hm
    rw [prefixes, resolveLoop, if_neg hno, resolveLoop, if_pos hm]
    simp only [hget, hset]

/-- C22: a prefixed mode resolves to the base mode and records the canonical type, when no explicit type is
given or the explicit type names the same preconditioner. -/
theorem C22_prefixed_mode_resolves (lower : Str → Str) (m pre canonical t : Str)
    (hp : (pre, canonical) ∈ prefixes) (hm : pre.isPrefixOf (lower m) = true) (args : Option ℕ) (h : Heap)
    (ht : normalizeType lower (.str ((lower m).drop pre.length)) = .ok t)
    (hex : dictGet (callerDict h args) typeKey = .none
      ∨ normalizeType lower (dictGet (callerDict h args) typeKey) = .ok t) :
    ∃ h' a', resolve lower (.str m) args h = .ok (.str canonical, h', a')
      ∧ dictGet (h'.getD a' []) typeKey = .str t
      ∧ ∀ k, k ≠ typeKey → dictGet (h'.getD a' []) k = dictGet (callerDict h args) k := by
  refine ⟨h ++ [dictSet (callerDict h args) typeKey (.str t)], h.length, ?_, ?_, ?_⟩
  · rw [resolve_prefix lower m pre canonical hp hm]
    simp only [bind, Except.bind, ht]
    by_cases he : dictGet (callerDict h args) typeKey = .none
    · simp [he]
    · rw [if_pos he]
      rcases hex with hex | hex
      · exact absurd hex he
      · simp [hex]
  · simp only [List.getD_eq_getElem?_getD, List.getElem?_concat_length, Option.getD_some]
    rw [dictGet_set, if_pos rfl]
  · intro k hk
    simp only [List.getD_eq_getElem?_getD, List.getElem?_concat_length, Option.getD_some]
    rw [dictGet_set, if_neg hk]

/-- C22: an explicit type that disagrees with the mode name (or is unknown) raises. -/
theorem C22_conflict_raises (lower : Str → Str) (m pre canonical t : Str)
    (hp : (pre, canonical) ∈ prefixes) (hm : pre.isPrefixOf (lower m) = true) (args : Option ℕ) (h : Heap)
    (ht : normalizeType lower (.str ((lower m).drop pre.length)) = .ok t)
    (hne : dictGet (callerDict h args) typeKey ≠ .none)
    (hconf : normalizeType lower (dictGet (callerDict h args) typeKey) ≠ .ok t) :
    ∃ e, resolve lower (.str m) args h = .error e := by
  rw [resolve_prefix lower m pre canonical hp hm]
  simp only [bind, Except.bind, ht, if_pos hne]
  cases he : normalizeType lower (dictGet (callerDict h args) typeKey) with
  | error e => exact ⟨e, rfl⟩
  | ok e =>
    have : e ≠ t := fun hh => hconf (by rw [he, hh])
    exact ⟨_, by simp only; rw [if_pos this]⟩

/-- C22: an unknown suffix raises, whatever the settings. -/
theorem C22_unknown_suffix_raises (lower : Str → Str) (m pre canonical : Str)
    (hp : (pre, canonical) ∈ prefixes) (hm : pre.isPrefixOf (lower m) = true) (args : Option ℕ) (h : Heap)
    (e : String) (ht : normalizeType lower (.str ((lower m).drop pre.length)) = .error e) :
    resolve lower (.str m) args h = .error e := by
  rw [resolve_prefix lower m pre canonical hp hm]
  simp only [bind, Except.bind, ht]

/-- C22: every other mode (string without the prefixes, or a non-string) is returned as it is, with an equal
copy of the settings. -/
theorem C22_other_modes_unchanged (lower : Str → Str) (mode : PyVal) (args : Option ℕ) (h : Heap)
    (hno : ∀ m, mode = .str m → ∀ p ∈ prefixes, p.1.isPrefixOf (lower m) = false) :
    ∃ h' a', resolve lower mode args h = .ok (mode, h', a') ∧ h'.getD a' [] = callerDict h args := by
  refine ⟨h ++ [callerDict h args], h.length, ?_, by simp⟩
  cases mode with
  | none => rfl
  | other r => rfl
  | str m =>
    have h1 := hno m rfl ("sparsecgpre_".toList, "sparseCGpre".toList) (by simp [prefixes])
    have h2 := hno m rfl ("sparseminrespre_".toList, "sparseMINRESpre".toList) (by simp [prefixes])
    unfold resolve
    simp only [prefixes, resolveLoop]
    simp only at h1 h2
    rw [if_neg (by rw [h1]; simp), if_neg (by rw [h2]; simp)]
    rfl

/-- C22: no dictionary that existed before the call is modified, and the returned settings are a new
dictionary. -/
theorem C22_caller_settings_untouched (lower : Str → Str) (mode : PyVal) (args : Option ℕ) (h h' : Heap)
    (mode' : PyVal) (a' : ℕ) (hr : resolve lower mode args h = .ok (mode', h', a')) :
    (∀ a < h.length, h'[a]? = h[a]?) ∧ h.length ≤ a' := by
  have key : ∀ (l : List (Str × Str)) (m : Str) (c : Dict),
      resolveLoop lower m (h ++ [c]) h.length l = .ok (mode', h', a') →
      (∀ a < h.length, h'[a]? = h[a]?) ∧ h.length ≤ a' := by
    intro l m c
    induction l with
    | nil =>
      intro hh
      simp only [resolveLoop, Except.ok.injEq, Prod.mk.injEq] at hh
      obtain ⟨_, rfl, rfl⟩ := hh
      exact ⟨fun a ha => by rw [List.getElem?_append_left ha], Nat.le_refl _⟩
    | cons p rest ih =>
      intro hh
      obtain ⟨pre, can⟩ := p
      rw [resolveLoop] at hh
      split at hh
      · simp only [bind, Except.bind] at hh
        split at hh
        · simp at hh
        · have fin : ∀ d : Dict, (∀ a < h.length, ((h ++ [c]).set h.length d)[a]? = h[a]?) := by
            intro d a ha
            rw [List.getElem?_set_ne (by omega), List.getElem?_append_left ha]
          split at hh
          · split at hh
            · simp at hh
            · split at hh
              · simp at hh
              · simp only [Except.ok.injEq, Prod.mk.injEq] at hh
                obtain ⟨_, rfl, rfl⟩ := hh
                exact ⟨fin _, Nat.le_refl _⟩
          · simp only [Except.ok.injEq, Prod.mk.injEq] at hh
            obtain ⟨_, rfl, rfl⟩ := hh
            exact ⟨fin _, Nat.le_refl _⟩
      · exact ih hh
  unfold resolve at hr
  cases mode with
  | str m => exact key prefixes m _ hr
  | none =>
    simp only [Except.ok.injEq, Prod.mk.injEq] at hr
    obtain ⟨_, rfl, rfl⟩ := hr
    exact ⟨fun a ha => by rw [List.getElem?_append_left ha], Nat.le_refl _⟩
  | other r =>
    simp only [Except.ok.injEq, Prod.mk.injEq] at hr
    obtain ⟨_, rfl, rfl⟩ := hr
    exact ⟨fun a ha => by rw [List.getElem?_append_left ha], Nat.le_refl _⟩

/-- C22: resolving the result again changes nothing: the base modes carry no prefix. -/
theorem C22_resolution_idempotent (lower : Str → Str)
    (hlow : lower "sparseCGpre".toList = "sparsecgpre".toList
      ∧ lower "sparseMINRESpre".toList = "sparseminrespre".toList)
    (canonical : Str) (hc : canonical ∈ prefixes.map Prod.snd) (args : Option ℕ) (h : Heap) :
    ∃ h' a', resolve lower (.str canonical) args h = .ok (.str canonical, h', a')
      ∧ h'.getD a' [] = callerDict h args := by
  apply C22_other_modes_unchanged
  intro m hm p hp
  simp only [PyVal.str.injEq] at hm
  subst hm
  simp only [prefixes, List.map_cons, List.map_nil, List.mem_cons, List.not_mem_nil, or_false] at hc hp
  rcases hc with rfl | rfl
  · rw [hlow.1]; rcases hp with rfl | rfl <;> decide
  · rw [hlow.2]; rcases hp with rfl | rfl <;> decide

/-- C22: two spellings of a prefixed mode that differ only in case resolve alike. -/
theorem C22_mode_case_insensitive (lower : Str → Str) (m m' : Str) (hl : lower m = lower m')
    (hp : ∃ p ∈ prefixes, p.1.isPrefixOf (lower m) = true) (args : Option ℕ) (h : Heap) :
    resolve lower (.str m) args h = resolve lower (.str m') args h := by
  obtain ⟨⟨pre, can⟩, hmem, hpre⟩ := hp
  rw [resolve_prefix lower m pre can hmem hpre, resolve_prefix lower m' pre can hmem (hl ▸ hpre), hl]

/-- `sparseCGpre_AMG` with `{"tol": ...}` in the caller's dictionary, ASCII lower-casing. -/
example : (match resolve (fun s => s.map Char.toLower) (.str "sparseCGpre_AMG".toList) (some 0)
      [[("tol".toList, .other "1e-5".toList)]] with
    | .ok (m, h, a) => decide (m = .str "sparseCGpre".toList
        ∧ dictGet (h.getD a []) typeKey = .str "amg".toList ∧ a = 1 ∧ (h.getD 0 []).length = 1)
    | .error _ => false) = true := by decide

/-- The hypotheses on `lower` hold for ASCII lower-casing. -/
example : (∀ t ∈ canonicalTypes, t.map Char.toLower = t)
    ∧ "sparseCGpre".toList.map Char.toLower = "sparsecgpre".toList := by decide

end Verif.LinAlg.Modes
