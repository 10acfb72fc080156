import Verif.Ggmp.DeviceModel
import Mathlib.Data.List.Dedup
import Mathlib.Data.List.Perm.Basic

/-!
C121: keyword arguments and devices of the component GPs of `GGMP`.
-/

namespace Verif.Ggmp

/-- Specification: the settings that name a device. -/
def DeviceSetting (k : String) : Prop :=
  k = "random_logdet_lanczos_compute_device" ∨ k = "Chol_factor_compute_device" ∨ k = "update_Chol_factor_compute_device" ∨
    k = "Chol_solve_compute_device" ∨ k = "Chol_logdet_compute_device"

theorem mem_deviceKeys (k : String) : k ∈ deviceKeys ↔ DeviceSetting k := by
  simp only [deviceKeys, DeviceSetting, List.mem_cons, List.not_mem_nil, or_false]

/-- Specification: some device key asks for a GPU after `compute_device` has been applied to the device keys that are not given. -/
def AsksGpu (lower : String → String) (kw : GpKw) : Prop :=
  ∃ k, DeviceSetting k ∧ lower (((kw.args k).or kw.device).getD "") = "gpu"

theorem normalizeKw_args (kw : GpKw) (k : String) :
    (normalizeKw kw).args k = if k ∈ deviceKeys then (kw.args k).or kw.device else kw.args k := by
  unfold normalizeKw
  cases hd : kw.device with
  | none => simp
  | some d =>
    simp only
    split_ifs
    · cases kw.args k <;> rfl
    · rfl

theorem normalizeKw_device (kw : GpKw) : (normalizeKw kw).device = kw.device ∧ (normalizeKw kw).rest = kw.rest := by
  unfold normalizeKw
  cases hd : kw.device <;> simp [hd]

theorem usesGpu_iff (lower : String → String) (kw : GpKw) : usesGpu lower (normalizeKw kw).args = true ↔ AsksGpu lower kw := by
  simp only [usesGpu, List.any_eq_true, beq_iff_eq, AsksGpu, normalizeKw_args]
  constructor
  · rintro ⟨k, hk, h⟩
    exact ⟨k, (mem_deviceKeys k).1 hk, by simpa [hk] using h⟩
  · rintro ⟨k, hk, h⟩
    have hk := (mem_deviceKeys k).2 hk
    exact ⟨k, hk, by simpa [hk] using h⟩

/-- C121: if no GPU is asked for or there is one, the GPs get every argument the user gave unchanged; the device keys that were not
given get `compute_device`; and `ram_economy` is always set. -/
theorem C121_arguments (lower : String → String) (n : Nat) (req : DevReq) (kw : GpKw) (h : 0 < n ∨ ¬ AsksGpu lower kw) :
    (resolveDevices lower n req kw).1.device = kw.device ∧
    (∀ k v, kw.args k = some v → (resolveDevices lower n req kw).1.args k = some v) ∧
    (∀ k, DeviceSetting k → kw.args k = none → (resolveDevices lower n req kw).1.args k = kw.device) ∧
    (∀ k, ¬ DeviceSetting k → (resolveDevices lower n req kw).1.args k = kw.args k) ∧
    (∀ k, k ∈ (resolveDevices lower n req kw).1.rest ↔ k ∈ kw.rest ∨ k = "ram_economy") := by
  have e : (resolveDevices lower n req kw).1.args = (normalizeKw kw).args ∧
      (resolveDevices lower n req kw).1.device = (normalizeKw kw).device ∧
      (resolveDevices lower n req kw).1.rest =
        if "ram_economy" ∈ (normalizeKw kw).rest then (normalizeKw kw).rest else (normalizeKw kw).rest ++ ["ram_economy"] := by
    simp only [resolveDevices]
    split_ifs with h1 h2 h3 <;> first | exact ⟨rfl, rfl, rfl⟩ | skip
    all_goals
      exact absurd ((usesGpu_iff lower kw).1 h1) (h.resolve_left ‹_›)
  obtain ⟨e1, e2, e3⟩ := e
  obtain ⟨d1, d2⟩ := normalizeKw_device kw
  refine ⟨e2.trans d1, fun k v hv => ?_, fun k hk hn => ?_, fun k hk => ?_, fun k => ?_⟩
  · rw [e1, normalizeKw_args, hv]
    split_ifs <;> rfl
  · rw [e1, normalizeKw_args, if_pos ((mem_deviceKeys k).2 hk), hn]
    rfl
  · rw [e1, normalizeKw_args, if_neg (mt (mem_deviceKeys k).1 hk)]
  · rw [e3, d2]
    split_ifs with hr
    · exact ⟨Or.inl, fun h => h.elim id fun h => h ▸ hr⟩
    · simp

/-- C121: device ids are in use exactly if a GPU is asked for and there is one; they are never empty, always existing devices, and
either requested ones, all requested existing ones in the order of the request, or device 0. -/
theorem C121_device_ids (lower : String → String) (n : Nat) (req : DevReq) (kw : GpKw) :
    ((resolveDevices lower n req kw).2 ≠ none ↔ AsksGpu lower kw ∧ 0 < n) ∧
    ∀ ids, (resolveDevices lower n req kw).2 = some ids → ids ≠ [] ∧ (∀ i ∈ ids, 0 ≤ i ∧ i < (n : Int)) ∧
      (req = .auto → ∀ i : Nat, i < n → (i : Int) ∈ ids) ∧
      (∀ l, req = .ids l → (∀ i ∈ l, 0 ≤ i ∧ i < (n : Int) → i ∈ ids) ∧ (ids.Sublist l ∨ ids = [0] ∧ ∀ i ∈ l, ¬ (0 ≤ i ∧ i < (n : Int)))) := by
  have key : (resolveDevices lower n req kw).2 = if usesGpu lower (normalizeKw kw).args = true ∧ 0 < n then some (effectiveIds n req) else none := by
    simp only [resolveDevices]
    by_cases h1 : usesGpu lower (normalizeKw kw).args = true
    · by_cases h2 : 0 < n
      · simp [h1, h2]
      · simp [h1, h2]
    · simp [h1]
  rw [key, ← usesGpu_iff]
  refine ⟨by split_ifs with h <;> simp [h], fun ids hids => ?_⟩
  split_ifs at hids with h
  obtain ⟨-, hn⟩ := h
  cases hids
  have hn' : (0 : Int) < n := by exact_mod_cast hn
  cases req with
  | none =>
    refine ⟨by simp [effectiveIds], by simp [effectiveIds, hn], by simp, by simp⟩
  | auto =>
    refine ⟨?_, ?_, ?_, by simp⟩
    · simp only [effectiveIds, ne_eq, List.map_eq_nil_iff, List.range_eq_nil]
      omega
    · simp only [effectiveIds, List.mem_map, List.mem_range]
      rintro i ⟨j, hj, rfl⟩
      omega
    · intro _ i hi
      simp only [effectiveIds, List.mem_map, List.mem_range]
      exact ⟨i, hi, rfl⟩
  | ids l =>
    simp only [effectiveIds]
    split_ifs with he
    · have hno : ∀ i ∈ l, ¬ (0 ≤ i ∧ i < (n : Int)) := by
        intro i hi hc
        have := List.filter_eq_nil_iff.1 he i hi
        simp [hc] at this
      refine ⟨by simp, by simp [hn], by simp, fun m hm => ?_⟩
      cases hm
      exact ⟨fun i hi hc => absurd hc (hno i hi), Or.inr ⟨rfl, hno⟩⟩
    · refine ⟨he, ?_, by simp, fun m hm => ?_⟩
      · intro i hi
        simpa using (List.mem_filter.1 hi).2
      · cases hm
        refine ⟨fun i hi hc => List.mem_filter.2 ⟨hi, by simp [hc]⟩, Or.inl List.filter_sublist⟩

/-- C121: if a device key asks for a GPU and there is none, the GPs are told to use the CPU throughout: no device key and not
`compute_device` names a GPU. The other arguments are unchanged. -/
theorem C121_cpu_fallback (lower : String → String) (hl : lower "cpu" = "cpu") (hl' : lower "" ≠ "gpu") (req : DevReq) (kw : GpKw) (h : AsksGpu lower kw) :
    (resolveDevices lower 0 req kw).1.device = some "cpu" ∧
    (∀ k, DeviceSetting k → lower (((resolveDevices lower 0 req kw).1.args k).getD "") ≠ "gpu") ∧
    (∀ k v, kw.args k = some v → ¬ DeviceSetting k ∨ lower v ≠ "gpu" → (resolveDevices lower 0 req kw).1.args k = some v) := by
  have hu := (usesGpu_iff lower kw).2 h
  have e : ∀ k, (resolveDevices lower 0 req kw).1.args k = if k ∈ deviceKeys then
      ((normalizeKw kw).args k).map (fun v => if lower v = "gpu" then "cpu" else v) else (normalizeKw kw).args k := by
    intro k
    simp [resolveDevices, hu]
  refine ⟨by simp [resolveDevices, hu], fun k hk => ?_, fun k v hv hc => ?_⟩
  · rw [e, if_pos ((mem_deviceKeys k).2 hk)]
    cases (normalizeKw kw).args k with
    | none => simpa using hl'
    | some v =>
      simp only [Option.map_some, Option.getD_some]
      split_ifs with hv
      · rw [hl]; decide
      · exact hv
  · rw [e, normalizeKw_args, hv]
    split_ifs with hk
    · simp only [Option.some_or, Option.map_some]
      rw [if_neg (hc.resolve_left (fun hc => hc ((mem_deviceKeys k).1 hk)))]
    · rfl

/-- Without a GPU, `compute_device="gpu"` still reaches the GPs if all device keys of `args` are given as `"cpu"`. -/
theorem C121_cpu_fallback_violated : ∃ kw : GpKw, kw.device = some "gpu" ∧
    (resolveDevices (fun s => if s = "GPU" then "gpu" else s) 0 .none kw).1.device = some "gpu" := by
  refine ⟨⟨some "gpu", fun _ => some "cpu", []⟩, rfl, ?_⟩
  have h : ¬ AsksGpu (fun s => if s = "GPU" then "gpu" else s) ⟨some "gpu", fun _ => some "cpu", []⟩ := by
    rintro ⟨k, -, hk⟩
    revert hk
    simp
  exact (C121_arguments _ 0 .none _ (Or.inr h)).1

/-- C121: the constructor loop ends within its number of keywords plus one; if it returns a GP, the GP was built with the given
keywords except those removed, every removed keyword was rejected by the constructor and none of them is required; it returns no GP
only if the constructor rejected a required keyword. -/
theorem C121_safe_init (gp : List String → Ctor) (required : List String) :
    ∀ (fuel : Nat) (kw removed : List String), kw.Nodup → kw.length < fuel →
      match safeInit gp required fuel kw removed with
      | .ok (some ks, r) => ∃ s, r = removed ++ s ∧ gp ks = .built ∧ (ks ++ s).Perm kw ∧
          (∀ k ∈ s, k ∉ required ∧ ∃ l, gp l = .unexpected k ∧ k ∈ l)
      | .ok (none, r) => ∃ s k l, r = removed ++ s ++ [k] ∧ k ∈ required ∧ gp l = .unexpected k
      | .error e => ∃ l, gp l = .raised e ∨ ∃ k, gp l = .unexpected k ∧ k ∉ l := by
  intro fuel
  induction fuel with
  | zero => intro kw removed _ h; omega
  | succ fuel ih =>
    intro kw removed hnd hlt
    simp only [safeInit]
    cases hg : gp kw with
    | built => exact ⟨[], by simp, hg, by simp, by simp⟩
    | raised e => exact ⟨kw, Or.inl hg⟩
    | unexpected bad =>
      simp only
      split_ifs with h1 h2
      · exact ⟨[], bad, kw, by simp, h1, hg⟩
      · have hlen : (kw.erase bad).length < fuel := by
          rw [List.length_erase_of_mem h2]
          have := List.length_pos_of_mem h2
          omega
        have := ih (kw.erase bad) (removed ++ [bad]) (hnd.erase bad) hlen
        cases hr : safeInit gp required fuel (kw.erase bad) (removed ++ [bad]) with
        | error e => simpa [hr] using this
        | ok p =>
          obtain ⟨o, r⟩ := p
          rw [hr] at this
          cases o with
          | none =>
            obtain ⟨s, k, l, e1, e2, e3⟩ := this
            exact ⟨[bad] ++ s, k, l, by simp [e1], e2, e3⟩
          | some ks =>
            obtain ⟨s, e1, e2, e3, e4⟩ := this
            refine ⟨bad :: s, by simp [e1], e2, ?_, ?_⟩
            · exact (List.perm_middle.trans (e3.cons bad)).trans (List.perm_cons_erase h2).symm
            · intro k hk
              rcases List.mem_cons.1 hk with rfl | hk
              · exact ⟨h1, kw, hg, h2⟩
              · exact e4 k hk
      · exact ⟨kw, Or.inr ⟨bad, hg, h2⟩⟩

/-- Specification: a constructor that accepts the keywords of its signature. -/
def HasSignature (gp : List String → Ctor) (signature : List String) : Prop := ∀ ks, (∀ k ∈ ks, k ∈ signature) → gp ks = .built

/-- C121: for a constructor with the keywords of fvGP every component GP is built at the first attempt: with the noise variances, with
the kernel and mean function if they are given, and with every keyword of the user that the constructor knows; no keyword is reported as
rejected. -/
theorem C121_component_keywords (gp : List String → Ctor) (signature rest : List String) (h : HasSignature gp signature)
    (h1 : "noise_variances" ∈ signature) (h2 : "kernel_function" ∈ signature) (h3 : "prior_mean_function" ∈ signature)
    (kernel mean : Bool) :
    ∃ ks, makeKw gp signature rest kernel mean = .ok (ks, []) ∧ ks.Nodup ∧ ∀ k, k ∈ ks ↔
      k = "noise_variances" ∨ (kernel = true ∧ k = "kernel_function") ∨ (mean = true ∧ k = "prior_mean_function") ∨
        (k ∈ rest ∧ k ∈ signature) := by
  have tries : ∀ (b : Bool) (aliases : List String) (x : String) (xs : List String), aliases = x :: xs → x ∈ signature →
      ∃ t, aliasTries signature aliases b = (if b then [x] else []) :: t := by
    intro b aliases x xs hx hm
    subst hx
    cases b
    · exact ⟨[], rfl⟩
    · refine ⟨(xs.filter (· ∈ signature) ++ (x :: xs).filter (· ∉ signature)).map (fun k => [k]) ++ [[]], ?_⟩
      simp only [aliasTries, if_true, List.filter_cons, hm, decide_true, List.cons_append, List.map_cons]
  obtain ⟨t1, e1⟩ := tries kernel kernelAliases "kernel_function" _ rfl h2
  obtain ⟨t2, e2⟩ := tries mean meanAliases "prior_mean_function" _ rfl h3
  set kw := mergeKeys [["noise_variances"], if kernel then ["kernel_function"] else [], if mean then ["prior_mean_function"] else [],
    rest.filter (· ∈ signature)] with hkw
  have hmem : ∀ k, k ∈ kw ↔ k = "noise_variances" ∨ (kernel = true ∧ k = "kernel_function") ∨
      (mean = true ∧ k = "prior_mean_function") ∨ (k ∈ rest ∧ k ∈ signature) := by
    intro k
    simp only [hkw, mergeKeys, List.mem_dedup, List.mem_flatten, List.mem_cons, List.not_mem_nil, or_false, exists_eq_or_imp,
      exists_eq_left, List.mem_filter, decide_eq_true_eq]
    cases kernel <;> cases mean <;> simp
  have hb : gp kw = .built := by
    refine h kw fun k hk => ?_
    rcases (hmem k).1 hk with rfl | ⟨-, rfl⟩ | ⟨-, rfl⟩ | ⟨-, hk⟩
    exacts [h1, h2, h3, hk]
  refine ⟨kw, ?_, List.nodup_dedup _, hmem⟩
  simp only [makeKw, e1, e2, List.flatMap_cons, List.map_cons, List.cons_append, tryAll, ← hkw, safeInit, hb, List.append_nil]

/-- A keyword in `gp_init_kwargs` that `GP` does not know, for example a misspelt one, is dropped without an exception and without being
reported among the rejected keywords. -/
theorem C121_unknown_keyword_violated (gp : List String → Ctor) (signature rest : List String) (h : HasSignature gp signature)
    (h1 : "noise_variances" ∈ signature) (h2 : "kernel_function" ∈ signature) (h3 : "prior_mean_function" ∈ signature)
    (kernel mean : Bool) (k : String) (hk : k ∈ rest) (hk' : k ∉ signature) :
    ∃ ks, makeKw gp signature rest kernel mean = .ok (ks, []) ∧ k ∉ ks ∧ k ∈ rest := by
  obtain ⟨ks, e, -, hm⟩ := C121_component_keywords gp signature rest h h1 h2 h3 kernel mean
  refine ⟨ks, e, fun hc => ?_, hk⟩
  rcases (hm k).1 hc with rfl | ⟨-, rfl⟩ | ⟨-, rfl⟩ | ⟨-, hc⟩
  exacts [hk' h1, hk' h2, hk' h3, hk' hc]

/-- C121: the device context runs the body with the requested device if a library of the engine is usable, restores the devices also when
the body raises, and passes the body's success on. -/
theorem C121_device_context (engine : Option String) (id : Option Nat) (body : Devs → Except String Unit) (d : Devs) :
    (withDevice engine id body d).2 = d ∧
    ∃ d', ((withDevice engine id body d).1 = .ok () ↔ body d' = .ok ()) ∧
      (id = none → d' = d) ∧
      (∀ i, id = some i → (engine = some "torch" ∨ engine = none) → d.torch ≠ none → d'.torch = some i ∧ d'.cupy = d.cupy) ∧
      (∀ i, id = some i → engine = some "cupy" → d.cupy ≠ none → d'.cupy = some i ∧ d'.torch = d.torch) := by
  cases id with
  | none => exact ⟨rfl, d, Iff.rfl, fun _ => rfl, by simp, by simp⟩
  | some i =>
    simp only [withDevice]
    split_ifs with h1 h2
    · refine ⟨rfl, { d with torch := some i }, ?_, by simp, ?_, ?_⟩
      · cases body { d with torch := some i } <;> simp
      · rintro j hj - -
        cases hj
        exact ⟨rfl, rfl⟩
      · rintro j hj he -
        rw [he] at h1
        simp at h1
    · refine ⟨rfl, { d with cupy := some i }, ?_, by simp, ?_, ?_⟩
      · cases body { d with cupy := some i } <;> simp
      · rintro j hj he ht
        exact absurd ⟨he, ht⟩ h1
      · rintro j hj - -
        cases hj
        exact ⟨rfl, rfl⟩
    · refine ⟨rfl, d, Iff.rfl, by simp, ?_, ?_⟩
      · rintro j hj he ht
        exact absurd ⟨he, ht⟩ h1
      · rintro j hj he hc
        exact absurd ⟨Or.inl he, hc⟩ h2

/-- An exception of the body, for example of the training of a component on a GPU, does not reach the caller: whatever it is, the caller
sees a `RuntimeError` about the generator. -/
theorem C121_exception_masked_violated (i : Nat) (body : Devs → Except String Unit) (d : Devs) (ht : d.torch ≠ none) (e : String)
    (he : body { d with torch := some i } = .error e) :
    (withDevice none (some i) body d).1 = .error "RuntimeError: generator didn't stop after throw()" := by
  simp [withDevice, ht, he]

example : effectiveIds 2 (.ids [5, 1, -1, 0]) = [1, 0] ∧ effectiveIds 2 (.ids [7]) = [0] := by decide

example : AsksGpu (fun s => s) ⟨some "gpu", fun k => if k = "Chol_factor_compute_device" then some "cpu" else none, []⟩ :=
  ⟨"Chol_solve_compute_device", Or.inr (Or.inr (Or.inr (Or.inl rfl))), by decide⟩

example : HasSignature (fun ks => if ∀ k ∈ ks, k ∈ ["noise_variances", "kernel_function", "prior_mean_function", "args"] then .built
    else .unexpected "x") ["noise_variances", "kernel_function", "prior_mean_function", "args"] :=
  fun ks h => by simp only [if_pos h]

end Verif.Ggmp
