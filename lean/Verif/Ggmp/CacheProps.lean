import Verif.Ggmp.CacheModel
import Mathlib.Tactic.NormNum
import Mathlib.Logic.Function.Basic

/-!
C114: the cache of the station fits.
-/

namespace Verif.Ggmp

/-- `sort` orders by id and keeps all rows. -/
def SortContract (e : CacheExt) : Prop := ∀ l, (e.sort l).Perm l ∧ (e.sort l).Pairwise fun a b => a.1 ≤ b.1

/-- A call: fit parameters (with the state of the data file), and stations. -/
structure Call where
  par : CacheMeta
  ids : List ℤ

/-- A history of calls with the cache switched on, starting from a directory. The series of a station is determined by the state
of the data file. -/
noncomputable def history (e : CacheExt) (data : CacheMeta → ℤ → List ℝ) : Disk → List Call → List (Except String (List FitRow)) × Disk
  | d, [] => ([], d)
  | d, c :: cs =>
      let r := fitStations e true d c.par c.ids (c.ids.map (data c.par))
      let rest := history e data r.2 cs
      (r.1 :: rest.1, rest.2)

/-- For all parameters in `M`: the file belongs to its path, has the right number of columns, strictly increasing ids, and rows that are the fits of the
stations. -/
def Sound (e : CacheExt) (data : CacheMeta → ℤ → List ℝ) (M : Set CacheMeta) (d : Disk) : Prop :=
  ∀ m ∈ M, ∀ c, d (e.path m) = some c → c.stamp = m ∧ c.width = m.K ∧ (c.entries.map (·.1)).Pairwise (· < ·) ∧
    ∀ x ∈ c.entries, e.fit m (data m x.1) = some x.2

theorem lookupLast_mem {l : List (ℤ × FitRow)} {sid : ℤ} {r : FitRow} (h : lookupLast l sid = some r) : (sid, r) ∈ l := by
  unfold lookupLast at h
  rw [Option.map_eq_some_iff] at h
  obtain ⟨a, ha, rfl⟩ := h
  have h1 := List.mem_of_find?_eq_some ha
  have h2 := List.find?_some ha
  simp only [decide_eq_true_eq] at h2
  rw [← h2]
  exact List.mem_reverse.1 h1

theorem lookupLast_none {l : List (ℤ × FitRow)} {sid : ℤ} : lookupLast l sid = none ↔ ∀ x ∈ l, x.1 ≠ sid := by
  unfold lookupLast
  rw [Option.map_eq_none_iff, List.find?_eq_none]
  simp

theorem uniq_sub (prev : Option ℤ) (l : List (ℤ × FitRow)) : (uniqFirst prev l).Sublist l := by
  induction l generalizing prev with
  | nil => simp [uniqFirst]
  | cons a l ih =>
      simp only [uniqFirst]
      split_ifs
      · exact (ih _).cons _
      · exact (ih _).cons_cons _

theorem uniq_strict (prev : Option ℤ) (l : List (ℤ × FitRow)) (h : l.Pairwise fun a b => a.1 ≤ b.1)
    (hp : ∀ p ∈ prev, ∀ x ∈ l, p ≤ x.1) :
    ((uniqFirst prev l).map (·.1)).Pairwise (· < ·) ∧ ∀ p ∈ prev, ∀ x ∈ uniqFirst prev l, p < x.1 := by
  induction l generalizing prev with
  | nil => simp [uniqFirst]
  | cons a l ih =>
      rw [List.pairwise_cons] at h
      simp only [uniqFirst]
      split_ifs with hc
      · exact ih prev h.2 fun p hpp x hx => hp p hpp x (List.mem_cons_of_mem _ hx)
      · obtain ⟨h1, h2⟩ := ih (some a.1) h.2 (by rintro p hpp x hx; cases hpp; exact h.1 x hx)
        refine ⟨?_, ?_⟩
        · rw [List.map_cons, List.pairwise_cons]
          refine ⟨?_, h1⟩
          intro z hz
          obtain ⟨x, hx, rfl⟩ := List.mem_map.1 hz
          exact h2 a.1 rfl x hx
        · intro p hpp x hx
          have hpa : p < a.1 := lt_of_le_of_ne (hp p hpp a List.mem_cons_self) (by
            rintro rfl
            exact hc (Option.mem_def.1 hpp).symm)
          rcases List.mem_cons.1 hx with rfl | hx
          · exact hpa
          · exact hpa.trans (h2 a.1 rfl x hx)

theorem uniq_ids (prev : Option ℤ) (l : List (ℤ × FitRow)) (i : ℤ) (hi : ∃ x ∈ l, x.1 = i) (hn : some i ≠ prev) :
    ∃ x ∈ uniqFirst prev l, x.1 = i := by
  induction l generalizing prev with
  | nil => simp at hi
  | cons a l ih =>
      obtain ⟨x, hx, rfl⟩ := hi
      simp only [uniqFirst]
      split_ifs with hc
      · rcases List.mem_cons.1 hx with rfl | hx
        · exact absurd hc hn
        · exact ih prev ⟨x, hx, rfl⟩ hn
      · by_cases hxa : x.1 = a.1
        · exact ⟨a, List.mem_cons_self, hxa.symm⟩
        · rcases List.mem_cons.1 hx with rfl | hx
          · exact absurd rfl hxa
          · obtain ⟨z, hz, he⟩ := ih (some a.1) ⟨x, hx, rfl⟩ (by simpa using hxa)
            exact ⟨z, List.mem_cons_of_mem _ hz, he⟩

/-- The result without cache: each station is fitted, a failed fit leaves zeros. -/
def fitted (e : CacheExt) (data : CacheMeta → ℤ → List ℝ) (c : Call) : List FitRow :=
  c.ids.map fun i => (e.fit c.par (data c.par i)).getD (zeroRow c.par.K)

theorem uncached (e : CacheExt) (data : CacheMeta → ℤ → List ℝ) (d : Disk) (c : Call) :
    fitStations e false d c.par c.ids (c.ids.map (data c.par)) = (.ok (fitted e data c), d) := by
  unfold fitStations
  rw [if_neg (by simp)]
  simp only [Bool.false_eq_true, if_false, Prod.mk.injEq, Except.ok.injEq, and_true]
  rw [List.zipWith_map_right, List.zipWith_self, List.map_map]
  unfold fitted
  refine List.map_congr_left fun i _ => ?_
  simp only [Function.comp, stationFit]
  rw [lookupLast_none.2 (by simp)]
  simp only
  cases e.fit c.par (data c.par i) <;> rfl

theorem stationFit_sound {e : CacheExt} {data : CacheMeta → ℤ → List ℝ} {m : CacheMeta} {known : List (ℤ × FitRow)}
    (hk : ∀ x ∈ known, e.fit m (data m x.1) = some x.2) (i : ℤ) :
    (stationFit e m known i (data m i)).1 = (e.fit m (data m i)).getD (zeroRow m.K) ∧
      (∀ x ∈ (stationFit e m known i (data m i)).2, x.1 = i ∧ e.fit m (data m x.1) = some x.2) ∧
      ((stationFit e m known i (data m i)).2 ≠ [] ∨ (∃ x ∈ known, x.1 = i) ∨ e.fit m (data m i) = none) := by
  unfold stationFit
  cases hl : lookupLast known i with
  | some r =>
      have := lookupLast_mem hl
      refine ⟨by rw [hk _ this]; rfl, by simp, Or.inr (Or.inl ⟨_, this, rfl⟩)⟩
  | none =>
      cases hf : e.fit m (data m i) with
      | none => simp
      | some r => exact ⟨rfl, by simp [hf], Or.inl (by simp)⟩

/-- One call on a sound directory: the rows are those of the fits, and the directory stays sound; the file of the call then holds
exactly the ids of before and the stations whose fit succeeds. -/
theorem call_sound (e : CacheExt) (hs : SortContract e) (data : CacheMeta → ℤ → List ℝ) (M : Set CacheMeta)
    (hp : Set.InjOn e.path M) (d : Disk) (hd : Sound e data M d) (c : Call) (hc : c.par ∈ M) :
    (fitStations e true d c.par c.ids (c.ids.map (data c.par))).1 = .ok (fitted e data c) ∧
      Sound e data M (fitStations e true d c.par c.ids (c.ids.map (data c.par))).2 ∧
      ∀ i, (∃ f, (fitStations e true d c.par c.ids (c.ids.map (data c.par))).2 (e.path c.par) = some f ∧ ∃ x ∈ f.entries, x.1 = i) ↔
        (∃ f, d (e.path c.par) = some f ∧ ∃ x ∈ f.entries, x.1 = i) ∨ (i ∈ c.ids ∧ e.fit c.par (data c.par i) ≠ none) := by
  have hstart : useCache c.par (d (e.path c.par)) = (d (e.path c.par), ((d (e.path c.par)).map (·.entries)).getD []) := by
    unfold useCache
    cases hf : d (e.path c.par) with
    | none => rfl
    | some f =>
        obtain ⟨h1, h2, -, -⟩ := hd c.par hc f hf
        simp [h1, h2]
  set known := ((d (e.path c.par)).map (·.entries)).getD [] with hkn
  have hk : ∀ x ∈ known, e.fit c.par (data c.par x.1) = some x.2 := by
    intro x hx
    rw [hkn] at hx
    cases hf : d (e.path c.par) with
    | none => simp [hf] at hx
    | some f => rw [hf] at hx; exact (hd c.par hc f hf).2.2.2 x hx
  have hmem : ∀ i, (∃ x ∈ known, x.1 = i) ↔ ∃ f, d (e.path c.par) = some f ∧ ∃ x ∈ f.entries, x.1 = i := by
    intro i
    rw [hkn]
    cases hf : d (e.path c.par) <;> simp
  set out := List.zipWith (stationFit e c.par known) c.ids (c.ids.map (data c.par)) with hout
  have hout' : out = c.ids.map fun i => stationFit e c.par known i (data c.par i) := by
    rw [hout, List.zipWith_map_right, List.zipWith_self]
  set added := (out.map (·.2)).flatten with hadd
  have hrows : out.map (·.1) = fitted e data c := by
    rw [hout', List.map_map]
    exact List.map_congr_left fun i _ => (stationFit_sound hk i).1
  have ha : ∀ x ∈ added, x.1 ∈ c.ids ∧ e.fit c.par (data c.par x.1) = some x.2 := by
    intro x hx
    rw [hadd, List.mem_flatten] at hx
    obtain ⟨l, hl, hxl⟩ := hx
    obtain ⟨o, ho, rfl⟩ := List.mem_map.1 hl
    rw [hout'] at ho
    obtain ⟨i, hi, rfl⟩ := List.mem_map.1 ho
    have := (stationFit_sound hk i).2.1 x hxl
    exact ⟨this.1 ▸ hi, this.2⟩
  have ha2 : ∀ i ∈ c.ids, e.fit c.par (data c.par i) ≠ none → (∃ x ∈ added, x.1 = i) ∨ ∃ x ∈ known, x.1 = i := by
    intro i hi hf
    rcases (stationFit_sound hk i).2.2 with h | h | h
    · left
      obtain ⟨x, hx⟩ := List.exists_mem_of_ne_nil _ h
      refine ⟨x, ?_, ((stationFit_sound hk i).2.1 x hx).1⟩
      rw [hadd, hout', List.mem_flatten]
      exact ⟨_, List.mem_map.2 ⟨_, List.mem_map.2 ⟨i, hi, rfl⟩, rfl⟩, hx⟩
    · exact Or.inr h
    · exact absurd h hf
  have hids : ∀ i, ((∃ x ∈ known ++ added, x.1 = i) ↔
      (∃ f, d (e.path c.par) = some f ∧ ∃ x ∈ f.entries, x.1 = i) ∨ (i ∈ c.ids ∧ e.fit c.par (data c.par i) ≠ none)) := by
    intro i
    rw [← hmem]
    constructor
    · rintro ⟨x, hx, rfl⟩
      rcases List.mem_append.1 hx with h | h
      · exact Or.inl ⟨x, h, rfl⟩
      · exact Or.inr ⟨(ha x h).1, by rw [(ha x h).2]; simp⟩
    · rintro (⟨x, hx, rfl⟩ | ⟨hi, hf⟩)
      · exact ⟨x, List.mem_append_left _ hx, rfl⟩
      · rcases ha2 i hi hf with ⟨x, hx, rfl⟩ | ⟨x, hx, rfl⟩
        · exact ⟨x, List.mem_append_right _ hx, rfl⟩
        · exact ⟨x, List.mem_append_left _ hx, rfl⟩
  -- the file written
  have hfile : ∀ l : List (ℤ × FitRow), (∀ x ∈ l, e.fit c.par (data c.par x.1) = some x.2) →
      Sound e data M (fun p => if p = e.path c.par then some ⟨c.par, c.par.K, uniqFirst none (e.sort l)⟩ else d p) ∧
      ∀ i, (∃ x ∈ uniqFirst none (e.sort l), x.1 = i) ↔ ∃ x ∈ l, x.1 = i := by
    intro l hl
    refine ⟨?_, ?_⟩
    · intro m hmM f hf
      simp only at hf
      split_ifs at hf with hm
      · obtain rfl := hp hmM hc hm
        cases hf
        refine ⟨rfl, rfl, (uniq_strict none _ (hs l).2 (by simp)).1, ?_⟩
        intro x hx
        exact hl x ((hs l).1.mem_iff.1 ((uniq_sub _ _).mem hx))
      · exact hd m hmM f hf
    · intro i
      constructor
      · rintro ⟨x, hx, rfl⟩
        exact ⟨x, (hs l).1.mem_iff.1 ((uniq_sub _ _).mem hx), rfl⟩
      · rintro ⟨x, hx, rfl⟩
        exact uniq_ids none _ _ ⟨x, (hs l).1.mem_iff.2 hx, rfl⟩ (by simp)
  have hall : ∀ x ∈ known ++ added, e.fit c.par (data c.par x.1) = some x.2 := by
    intro x hx
    rcases List.mem_append.1 hx with h | h
    · exact hk x h
    · exact (ha x h).2
  unfold fitStations
  rw [if_neg (by simp)]
  simp only [if_true, hstart]
  rw [← hout, ← hadd]
  cases hf : d (e.path c.par) with
  | none =>
      have hk0 : known = [] := by rw [hkn, hf]; rfl
      simp only [mergeCache]
      by_cases h0 : added = []
      · rw [if_pos h0]
        simp only [hrows, true_and]
        refine ⟨hd, fun i => ?_⟩
        rw [hf] at hids ⊢
        rw [← hids, hk0, h0]
        simp
      · rw [if_neg h0]
        simp only [hrows, true_and]
        rw [hk0, List.nil_append] at hids hall
        obtain ⟨h1, h2⟩ := hfile added hall
        refine ⟨h1, fun i => ?_⟩
        rw [hf] at hids
        rw [← hids, ← h2]
        simp
  | some f =>
      have hk0 : known = f.entries := by rw [hkn, hf]; rfl
      obtain ⟨-, hwid, -, -⟩ := hd c.par hc f hf
      simp only [mergeCache]
      rw [hf] at hids
      by_cases h0 : added = []
      · rw [if_pos h0]
        simp only [hrows, true_and]
        rw [h0, List.append_nil] at hids hall
        rw [hk0] at hids hall
        obtain ⟨h1, h2⟩ := hfile f.entries hall
        rw [hwid]
        refine ⟨h1, fun i => ?_⟩
        rw [← hids, ← h2]
        simp
      · rw [if_neg h0, if_neg (by rw [hwid]; simp)]
        simp only [hrows, true_and]
        rw [hk0] at hids hall
        obtain ⟨h1, h2⟩ := hfile _ hall
        refine ⟨h1, fun i => ?_⟩
        rw [← hids, ← h2]
        simp

/-- The parameters of the calls. -/
def params (calls : List Call) : Set CacheMeta := {m | ∃ c ∈ calls, c.par = m}

theorem history_sound (e : CacheExt) (hs : SortContract e) (data : CacheMeta → ℤ → List ℝ) (M : Set CacheMeta)
    (hp : Set.InjOn e.path M) (calls : List Call) (hc : ∀ c ∈ calls, c.par ∈ M) (d : Disk) (hd : Sound e data M d) :
    (history e data d calls).1 = calls.map (fun c => .ok (fitted e data c)) ∧ Sound e data M (history e data d calls).2 ∧
      ∀ m ∈ M, ∀ i, ((∃ f, (history e data d calls).2 (e.path m) = some f ∧ ∃ x ∈ f.entries, x.1 = i) ↔
        (∃ f, d (e.path m) = some f ∧ ∃ x ∈ f.entries, x.1 = i) ∨
          ((∃ c ∈ calls, c.par = m ∧ i ∈ c.ids) ∧ e.fit m (data m i) ≠ none)) := by
  induction calls generalizing d with
  | nil => exact ⟨rfl, hd, by simp [history]⟩
  | cons c cs ih =>
      have hcM := hc c List.mem_cons_self
      obtain ⟨h1, h2, h3⟩ := call_sound e hs data M hp d hd c hcM
      obtain ⟨i1, i2, i3⟩ := ih (fun c' h => hc c' (List.mem_cons_of_mem _ h)) _ h2
      refine ⟨by simp only [history, List.map_cons, h1, i1], i2, ?_⟩
      intro m hmM i
      simp only [history]
      rw [i3 m hmM i]
      by_cases hm : c.par = m
      · subst hm
        rw [h3]
        simp only [List.mem_cons, exists_eq_or_imp, true_and]
        rw [or_assoc, ← or_and_right]
      · have : (fitStations e true d c.par c.ids (c.ids.map (data c.par))).2 (e.path m) = d (e.path m) := by
          unfold fitStations
          rw [if_neg (by simp)]
          simp only [if_true]
          cases mergeCache e c.par (useCache c.par (d (e.path c.par))).1
            ((List.zipWith (stationFit e c.par (useCache c.par (d (e.path c.par))).2) c.ids (c.ids.map (data c.par))).map (·.2)).flatten with
          | error s => rfl
          | ok o =>
              cases o with
              | none => rfl
              | some f =>
                  simp only
                  rw [if_neg fun h => hm (hp hmM hcM h).symm]
        rw [this]
        simp only [List.mem_cons, exists_eq_or_imp, hm, false_and, false_or]

/-- In every history of calls that starts with an empty directory, each call returns what it would return without cache, provided
that the file names of the parameters in use do not collide. -/
theorem C114_transparent (e : CacheExt) (hs : SortContract e) (data : CacheMeta → ℤ → List ℝ) (calls : List Call)
    (hp : Set.InjOn e.path (params calls)) :
    (history e data (fun _ => none) calls).1 = calls.map fun c => (fitStations e false (fun _ => none) c.par c.ids (c.ids.map (data c.par))).1 := by
  simp only [uncached]
  exact (history_sound e hs data _ hp calls (fun c h => ⟨c, h, rfl⟩) _ (by intro m _ c h; simp at h)).1

/-- In every such history the files stay sound; in particular ids are strictly increasing and no failed fit is stored. -/
theorem C114_files (e : CacheExt) (hs : SortContract e) (data : CacheMeta → ℤ → List ℝ) (calls : List Call)
    (hp : Set.InjOn e.path (params calls)) : Sound e data (params calls) (history e data (fun _ => none) calls).2 :=
  (history_sound e hs data _ hp calls (fun c h => ⟨c, h, rfl⟩) _ (by intro m _ c h; simp at h)).2.1

/-- A station is stored exactly when a call asked for it and its fit succeeded: nothing is lost, failures are tried again. -/
theorem C114_stored (e : CacheExt) (hs : SortContract e) (data : CacheMeta → ℤ → List ℝ) (calls : List Call)
    (hp : Set.InjOn e.path (params calls)) (m : CacheMeta) (hm : m ∈ params calls) (i : ℤ) :
    (∃ f, (history e data (fun _ => none) calls).2 (e.path m) = some f ∧ ∃ x ∈ f.entries, x.1 = i) ↔
      (∃ c ∈ calls, c.par = m ∧ i ∈ c.ids) ∧ e.fit m (data m i) ≠ none := by
  rw [(history_sound e hs data _ hp calls (fun c h => ⟨c, h, rfl⟩) _ (by intro m _ c h; simp at h)).2.2 m hm i]
  simp

/-- Stations found in the file are not fitted again: the result does not depend on the fit function, nor on the series. -/
theorem C114_hit (e e' : CacheExt) (he : e'.path = e.path) (d : Disk) (m : CacheMeta) (f : CacheFile) (hf : d (e.path m) = some f)
    (h1 : f.stamp = m) (h2 : f.width = m.K) (ids : List ℤ) (hi : ∀ i ∈ ids, ∃ x ∈ f.entries, x.1 = i) (s s' : List (List ℝ))
    (hs : s.length = ids.length) (hs' : s'.length = ids.length) :
    ∃ rows, (fitStations e true d m ids s).1 = .ok rows ∧ (fitStations e' true d m ids s').1 = .ok rows := by
  have hstart : ∀ g : CacheExt, g.path = e.path → useCache m (d (g.path m)) = (some f, f.entries) := by
    intro g hg
    rw [hg, hf]
    simp [useCache, h1, h2]
  have hst : ∀ (g : CacheExt) (i : ℤ) (y : List ℝ), i ∈ ids → ∃ r, lookupLast f.entries i = some r ∧ stationFit g m f.entries i y = (r, []) := by
    intro g i y hii
    obtain ⟨x, hx, hxi⟩ := hi i hii
    cases hl : lookupLast f.entries i with
    | none => exact absurd hxi (lookupLast_none.1 hl x hx)
    | some r => exact ⟨r, rfl, by simp [stationFit, hl]⟩
  have hz : ∀ (g : CacheExt) (ids' : List ℤ) (s : List (List ℝ)), (∀ i ∈ ids', i ∈ ids) → s.length = ids'.length →
      List.zipWith (stationFit g m f.entries) ids' s = ids'.map fun i => ((lookupLast f.entries i).getD (zeroRow 0), []) := by
    intro g ids'
    induction ids' with
    | nil => intro s _ _; simp
    | cons i l ih =>
        intro s hsub hlen
        cases s with
        | nil => simp at hlen
        | cons y s =>
            obtain ⟨r, hr, hq⟩ := hst g i y (hsub i List.mem_cons_self)
            rw [List.zipWith_cons_cons, List.map_cons, hq, hr, ih s (fun j hj => hsub j (List.mem_cons_of_mem _ hj)) (by simpa using hlen)]
            rfl
  have hres : ∀ (g : CacheExt) (s : List (List ℝ)), g.path = e.path → s.length = ids.length →
      (fitStations g true d m ids s).1 = .ok (ids.map fun i => (lookupLast f.entries i).getD (zeroRow 0)) := by
    intro g s hg hlen
    unfold fitStations
    rw [if_neg (by simp [hlen])]
    simp only [if_true, hstart g hg, hz g ids s (fun _ h => h) hlen]
    have hflat : ((ids.map fun i => (((lookupLast f.entries i).getD (zeroRow 0), []) : FitRow × List (ℤ × FitRow))).map (·.2)).flatten = [] := by
      rw [List.flatten_eq_nil_iff]
      intro l hl
      simp only [List.map_map, List.mem_map, Function.comp] at hl
      obtain ⟨_, _, rfl⟩ := hl
      rfl
    rw [hflat]
    simp only [mergeCache, if_true, List.map_map]
    rfl
  exact ⟨_, hres e s rfl hs, hres e' s' he hs'⟩

/-! ### where the cache is not transparent -/

/-- A failed fit is not reported: the caller receives a row of zeros, with zero variances. -/
theorem C114_failed_violated (e : CacheExt) (d : Disk) (m : CacheMeta) (i : ℤ) (y : List ℝ) (h : e.fit m y = none) :
    (fitStations e false d m [i] [y]).1 = .ok [(List.replicate m.K 0, List.replicate m.K 0)] := by
  unfold fitStations
  rw [if_neg (by simp)]
  simp [stationFit, lookupLast, h, zeroRow]

/-- A directory with one file. -/
def oneFile (p : String) (f : CacheFile) : Disk := fun q => if q = p then some f else none

/-- The series are not part of the key: with the data file unchanged, other series for a stored station are ignored. -/
theorem C114_series_violated (e : CacheExt) (hs : SortContract e) (m : CacheMeta) (i : ℤ) (y y' : List ℝ) (r r' : FitRow)
    (hy : e.fit m y = some r) (hy' : e.fit m y' = some r') (hne : r ≠ r') :
    (fitStations e true (fitStations e true (fun _ => none) m [i] [y]).2 m [i] [y']).1 = .ok [r] ∧
      (fitStations e false (fun _ => none) m [i] [y']).1 = .ok [r'] ∧ [r] ≠ [r'] := by
  have hsort : e.sort [(i, r)] = [(i, r)] := List.perm_singleton.1 (hs [(i, r)]).1
  refine ⟨?_, ?_, by simpa using hne⟩
  · have h1 : (fitStations e true (fun _ => none) m [i] [y]).2 (e.path m) = some ⟨m, m.K, [(i, r)]⟩ := by
      simp [fitStations, useCache, stationFit, lookupLast, hy, mergeCache, hsort, uniqFirst]
    generalize (fitStations e true (fun _ => none) m [i] [y]).2 = d2 at h1
    simp [fitStations, h1, useCache, stationFit, lookupLast, mergeCache]
  · simp [fitStations, stationFit, lookupLast, hy']

/-- A file with other parameters under the same name (the name holds 12 digits of the hash) is recognised, but its rows are kept
and stamped with the new parameters: the call after next returns the fit for the other parameters. -/
theorem C114_stamp_violated (e : CacheExt) (hs : SortContract e) (m m' : CacheMeta) (hm : m' ≠ m) (hK : m'.K = m.K) (i j : ℤ)
    (hij : i < j) (y : List ℝ) (r r' : FitRow) (ri : FitRow) (hy : e.fit m y = some r) (hne : ri ≠ r') (y' : List ℝ)
    (hy' : e.fit m y' = some r') :
    let d := oneFile (e.path m) ⟨m', m'.K, [(i, ri)]⟩
    (fitStations e true d m [i] [y']).1 = .ok [r'] ∧
      (fitStations e true (fitStations e true d m [j] [y]).2 m [i] [y']).1 = .ok [ri] ∧ [ri] ≠ [r'] := by
  intro d
  have hsort : e.sort [(i, ri), (j, r)] = [(i, ri), (j, r)] := by
    refine List.Perm.eq_of_pairwise (le := fun a b => a.1 ≤ b.1) ?_ (hs _).2 (by simp [hij.le]) (hs _).1
    intro a b ha hb h1 h2
    have ha' := (hs _).1.mem_iff.1 ha
    simp only [List.mem_cons, List.not_mem_nil, or_false] at ha' hb
    rcases ha' with rfl | rfl <;> rcases hb with rfl | rfl <;> first | rfl | (simp only at h1 h2; omega)
  have hd : d (e.path m) = some ⟨m', m'.K, [(i, ri)]⟩ := by simp [d, oneFile]
  have h1 : (fitStations e true d m [j] [y]).2 (e.path m) = some ⟨m, m.K, [(i, ri), (j, r)]⟩ := by
    simp [fitStations, hd, useCache, hm, stationFit, lookupLast, hy, mergeCache, hK, hsort, uniqFirst, hij.ne']
  refine ⟨?_, ?_, by simpa using hne⟩
  · simp [fitStations, hd, useCache, hm, stationFit, lookupLast, hy', mergeCache, hK]
  · generalize (fitStations e true d m [j] [y]).2 = d2 at h1
    have : (decide (j = i)) = false := by simp [hij.ne']
    simp [fitStations, h1, useCache, stationFit, lookupLast, mergeCache, this]

/-! ### examples -/

/-- Sorting by id; the fit reports the sum of the series and fails on an empty one; two file names. -/
noncomputable def exCacheExt : CacheExt where
  path m := if m.K = 2 then "2.npz" else "3.npz"
  fit m y := if y = [] then none else some (List.replicate m.K y.sum, List.replicate m.K 1)
  sort l := l.mergeSort fun a b => decide (a.1 ≤ b.1)

theorem exCacheExt_sort : SortContract exCacheExt := fun l =>
  ⟨List.mergeSort_perm _ _, (List.pairwise_mergeSort (fun a b c h1 h2 => by simp only [decide_eq_true_eq] at *; exact h1.trans h2)
      (fun a b => by simp only [Bool.or_eq_true, decide_eq_true_eq]; exact le_total a.1 b.1) l).imp fun h => of_decide_eq_true h⟩

/-- Two parameter sets, three calls, overlapping stations, one failing. -/
example :
    let m1 : CacheMeta := ⟨"a", 1, 1, 2, 100, 1⟩
    let m2 : CacheMeta := ⟨"a", 1, 1, 3, 100, 1⟩
    let data : CacheMeta → ℤ → List ℝ := fun _ i => if i = 7 then [] else [(i : ℝ)]
    (history exCacheExt data (fun _ => none) [⟨m1, [2, 1, 7]⟩, ⟨m2, [1]⟩, ⟨m1, [3, 1, 7, 1]⟩]).1.length = 3 ∧
      (history exCacheExt data (fun _ => none) [⟨m1, [2, 1, 7]⟩, ⟨m2, [1]⟩, ⟨m1, [3, 1, 7, 1]⟩]).1
        = [⟨m1, [2, 1, 7]⟩, ⟨m2, [1]⟩, ⟨m1, [3, 1, 7, 1]⟩].map fun c : Call =>
          (fitStations exCacheExt false (fun _ => none) c.par c.ids (c.ids.map (data c.par))).1 := by
  intro m1 m2 data
  have h := C114_transparent exCacheExt exCacheExt_sort data [⟨m1, [2, 1, 7]⟩, ⟨m2, [1]⟩, ⟨m1, [3, 1, 7, 1]⟩] (by
    rintro a ⟨c, hc, rfl⟩ b ⟨c', hc', rfl⟩ hab
    simp only [List.mem_cons, List.not_mem_nil, or_false] at hc hc'
    rcases hc with rfl | rfl | rfl <;> rcases hc' with rfl | rfl | rfl <;> first | rfl | (simp [exCacheExt, m1, m2] at hab))
  exact ⟨by rw [h]; rfl, h⟩

end Verif.Ggmp
