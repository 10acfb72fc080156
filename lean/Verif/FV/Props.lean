import Verif.FV.Lemmas
import Verif.State.UpdateProps
import Verif.GP.OrderProps

/-!
C61 (multi-task transform) and C62 (appending multi-task data).
-/

namespace Verif.FV

open Verif.GP Verif.State Verif.LinAlg

variable {α H : Type}

/-! ## C61 -/

theorem filterMap_some {β γ : Type} (g : β → Option γ) (l : List β) :
    (l.filterMap g).map some = (l.filter fun b => (g b).isSome).map g := by
  induction l with
  | nil => rfl
  | cons b l ih =>
    rw [List.filterMap_cons, List.filter_cons]
    cases hb : g b with
    | none => simp [ih]
    | some c => simp [ih, hb]

theorem point_isSome {nOut : ℕ} {d : MT α} (hf : d.Fits nOut) (j i : ℕ) :
    (d.point j i).isSome = (d.value j i).isSome := by
  unfold MT.point
  cases hv : d.value j i with
  | none => split <;> simp_all
  | some v =>
    have hj : j < d.x.length := by
      rw [hf.len]
      by_contra hcon
      rw [MT.value, List.getElem?_eq_none (not_lt.1 hcon)] at hv
      cases hv
    rw [List.getElem?_eq_getElem hj]
    rfl

theorem value_lt {nOut : ℕ} {d : MT α} (hf : d.Fits nOut) {j i : ℕ} (h : (d.value j i).isSome) :
    i < nOut ∧ j < d.x.length := by
  rw [hf.len]
  unfold MT.value at h
  by_cases hj : j < d.y.length
  · refine ⟨?_, hj⟩
    rw [List.getElem?_eq_getElem hj] at h
    by_contra hi
    rw [Option.bind_some, List.getElem?_eq_none (by rw [hf.rows _ (List.getElem_mem hj)]; omega)] at h
    cases h
  · rw [List.getElem?_eq_none (by omega)] at h
    cases h

theorem noiseAt_some {nOut : ℕ} {d : MT α} (hf : d.Fits nOut) {nv : List (List ℝ)} (hn : d.noise = some nv) {j i : ℕ}
    (hi : i < nOut) (hj : j < d.x.length) : d.noiseAt j i = some ((d.noiseAt j i).getD 0) := by
  obtain ⟨h1, h2⟩ := hf.noise nv hn
  have hjn : j < nv.length := by rw [h1, ← hf.len]; exact hj
  have hin : i < (nv[j]).length := by rw [h2 _ (List.getElem_mem hjn)]; exact hi
  simp only [MT.noiseAt, hn, Option.bind_some, List.getElem?_eq_getElem hjn, List.getElem?_eq_getElem hin,
    Option.getD_some]

/-- C61: the single-task view enumerates, without repetition, exactly the pairs (row, task) with an observed value;
its `k`-th point has the row's input with the task index appended, the observed value, and the noise variance of that
entry when noise variances are given. -/
theorem C61_exactly_observed (nOut : ℕ) (hpos : 0 < nOut) (d : MT α) (s : Data (α × ℕ))
    (h : transform nOut d = .ok s) :
    ∃ idx : List (ℕ × ℕ), idx.Nodup ∧ (∀ j i : ℕ, (j, i) ∈ idx ↔ ∃ v, d.value j i = some v) ∧
      s.x.length = idx.length ∧ s.y.length = idx.length ∧ s.cols = 1 ∧
      (d.noise = none → s.noiseVar = none) ∧
      (d.noise ≠ none → ∃ w : List ℝ, s.noiseVar = some w ∧ w.length = idx.length) ∧
      ∀ k j i : ℕ, idx[k]? = some (j, i) → ∃ a v, d.x[j]? = some a ∧ d.value j i = some v ∧
        s.x[k]? = some (a, i) ∧ s.y[k]? = some [v] ∧
        ∀ w : List ℝ, s.noiseVar = some w → ∃ σ : ℝ, d.noiseAt j i = some σ ∧ w[k]? = some σ := by
  unfold transform at h
  cases hp : points nOut d with
  | error e => rw [hp] at h; cases h
  | ok ps =>
  rw [hp] at h
  obtain rfl := Except.ok.inj h
  have hf := fits_of_ok hpos hp
  rw [points_eq hf, Except.ok.injEq] at hp
  set L := (indices nOut d.x.length).filter fun p => (d.point p.2 p.1).isSome with hL
  have hmap : ps.map some = L.map fun p => d.point p.2 p.1 := by
    rw [← hp]; exact filterMap_some _ _
  have hlen : ps.length = L.length := by simpa using congrArg List.length hmap
  refine ⟨L.map fun p => (p.2, p.1), ?_, ?_, ?_, ?_, rfl, ?_, ?_, ?_⟩
  · refine ((nodup_indices nOut d.x.length).filter _).map ?_
    rintro ⟨a, b⟩ ⟨c, e⟩ hab
    simp only [Prod.mk.injEq] at hab
    rw [hab.1, hab.2]
  · intro j i
    simp only [List.mem_map, Prod.mk.injEq, hL, List.mem_filter]
    constructor
    · rintro ⟨⟨i', j'⟩, ⟨-, h2⟩, rfl, rfl⟩
      rw [point_isSome hf] at h2
      exact Option.isSome_iff_exists.1 h2
    · rintro ⟨v, hv⟩
      have hs : (d.value j i).isSome := by rw [hv]; rfl
      exact ⟨(i, j), ⟨mem_indices.2 (value_lt hf hs), by rw [point_isSome hf]; exact hs⟩, rfl, rfl⟩
  · simp [arrays, hlen]
  · simp [arrays, hlen]
  · intro hn; simp [arrays, hn]
  · intro hn
    obtain ⟨nv, hnv⟩ := Option.ne_none_iff_exists'.1 hn
    exact ⟨ps.map fun p => p.v.getD 0, by simp [arrays, hnv], by simp [hlen]⟩
  · intro k j i hk
    rw [List.getElem?_map, Option.map_eq_some_iff] at hk
    obtain ⟨⟨i', j'⟩, hk, hji⟩ := hk
    simp only [Prod.mk.injEq] at hji
    obtain ⟨rfl, rfl⟩ := hji
    have hmem := List.mem_of_getElem? hk
    have hin := mem_indices.1 (List.mem_of_mem_filter hmem)
    have hk2 : (ps.map some)[k]? = some (d.point j' i') := by
      rw [hmap, List.getElem?_map, hk]; rfl
    rw [List.getElem?_map, Option.map_eq_some_iff] at hk2
    obtain ⟨p, hpk, hpp⟩ := hk2
    unfold MT.point at hpp
    split at hpp
    · rename_i a v ha hv
      obtain rfl := Option.some.inj hpp
      refine ⟨a, v, ha, hv, by simp [arrays, hpk], by simp [arrays, hpk], fun w hw => ?_⟩
      cases hn : d.noise with
      | none => simp [arrays, hn] at hw
      | some nv =>
        simp only [arrays, hn, Option.isSome_some, if_true, Option.some.injEq] at hw
        subst hw
        refine ⟨(d.noiseAt j' i').getD 0, noiseAt_some hf hn hin.1 hin.2, ?_⟩
        rw [List.getElem?_map, hpk, hn]
        rfl
    · cases hpp

/-- C61: the transform accepts exactly the data whose array shapes match. -/
theorem C61_accepts_iff (nOut : ℕ) (hpos : 0 < nOut) (d : MT α) : (∃ s, transform nOut d = .ok s) ↔ d.Fits nOut := by
  unfold transform
  constructor
  · rintro ⟨s, h⟩
    cases hp : points nOut d with
    | error e => rw [hp] at h; cases h
    | ok ps => exact fits_of_ok hpos hp
  · intro hf
    rw [points_eq hf]
    exact ⟨_, rfl⟩

/-- Three inputs, two tasks, two missing values. -/
noncomputable def exMT : MT ℝ where
  x := [1, 2, 3]
  width := 1
  y := [[some 5, none], [some 6, some 7], [none, some 8]]
  cols := 2
  noise := some [[1, 0], [1, 2], [0, 3]]
  noiseCols := 2

/-- The view of `exMT`: four points, task 0 first. -/
theorem exMT_view : transform 2 exMT = .ok ⟨[(1, 0), (2, 0), (2, 1), (3, 1)], [[5], [6], [7], [8]], 1,
    some [1, 1, 2, 3]⟩ := rfl

example : ∃ idx : List (ℕ × ℕ), idx.Nodup ∧ (∀ j i : ℕ, (j, i) ∈ idx ↔ ∃ v, exMT.value j i = some v) ∧ 4 = idx.length := by
  obtain ⟨idx, h1, h2, h3, -⟩ := C61_exactly_observed 2 (by norm_num) exMT _ exMT_view
  exact ⟨idx, h1, h2, h3⟩

/-! ## C62 -/

theorem arrays_append (b : Bool) (ps qs : List (Pt α)) : arrays b (ps ++ qs) =
    ⟨(arrays b ps).x ++ (arrays b qs).x, (arrays b ps).y ++ (arrays b qs).y, 1,
      match (arrays b ps).noiseVar, (arrays b qs).noiseVar with | some a, some c => some (a ++ c) | _, _ => none⟩ := by
  cases b <;> simp [arrays]

/-- `d'` holds the points of `d` in another order (specification). -/
def SamePoints (d d' : Data α) : Prop :=
  (∃ e, Reordered d d' e) ∧ d.noiseVar.isSome = d'.noiseVar.isSome

theorem samePoints_of_perm (b : Bool) {ps qs : List (Pt α)} (h : ps.Perm qs) : SamePoints (arrays b ps) (arrays b qs) := by
  obtain ⟨e, he⟩ := perm_equiv h
  have h1 : (arrays b ps).x.length = ps.length := by simp [arrays]
  have h2 : (arrays b qs).x.length = qs.length := by simp [arrays]
  refine ⟨⟨(finCongr h2).trans (e.trans (finCongr h1).symm), ?_, by simp [arrays], by simp [arrays], ?_, rfl, ?_⟩, ?_⟩
  · intro i
    have := he (finCongr h2 i)
    rw [Fin.getElem_fin, Fin.getElem_fin]
    simp only [arrays, List.getElem_map]
    exact congrArg Pt.x this
  · intro i
    have hi : (i : ℕ) < qs.length := h2 ▸ i.2
    have := congrArg (fun p => [p.y]) (he (finCongr h2 i))
    simp only [arrays, List.getD_eq_getElem?_getD, List.getElem?_map] at this ⊢
    rw [List.getElem?_eq_getElem hi, List.getElem?_eq_getElem (by exact (e (finCongr h2 i)).2)]
    exact this
  · intro nv hnv
    cases b with
    | false => cases hnv
    | true =>
      simp only [arrays, if_true, Option.some.injEq] at hnv
      subst hnv
      refine ⟨by simp [arrays], _, rfl, by simp [arrays], fun i => ?_⟩
      have hi : (i : ℕ) < qs.length := h2 ▸ i.2
      have := congrArg (fun p => p.v.getD 0) (he (finCongr h2 i))
      simp only [List.getD_eq_getElem?_getD, List.getElem?_map] at this ⊢
      rw [List.getElem?_eq_getElem hi, List.getElem?_eq_getElem (by exact (e (finCongr h2 i)).2)]
      exact this
  · cases b <;> rfl

theorem SamePoints.trans {d d' d'' : Data α} (h : SamePoints d d') (h' : SamePoints d' d'') : SamePoints d d'' := by
  obtain ⟨⟨e, r⟩, n⟩ := h
  obtain ⟨⟨e', r'⟩, n'⟩ := h'
  refine ⟨⟨e'.trans e, fun i => by rw [r'.x, r.x]; rfl, r.ylen, r'.ylen', fun i => by rw [r'.y, r.y]; rfl,
    r'.cols.trans r.cols, fun nv hnv => ?_⟩, n.trans n'⟩
  obtain ⟨h1, nv', hnv', h2, h3⟩ := r.noise nv hnv
  obtain ⟨-, nv'', hnv'', h4, h5⟩ := r'.noise nv' hnv'
  exact ⟨h1, nv'', hnv'', h4, fun i => by rw [h5, h3]; rfl⟩

/-- Appending the same data to two orderings of a data set. -/
theorem SamePoints.append {d d' t : Data α} (h : SamePoints d d') (hc : d.cols = 1) (hy : t.y.length = t.x.length)
    (hn : t.noiseVar.isSome = d.noiseVar.isSome) (hl : ∀ w, t.noiseVar = some w → w.length = t.x.length) :
    SamePoints
      ⟨d.x ++ t.x, d.y ++ t.y, 1, match d.noiseVar, t.noiseVar with | some a, some b => some (a ++ b) | _, _ => none⟩
      ⟨d'.x ++ t.x, d'.y ++ t.y, 1, match d'.noiseVar, t.noiseVar with | some a, some b => some (a ++ b) | _, _ => none⟩ := by
  obtain ⟨⟨e, r⟩, n⟩ := h
  have hl1 : (d'.x ++ t.x).length = d'.x.length + t.x.length := List.length_append
  have hl2 : (d.x ++ t.x).length = d.x.length + t.x.length := List.length_append
  let E : Fin (d'.x ++ t.x).length ≃ Fin (d.x ++ t.x).length :=
    (finCongr hl1).trans (finSumFinEquiv.symm.trans ((Equiv.sumCongr e (Equiv.refl _)).trans
      (finSumFinEquiv.trans (finCongr hl2).symm)))
  have key : ∀ (i : Fin (d'.x ++ t.x).length), (∃ k : Fin d'.x.length, (i : ℕ) = k ∧ (E i : ℕ) = e k) ∨
      (∃ k : Fin t.x.length, (i : ℕ) = d'.x.length + k ∧ (E i : ℕ) = d.x.length + k) := by
    intro i
    obtain ⟨j, hj⟩ : ∃ j, finSumFinEquiv.symm (finCongr hl1 i) = j := ⟨_, rfl⟩
    have hi : finCongr hl1 i = finSumFinEquiv j := by rw [← hj]; simp
    have hE : E i = (finCongr hl2).symm (finSumFinEquiv ((Equiv.sumCongr e (Equiv.refl _)) j)) := by
      simp only [E, Equiv.trans_apply, hj]
    have hi' : (i : ℕ) = (finSumFinEquiv j : Fin _) := by rw [← hi]; rfl
    cases j with
    | inl k => exact .inl ⟨k, by rw [hi']; simp, by rw [hE]; simp⟩
    | inr k => exact .inr ⟨k, by rw [hi']; simp, by rw [hE]; simp⟩
  have hle := r.length_eq
  refine ⟨⟨E, fun i => ?_, ?_, ?_, fun i => ?_, rfl, ?_⟩, ?_⟩
  · simp only [Fin.getElem_fin]
    rcases key i with ⟨k, h1, h2⟩ | ⟨k, h1, h2⟩
    · simp only [h1, h2]
      rw [List.getElem_append_left k.2, List.getElem_append_left (e k).2]
      exact r.x k
    · simp only [h1, h2]
      rw [List.getElem_append_right (by omega), List.getElem_append_right (by omega)]
      simp
  · simp [r.ylen, hy]
  · simp [r.ylen', hy]
  · simp only
    rcases key i with ⟨k, h1, h2⟩ | ⟨k, h1, h2⟩
    · rw [h1, h2, List.getD_append _ _ _ _ (by rw [r.ylen']; exact k.2), List.getD_append _ _ _ _ (by rw [r.ylen]; exact (e k).2)]
      exact r.y k
    · rw [h1, h2, List.getD_append_right _ _ _ _ (by rw [r.ylen']; omega),
        List.getD_append_right _ _ _ _ (by rw [r.ylen]; omega), r.ylen, r.ylen']
      simp
  · intro nv hnv
    simp only at hnv
    cases hd : d.noiseVar with
    | none => rw [hd] at hnv; cases hnv
    | some a =>
      cases ht : t.noiseVar with
      | none => rw [hd, ht] at hnv; cases hnv
      | some b =>
        rw [hd, ht] at hnv
        obtain rfl := Option.some.inj hnv
        obtain ⟨h1, a', ha', h2, h3⟩ := r.noise a hd
        have hb := hl b ht
        refine ⟨by simp [h1, hb], a' ++ b, by simp [ha'], by simp [h2, hb], fun i => ?_⟩
        rcases key i with ⟨k, g1, g2⟩ | ⟨k, g1, g2⟩
        · rw [g1, g2, List.getD_append _ _ _ _ (by rw [h2]; exact k.2), List.getD_append _ _ _ _ (by rw [h1]; exact (e k).2)]
          exact h3 k
        · rw [g1, g2, List.getD_append_right _ _ _ _ (by rw [h2]; omega),
            List.getD_append_right _ _ _ _ (by rw [h1]; omega), h1, h2]
          simp
  · simp only
    cases hd : d.noiseVar <;> cases hd' : d'.noiseVar <;> cases ht : t.noiseVar <;> simp_all

theorem stack_spec {eu : Bool} {d u w : MT α} (h : stack eu d u = some w) :
    w.x = d.x ++ u.x ∧ w.y = d.y ++ u.y ∧ w.cols = d.cols ∧ w.width = d.width ∧ u.cols = d.cols ∧
      (eu = true → u.width = d.width) ∧
      (d.noise.isSome = u.noise.isSome →
        (∃ a b, d.noise = some a ∧ u.noise = some b ∧ w.noise = some (a ++ b)) ∨
        (d.noise = none ∧ u.noise = none ∧ w.noise = none)) := by
  unfold stack at h
  simp only at h
  split at h
  · cases h
  rename_i nv hnv
  split at h
  · cases h
  rename_i hw
  split at h
  · cases h
  rename_i hc
  obtain rfl := Option.some.inj h
  refine ⟨rfl, rfl, rfl, rfl, ?_, ?_, ?_⟩
  · exact (not_not.1 hc).symm
  · intro heu
    by_contra hne
    exact hw ⟨heu, fun h => hne h.symm⟩
  · intro hs
    cases hd : d.noise <;> cases hu : u.noise <;> simp [hd, hu] at hs hnv ⊢
    · exact hnv.symm
    · exact hnv.2.symm

theorem transform_ok {nOut : ℕ} {d : MT α} {s : Data (α × ℕ)} (hpos : 0 < nOut) (h : transform nOut d = .ok s) :
    d.Fits nOut ∧ s = arrays d.noise.isSome ((indices nOut d.x.length).filterMap fun p => d.point p.2 p.1) := by
  have hf := (C61_accepts_iff nOut hpos d).1 ⟨s, h⟩
  refine ⟨hf, ?_⟩
  rw [transform, points_eq hf] at h
  exact (Except.ok.inj h).symm

/-- C62: the view of stacked data consists of the views of the two parts, up to order. -/
theorem C62_view_of_stack (nOut : ℕ) (hpos : 0 < nOut) (eu : Bool) (d u w : MT α) (s t : Data (α × ℕ))
    (hs : transform nOut d = .ok s) (ht : transform nOut u = .ok t) (hw : stack eu d u = some w)
    (hn : d.noise.isSome = u.noise.isSome) :
    ∃ r, transform nOut w = .ok r ∧ SamePoints ⟨s.x ++ t.x, s.y ++ t.y, 1,
      match s.noiseVar, t.noiseVar with | some a, some b => some (a ++ b) | _, _ => none⟩ r := by
  obtain ⟨hfd, rfl⟩ := transform_ok hpos hs
  obtain ⟨hfu, rfl⟩ := transform_ok hpos ht
  obtain ⟨hx, hy, -, -, -, -, hnoise⟩ := stack_spec hw
  have hno := hnoise hn
  have hfw : w.Fits nOut := by
    refine ⟨by rw [hx, hy]; simp [hfd.len, hfu.len], fun r hr => ?_, fun nv hnv => ?_⟩
    · rw [hy, List.mem_append] at hr
      exact hr.elim (hfd.rows r) (hfu.rows r)
    · rcases hno with ⟨a, b, ha, hb, hab⟩ | ⟨-, -, h0⟩
      · rw [hab] at hnv
        obtain rfl := Option.some.inj hnv
        obtain ⟨h1, h2⟩ := hfd.noise a ha
        obtain ⟨h3, h4⟩ := hfu.noise b hb
        refine ⟨by rw [hy]; simp [h1, h3], fun r hr => ?_⟩
        rw [List.mem_append] at hr
        exact hr.elim (h2 r) (h4 r)
      · rw [h0] at hnv; cases hnv
  refine ⟨arrays w.noise.isSome ((indices nOut w.x.length).filterMap fun p => w.point p.2 p.1),
    by rw [transform, points_eq hfw], ?_⟩
  have hws : w.noise.isSome = d.noise.isSome := by
    rcases hno with ⟨a, b, ha, hb, hab⟩ | ⟨ha, hb, h0⟩
    · rw [ha, hab]; rfl
    · rw [ha, h0]
  rw [← hn, hws]
  have := samePoints_of_perm d.noise.isSome (points_append hfd hx hy hno)
  rw [arrays_append] at this
  exact this

/-- Public operations on an `fvGP`. -/
inductive Op (α H : Type) where
  | setHps (h : H)
  | update (u : MT α) (append : Bool) (rankN : Option Bool)

/-- One operation. -/
noncomputable def apply (o : Obj α H) : Op α H → Obj α H × Except String Unit
  | .setHps h => match setHyperparameters o.gp h with | (g, r) => ({ o with gp := g }, r)
  | .update u a r => update o u a r

/-- A sequence of operations, stopping at the first exception. -/
noncomputable def run (o : Obj α H) : List (Op α H) → Obj α H × Except String Unit
  | [] => (o, .ok ())
  | op :: ops =>
    match apply o op with
    | (o', .ok ()) => run o' ops
    | (o', .error e) => (o', .error e)

/-- The multi-task data after a sequence of operations, by specification. -/
def specMT (d : MT α) : List (Op α H) → MT α
  | [] => d
  | .setHps _ :: ops => specMT d ops
  | .update u a _ :: ops =>
      specMT (if a then ⟨d.x ++ u.x, d.width, d.y ++ u.y, d.cols,
        match d.noise, u.noise with | some v, some w => some (v ++ w) | _, _ => none, d.noiseCols⟩ else u) ops

/-- The stored single-task data are the view of the stored multi-task data up to order. -/
def Viewed (o : Obj α H) : Prop :=
  0 < o.nOut ∧ ∃ s, transform o.nOut o.mt = .ok s ∧ SamePoints o.gp.data.cur s

theorem arrays_noise {nOut : ℕ} {d : MT α} {s : Data (α × ℕ)} (hpos : 0 < nOut) (h : transform nOut d = .ok s) :
    s.noiseVar.isSome = d.noise.isSome ∧ s.cols = 1 ∧ s.y.length = s.x.length ∧
      ∀ w, s.noiseVar = some w → w.length = s.x.length := by
  obtain ⟨-, rfl⟩ := transform_ok hpos h
  refine ⟨?_, rfl, by simp [arrays], fun w hw => ?_⟩
  · cases d.noise <;> rfl
  · cases hn : d.noise with
    | none => simp [arrays, hn] at hw
    | some nv =>
      simp only [arrays, hn, Option.isSome_some, if_true, Option.some.injEq] at hw
      rw [← hw]; simp [arrays]

/-- What a successful update does. -/
theorem update_success {o o' : Obj α H} {u : MT α} {a : Bool} {r : Option Bool} (hv : Viewed o)
    (h : update o u a r = (o', .ok ())) :
    o'.nOut = o.nOut ∧ Viewed o' ∧ o'.mt = specMT o.mt [Op.update (H := H) u a r] ∧
      ∃ t, transform o.nOut u = .ok t ∧
        updateGpData o.gp ⟨t.x, u.width + 1, t.y, t.cols, t.noiseVar, false, a, r⟩ = (o'.gp, .ok ()) := by
  obtain ⟨hpos, s, hs, hsame⟩ := hv
  unfold update at h
  split at h
  · simp at h
  split at h
  · simp at h
  rename_i mt hmt
  simp only at h
  split at h
  · simp at h
  rename_i t ht
  split at h
  · simp at h
  rcases hg : updateGpData o.gp ⟨t.x, u.width + 1, t.y, t.cols, t.noiseVar, false, a, r⟩ with ⟨g, res⟩
  rw [hg] at h
  simp only [Prod.mk.injEq] at h
  obtain ⟨rfl, rfl⟩ := h
  obtain ⟨-, hud, -⟩ := updateGpData_success hg
  obtain ⟨hcur, -, hns, -⟩ := updateData_success hud
  simp only at hns
  obtain ⟨n1, n2, n3, n4⟩ := arrays_noise hpos ht
  obtain ⟨m1, m2, m3, m4⟩ := arrays_noise hpos hs
  have hmn : o.mt.noise.isSome = u.noise.isSome := by
    rw [← m1, ← hsame.2, ← hns, n1]
  cases a with
  | false =>
    simp only [Bool.false_eq_true, if_false, Option.some.injEq] at hmt
    subst hmt
    refine ⟨rfl, ⟨hpos, t, ht, ?_⟩, rfl, t, ht, hg⟩
    show SamePoints g.data.cur t
    rw [hcur]
    obtain ⟨-, rfl⟩ := transform_ok hpos ht
    exact samePoints_of_perm _ (List.Perm.refl _)
  | true =>
    simp only [if_true] at hmt
    obtain ⟨w, hw, hsp⟩ := C62_view_of_stack o.nOut hpos _ o.mt u mt s t hs ht hmt hmn
    obtain ⟨q1, q2, q3, q4, -, -, q7⟩ := stack_spec hmt
    refine ⟨rfl, ⟨hpos, w, hw, ?_⟩, ?_, t, ht, hg⟩
    · show SamePoints g.data.cur w
      have hc1 : o.gp.data.cur.cols = 1 := by
        obtain ⟨⟨e, rr⟩, -⟩ := hsame
        rw [← rr.cols, m2]
      rw [hcur, specData]
      simp only [if_true]
      rw [hc1]
      exact (hsame.append hc1 n3 (by rw [hns]) n4).trans hsp
    · show mt = _
      have hnoise : mt.noise = match o.mt.noise, u.noise with | some v, some w => some (v ++ w) | _, _ => none := by
        rcases q7 hmn with ⟨x, y, hx, hy, hxy⟩ | ⟨hx, hy, hxy⟩
        · rw [hx, hy, hxy]
        · rw [hx, hy, hxy]
      have hnc : mt.noiseCols = o.mt.noiseCols := by
        unfold stack at hmt
        simp only at hmt
        split at hmt
        · cases hmt
        split at hmt
        · cases hmt
        split at hmt
        · cases hmt
        · obtain rfl := Option.some.inj hmt; rfl
      cases mt
      simp only [specMT, if_true]
      simp only at q1 q2 q3 q4 hnoise hnc
      rw [q1, q2, q3, q4, hnoise, hnc]

theorem build_viewed {c : Config (α × ℕ) H} {d : MT α} {eu : Bool} {h : H} {o : Obj α H} (hpos : 0 < d.cols)
    (hb : build c d eu h = .ok o) : o.mt = d ∧ o.nOut = d.cols ∧ Viewed o ∧
      ∃ s, transform d.cols d = .ok s ∧ State.build c s eu (d.width + 1) h = .ok o.gp := by
  unfold build at hb
  split at hb
  · cases hb
  rename_i s hs
  split at hb
  · cases hb
  split at hb
  · cases hb
  rename_i g hg
  obtain rfl := Except.ok.inj hb
  refine ⟨rfl, rfl, ⟨hpos, s, hs, ?_⟩, s, hs, hg⟩
  have hcur : g.data.cur = s := by
    unfold State.build at hg
    simp only [bind, Except.bind] at hg
    split at hg
    · cases hg
    · obtain rfl := Except.ok.inj hg; rfl
  simp only [hcur]
  obtain ⟨-, rfl⟩ := transform_ok hpos hs
  exact samePoints_of_perm _ (List.Perm.refl _)

/-- C62: after any sequence of successful appends, overwrites and hyperparameter changes the stored multi-task data are
the stacked data, and the points of the underlying single-task GP are those of the view of the stacked data, up to
order. -/
theorem C62_stored (c : Config (α × ℕ) H) (d : MT α) (hpos : 0 < d.cols) (eu : Bool) (h : H) (o o' : Obj α H)
    (ops : List (Op α H)) (hb : build c d eu h = .ok o) (hr : run o ops = (o', .ok ())) :
    o'.mt = specMT d ops ∧ ∃ s, transform d.cols (specMT d ops) = .ok s ∧ SamePoints o'.gp.data.cur s := by
  obtain ⟨h1, h2, h3, -⟩ := build_viewed hpos hb
  have main : ∀ (ops : List (Op α H)) (o : Obj α H), Viewed o → run o ops = (o', .ok ()) →
      o'.mt = specMT o.mt ops ∧ o'.nOut = o.nOut ∧ Viewed o' := by
    intro ops
    induction ops with
    | nil =>
      intro o hv hr
      simp only [run, Prod.mk.injEq, and_true] at hr
      subst hr
      exact ⟨rfl, rfl, hv⟩
    | cons op ops ih =>
      intro o hv hr
      rw [run] at hr
      split at hr
      · rename_i o1 ha
        cases op with
        | setHps h' =>
          rcases hsh : setHyperparameters o.gp h' with ⟨g, res⟩
          simp only [apply, hsh, Prod.mk.injEq] at ha
          obtain ⟨rfl, rfl⟩ := ha
          obtain ⟨hd, -⟩ := setHyperparameters_data hsh
          obtain ⟨g1, g2, g3⟩ := ih _ (by
            obtain ⟨p, s, hs, hsame⟩ := hv
            exact ⟨p, s, hs, by simp only [hd]; exact hsame⟩) hr
          exact ⟨g1, g2, g3⟩
        | update u a r =>
          obtain ⟨u1, u2, u3, -⟩ := update_success hv ha
          obtain ⟨g1, g2, g3⟩ := ih _ u2 hr
          refine ⟨?_, g2.trans u1, g3⟩
          rw [g1, u3]
          rfl
      · simp at hr
  obtain ⟨g1, g2, g3⟩ := main ops o h3 hr
  rw [h1] at g1
  refine ⟨g1, ?_⟩
  obtain ⟨-, s, hs, hsame⟩ := g3
  rw [g2, h2, g1] at hs
  exact ⟨s, hs, hsame⟩

/-- The operation on the underlying single-task GP. -/
noncomputable def Op.lower (nOut : ℕ) : Op α H → Option (State.Op (α × ℕ) H)
  | .setHps h => some (.setHps h)
  | .update u a r =>
    match transform nOut u with
    | .ok t => some (.update ⟨t.x, u.width + 1, t.y, t.cols, t.noiseVar, false, a, r⟩)
    | .error _ => none

theorem run_lower {o o' : Obj α H} (ops : List (Op α H)) (hv : Viewed o) (hr : run o ops = (o', .ok ())) :
    State.run o.gp (ops.filterMap (Op.lower o.nOut)) = (o'.gp, .ok ()) := by
  induction ops generalizing o with
  | nil =>
    simp only [run, Prod.mk.injEq, and_true] at hr
    subst hr; rfl
  | cons op ops ih =>
    rw [run] at hr
    split at hr
    · rename_i o1 ha
      cases op with
      | setHps h' =>
        rcases hsh : setHyperparameters o.gp h' with ⟨g, res⟩
        simp only [apply, hsh, Prod.mk.injEq] at ha
        obtain ⟨rfl, rfl⟩ := ha
        obtain ⟨hd, -⟩ := setHyperparameters_data hsh
        have := ih (o := { o with gp := g }) (by
          obtain ⟨p, s, hs, hsame⟩ := hv
          exact ⟨p, s, hs, by simp only [hd]; exact hsame⟩) hr
        rw [List.filterMap_cons]
        simp only [Op.lower, State.run, State.apply, hsh]
        exact this
      | update u a r =>
        obtain ⟨u1, u2, -, t, ht, hg⟩ := update_success hv ha
        have := ih (o := o1) u2 hr
        rw [u1] at this
        rw [List.filterMap_cons]
        simp only [Op.lower, ht, State.run, State.apply, hg]
        exact this
    · simp at hr

theorem good_loglik' {c : Config α H} {eu : Bool} {s : Spec α H} {o : State.Obj α H} (g : Good c eu s o)
    (hmode : c.mode ≠ .sparseSolve) (hcols : 1 ≤ s.data.cols) :
    logLikelihood o.toGP = specLogLik c s.data s.hps := by
  have h1 : o.toGP.cfg = c := g.cfg
  have h2 : o.toGP.data = s.data := g.data
  have h3 : o.toGP.hps = s.hps := g.hps
  have := consistent_loglik g.con (by rw [h1, h2, h3]; exact g.adm.posDef) (by rw [h1]; exact hmode)
    (by rw [h2]; exact g.len) (by rw [h2]; exact hcols)
  rw [this, h1, h2, h3]

/-- C62: after any sequence of successful operations that are legal for the underlying single-task GP (the model they
ask for is defined, and the noise of old points does not change under a rank-n append, cf. C40), an `fvGP` built at once
from the stacked data and the current hyperparameters exists and gives the same posterior mean, the same posterior
covariance and the same log likelihood. A user noise function has to be compatible with reordering the points. -/
theorem C62_predictions (c : Config (α × ℕ) H) (he : SpluContract c.ext)
    (hsym : ∀ h a b, c.kernel h a b = c.kernel h b a) (d : MT α) (hpos : 0 < d.cols) (eu : Bool) (h : H)
    (s : Data (α × ℕ)) (hs : transform d.cols d = .ok s) (hadm : Admissible c s h) (o o' : Obj α H)
    (ops : List (Op α H)) (hb : build c d eu h = .ok o) (hr : run o ops = (o', .ok ()))
    (hleg : LegalRun c eu ⟨s, d.width + 1, h⟩ (ops.filterMap (Op.lower d.cols)))
    (hm : c.noise = .measured → d.noise.isSome)
    (hu : ∀ f, c.noise = .user f → ∀ (x x' : List (α × ℕ)) (e : Fin x'.length ≃ Fin x.length),
      (∀ i, x'[i] = x[e i]) → (f o'.gp.hps x').Fits x'.length c.sparseK ∧
        (f o'.gp.hps x').mat x'.length = ((f o'.gp.hps x).mat x.length).submatrix e e) :
    ∃ r gp, transform d.cols (specMT d ops) = .ok r ∧ init c r o'.gp.hps = .ok gp ∧
      (∀ (xs : List (α × ℕ)) (i : Fin xs.length) (j : ℕ),
        posteriorMean o'.gp.toGP xs i j = posteriorMean gp xs i j) ∧
      (∀ (xs : List (α × ℕ)) (chunk : ℕ) (junk : NMat), ∃ v S v' S',
        posteriorCovariance o'.gp.toGP xs false false chunk junk = .ok (v, some S) ∧
        posteriorCovariance gp xs false false chunk junk = .ok (v', some S') ∧
        ∀ i < xs.length, v i = v' i ∧ ∀ j < xs.length, S i j = S' i j) ∧
      (c.mode ≠ .sparseSolve → logLikelihood o'.gp.toGP = logLikelihood gp) := by
  obtain ⟨-, r, hr1, hsame⟩ := C62_stored c d hpos eu h o o' ops hb hr
  obtain ⟨b1, b2, b3, s', hs', hb'⟩ := build_viewed hpos hb
  rw [hs] at hs'
  obtain rfl := Except.ok.inj hs'
  obtain ⟨n1, n2, n3, n4⟩ := arrays_noise hpos hs
  obtain ⟨og, hog, g⟩ := build_good c he eu ⟨s, d.width + 1, h⟩ n3 hadm
  have : og = o.gp := by
    have := hog.symm.trans hb'
    exact Except.ok.inj this
  subst this
  have hlow := run_lower ops b3 hr
  rw [b2] at hlow
  obtain ⟨og', hrun, g'⟩ := run_good c he hsym eu _ ⟨s, d.width + 1, h⟩ o.gp g hleg
  rw [hlow] at hrun
  simp only [Prod.mk.injEq, and_true] at hrun
  subst hrun
  set S := (ops.filterMap (Op.lower d.cols)).foldl Spec.step ⟨s, d.width + 1, h⟩ with hS
  have hcur : o'.gp.data.cur = S.data := g'.data
  have hhps : o'.gp.hps = S.hps := g'.hps
  have hSn : c.noise = .measured → S.data.noiseVar.isSome := by
    intro hc
    have hkeep : ∀ (l : List (State.Op (α × ℕ) H)) (t : Spec (α × ℕ) H), LegalRun c eu t l →
        (l.foldl Spec.step t).data.noiseVar.isSome = t.data.noiseVar.isSome := by
      intro l
      induction l with
      | nil => intro t _; rfl
      | cons op l ih =>
        intro t hl
        rw [List.foldl_cons, ih _ hl.2]
        cases op with
        | setHps _ => rfl
        | update u =>
          have hf := hl.1.1.noise
          simp only [Spec.step, specData]
          cases u.append
          · exact hf
          · cases h1 : t.data.noiseVar <;> cases h2 : u.noise <;> simp_all
    rw [hS, hkeep _ _ hleg]
    simp only
    rw [n1]
    exact hm hc
  rw [hcur] at hsame
  obtain ⟨⟨e, hre⟩, -⟩ := hsame
  obtain ⟨gp, gp', hgp, hgp', p1, p2, p3⟩ := C32_order_of_data c S.data r S.hps e he g'.adm hre hSn (by
    intro f hf
    rw [← hhps]
    exact hu f hf _ _ e hre.x)
  obtain ⟨f, hfb, gf⟩ := build_good c he eu S g'.len g'.adm
  have hsm := good_same g' gf
  have hfg : f.toGP = gp := by
    unfold State.build at hfb
    rw [hgp] at hfb
    simp only [bind, Except.bind, Except.ok.injEq] at hfb
    subst hfb
    have hc := hgp
    unfold init at hc
    simp only [bind, Except.bind] at hc
    split at hc
    · cases hc
    · obtain rfl := Except.ok.inj hc; rfl
  rw [hhps]
  refine ⟨r, gp', hr1, hgp', fun xs i j => ?_, fun xs chunk junk => ?_, fun hmode => ?_⟩
  · rw [hsm.mean xs i i.2 j, hfg, p1]
  · obtain ⟨v, v', T, T', h1, h2, h3, h4⟩ := hsm.var xs false chunk junk chunk junk
    obtain ⟨A, A', rfl, rfl, h5⟩ := h4 rfl
    obtain ⟨w, B, w', B', k1, k2, k3⟩ := p2 xs chunk junk
    rw [hfg, k1] at h2
    obtain ⟨rfl, hAB⟩ := Prod.mk.inj (Except.ok.inj h2)
    obtain rfl := Option.some.inj hAB
    exact ⟨v, A, w', B', h1, k2, fun i hi => ⟨by rw [h3 i hi, (k3 i hi).1],
      fun j hj => by rw [h5 i hi j hj, (k3 i hi).2 j hj]⟩⟩
  · have hcols : 1 ≤ S.data.cols := by
      have : r.cols = 1 := by
        have := (arrays_noise hpos hr1).2.1
        exact this
      rw [← hre.cols, this]
    have l1 : logLikelihood o'.gp.toGP = logLikelihood f.toGP := by
      have a1 := good_loglik' g' hmode hcols
      have a2 := good_loglik' gf hmode hcols
      rw [a1, a2]
    rw [l1, hfg, p3 hmode hcols]

/-! ### A concrete run -/

/-- Kernel `h² (1 + a b)` on the inputs, measured noise. -/
noncomputable def exMTCfg (mode : Mode) : Config (ℝ × ℕ) ℝ where
  kernel h a b := h ^ 2 * (1 + a.1 * b.1)
  mean := none
  noise := .measured
  mode := mode
  sparseK := false
  ext := cholExt

theorem exMTKernel_psd (h : ℝ) : IsPSDKernel fun a b : ℝ × ℕ => h ^ 2 * (1 + a.1 * b.1) :=
  ⟨fun a b => (exKernel_psd h).1 a.1 b.1, fun n x w => (exKernel_psd h).2 n (fun i => (x i).1) w⟩

/-- One more row, in which only the second task is observed. -/
noncomputable def exRow : MT ℝ where
  x := [4]
  width := 1
  y := [[none, some 9]]
  cols := 2
  noise := some [[0, 5]]
  noiseCols := 2

example (mode : Mode) (o o' : Obj ℝ ℝ) (hb : build (exMTCfg mode) exMT true 2 = .ok o)
    (hr : run o [Op.update exRow true none] = (o', .ok ())) :
    ∃ r gp, transform 2 (specMT exMT [Op.update (H := ℝ) exRow true none]) = .ok r ∧
      init (exMTCfg mode) r o'.gp.hps = .ok gp ∧
      ∀ (xs : List (ℝ × ℕ)) (i : Fin xs.length) (j : ℕ), posteriorMean o'.gp.toGP xs i j = posteriorMean gp xs i j := by
  obtain ⟨r, gp, h1, h2, h3, -⟩ := C62_predictions (exMTCfg mode) cholExt_contract
    (fun h a b => (exMTKernel_psd h).1 a b) exMT (by norm_num [exMT]) true 2 _ exMT_view
    (measured_admissible _ rfl _ _ (exMTKernel_psd _) [1, 1, 2, 3] rfl rfl (by simp)) o o' _ hb hr
    ⟨⟨⟨rfl, rfl, rfl, fun _ => rfl, fun _ _ => rfl⟩,
      measured_admissible _ rfl _ _ (exMTKernel_psd _) [1, 1, 2, 3, 5] rfl rfl (by simp),
      fun _ _ => Or.inr (C40_measured_noise_kept _ rfl _ _ _ rfl [1, 1, 2, 3] [5] rfl rfl rfl rfl)⟩, trivial⟩
    (fun _ => rfl) (by intro f hf; cases hf)
  exact ⟨r, gp, h1, h2, h3⟩

/-- The run of the example exists. -/
theorem exMT_run (mode : Mode) : ∃ o o', build (exMTCfg mode) exMT true 2 = .ok o ∧
    run o [Op.update exRow true none] = (o', .ok ()) := by
  have hadm : Admissible (exMTCfg mode) ⟨[(1, 0), (2, 0), (2, 1), (3, 1)], [[5], [6], [7], [8]], 1, some [1, 1, 2, 3]⟩ 2 :=
    measured_admissible _ rfl _ _ (exMTKernel_psd _) [1, 1, 2, 3] rfl rfl (by simp)
  obtain ⟨g, hg, gg⟩ := build_good (exMTCfg mode) cholExt_contract true ⟨_, 2, 2⟩ rfl hadm
  obtain ⟨g', hg', -⟩ := run_good (exMTCfg mode) cholExt_contract (fun h a b => (exMTKernel_psd h).1 a b) true
    [State.Op.update ⟨[(4, 1)], 2, [[9]], 1, some [5], false, true, none⟩] ⟨_, 2, 2⟩ g gg
    ⟨⟨⟨rfl, rfl, rfl, fun _ => rfl, fun _ _ => rfl⟩,
      measured_admissible _ rfl _ _ (exMTKernel_psd _) [1, 1, 2, 3, 5] rfl rfl (by simp),
      fun _ _ => Or.inr (C40_measured_noise_kept _ rfl _ _ _ rfl [1, 1, 2, 3] [5] rfl rfl rfl rfl)⟩, trivial⟩
  have hup : updateGpData g ⟨[(4, 1)], 2, [[9]], 1, some [5], false, true, none⟩ = (g', .ok ()) := by
    simp only [State.run, State.apply] at hg'
    split at hg'
    · rename_i o1 h1
      simp only [Prod.mk.injEq, and_true] at hg'
      rw [← hg']; exact h1
    · rename_i h1
      exact absurd hg' (by intro h; simp at h)
  have heu : g.data.euclidean = true := gg.eu
  have ht : transform 2 exRow = .ok ⟨[(4, 1)], [[9]], 1, some [5]⟩ := rfl
  refine ⟨⟨2, g, exMT⟩, ⟨2, g', ⟨[1, 2, 3, 4], 1, exMT.y ++ exRow.y, 2, some [[1, 0], [1, 2], [0, 3], [0, 5]], 2⟩⟩, ?_, ?_⟩
  · have : transform exMT.cols exMT = _ := exMT_view
    simp only [build, this]
    rw [if_neg (by simp)]
    have : State.build (exMTCfg mode) ⟨[(1, 0), (2, 0), (2, 1), (3, 1)], [[5], [6], [7], [8]], 1, some [1, 1, 2, 3]⟩ true
      (exMT.width + 1) 2 = .ok g := hg
    simp only [this]
    rfl
  · simp only [run, apply, update]
    rw [if_neg (by simp [exRow])]
    simp only [if_true, heu, ht]
    have hs : stack true exMT exRow = some ⟨[1, 2, 3, 4], 1, exMT.y ++ exRow.y, 2,
        some [[1, 0], [1, 2], [0, 3], [0, 5]], 2⟩ := by simp [stack, exMT, exRow]
    rw [hs]
    simp only
    rw [if_neg (by simp)]
    have : exRow.width + 1 = 2 := rfl
    rw [this, hup]

/-! ## C82: rejected multi-task updates -/

/-- C82: an update whose rows do not fit onto the stored rows is rejected before anything is stored. Partial: later
rejections are not (below). -/
theorem C82_rejected_early_partial (o : Obj α H) (u : MT α) (r : Option Bool)
    (h : u.x.length ≠ u.y.length ∨ o.mt.cols ≠ u.cols ∨ (o.gp.data.euclidean = true ∧ o.mt.width ≠ u.width)) :
    ∃ e, update o u true r = (o, .error e) := by
  unfold update
  by_cases hl : u.x.length ≠ u.y.length
  · exact ⟨_, by rw [if_pos hl]⟩
  rw [if_neg hl]
  have hs : stack o.gp.data.euclidean o.mt u = none := by
    unfold stack
    simp only
    split
    · rfl
    · split_ifs with h1 h2
      · rfl
      · rfl
      · exfalso
        rcases h with h | h | h
        · exact hl h
        · exact h2 h
        · exact h1 h
  simp only [if_true, hs]
  exact ⟨_, rfl⟩

/-- C82, violated: when noise variances are in use and an append forgets them, the call raises, the single-task model is
unchanged, but the stored multi-task data have grown by the rejected rows and have lost all noise variances. With at
least two tasks every later append fails, with or without noise variances. -/
theorem C82_missing_noise_violated (o : Obj α H) (hv : Viewed o) (hn : o.mt.noise.isSome) (u : MT α) (r : Option Bool)
    (hu : u.Fits o.nOut) (hun : u.noise = none) (hc : o.mt.cols = u.cols)
    (hw : o.gp.data.euclidean = true → o.mt.width = u.width) :
    ∃ o' e, update o u true r = (o', .error e) ∧ o'.gp = o.gp ∧ o'.mt.x = o.mt.x ++ u.x ∧ o'.mt.y = o.mt.y ++ u.y ∧
      o'.mt.noise = none ∧
      ∀ (u' : MT α) (r' : Option Bool), u'.noiseCols ≠ 1 → ∃ o'' e', update o' u' true r' = (o'', .error e') := by
  obtain ⟨hpos, s, hs, hsame⟩ := hv
  have hgn : o.gp.data.cur.noiseVar.isSome = true := by
    rw [hsame.2, (arrays_noise hpos hs).1]; exact hn
  have hstack : stack o.gp.data.euclidean o.mt u =
      some ⟨o.mt.x ++ u.x, o.mt.width, o.mt.y ++ u.y, o.mt.cols, none, o.mt.noiseCols⟩ := by
    unfold stack
    rw [hun]
    have h1 : ¬ (o.gp.data.euclidean = true ∧ o.mt.width ≠ u.width) := fun h => h.2 (hw h.1)
    cases o.mt.noise <;> simp [h1, hc]
  have key : ∀ (p : Obj α H) (w : MT α) (q : Option Bool) (mt : MT α), p.gp = o.gp → p.nOut = o.nOut →
      stack p.gp.data.euclidean p.mt w = some mt → w.noise = none → w.x.length = w.y.length →
      ∃ e, update p w true q = ({ p with mt := mt }, .error e) := by
    intro p w q mt hp hpn hst hwn hl
    unfold update
    rw [if_neg (not_not.2 hl)]
    simp only [if_true, hst]
    cases ht : transform p.nOut w with
    | error e => exact ⟨e, rfl⟩
    | ok t =>
      simp only
      split_ifs with hem
      · exact ⟨_, rfl⟩
      · have htn : t.noiseVar = none := by
          have := (arrays_noise (hpn ▸ hpos) ht).1
          rw [hwn] at this
          simpa using this
        obtain ⟨e, he⟩ := C41_rejected_by_checks_partial p.gp
          ⟨t.x, w.width + 1, t.y, t.cols, t.noiseVar, false, true, q⟩ (Or.inr (by rw [hp, hgn, htn]; simp))
        rw [he]
        exact ⟨e, rfl⟩
  obtain ⟨e, he⟩ := key o u r _ rfl rfl hstack hun hu.len
  refine ⟨{ o with mt := ⟨o.mt.x ++ u.x, o.mt.width, o.mt.y ++ u.y, o.mt.cols, none, o.mt.noiseCols⟩ }, e, he, rfl, rfl, rfl,
    rfl, fun u' r' h1 => ?_⟩
  by_cases hl : u'.x.length = u'.y.length
  swap
  · exact ⟨_, _, by rw [update, if_pos hl]⟩
  cases hst : stack o.gp.data.euclidean (⟨o.mt.x ++ u.x, o.mt.width, o.mt.y ++ u.y, o.mt.cols, none, o.mt.noiseCols⟩) u' with
  | none =>
    refine ⟨{ o with mt := ⟨o.mt.x ++ u.x, o.mt.width, o.mt.y ++ u.y, o.mt.cols, none, o.mt.noiseCols⟩ },
      "ValueError: vstack", ?_⟩
    rw [update, if_neg (not_not.2 hl)]
    simp only [if_true, hst]
  | some mt =>
    have hn' : u'.noise = none := by
      cases hnn : u'.noise with
      | none => rfl
      | some b =>
        unfold stack at hst
        simp [hnn, h1] at hst
    obtain ⟨e', he'⟩ := key { o with mt := ⟨o.mt.x ++ u.x, o.mt.width, o.mt.y ++ u.y, o.mt.cols, none, o.mt.noiseCols⟩ }
      u' r' mt rfl rfl hst hn' hl
    exact ⟨_, e', he'⟩

example (mode : Mode) : ∃ o o' e, build (exMTCfg mode) exMT true 2 = .ok o ∧
    update o { exRow with noise := none } true none = (o', .error e) ∧ o'.mt.x = [1, 2, 3, 4] ∧ o'.mt.noise = none ∧
    ∃ o'' e', update o' exRow true none = (o'', .error e') := by
  obtain ⟨o, -, hb, -⟩ := exMT_run mode
  obtain ⟨h1, h2, h3, -⟩ := build_viewed (by norm_num [exMT]) hb
  obtain ⟨o', e, k1, -, k2, -, k3, k4⟩ := C82_missing_noise_violated o h3 (by rw [h1]; rfl) { exRow with noise := none } none
    (by
      rw [h2]
      exact ⟨rfl, by simp [exRow, exMT], by simp⟩) rfl (by rw [h1]; rfl) (by rw [h1]; intro; rfl)
  refine ⟨o, o', e, hb, k1, ?_, k3, k4 exRow none (by norm_num [exRow])⟩
  rw [k2, h1]; rfl

end Verif.FV
