import Verif.FV.Model
import Mathlib.Data.List.Perm.Basic
import Mathlib.Data.List.GetD
import Mathlib.Logic.Equiv.Fin.Basic

/-!
Lemmas on the multi-task data transform.
-/

namespace Verif.FV

open Verif.GP Verif.State Verif.LinAlg

variable {α H : Type}

theorem collect_ok {β γ : Type} {f : β → Except String (Option γ)} {l : List β} {r : List γ} :
    collect f l = .ok r ↔ ∃ g : β → Option γ, (∀ b ∈ l, f b = .ok (g b)) ∧ r = l.filterMap g := by
  induction l generalizing r with
  | nil =>
    simp only [collect, Except.ok.injEq, List.not_mem_nil, false_implies, implies_true, List.filterMap_nil, true_and]
    exact ⟨fun h => ⟨fun _ => none, h.symm⟩, fun ⟨_, h⟩ => h.symm⟩
  | cons b bs ih =>
    rw [collect]
    cases hb : f b with
    | error e =>
      simp only [List.mem_cons, forall_eq_or_imp, hb, reduceCtorEq, false_and, exists_const]
    | ok o =>
      cases hr : collect f bs with
      | error e =>
        simp only [List.mem_cons, forall_eq_or_imp, hb, reduceCtorEq, false_iff, not_exists, not_and]
        rintro g ⟨h1, h2⟩ -
        have := (ih (r := bs.filterMap g)).2 ⟨g, h2, rfl⟩
        rw [hr] at this; cases this
      | ok rs =>
        obtain ⟨g0, hg0, rfl⟩ := ih.1 hr
        simp only [Except.ok.injEq, List.mem_cons, forall_eq_or_imp, hb]
        constructor
        · rintro rfl
          classical
          refine ⟨fun x => match f x with | .ok o => o | .error _ => none, ⟨by simp only [hb], fun x hx => ?_⟩, ?_⟩
          · simp only [hg0 x hx]
          · rw [List.filterMap_cons]
            have : bs.filterMap (fun x => match f x with | .ok o => o | .error _ => none) = bs.filterMap g0 := by
              apply List.filterMap_congr
              intro x hx
              simp only [hg0 x hx]
            rw [this]
            simp only [hb]
            cases o <;> rfl
        · rintro ⟨g, ⟨h1, h2⟩, rfl⟩
          rw [List.filterMap_cons, ← h1]
          have : bs.filterMap g0 = bs.filterMap g := by
            apply List.filterMap_congr
            intro x hx
            have := (hg0 x hx).symm.trans (h2 x hx)
            exact Except.ok.inj this
          rw [this]
          cases o <;> rfl

/-- The value of an entry, `none` when missing (specification). -/
def MT.value (d : MT α) (j i : ℕ) : Option ℝ := (d.y[j]?.bind fun r => r[i]?).join

/-- The noise variance of an entry (specification). -/
def MT.noiseAt (d : MT α) (j i : ℕ) : Option ℝ := d.noise.bind fun nv => nv[j]?.bind fun r => r[i]?

/-- The arrays have matching shapes (specification). -/
structure MT.Fits (nOut : ℕ) (d : MT α) : Prop where
  len : d.x.length = d.y.length
  rows : ∀ r ∈ d.y, r.length = nOut
  noise : ∀ nv, d.noise = some nv → nv.length = d.y.length ∧ ∀ r ∈ nv, r.length = nOut

/-- The point of an entry. -/
def MT.point (d : MT α) (j i : ℕ) : Option (Pt α) :=
  match d.x[j]?, d.value j i with
  | some a, some v => some ⟨(a, i), v, d.noise.map fun _ => (d.noiseAt j i).getD 0⟩
  | _, _ => none

theorem getD_join (r : List (Option ℝ)) (i : ℕ) : r.getD i none = (r[i]?).join := by
  rw [List.getD_eq_getElem?_getD]
  cases r[i]? <;> rfl

theorem entry_ok {nOut : ℕ} {d : MT α} (hf : d.Fits nOut) (i j : ℕ) (hj : j < d.x.length) :
    entry nOut d i j = .ok (d.point j i) := by
  have hjy : j < d.y.length := hf.len ▸ hj
  have hy : d.y.getD j [] = d.y[j] := by rw [List.getD_eq_getElem _ _ hjy]
  have hyl : (d.y.getD j []).length = nOut := by rw [hy]; exact hf.rows _ (List.getElem_mem hjy)
  have hval : d.value j i = (d.y.getD j []).getD i none := by
    rw [getD_join, hy, MT.value, List.getElem?_eq_getElem hjy]; rfl
  unfold entry
  rw [if_neg, if_neg (by rw [hyl]; simp)]
  · unfold MT.point
    rw [← hval, List.getElem?_eq_getElem hj]
    cases d.value j i with
    | none => rfl
    | some v =>
      simp only [Except.ok.injEq, Option.some.injEq, Pt.mk.injEq, true_and]
      cases hn : d.noise with
      | none => rfl
      | some nv =>
        have hjn : j < nv.length := by rw [(hf.noise nv hn).1]; exact hjy
        simp only [Option.map_some, Option.some.injEq, MT.noiseAt, hn, Option.bind_some,
          List.getElem?_eq_getElem hjn]
        rw [List.getD_eq_getElem nv _ hjn, List.getD_eq_getElem?_getD]
  · cases hn : d.noise with
    | none => simp
    | some nv =>
      obtain ⟨h1, h2⟩ := hf.noise nv hn
      have hjn : j < nv.length := by rw [h1]; exact hjy
      have : (nv.getD j []).length = nOut := by
        rw [List.getD_eq_getElem nv _ hjn]
        exact h2 _ (List.getElem_mem hjn)
      simp only [Option.any_some, decide_eq_true_eq, ne_eq, not_not]
      exact this

theorem points_eq {nOut : ℕ} {d : MT α} (hf : d.Fits nOut) :
    points nOut d = .ok ((indices nOut d.x.length).filterMap fun p => d.point p.2 p.1) := by
  unfold points
  rw [if_neg (by rw [hf.len]; simp), if_neg]
  · rw [collect_ok]
    refine ⟨fun p => d.point p.2 p.1, ?_, rfl⟩
    rintro ⟨i, j⟩ hp
    simp only [indices, List.mem_flatMap, List.mem_map, List.mem_range, Prod.mk.injEq] at hp
    obtain ⟨i', -, j', hj, rfl, rfl⟩ := hp
    exact entry_ok hf _ _ hj
  · cases hn : d.noise with
    | none => simp
    | some nv => simp only [Option.any_some, decide_eq_true_eq, ne_eq, not_not]; exact (hf.noise nv hn).1

theorem mem_indices {nOut n i j : ℕ} : (i, j) ∈ indices nOut n ↔ i < nOut ∧ j < n := by
  simp only [indices, List.mem_flatMap, List.mem_map, List.mem_range, Prod.mk.injEq]
  constructor
  · rintro ⟨i', h1, j', h2, rfl, rfl⟩; exact ⟨h1, h2⟩
  · rintro ⟨h1, h2⟩; exact ⟨i, h1, j, h2, rfl, rfl⟩

theorem nodup_indices (nOut n : ℕ) : (indices nOut n).Nodup := by
  unfold indices
  rw [List.nodup_flatMap]
  refine ⟨fun i _ => (List.nodup_range).map fun a b h => by simpa using h, ?_⟩
  refine (List.nodup_range).imp ?_
  intro a b hab p hp hq
  simp only [List.mem_map, List.mem_range] at hp hq
  obtain ⟨j, -, rfl⟩ := hp
  obtain ⟨k, -, hk⟩ := hq
  simp only [Prod.mk.injEq] at hk
  exact hab hk.1.symm

/-- A successful transform of data with at least one task means that the shapes match. -/
theorem fits_of_ok {nOut : ℕ} {d : MT α} (hpos : 0 < nOut) {ps : List (Pt α)} (h : points nOut d = .ok ps) :
    d.Fits nOut := by
  unfold points at h
  split at h
  · cases h
  rename_i hl
  rw [ne_eq, not_not] at hl
  split at h
  · cases h
  rename_i hn
  obtain ⟨g, hg, -⟩ := collect_ok.1 h
  have main : ∀ j < d.x.length, (d.y.getD j []).length = nOut ∧
      ∀ nv, d.noise = some nv → (nv.getD j []).length = nOut := by
    intro j hj
    have h0 := hg (0, j) (mem_indices.2 ⟨hpos, hj⟩)
    unfold entry at h0
    split at h0
    · cases h0
    rename_i hnv
    split at h0
    · cases h0
    rename_i hy
    refine ⟨by simpa using hy, fun nv he => ?_⟩
    rw [he] at hnv
    simpa using hnv
  have hnl : ∀ nv, d.noise = some nv → nv.length = d.y.length := by
    intro nv he
    rw [he] at hn
    simpa using hn
  refine ⟨hl, fun r hr => ?_, fun nv he => ⟨hnl nv he, fun r hr => ?_⟩⟩
  · obtain ⟨j, hj, rfl⟩ := List.getElem_of_mem hr
    have := (main j (by omega)).1
    rwa [List.getD_eq_getElem _ _ hj] at this
  · obtain ⟨j, hj, rfl⟩ := List.getElem_of_mem hr
    have := (main j (by have := hnl nv he; omega)).2 nv he
    rwa [List.getD_eq_getElem _ _ hj] at this

/-! ## stacking -/

theorem indices_filterMap {γ : Type} (nOut n : ℕ) (g : ℕ → ℕ → Option γ) :
    (indices nOut n).filterMap (fun p => g p.2 p.1) =
      (List.range nOut).flatMap fun i => (List.range n).filterMap fun j => g j i := by
  unfold indices
  rw [List.filterMap_flatMap]
  congr 1
  funext i
  rw [List.filterMap_map]
  rfl

theorem points_append {nOut : ℕ} {d u s : MT α} (hd : d.Fits nOut) (hx : s.x = d.x ++ u.x) (hy : s.y = d.y ++ u.y)
    (hn : (∃ a b, d.noise = some a ∧ u.noise = some b ∧ s.noise = some (a ++ b)) ∨
      (d.noise = none ∧ u.noise = none ∧ s.noise = none)) :
    ((indices nOut d.x.length).filterMap (fun p => d.point p.2 p.1) ++
      (indices nOut u.x.length).filterMap (fun p => u.point p.2 p.1)).Perm
      ((indices nOut s.x.length).filterMap fun p => s.point p.2 p.1) := by
  have h1 : ∀ j < d.x.length, ∀ i, s.point j i = d.point j i := by
    intro j hj i
    have hjy : j < d.y.length := hd.len ▸ hj
    have hv : s.value j i = d.value j i := by
      unfold MT.value; rw [hy, List.getElem?_append_left hjy]
    unfold MT.point
    rw [hv, hx, List.getElem?_append_left hj]
    rcases hn with ⟨a, b, ha, hb, hs⟩ | ⟨ha, hb, hs⟩
    · have hja : j < a.length := by rw [(hd.noise a ha).1]; exact hjy
      simp only [MT.noiseAt, ha, hs, Option.bind_some, List.getElem?_append_left hja, Option.map_some]
    · simp only [ha, hs, Option.map_none]
  have h2 : ∀ j i, s.point (d.x.length + j) i = u.point j i := by
    intro j i
    have hv : s.value (d.x.length + j) i = u.value j i := by
      unfold MT.value
      rw [hy, List.getElem?_append_right (by rw [hd.len]; omega), hd.len, Nat.add_sub_cancel_left]
    unfold MT.point
    rw [hv, hx, List.getElem?_append_right (by omega), Nat.add_sub_cancel_left]
    rcases hn with ⟨a, b, ha, hb, hs⟩ | ⟨ha, hb, hs⟩
    · have hla : a.length = d.x.length := by rw [(hd.noise a ha).1, hd.len]
      simp only [MT.noiseAt, hb, hs, Option.bind_some, Option.map_some]
      rw [List.getElem?_append_right (by omega), hla, Nat.add_sub_cancel_left]
    · simp only [hb, hs, Option.map_none]
  rw [indices_filterMap nOut _ d.point, indices_filterMap nOut _ u.point, indices_filterMap nOut _ s.point]
  refine (List.flatMap_append_perm _ _ _).trans (List.Perm.of_eq ?_)
  congr 1
  funext i
  rw [hx, List.length_append, List.range_add, List.filterMap_append, List.filterMap_map]
  congr 1
  · apply List.filterMap_congr
    intro j hj
    exact (h1 j (List.mem_range.1 hj) i).symm
  · apply List.filterMap_congr
    intro j _
    exact (h2 j i).symm

/-! ## permutations -/

theorem perm_equiv {β : Type} {l l' : List β} (h : l.Perm l') :
    ∃ e : Fin l'.length ≃ Fin l.length, ∀ i, l'[i] = l[e i] := by
  induction h with
  | nil => exact ⟨Equiv.refl _, fun i => i.elim0⟩
  | @cons a l l' h ih =>
    obtain ⟨e, he⟩ := ih
    refine ⟨(finSuccEquiv l'.length).trans ((Equiv.optionCongr e).trans (finSuccEquiv l.length).symm), fun i => ?_⟩
    refine Fin.cases ?_ (fun i => ?_) i
    · simp
    · have := he i
      simpa using this
  | swap a b l =>
    refine ⟨Equiv.swap (0 : Fin (l.length + 2)) 1, fun i => ?_⟩
    refine Fin.cases ?_ (fun i => ?_) i
    · simp
    · refine Fin.cases ?_ (fun i => ?_) i
      · have : Equiv.swap (0 : Fin (l.length + 2)) 1 (Fin.succ 0) = 0 := Equiv.swap_apply_right 0 1
        exact (congrArg (b :: a :: l).get this).symm
      · have : Equiv.swap (0 : Fin (l.length + 2)) 1 i.succ.succ = i.succ.succ := by
          apply Equiv.swap_apply_of_ne_of_ne
          · exact Fin.succ_ne_zero _
          · intro hc
            have := congrArg Fin.val hc
            simp at this
        exact (congrArg (b :: a :: l).get this).symm
  | trans _ _ ih1 ih2 =>
    obtain ⟨e1, h1⟩ := ih1
    obtain ⟨e2, h2⟩ := ih2
    exact ⟨e2.trans e1, fun i => by rw [h2, h1]; rfl⟩

end Verif.FV
