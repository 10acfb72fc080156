import Verif.State.AcceptModel
import Verif.State.ShareProps

/-! Property C158: an update accepts the data that construction accepts. -/

namespace Verif.State

open Verif.GP Verif.LinAlg
open Verif.Train (Fl)

/-! ## Specification -/

/-- Floats whose sum is a number or an infinity: no NaN, and not both infinities. -/
def NoNaN (l : List Fl) : Prop := Fl.nan ∉ l ∧ ¬ (Fl.pinf ∈ l ∧ Fl.ninf ∈ l)

/-- A positive float. -/
def Pos (a : Fl) : Prop := a = .pinf ∨ ∃ r : ℝ, 0 < r ∧ a = .num r

/-- All values of an argument. -/
def YArg.entries : YArg → List Fl
  | .arr1 v => v
  | .arr2 _ r => r.flatten
  | _ => []

/-- Sensible data: points as a non-empty table or as a list, as many values in one or two axes, as many positive noise variances if any, and no NaN
among the points and values of a table. -/
structure Acceptable (x : XArg) (y : YArg) (noise : NArg) : Prop where
  points : (∃ n, x = .list n) ∨ ∃ w r, x = .array2 w r ∧ r ≠ []
  values : (∃ v, y = .arr1 v) ∨ ∃ c r, y = .arr2 c r
  count : ∃ n, x.len = .ok n ∧ y.len = .ok n
  noise : noise = .none ∨ ∃ v, noise = .arr1 v ∧ y.len = .ok v.length ∧ ∀ a ∈ v, Pos a
  nan : ∀ w r, x = .array2 w r → NoNaN (r.flatten ++ y.entries)

/-- What the update does not check. -/
def Unchecked (s : Store) (x : XArg) (y : YArg) (noise : NArg) (append : Bool) : Prop :=
  (append = false ∧ ∃ w, x = .array2 w []) ∨ (append = false ∧ ∃ w r, x = .array2 w r ∧ w ≠ s.dim) ∨ ∃ v, noise = .arr1 v ∧ (y.len ≠ .ok v.length ∨ ∃ a ∈ v, ¬ Pos a)

/-- Points of the kind the GP holds: a table for a GP on tables, a list for a GP on lists. -/
def SameKind (s : Store) (x : XArg) : Prop := (∃ n m, s.x = .list n ∧ x = .list m) ∨ ∃ w r w' r', s.x = .rows w r ∧ x = .array2 w' r'

/-- Noise given exactly if the GP holds some. -/
def SameNoise (s : Store) (noise : NArg) : Prop := (s.noise = none ∧ noise = .none) ∨ ∃ u v, s.noise = some u ∧ noise = .arr1 v

/-- Points that can be appended to those the GP holds: for tables, as many columns. -/
def SameWidth (s : Store) (x : XArg) : Prop := ∀ w r w' r', s.x = .rows w r → x = .array2 w' r' → w = w'

/-- The points of the GP followed by new ones. -/
def Store.joinX (s : Store) (x : XArg) : XArg := match s.x, x with
  | .list n, .list m => .list (n + m)
  | .rows w r, .array2 _ r' => .array2 w (r ++ r')
  | _, x => x

/-- The noise variances of the GP followed by new ones. -/
def Store.joinN (s : Store) (noise : NArg) : NArg := match s.noise, noise with
  | some u, .arr1 v => .arr1 (u ++ v)
  | _, noise => noise

/-- A GP as a constructor would make it. -/
def Proper (s : Store) : Prop := ∃ x y noise, construct x y noise s.fn = .ok s

/-- The arrays a GP shows, as arguments. -/
def Store.xArg (s : Store) : XArg := match s.x with
  | .list n => .list n
  | .rows w r => .array2 w r
def Store.nArg (s : Store) : NArg := match s.noise with
  | none => .none
  | some v => .arr1 v

/-! ## Sums of floats -/

theorem sum_class (l : List Fl) : ∀ a : Fl, (l.foldl Fl.add a = .nan ↔ ¬ NoNaN (a :: l)) ∧
    (l.foldl Fl.add a = .pinf ↔ NoNaN (a :: l) ∧ Fl.pinf ∈ a :: l) ∧ (l.foldl Fl.add a = .ninf ↔ NoNaN (a :: l) ∧ Fl.ninf ∈ a :: l) := by
  induction l with
  | nil => intro a; cases a <;> simp [NoNaN]
  | cons b l ih =>
    intro a
    rw [List.foldl_cons]
    obtain ⟨h1, h2, h3⟩ := ih (Fl.add a b)
    rw [h1, h2, h3]
    cases a <;> cases b <;> simp [NoNaN, Fl.add]

theorem flSum_class (l : List (List Fl)) : (flSum l = .nan ↔ ¬ NoNaN l.flatten) ∧
    (flSum l = .pinf ↔ NoNaN l.flatten ∧ Fl.pinf ∈ l.flatten) ∧ (flSum l = .ninf ↔ NoNaN l.flatten ∧ Fl.ninf ∈ l.flatten) := by
  have := sum_class l.flatten (.num 0)
  simpa [flSum, NoNaN] using this

theorem nanCheck_rows (w : ℕ) (r y : List (List Fl)) : nanCheck (.rows w r) y = .ok () ↔ NoNaN (r.flatten ++ y.flatten) := by
  obtain ⟨a1, a2, a3⟩ := flSum_class r
  obtain ⟨b1, b2, b3⟩ := flSum_class y
  have key : Fl.add (flSum r) (flSum y) = .nan ↔ ¬ NoNaN (r.flatten ++ y.flatten) := by
    have e : Fl.add (flSum r) (flSum y) = .nan ↔ flSum r = .nan ∨ flSum y = .nan ∨ (flSum r = .pinf ∧ flSum y = .ninf) ∨
        (flSum r = .ninf ∧ flSum y = .pinf) := by
      cases flSum r <;> cases flSum y <;> simp [Fl.add]
    rw [e, a1, a2, a3, b1, b2, b3]
    simp only [NoNaN, List.mem_append]
    by_cases h1 : Fl.nan ∈ r.flatten <;> by_cases h2 : Fl.nan ∈ y.flatten <;> by_cases h3 : Fl.pinf ∈ r.flatten <;>
      by_cases h4 : Fl.pinf ∈ y.flatten <;> by_cases h5 : Fl.ninf ∈ r.flatten <;> by_cases h6 : Fl.ninf ∈ y.flatten <;>
      simp only [h1, h2, h3, h4, h5, h6, true_or, or_true, or_false, false_or, and_true, true_and, and_false, false_and, not_true,
        not_false_iff, or_self, and_self]
  simp only [nanCheck]
  by_cases hn : NoNaN (r.flatten ++ y.flatten)
  · have h := mt key.1 (not_not.2 hn)
    simp only [hn, iff_true]
  · simp [key.2 hn, hn]

theorem entries_rows {y : YArg} {c : ℕ} {r : List (List Fl)} (h : y.rows = some (c, r)) : r.flatten = y.entries := by
  cases y with
  | arr1 v =>
    simp only [YArg.rows, Option.some.injEq, Prod.mk.injEq] at h
    rw [← h.2]
    simp [YArg.entries, ← List.flatMap_def]
  | arr2 c' r' => simp only [YArg.rows, Option.some.injEq, Prod.mk.injEq] at h; rw [← h.2]; rfl
  | arrN _ _ => simp [YArg.rows] at h
  | other _ => simp [YArg.rows] at h

theorem flPos_iff (a : Fl) : flPos a ↔ Pos a := by
  cases a <;> simp [flPos, Pos]

/-- The store made from accepted arguments. -/
def stored (x : XArg) (y : YArg) (noise : NArg) (fn : Bool) : Store :=
  ⟨match x with | .list n => .list n | .array2 w r => .rows w r | _ => .list 0,
   match y with | .arr2 c _ => c | _ => 1,
   match y with | .arr1 v => v.map fun a => [a] | .arr2 _ r => r | _ => [],
   match noise with | .arr1 v => some v | _ => none, fn, match x with | .array2 w _ => w | _ => 1⟩

theorem likelihood_ok (nv : Option (List Fl)) (fn : Bool) : likelihoodCheck nv fn = .ok () ↔ ∀ v, nv = some v → (∀ a ∈ v, Pos a) ∧ fn = false := by
  cases nv with
  | none => simp [likelihoodCheck]
  | some v =>
    have : (∀ a ∈ v, flPos a) ↔ ∀ a ∈ v, Pos a := forall₂_congr fun a _ => flPos_iff a
    simp only [likelihoodCheck]
    by_cases h : ∀ a ∈ v, Pos a
    · have h' := this.2 h
      rw [if_neg (not_not.2 h')]
      cases fn
      · simpa using h
      · simp
    · have h' := mt this.1 h
      rw [if_pos h']
      simp only [reduceCtorEq, Option.some.injEq, forall_eq', h, false_and]

/-- The last part of construction. -/
theorem finish_ok (p : Pts) (cols : ℕ) (rows : List (List Fl)) (nv : Option (List Fl)) (fn : Bool) (s : Store) :
    (do nanCheck p rows; likelihoodCheck nv fn; .ok ⟨p, cols, rows, nv, fn, p.dim⟩ : Except String Store) = .ok s ↔
      nanCheck p rows = .ok () ∧ likelihoodCheck nv fn = .ok () ∧ s = ⟨p, cols, rows, nv, fn, p.dim⟩ := by
  cases h1 : nanCheck p rows with
  | error e => simp [bind, Except.bind]
  | ok u =>
    cases h2 : likelihoodCheck nv fn with
    | error e => simp [bind, Except.bind]
    | ok u => simp [bind, Except.bind, eq_comm]

theorem construct_good (x : XArg) (y : YArg) (noise : NArg) (fn : Bool) (s : Store) (p : Pts) (cols : ℕ) (rows : List (List Fl))
    (nv : Option (List Fl)) (n : ℕ) (hx : (∃ k, x = .list k ∧ p = .list k) ∨ ∃ w r, x = .array2 w r ∧ p = .rows w r) (hy : y.rows = some (cols, rows))
    (hnx : x.len = .ok n) (hny : y.len = .ok rows.length) (hn : (noise = .none ∧ nv = none) ∨ ∃ v, noise = .arr1 v ∧ nv = some v) :
    construct x y noise fn = .ok s ↔ n = rows.length ∧ (∀ w, x ≠ .array2 w []) ∧ (∀ v, nv = some v → v.length = rows.length) ∧
      nanCheck p rows = .ok () ∧ likelihoodCheck nv fn = .ok () ∧ s = ⟨p, cols, rows, nv, fn, p.dim⟩ := by
  rcases hn with ⟨rfl, rfl⟩ | ⟨v, rfl, rfl⟩ <;> rcases hx with ⟨k, rfl, rfl⟩ | ⟨w, r, rfl, rfl⟩
  · simp only [construct, hnx, hny, hy, bind, Except.bind]
    by_cases h : n = rows.length
    · simp only [h, ne_eq, not_true, if_false]
      have := finish_ok (.list k) cols rows none fn s
      simp only [bind, Except.bind] at this
      rw [this]; simp
    · simp [h]
  · simp only [construct, hnx, hny, hy, bind, Except.bind]
    by_cases h : n = rows.length
    · simp only [h, ne_eq, not_true, if_false]
      cases r with
      | nil => simp
      | cons a r =>
        have := finish_ok (.rows w (a :: r)) cols rows none fn s
        simp only [bind, Except.bind] at this
        simp only
        rw [this]; simp
    · simp [h]
  · simp only [construct, hnx, hny, hy, bind, Except.bind]
    by_cases h : n = rows.length
    · simp only [h, ne_eq, not_true, if_false]
      by_cases hv : v.length = rows.length
      · simp only [hv, not_true, if_false]
        have := finish_ok (.list k) cols rows (some v) fn s
        simp only [bind, Except.bind] at this
        rw [this]; simp [hv]
      · simp [hv]
    · simp [h]
  · simp only [construct, hnx, hny, hy, bind, Except.bind]
    by_cases h : n = rows.length
    · simp only [h, ne_eq, not_true, if_false]
      by_cases hv : v.length = rows.length
      · simp only [hv, not_true, if_false]
        cases r with
        | nil => simp
        | cons a r =>
          have := finish_ok (.rows w (a :: r)) cols rows (some v) fn s
          simp only [bind, Except.bind] at this
          simp only
          rw [this]; simp [hv]
      · simp [hv]
    · simp [h]

theorem construct_shape {x : XArg} {y : YArg} {noise : NArg} {fn : Bool} {s : Store} (h : construct x y noise fn = .ok s) :
    ((∃ n, x = .list n) ∨ ∃ w r, x = .array2 w r) ∧ ((∃ v, y = .arr1 v) ∨ ∃ c r, y = .arr2 c r) ∧ (noise = .none ∨ ∃ v, noise = .arr1 v) := by
  unfold construct at h
  cases noise with
  | other => simp at h
  | none =>
    simp only [bind, Except.bind] at h
    split at h
    · simp at h
    · split at h
      · simp at h
      · split at h
        · simp at h
        · cases x with
          | other _ => simp at h
          | arrayN _ _ => cases hy : y.rows <;> simp [hy] at h
          | list n => cases y <;> simp [YArg.rows] at h ⊢
          | array2 w r => cases y <;> simp [YArg.rows] at h ⊢
  | arr1 v =>
    simp only [bind, Except.bind] at h
    split at h
    · simp at h
    · split at h
      · simp at h
      · split at h
        · simp at h
        · cases x with
          | other _ => simp at h
          | arrayN _ _ =>
            cases hy : y.rows with
            | none => simp [hy] at h
            | some q => simp only [hy] at h; split at h <;> simp at h
          | list n => cases y <;> simp [YArg.rows] at h ⊢
          | array2 w r => cases y <;> simp [YArg.rows] at h ⊢
  | arrN _ _ =>
    simp only [bind, Except.bind] at h
    split at h
    · simp at h
    · split at h
      · simp at h
      · split at h
        · simp at h
        · cases x <;> cases hy : y.rows <;> simp [hy] at h

theorem rows_len {y : YArg} {cols : ℕ} {rows : List (List Fl)} (hy : y.rows = some (cols, rows)) : y.len = .ok rows.length := by
  cases y with
  | arr1 v => simp only [YArg.rows, Option.some.injEq, Prod.mk.injEq] at hy; rw [← hy.2]; simp [YArg.len]
  | arr2 c r => simp only [YArg.rows, Option.some.injEq, Prod.mk.injEq] at hy; rw [← hy.2]; rfl
  | arrN _ _ => simp [YArg.rows] at hy
  | other _ => simp [YArg.rows] at hy

theorem nanCheck_ok (x : XArg) (y : YArg) (p : Pts) (cols : ℕ) (rows : List (List Fl))
    (hx : (∃ k, x = .list k ∧ p = .list k) ∨ ∃ w r, x = .array2 w r ∧ p = .rows w r) (hy : y.rows = some (cols, rows)) :
    nanCheck p rows = .ok () ↔ ∀ w r, x = .array2 w r → NoNaN (r.flatten ++ y.entries) := by
  rcases hx with ⟨k, rfl, rfl⟩ | ⟨w, r, rfl, rfl⟩
  · simp [nanCheck]
  · rw [nanCheck_rows, entries_rows hy]
    constructor
    · intro h w' r' he
      simp only [XArg.array2.injEq] at he
      rw [← he.2]; exact h
    · intro h; exact h w r rfl

theorem construct_ok (x : XArg) (y : YArg) (noise : NArg) (fn : Bool) (s : Store) :
    construct x y noise fn = .ok s ↔ Acceptable x y noise ∧ (fn = true → noise = .none) ∧ s = stored x y noise fn := by
  by_cases hshape : ((∃ n, x = .list n) ∨ ∃ w r, x = .array2 w r) ∧ ((∃ v, y = .arr1 v) ∨ ∃ c r, y = .arr2 c r) ∧ (noise = .none ∨ ∃ v, noise = .arr1 v)
  · obtain ⟨h1, h2, h3⟩ := hshape
    obtain ⟨p, hp, hpe⟩ : ∃ p : Pts, ((∃ k, x = .list k ∧ p = .list k) ∨ ∃ w r, x = .array2 w r ∧ p = .rows w r) ∧
        (stored x y noise fn).x = p := by
      rcases h1 with ⟨n, rfl⟩ | ⟨w, r, rfl⟩
      · exact ⟨.list n, .inl ⟨n, rfl, rfl⟩, rfl⟩
      · exact ⟨.rows w r, .inr ⟨w, r, rfl, rfl⟩, rfl⟩
    obtain ⟨cols, rows, hy, hc, hr⟩ : ∃ cols rows, y.rows = some (cols, rows) ∧ (stored x y noise fn).cols = cols ∧ (stored x y noise fn).y = rows := by
      rcases h2 with ⟨v, rfl⟩ | ⟨c, r, rfl⟩
      · exact ⟨_, _, rfl, rfl, rfl⟩
      · exact ⟨_, _, rfl, rfl, rfl⟩
    obtain ⟨nv, hn, hne⟩ : ∃ nv, ((noise = .none ∧ nv = none) ∨ ∃ v, noise = .arr1 v ∧ nv = some v) ∧ (stored x y noise fn).noise = nv := by
      rcases h3 with rfl | ⟨v, rfl⟩
      · exact ⟨none, .inl ⟨rfl, rfl⟩, rfl⟩
      · exact ⟨some v, .inr ⟨v, rfl, rfl⟩, rfl⟩
    obtain ⟨n, hnx⟩ : ∃ n, x.len = .ok n := by
      rcases h1 with ⟨n, rfl⟩ | ⟨w, r, rfl⟩ <;> exact ⟨_, rfl⟩
    have hst : stored x y noise fn = ⟨p, cols, rows, nv, fn, p.dim⟩ := by
      rw [← hpe, ← hc, ← hr, ← hne]
      rcases h1 with ⟨n, rfl⟩ | ⟨w, r, rfl⟩ <;> rfl
    have hlen := rows_len hy
    rw [construct_good x y noise fn s p cols rows nv n hp hy hnx hlen hn, hst, nanCheck_ok x y p cols rows hp hy, likelihood_ok]
    constructor
    · rintro ⟨e, he, hv, hnan, hl, hs⟩
      refine ⟨⟨?_, h2, ⟨n, hnx, by rw [hlen, e]⟩, ?_, hnan⟩, ?_, hs⟩
      · rcases h1 with h | ⟨w, r, rfl⟩
        · exact .inl h
        · exact .inr ⟨w, r, rfl, fun hr => he w (by rw [hr])⟩
      · rcases hn with ⟨h, -⟩ | ⟨v, h, rfl⟩
        · exact .inl h
        · exact .inr ⟨v, h, by rw [hlen, hv v rfl], (hl v rfl).1⟩
      · intro hf
        rcases hn with ⟨h, -⟩ | ⟨v, h, rfl⟩
        · exact h
        · rw [hf] at hl; simpa using (hl v rfl).2
    · rintro ⟨⟨hpts, -, ⟨m, hm1, hm2⟩, hno, hnan⟩, hf, hs⟩
      rw [hnx, Except.ok.injEq] at hm1
      rw [hlen, Except.ok.injEq] at hm2
      refine ⟨by omega, fun w hw => ?_, fun v hv => ?_, hnan, fun v hv => ?_, hs⟩
      · rcases hpts with ⟨k, h⟩ | ⟨w', r', h, h'⟩
        · rw [h] at hw; simp at hw
        · rw [h] at hw; simp only [XArg.array2.injEq] at hw; exact h' hw.2
      · rcases hn with ⟨h, e⟩ | ⟨v', h, e⟩
        · rw [e] at hv; simp at hv
        · rw [e, Option.some.injEq] at hv
          subst hv
          rcases hno with h' | ⟨v'', h', h'', -⟩
          · rw [h] at h'; simp at h'
          · rw [h, NArg.arr1.injEq] at h'
            subst h'
            rw [hlen, Except.ok.injEq] at h''
            exact h''.symm
      · rcases hn with ⟨h, e⟩ | ⟨v', h, e⟩
        · rw [e] at hv; simp at hv
        · rw [e, Option.some.injEq] at hv
          subst hv
          rcases hno with h' | ⟨v'', h', -, hp⟩
          · rw [h] at h'; simp at h'
          · rw [h, NArg.arr1.injEq] at h'
            subst h'
            refine ⟨hp, ?_⟩
            cases fn with
            | false => rfl
            | true => have := hf rfl; rw [h] at this; simp at this
  · constructor
    · intro h; exact absurd (construct_shape h) hshape
    · rintro ⟨⟨h1, h2, -, h3, -⟩, -⟩
      refine absurd ⟨?_, h2, ?_⟩ hshape
      · rcases h1 with h | ⟨w, r, h, -⟩
        · exact .inl h
        · exact .inr ⟨w, r, h⟩
      · rcases h3 with h | ⟨v, h, -⟩
        · exact .inl h
        · exact .inr ⟨v, h⟩

/-! ## Updates -/

/-- Close a goal whose hypothesis says that an exception is a result. -/
local macro "kill" h:ident : tactic => `(tactic| (repeat' first | (simp at $h:ident; done) | split at $h:ident))

theorem update_shape {s t : Store} {x : XArg} {y : YArg} {noise : NArg} {append : Bool} (h : updateStore s x y noise append = .ok t) :
    SameKind s x ∧ ((∃ v, y = .arr1 v) ∨ ∃ c r, y = .arr2 c r) ∧ SameNoise s noise := by
  have hy : (∃ v, y = .arr1 v) ∨ ∃ c r, y = .arr2 c r := by
    cases y with
    | arr1 v => exact .inl ⟨v, rfl⟩
    | arr2 c r => exact .inr ⟨c, r, rfl⟩
    | arrN _ _ => cases x <;> simp [updateStore, YArg.rows] at h
    | other _ => cases x <;> simp [updateStore, YArg.rows] at h
  refine ⟨?_, hy, ?_⟩
  · rcases s with ⟨sx, sc, sy, sn, sf, sd⟩
    cases x with
    | other _ => simp [updateStore] at h
    | list m =>
      cases sx with
      | list n => exact .inl ⟨n, m, rfl, rfl⟩
      | rows w r =>
        exfalso
        rcases hy with ⟨v, rfl⟩ | ⟨c, r, rfl⟩ <;> cases noise <;> simp [updateStore, YArg.rows, XArg.pts, XArg.len, YArg.len, bind, Except.bind] at h <;> kill h
    | array2 w' r' =>
      cases sx with
      | rows w r => exact .inr ⟨w, r, w', r', rfl, rfl⟩
      | list n =>
        exfalso
        rcases hy with ⟨v, rfl⟩ | ⟨c, r, rfl⟩ <;> cases noise <;> simp [updateStore, YArg.rows, XArg.pts, XArg.len, YArg.len, bind, Except.bind] at h <;> kill h
    | arrayN d m =>
      exfalso
      cases hl : (XArg.arrayN d m).len with
      | error e => rcases hy with ⟨v, rfl⟩ | ⟨c, r, rfl⟩ <;> cases noise <;> simp [updateStore, YArg.rows, hl, bind, Except.bind] at h
      | ok k =>
        cases sx <;> rcases hy with ⟨v, rfl⟩ | ⟨c, r, rfl⟩ <;> cases noise <;>
          simp [updateStore, YArg.rows, XArg.pts, hl, YArg.len, bind, Except.bind] at h <;> kill h
  · rcases s with ⟨sx, sc, sy, sn, sf, sd⟩
    cases x with
    | other _ => simp [updateStore] at h
    | _ =>
      cases noise with
      | other => exfalso; rcases hy with ⟨v, rfl⟩ | ⟨c, r, rfl⟩ <;> simp [updateStore, YArg.rows] at h
      | arrN _ _ =>
        exfalso
        simp only [updateStore, bind, Except.bind] at h
        rcases hy with ⟨v, rfl⟩ | ⟨c, r, rfl⟩ <;> simp only [YArg.rows] at h <;> kill h
      | none =>
        cases sn with
        | none => exact .inl ⟨rfl, rfl⟩
        | some u =>
          exfalso
          simp only [updateStore, bind, Except.bind] at h
          rcases hy with ⟨v, rfl⟩ | ⟨c, r, rfl⟩ <;> simp [YArg.rows] at h <;> kill h
      | arr1 v =>
        cases sn with
        | some u => exact .inr ⟨u, v, rfl, rfl⟩
        | none =>
          exfalso
          simp only [updateStore, bind, Except.bind] at h
          rcases hy with ⟨v, rfl⟩ | ⟨c, r, rfl⟩ <;> simp [YArg.rows] at h <;> kill h

/-- What an accepted update of the right kind does. -/
theorem update_good (s t : Store) (x : XArg) (y : YArg) (noise : NArg) (append : Bool) (p : Pts) (cols : ℕ) (rows : List (List Fl))
    (nv all : Option (List Fl)) (n : ℕ)
    (hx : (∃ k m, s.x = .list k ∧ x = .list m ∧ p = .list m) ∨ ∃ w r w' r', s.x = .rows w r ∧ x = .array2 w' r' ∧ p = .rows w' r')
    (hy : y.rows = some (cols, rows)) (hnx : x.len = .ok n)
    (hn : (s.noise = none ∧ noise = .none ∧ nv = none ∧ all = none) ∨ ∃ u v, s.noise = some u ∧ noise = .arr1 v ∧ nv = some v ∧ all = some (u ++ v)) :
    updateStore s x y noise append = .ok t ↔ n = rows.length ∧
      (append = false → nanCheck p rows = .ok () ∧ t = ⟨p, cols, rows, nv, s.fn, s.dim⟩) ∧
      (append = true → ∃ q, s.x.append p = .ok q ∧ s.cols = cols ∧ nanCheck q (s.y ++ rows) = .ok () ∧
        t = ⟨q, s.cols, s.y ++ rows, all, s.fn, s.dim⟩) := by
  have hny := rows_len hy
  rcases s with ⟨sx, sc, sy, sn, sf, sd⟩
  simp only at hx hn ⊢
  have hp : x.pts sx = .ok p := by
    rcases hx with ⟨k, m, rfl, rfl, rfl⟩ | ⟨w, r, w', r', rfl, rfl, rfl⟩ <;> rfl
  have hxo : ∀ k, x ≠ .other k := by
    rcases hx with ⟨k, m, rfl, rfl, rfl⟩ | ⟨w, r, w', r', rfl, rfl, rfl⟩ <;> simp
  have hmain : updateStore ⟨sx, sc, sy, sn, sf, sd⟩ x y noise append = (if n ≠ rows.length then .error "AssertionError: updated x and y do not have the same lengths." else
      if append then do
        let q ← sx.append p
        if sc ≠ cols then .error "ValueError: all the input array dimensions must match" else
        nanCheck q (sy ++ rows)
        .ok ⟨q, sc, sy ++ rows, all, sf, sd⟩
      else do
        nanCheck p rows
        .ok ⟨p, cols, rows, nv, sf, sd⟩) := by
    cases x with
    | other k => exact absurd rfl (hxo k)
    | arrayN _ _ => rcases hx with ⟨k, m, -, h, -⟩ | ⟨w, r, w', r', -, h, -⟩ <;> simp at h
    | list m =>
      rcases hn with ⟨rfl, rfl, rfl, rfl⟩ | ⟨u, v, rfl, rfl, rfl, rfl⟩ <;> simp [updateStore, hy, hnx, hny, hp, bind, Except.bind]
    | array2 w' r' =>
      rcases hn with ⟨rfl, rfl, rfl, rfl⟩ | ⟨u, v, rfl, rfl, rfl, rfl⟩ <;> simp [updateStore, hy, hnx, hny, hp, bind, Except.bind]
  rw [hmain]
  by_cases hlen : n = rows.length
  · rw [if_neg (not_not.2 hlen)]
    cases append with
    | false =>
      cases hc : nanCheck p rows <;> simp [hlen, hc, bind, Except.bind, eq_comm]
    | true =>
      cases hq : sx.append p with
      | error e => simp [bind, Except.bind]
      | ok q =>
        by_cases hcol : sc = cols
        · cases hc : nanCheck q (sy ++ rows) <;> simp [hlen, hcol, hc, bind, Except.bind, eq_comm]
        · simp [hcol, bind, Except.bind]
  · rw [if_pos hlen]; simp [hlen]

theorem kind_pts {s : Store} {x : XArg} (h : SameKind s x) :
    ∃ (p : Pts) (n : ℕ), ((∃ k m, s.x = .list k ∧ x = .list m ∧ p = .list m) ∨ ∃ w r w' r', s.x = .rows w r ∧ x = .array2 w' r' ∧ p = .rows w' r') ∧
      x.len = .ok n := by
  rcases h with ⟨k, m, h, rfl⟩ | ⟨w, r, w', r', h, rfl⟩
  · exact ⟨.list m, m, .inl ⟨k, m, h, rfl, rfl⟩, rfl⟩
  · exact ⟨.rows w' r', r'.length, .inr ⟨w, r, w', r', h, rfl, rfl⟩, rfl⟩

theorem noise_all {s : Store} {noise : NArg} (h : SameNoise s noise) :
    ∃ nv all, (s.noise = none ∧ noise = .none ∧ nv = none ∧ all = none) ∨ ∃ u v, s.noise = some u ∧ noise = .arr1 v ∧ nv = some v ∧ all = some (u ++ v) := by
  rcases h with ⟨h, rfl⟩ | ⟨u, v, h, rfl⟩
  · exact ⟨none, none, .inl ⟨h, rfl, rfl, rfl⟩⟩
  · exact ⟨some v, some (u ++ v), .inr ⟨u, v, h, rfl, rfl, rfl⟩⟩

theorem values_rows {y : YArg} (h : (∃ v, y = .arr1 v) ∨ ∃ c r, y = .arr2 c r) : ∃ cols rows, y.rows = some (cols, rows) := by
  rcases h with ⟨v, rfl⟩ | ⟨c, r, rfl⟩ <;> exact ⟨_, _, rfl⟩

theorem values_of_rows {y : YArg} {cols : ℕ} {rows : List (List Fl)} (h : y.rows = some (cols, rows)) : (∃ v, y = .arr1 v) ∨ ∃ c r, y = .arr2 c r := by
  cases y with
  | arr1 v => exact .inl ⟨v, rfl⟩
  | arr2 c r => exact .inr ⟨c, r, rfl⟩
  | arrN _ _ => simp [YArg.rows] at h
  | other _ => simp [YArg.rows] at h

/-- What is known of a GP made by a constructor. -/
theorem proper_facts {s : Store} (h : Proper s) :
    (∀ w, s.x ≠ .rows w []) ∧ (∀ n, s.x = .list n → n = s.y.length) ∧ (∀ w r, s.x = .rows w r → r.length = s.y.length) ∧
      ∀ u, s.noise = some u → u.length = s.y.length ∧ (∀ a ∈ u, Pos a) ∧ s.fn = false := by
  obtain ⟨x, y, noise, h⟩ := h
  obtain ⟨⟨h1, h2, ⟨m, h3, h3'⟩, h4, h5⟩, h6, h7⟩ := (construct_ok _ _ _ _ _).1 h
  have hy : y.len = .ok (stored x y noise s.fn).y.length := by
    rcases h2 with ⟨v, rfl⟩ | ⟨c, r, rfl⟩ <;> simp [YArg.len, stored]
  rw [← h7] at hy
  rw [hy, Except.ok.injEq] at h3'
  have hx : s.x = (stored x y noise s.fn).x := congrArg Store.x h7
  have hn : s.noise = (stored x y noise s.fn).noise := congrArg Store.noise h7
  refine ⟨fun w hw => ?_, fun n hw => ?_, fun w r hw => ?_, fun u hu => ?_⟩
  · rw [hx] at hw
    rcases h1 with ⟨n, rfl⟩ | ⟨w', r, rfl, hr⟩
    · simp [stored] at hw
    · simp only [stored, Pts.rows.injEq] at hw; exact hr hw.2
  · rw [hx] at hw
    rcases h1 with ⟨n, rfl⟩ | ⟨w', r, rfl, hr⟩
    · simp only [stored, Pts.list.injEq] at hw
      simp only [XArg.len, Except.ok.injEq] at h3
      omega
    · simp [stored] at hw
  · rw [hx] at hw
    rcases h1 with ⟨n, rfl⟩ | ⟨w', r, rfl, hr⟩
    · simp [stored] at hw
    · simp only [stored, Pts.rows.injEq] at hw
      simp only [XArg.len, Except.ok.injEq] at h3
      rw [← hw.2]; omega
  · rw [hn] at hu
    rcases h4 with rfl | ⟨v, rfl, h8, h9⟩
    · simp [stored] at hu
    · simp only [stored, Option.some.injEq] at hu
      subst hu
      rw [hy, Except.ok.injEq] at h8
      refine ⟨h8.symm, h9, ?_⟩
      cases hs : s.fn with
      | false => rfl
      | true => simpa using h6 hs

theorem proper_dim {s : Store} (h : Proper s) : s.dim = s.x.dim := by
  obtain ⟨x, y, noise, h⟩ := h
  obtain ⟨⟨h1, -, -, -, -⟩, -, h7⟩ := (construct_ok _ _ _ _ _).1 h
  have hx : s.x = (stored x y noise s.fn).x := congrArg Store.x h7
  have hd : s.dim = (stored x y noise s.fn).dim := congrArg Store.dim h7
  rw [hx, hd]
  rcases h1 with ⟨n, rfl⟩ | ⟨w', r, rfl, hr⟩ <;> rfl

/-- C158: on a GP made by a constructor, an overwriting update that needs no check it lacks is accepted exactly if the constructor accepts the same data, provided that points and
noise are given in the way the GP holds them; and it leaves what the constructor would have made. -/
theorem C158_overwrite_partial (s t : Store) (x : XArg) (y : YArg) (noise : NArg) (hs : Proper s) :
    updateStore s x y noise false = .ok t ∧ ¬ Unchecked s x y noise false ↔
      SameKind s x ∧ SameWidth s x ∧ SameNoise s noise ∧ construct x y noise s.fn = .ok t := by
  have hfn : s.fn = true → s.noise = none := by
    intro hf
    cases hn : s.noise with
    | none => rfl
    | some u => have := ((proper_facts hs).2.2.2 u hn).2.2; rw [hf] at this; simp at this
  have hdim := proper_dim hs
  by_cases hk : SameKind s x ∧ SameNoise s noise ∧ ((∃ v, y = .arr1 v) ∨ ∃ c r, y = .arr2 c r)
  · obtain ⟨h1, h2, h3⟩ := hk
    obtain ⟨p, n, hp, hl⟩ := kind_pts h1
    obtain ⟨nv, all, hn⟩ := noise_all h2
    obtain ⟨cols, rows, hy⟩ := values_rows h3
    have hny := rows_len hy
    have hp' : (∃ k, x = .list k ∧ p = .list k) ∨ ∃ w r, x = .array2 w r ∧ p = .rows w r := by
      rcases hp with ⟨k, m, -, hx, hp⟩ | ⟨w, r, w', r', -, hx, hp⟩
      · exact .inl ⟨m, hx, hp⟩
      · exact .inr ⟨w', r', hx, hp⟩
    have hn' : (noise = .none ∧ nv = none) ∨ ∃ v, noise = .arr1 v ∧ nv = some v := by
      rcases hn with ⟨-, a, b, -⟩ | ⟨u, v, -, a, b, -⟩
      · exact .inl ⟨a, b⟩
      · exact .inr ⟨v, a, b⟩
    have hf : s.fn = true → nv = none := by
      intro hf
      rcases hn with ⟨-, a, b, -⟩ | ⟨u, v, a, -, b, -⟩
      · exact b
      · rw [hfn hf] at a; simp at a
    rw [update_good s t x y noise false p cols rows nv all n hp hy hl hn, construct_good x y noise s.fn t p cols rows nv n hp' hy hl hny hn',
      likelihood_ok]
    simp only [true_implies, Bool.false_eq_true, false_implies, and_true, h1, h2, true_and]
    have hd : SameWidth s x → s.dim = p.dim := by
      intro hw
      rcases hp with ⟨k, m, a, b, c⟩ | ⟨w, r, w', r', a, b, c⟩
      · rw [hdim, a, c]; rfl
      · rw [hdim, a, c]; exact hw w r w' r' a b
    constructor
    · rintro ⟨⟨e, hc, ht⟩, hu⟩
      have hw : SameWidth s x := by
        intro w r w' r' hx hx'
        by_contra hne
        exact hu (.inr (.inl ⟨rfl, w', r', hx', fun h => hne (by rw [h, hdim, hx]; rfl)⟩))
      refine ⟨hw, e, fun w hw => hu (.inl ⟨rfl, w, hw⟩), fun v hv => ?_, hc, fun v hv => ⟨fun a ha => ?_, ?_⟩, by rw [← hd hw]; exact ht⟩
      · rcases hn' with ⟨-, b⟩ | ⟨v', a, b⟩
        · rw [b] at hv; simp at hv
        · rw [b, Option.some.injEq] at hv; subst hv
          by_contra hne
          exact hu (.inr (.inr ⟨v', a, .inl fun h => hne (by rw [hny, Except.ok.injEq] at h; exact h.symm)⟩))
      · rcases hn' with ⟨-, b⟩ | ⟨v', a', b⟩
        · rw [b] at hv; simp at hv
        · rw [b, Option.some.injEq] at hv; subst hv
          by_contra hne
          exact hu (.inr (.inr ⟨v', a', .inr ⟨a, ha, hne⟩⟩))
      · cases hs : s.fn with
        | false => rfl
        | true => rw [hf hs] at hv; simp at hv
    · rintro ⟨hw, e, he, hv, hc, hp', ht⟩
      refine ⟨⟨e, hc, by rw [hd hw]; exact ht⟩, ?_⟩
      rintro (⟨-, w, hw⟩ | ⟨-, w, r, hx, hne⟩ | ⟨v, h, h'⟩)
      · exact he w hw
      · rcases h1 with ⟨k, m, a, b⟩ | ⟨w₁, r₁, w', r', a, b⟩
        · rw [hx] at b; simp at b
        · rw [hdim, a] at hne; exact hne (hw _ _ _ _ a hx).symm
      · rcases hn' with ⟨a, -⟩ | ⟨v', a, b⟩
        · rw [a] at h; simp at h
        · rw [a, NArg.arr1.injEq] at h
          subst h
          rcases h' with h' | ⟨c, hc, hc'⟩
          · exact h' (by rw [hny, hv v' b])
          · exact hc' ((hp' v' b).1 c hc)
  · constructor
    · rintro ⟨h, -⟩
      obtain ⟨a, b, c⟩ := update_shape h
      exact absurd ⟨a, c, b⟩ hk
    · rintro ⟨a, -, b, c⟩
      exact absurd ⟨a, b, (construct_shape c).2.1⟩ hk

/-- C158: on a GP made by a constructor, an appending update that needs no check it lacks is accepted exactly if the constructor accepts the old data
followed by the new, provided that points, values and noise are given in the way the GP holds them; and it leaves what the constructor would have made. -/
theorem C158_append_partial (s t : Store) (x : XArg) (y : YArg) (noise : NArg) (hs : Proper s) :
    updateStore s x y noise true = .ok t ∧ ¬ Unchecked s x y noise true ↔
      SameKind s x ∧ SameWidth s x ∧ SameNoise s noise ∧
        ∃ rows, y.rows = some (s.cols, rows) ∧ construct (s.joinX x) (.arr2 s.cols (s.y ++ rows)) (s.joinN noise) s.fn = .ok t := by
  obtain ⟨f1, f2, f3, f4⟩ := proper_facts hs
  by_cases hk : SameKind s x ∧ SameNoise s noise ∧ ((∃ v, y = .arr1 v) ∨ ∃ c r, y = .arr2 c r)
  · obtain ⟨h1, h2, h3⟩ := hk
    obtain ⟨p, n, hp, hl⟩ := kind_pts h1
    obtain ⟨nv, all, hn⟩ := noise_all h2
    obtain ⟨cols, rows, hy⟩ := values_rows h3
    have hny := rows_len hy
    have hdim := proper_dim hs
    rw [update_good s t x y noise true p cols rows nv all n hp hy hl hn]
    simp only [true_implies, Bool.true_eq_false, false_implies, true_and, h1, h2]
    have hN : (s.joinN noise = .none ∧ all = none) ∨ ∃ v, s.joinN noise = .arr1 v ∧ all = some v := by
      rcases hn with ⟨a, b, -, c⟩ | ⟨u, v, a, b, -, c⟩
      · exact .inl ⟨by simp [Store.joinN, b], c⟩
      · exact .inr ⟨u ++ v, by simp [Store.joinN, a, b], c⟩
    have hU : ¬ Unchecked s x y noise true ↔ ∀ u v, s.noise = some u → all = some (u ++ v) → v.length = rows.length ∧ ∀ a ∈ v, Pos a := by
      constructor
      · intro h u v hu hall
        rcases hn with ⟨a, -⟩ | ⟨u', v', a, b, -, c⟩
        · rw [a] at hu; simp at hu
        · rw [a, Option.some.injEq] at hu
          subst hu
          rw [c, Option.some.injEq, List.append_cancel_left_eq] at hall
          subst hall
          constructor
          · by_contra hne
            exact h (.inr (.inr ⟨v', b, .inl fun h' => hne (by rw [hny, Except.ok.injEq] at h'; exact h'.symm)⟩))
          · intro d hd
            by_contra hne
            exact h (.inr (.inr ⟨v', b, .inr ⟨d, hd, hne⟩⟩))
      · rintro h (⟨h', -⟩ | ⟨h', -⟩ | ⟨v, hv, h'⟩)
        · simp at h'
        · simp at h'
        · rcases hn with ⟨-, a, -⟩ | ⟨u', v', a, b, -, c⟩
          · rw [a] at hv; simp at hv
          · rw [b, NArg.arr1.injEq] at hv
            subst hv
            obtain ⟨l1, l2⟩ := h u' v' a c
            rcases h' with h' | ⟨d, hd, hd'⟩
            · exact h' (by rw [hny, l1])
            · exact hd' (l2 d hd)
    have hnoise : (∀ v, all = some v → v.length = (s.y ++ rows).length) ∧ likelihoodCheck all s.fn = .ok () ↔ ¬ Unchecked s x y noise true := by
      rw [hU, likelihood_ok]
      rcases hn with ⟨a, -, -, c⟩ | ⟨u, v, a, b, -, c⟩
      · simp [a, c]
      · obtain ⟨g1, g2, g3⟩ := f4 u a
        rw [a, c]
        simp only [Option.some.injEq, forall_eq', List.append_cancel_left_eq, g3, List.length_append, g1, List.mem_append]
        constructor
        · rintro ⟨e1, e2, -⟩ u' v' rfl hv
          rw [List.append_cancel_left_eq] at hv
          subst hv
          exact ⟨by omega, fun a ha => e2 a (.inr ha)⟩
        · intro h
          obtain ⟨e1, e2⟩ := h u v rfl rfl
          exact ⟨by omega, fun a ha => ha.elim (g2 a) (e2 a), trivial⟩
    constructor
    · rintro ⟨⟨e, q, hq, hc, hnan, ht⟩, hu⟩
      obtain ⟨g1, g2⟩ := hnoise.2 hu
      subst hc
      rcases hp with ⟨k, m, a, b, c⟩ | ⟨w, r, w', r', a, b, c⟩
      · refine ⟨fun w r w' r' hw => by rw [a] at hw; simp at hw, rows, hy, ?_⟩
        rw [a, c, Pts.append, Except.ok.injEq] at hq
        subst hq
        rw [construct_good (s.joinX x) _ (s.joinN noise) s.fn t (.list (k + m)) s.cols (s.y ++ rows) all (k + m)
          (.inl ⟨k + m, by simp [Store.joinX, a, b], rfl⟩) rfl (by simp [Store.joinX, a, b, XArg.len]) rfl hN]
        rw [b] at hl
        simp only [XArg.len, Except.ok.injEq] at hl
        exact ⟨by rw [List.length_append, ← f2 k a]; omega, by simp [Store.joinX, a, b], g1, hnan, g2, by rw [hdim, a] at ht; exact ht⟩
      · rw [a, c, Pts.append] at hq
        by_cases hw : w = w'
        · rw [if_pos hw, Except.ok.injEq] at hq
          subst hq
          refine ⟨fun _ _ _ _ hw1 hw2 => by rw [a] at hw1; rw [b] at hw2; simp only [Pts.rows.injEq, XArg.array2.injEq] at hw1 hw2; omega, rows, hy, ?_⟩
          rw [construct_good (s.joinX x) _ (s.joinN noise) s.fn t (.rows w (r ++ r')) s.cols (s.y ++ rows) all (r ++ r').length
            (.inr ⟨w, r ++ r', by simp [Store.joinX, a, b], rfl⟩) rfl (by simp [Store.joinX, a, b, XArg.len]) rfl hN]
          rw [b] at hl
          simp only [XArg.len, Except.ok.injEq] at hl
          refine ⟨by simp only [List.length_append]; rw [f3 w r a]; omega, fun w1 h => ?_, g1, hnan, g2, by rw [hdim, a] at ht; exact ht⟩
          have hr : r = [] := by
            simp only [Store.joinX, a, b, XArg.array2.injEq, List.append_eq_nil_iff] at h
            exact h.2.1
          exact f1 w (by rw [a, hr])
        · rw [if_neg hw] at hq; simp at hq
    · rintro ⟨hw, rows', hy', hc⟩
      rw [hy, Option.some.injEq, Prod.mk.injEq] at hy'
      obtain ⟨rfl, rfl⟩ := hy'
      rcases hp with ⟨k, m, a, b, c⟩ | ⟨w, r, w', r', a, b, c⟩
      · rw [construct_good (s.joinX x) _ (s.joinN noise) s.fn t (.list (k + m)) s.cols (s.y ++ rows) all (k + m)
          (.inl ⟨k + m, by simp [Store.joinX, a, b], rfl⟩) rfl (by simp [Store.joinX, a, b, XArg.len]) rfl hN] at hc
        obtain ⟨e, -, g1, hnan, g2, ht⟩ := hc
        rw [b] at hl
        simp only [XArg.len, Except.ok.injEq] at hl
        rw [List.length_append] at e
        have := f2 k a
        exact ⟨⟨by omega, .list (k + m), by rw [a, c]; rfl, rfl, hnan, by rw [hdim, a]; exact ht⟩, hnoise.1 ⟨g1, g2⟩⟩
      · have hww := hw w r w' r' a b
        subst hww
        rw [construct_good (s.joinX x) _ (s.joinN noise) s.fn t (.rows w (r ++ r')) s.cols (s.y ++ rows) all (r ++ r').length
          (.inr ⟨w, r ++ r', by simp [Store.joinX, a, b], rfl⟩) rfl (by simp [Store.joinX, a, b, XArg.len]) rfl hN] at hc
        obtain ⟨e, -, g1, hnan, g2, ht⟩ := hc
        rw [b] at hl
        simp only [XArg.len, Except.ok.injEq] at hl
        simp only [List.length_append] at e
        have := f3 w r a
        exact ⟨⟨by omega, .rows w (r ++ r'), by rw [a, c]; simp [Pts.append], rfl, hnan, by rw [hdim, a]; exact ht⟩, hnoise.1 ⟨g1, g2⟩⟩
  · constructor
    · rintro ⟨h, -⟩
      obtain ⟨a, b, c⟩ := update_shape h
      exact absurd ⟨a, c, b⟩ hk
    · rintro ⟨a, -, b, rows, c, -⟩
      exact absurd ⟨a, b, values_of_rows c⟩ hk

theorem construct_fn {x : XArg} {y : YArg} {noise : NArg} {fn : Bool} {s : Store} (h : construct x y noise fn = .ok s) : s.fn = fn := by
  rw [((construct_ok _ _ _ _ _).1 h).2.2]; rfl

theorem update_proper {s t : Store} {x : XArg} {y : YArg} {noise : NArg} {append : Bool} (hs : Proper s) (hu : ¬ Unchecked s x y noise append)
    (h : updateStore s x y noise append = .ok t) : Proper t ∧ t.fn = s.fn := by
  cases append with
  | false =>
    obtain ⟨-, -, -, hc⟩ := (C158_overwrite_partial s t x y noise hs).1 ⟨h, hu⟩
    have := construct_fn hc
    exact ⟨⟨x, y, noise, by rw [this]; exact hc⟩, this⟩
  | true =>
    obtain ⟨-, -, -, rows, -, hc⟩ := (C158_append_partial s t x y noise hs).1 ⟨h, hu⟩
    have := construct_fn hc
    exact ⟨⟨_, _, _, by rw [this]; exact hc⟩, this⟩

/-- A proper GP is the one its own arrays make. -/
theorem proper_rebuild {s : Store} (hs : Proper s) : construct s.xArg (.arr2 s.cols s.y) s.nArg s.fn = .ok s := by
  obtain ⟨x, y, noise, h⟩ := hs
  obtain ⟨h1, h2, h3⟩ := (construct_ok _ _ _ _ _).1 h
  obtain ⟨a1, a2, ⟨n, a3, a3'⟩, a4, a5⟩ := h1
  refine (construct_ok _ _ _ _ _).2 ⟨?_, ?_, ?_⟩
  · rw [h3]
    constructor
    · rcases a1 with ⟨n, rfl⟩ | ⟨w, r, rfl, hr⟩
      · exact .inl ⟨n, rfl⟩
      · exact .inr ⟨w, r, rfl, hr⟩
    · exact .inr ⟨_, _, rfl⟩
    · refine ⟨n, ?_, ?_⟩
      · rcases a1 with ⟨n, rfl⟩ | ⟨w, r, rfl, hr⟩ <;> exact a3
      · rcases a2 with ⟨v, rfl⟩ | ⟨c, r, rfl⟩
        · simpa [YArg.len, stored] using a3'
        · exact a3'
    · rcases a4 with rfl | ⟨v, rfl, b1, b2⟩
      · exact .inl rfl
      · refine .inr ⟨v, rfl, ?_, b2⟩
        rcases a2 with ⟨v', rfl⟩ | ⟨c, r, rfl⟩
        · simpa [YArg.len, stored] using b1
        · exact b1
    · intro w r hx
      have : NoNaN (r.flatten ++ y.entries) := by
        rcases a1 with ⟨n, rfl⟩ | ⟨w', r', rfl, hr⟩
        · simp [Store.xArg, stored] at hx
        · simp only [Store.xArg, stored, XArg.array2.injEq] at hx
          rw [← hx.2]; exact a5 w' r' rfl
      rcases a2 with ⟨v', rfl⟩ | ⟨c, r, rfl⟩
      · simpa [YArg.entries, stored, ← List.flatMap_def] using this
      · exact this
  · intro hf
    rw [h3]
    rw [h2 hf]; rfl
  · have : stored s.xArg (.arr2 s.cols s.y) s.nArg s.fn = s := by
      rw [h3]
      rcases a1 with ⟨n, rfl⟩ | ⟨w, r, rfl, hr⟩ <;> rcases a4 with rfl | ⟨v, rfl, b1, b2⟩ <;> rfl
    exact this.symm

/-- No update of a sequence needs a check it lacks, where it is applied. -/
def CheckedRun : Store → List Upd → Prop
  | _, [] => True
  | s, u :: us => ¬ Unchecked s u.x u.y u.noise u.append ∧ ∀ s', updateStore s u.x u.y u.noise u.append = .ok s' → CheckedRun s' us

/-- C158: after construction and any sequence of accepted updates, none of which needed a check that updates lack, constructing a GP from the arrays this
GP shows is accepted and gives a GP with the same data. -/
theorem C158_history_partial (x : XArg) (y : YArg) (noise : NArg) (fn : Bool) (us : List Upd) (s t : Store) (hs : construct x y noise fn = .ok s)
    (hu : CheckedRun s us) (ht : updates s us = .ok t) :
    construct t.xArg (.arr2 t.cols t.y) t.nArg fn = .ok t := by
  have key : ∀ (us : List Upd) (s : Store), Proper s → CheckedRun s us → updates s us = .ok t →
      Proper t ∧ t.fn = s.fn := by
    intro us
    induction us with
    | nil => intro s hs _ ht; rw [updates, Except.ok.injEq] at ht; subst ht; exact ⟨hs, rfl⟩
    | cons u us ih =>
      intro s hs hu ht
      rw [updates] at ht
      cases h1 : updateStore s u.x u.y u.noise u.append with
      | error e => rw [h1] at ht; simp [bind, Except.bind] at ht
      | ok s' =>
        rw [h1] at ht
        simp only [bind, Except.bind] at ht
        obtain ⟨p1, p2⟩ := update_proper hs hu.1 h1
        obtain ⟨q1, q2⟩ := ih s' p1 (hu.2 s' h1) ht
        exact ⟨q1, by rw [q2, p2]⟩
  have hf := construct_fn hs
  obtain ⟨p, q⟩ := key us s ⟨x, y, noise, by rw [hf]; exact hs⟩ hu ht
  have := proper_rebuild p
  rwa [q, hf] at this

/-! ## What updates do not check -/

/-- The same point and value with a negative noise variance. -/
noncomputable def negData : Data ℕ := ⟨[0], [[2]], 1, some [-1 / 2]⟩

/-- An overwriting update with it. -/
noncomputable def negUp : Update ℕ := ⟨[0], 1, [[2]], 1, some [-1 / 2], false, false, none⟩

theorem negKV : KVmat (withArgs kCfg kFns 1) negData 1 = Matrix.diagonal fun _ => (1 / 2 : ℝ) := by
  ext i j
  have hi : i = j := Subsingleton.elim (α := Fin 1) _ _
  subst hi
  rw [Matrix.diagonal_apply_eq, KVmat, Matrix.add_apply]
  have hV : (calcV (withArgs kCfg kFns 1) negData 1 negData.x).mat negData.x.length i i = -1 / 2 := by
    simp only [calcV, withArgs, kCfg, kFns, negData, Noise.mat]
    have : (i : ℕ) = 0 := by have := i.isLt; simp [negData] at this; omega
    refine (Matrix.diagonal_apply_eq _ _).trans ?_
    simp [this]
  rw [hV]
  simp [Kmat, withArgs, kFns]
  norm_num

theorem negAdm : Admissible (withArgs kCfg kFns 1) negData 1 := by
  refine ⟨?_, ?_⟩
  · simp [calcV, withArgs, kCfg, kFns, negData, Noise.Fits]
  · rw [negKV]
    exact Matrix.PosDef.diagonal fun _ => by norm_num

/-- C158 is violated by negative noise variances: no constructor accepts them, but an update does. A GP with prior variance `1` that was told the value
`2` with noise variance `1` predicts `1` with variance `1/2` there; after an overwriting update with noise variance `-1/2` it predicts `4` with
variance `0`. -/
theorem C158_negative_noise_violated :
    (∀ x y v fn, (∃ a ∈ v, ∃ r : ℝ, r ≤ 0 ∧ a = Fl.num r) → ∀ s, construct x y (.arr1 v) fn ≠ .ok s) ∧
    (∃ s t, construct (.array2 1 [[.num 0]]) (.arr1 [.num 2]) (.arr1 [.num 1]) false = .ok s ∧
      updateStore s (.array2 1 [[.num 0]]) (.arr1 [.num 2]) (.arr1 [.num (-1 / 2)]) false = .ok t ∧ t.noise = some [.num (-1 / 2)]) ∧
    ∃ o o', build (withArgs kCfg kFns 1) kData true 1 1 = .ok o ∧ updateGpData o negUp = (o', .ok ()) ∧
      posteriorMean o'.toGP [0] 0 0 = 4 ∧
      ∀ vo chunk junk, ∃ v S, posteriorCovariance o'.toGP [0] vo false chunk junk = .ok (v, S) ∧ v 0 = 0 := by
  refine ⟨?_, ?_, ?_⟩
  · rintro x y v fn ⟨a, ha, r, hr, rfl⟩ s h
    obtain ⟨h1, -⟩ := (construct_ok _ _ _ _ _).1 h
    rcases h1.noise with h | ⟨v', h, -, hp⟩
    · simp at h
    · rw [NArg.arr1.injEq] at h
      subst h
      rcases hp _ ha with h | ⟨q, hq, h⟩
      · simp at h
      · rw [Fl.num.injEq] at h; linarith
  · have hc : construct (.array2 1 [[.num 0]]) (.arr1 [.num 2]) (.arr1 [.num 1]) false = .ok ⟨.rows 1 [[.num 0]], 1, [[.num 2]], some [.num 1], false, 1⟩ := by
      refine (construct_ok _ _ _ _ _).2 ⟨⟨?_, ?_, ?_, ?_, ?_⟩, by simp, by simp [stored]⟩
      · exact .inr ⟨1, _, rfl, by simp⟩
      · exact .inl ⟨_, rfl⟩
      · exact ⟨1, rfl, rfl⟩
      · exact .inr ⟨_, rfl, rfl, by simp [Pos]⟩
      · intro w r h
        simp only [XArg.array2.injEq] at h
        simp [← h.2, NoNaN, YArg.entries]
    refine ⟨_, ⟨.rows 1 [[.num 0]], 1, [[.num 2]], some [.num (-1 / 2)], false, 1⟩, hc, ?_, rfl⟩
    refine (update_good _ _ _ _ _ _ (.rows 1 [[.num 0]]) 1 [[.num 2]] (some [.num (-1 / 2)]) (some ([.num 1] ++ [.num (-1 / 2)])) 1 (.inr ⟨_, _, _, _, rfl, rfl, rfl⟩) rfl rfl
      (.inr ⟨_, _, rfl, rfl, rfl, rfl⟩)).2 ⟨rfl, fun _ => ⟨(nanCheck_rows _ _ _).2 (by simp [NoNaN]), rfl⟩, by simp⟩
  · obtain ⟨o, ho, g⟩ := build_good (withArgs kCfg kFns 1) cholExt_contract true ⟨kData, 1, 1⟩ rfl (kAdm 1 (by norm_num) kData [1] rfl rfl (by simp))
    obtain ⟨o', ho', g'⟩ := updateGpData_good (withArgs kCfg kFns 1) cholExt_contract (fun _ _ _ => rfl) true ⟨kData, 1, 1⟩ o g negUp
      ⟨⟨rfl, rfl, rfl, fun h => by simp [negUp] at h, fun h => by simp [negUp] at h⟩, negAdm, fun h => by simp [negUp] at h⟩
    have hpd : (KVmat o'.toGP.cfg o'.toGP.data o'.toGP.hps).PosDef := by
      show (KVmat o'.cfg o'.data.cur o'.hps).PosDef
      rw [g'.cfg, g'.data, g'.hps]; exact g'.adm.posDef
    have hinv : (KVmat (withArgs kCfg kFns 1) negData 1)⁻¹ = Matrix.diagonal fun _ => (2 : ℝ) := by
      rw [negKV]
      refine Matrix.inv_eq_right_inv ?_
      rw [Matrix.diagonal_mul_diagonal]
      ext i j
      simp [Matrix.diagonal_apply, Matrix.one_apply]
    have hu : ∀ F : Fin negData.x.length → ℝ, ∑ i, F i = F ⟨0, by simp [negData]⟩ := fun F => Fin.sum_univ_one F
    refine ⟨o, o', ho, ho', ?_, fun vo chunk junk => ?_⟩
    · refine (consistent_mean g'.con hpd [0] pz 0).trans ?_
      show specMean o'.cfg o'.data.cur o'.hps [0] 0 pz = 4
      rw [g'.cfg, g'.data, g'.hps]
      show specMean (withArgs kCfg kFns 1) negData 1 [0] 0 pz = 4
      unfold specMean condMean
      rw [hinv, Pi.add_apply]
      simp only [Matrix.mulVec, dotProduct, hu, Matrix.transpose_apply, Pi.sub_apply]
      rw [Matrix.diagonal_apply_eq]
      simp only [meanAt, meanFn, withArgs, kFns, Kmat, yCol, Data.yMat, Matrix.of_apply]
      simp [negData]
      norm_num
    · obtain ⟨v, S, h1, h2, -⟩ := posteriorCovariance_eq g'.con hpd [0] vo chunk junk
      refine ⟨v, S, h1, (h2 pz).trans ?_⟩
      have : specCov o'.cfg o'.data.cur o'.hps [0] pz pz = -1 := by
        rw [g'.cfg, g'.data, g'.hps]
        show specCov (withArgs kCfg kFns 1) negData 1 [0] pz pz = -1
        unfold specCov condCov
        rw [hinv, Matrix.sub_apply, Matrix.mul_apply]
        simp only [Matrix.mul_apply, hu, Matrix.transpose_apply]
        rw [Matrix.diagonal_apply_eq]
        simp only [withArgs, kFns, Kmat, Matrix.of_apply]
        norm_num
      exact (congrArg (max 0) this).trans (by norm_num)

/-- C158 is violated by an empty table: an overwriting update empties a GP on tables without noise variances, while no constructor accepts such data. -/
theorem C158_empty_violated (s : Store) (w : ℕ) (r : List (List Fl)) (hx : s.x = .rows w r) (hn : s.noise = none) (w' cols : ℕ) :
    updateStore s (.array2 w' []) (.arr2 cols []) .none false = .ok ⟨.rows w' [], cols, [], none, s.fn, s.dim⟩ ∧
      ∀ y noise fn t, construct (.array2 w' []) y noise fn ≠ .ok t := by
  constructor
  · exact (update_good s _ _ _ _ _ (.rows w' []) cols [] none none 0 (.inr ⟨w, r, w', [], hx, rfl, rfl⟩) rfl rfl (.inl ⟨hn, rfl, rfl, rfl⟩)).2
      ⟨rfl, fun _ => ⟨(nanCheck_rows _ _ _).2 (by simp [NoNaN]), rfl⟩, by simp⟩
  · intro y noise fn t h
    rcases ((construct_ok _ _ _ _ _).1 h).1.points with ⟨n, h⟩ | ⟨w, r, h, hr⟩
    · simp at h
    · simp only [XArg.array2.injEq] at h; exact hr h.2.symm

/-- C158 is violated by a table of another width: the GP takes it, but still insists on the old width at prediction; a GP constructed on the same data
accepts the new width only. -/
theorem C158_width_violated (s : Store) (w : ℕ) (r : List (List Fl)) (hs : Proper s) (hx : s.x = .rows w r) (hn : s.noise = none) (w' : ℕ) (hw : w' ≠ w)
    (a : List Fl) (b : Fl) (h : NoNaN (a ++ [b])) :
    ∃ t c, updateStore s (.array2 w' [a]) (.arr1 [b]) .none false = .ok t ∧ construct (.array2 w' [a]) (.arr1 [b]) .none s.fn = .ok c ∧
      t.x = c.x ∧ t.y = c.y ∧ predictCheck c w' = .ok () ∧ predictCheck t w = .ok () ∧
      predictCheck t w' = .error "AssertionError: wrong number of columns in x_pred" := by
  have hd : s.dim = w := by rw [proper_dim hs, hx]; rfl
  refine ⟨⟨.rows w' [a], 1, [[b]], none, s.fn, s.dim⟩, ⟨.rows w' [a], 1, [[b]], none, s.fn, w'⟩, ?_, ?_, rfl, rfl, by simp [predictCheck], by simp [predictCheck, hd],
    by simp [predictCheck, hd, hw]⟩
  · exact (update_good s _ _ _ _ _ (.rows w' [a]) 1 [[b]] none none 1 (.inr ⟨w, r, w', [a], hx, rfl, rfl⟩) rfl rfl (.inl ⟨hn, rfl, rfl, rfl⟩)).2
      ⟨rfl, fun _ => ⟨(nanCheck_rows _ _ _).2 (by simpa using h), rfl⟩, by simp⟩
  · refine (construct_ok _ _ _ _ _).2 ⟨⟨.inr ⟨w', _, rfl, by simp⟩, .inl ⟨_, rfl⟩, ⟨1, rfl, rfl⟩, .inl rfl, ?_⟩, fun _ => rfl, rfl⟩
    intro _ _ h'
    simp only [XArg.array2.injEq] at h'
    rw [← h'.2]; simpa [YArg.entries] using h

/-- C158 is violated by NaN in the values for points given as a list: both the constructor and updates accept it. -/
theorem C158_nan_list_violated (n : ℕ) (v : List Fl) (hv : v.length = n) : ∃ s, construct (.list n) (.arr1 v) .none false = .ok s ∧
    s.y = v.map (fun a => [a]) ∧ ∃ t, updateStore s (.list n) (.arr1 v) .none true = .ok t ∧ t.y = v.map (fun a => [a]) ++ v.map fun a => [a] := by
  refine ⟨_, (construct_ok _ _ _ _ _).2 ⟨⟨.inl ⟨n, rfl⟩, .inl ⟨v, rfl⟩, ⟨n, rfl, by simp [YArg.len, hv]⟩, .inl rfl, by simp⟩, by simp, rfl⟩, rfl, ?_⟩
  exact ⟨⟨.list (n + n), 1, _, none, false, 1⟩, (update_good _ _ _ _ _ _ (.list n) 1 (v.map fun a => [a]) none none n (.inl ⟨n, n, rfl, rfl, rfl⟩) rfl rfl
    (.inl ⟨rfl, rfl, rfl, rfl⟩)).2 ⟨by simp [hv], by simp, fun _ => ⟨.list (n + n), rfl, rfl, rfl, rfl⟩⟩, rfl⟩

/-- C158 is violated by noise variances for a GP with a noise function: the documentation of `update_gp_data` says that they will be ignored, but such
an update is never accepted. -/
theorem C158_ignored_violated (s : Store) (hs : Proper s) (hf : s.fn = true) (x : XArg) (y : YArg) (v : List Fl) (append : Bool) (t : Store) :
    updateStore s x y (.arr1 v) append ≠ .ok t := by
  intro h
  rcases (update_shape h).2.2 with ⟨-, h⟩ | ⟨u, v, h, -⟩
  · simp at h
  · have := ((proper_facts hs).2.2.2 u h).2.2
    rw [hf] at this; simp at this

/-- C158: construction accepts exactly acceptable data, with noise variances or a noise function but not both, and keeps it as given: values in one axis
become a single column. -/
theorem C158_construct (x : XArg) (y : YArg) (noise : NArg) (fn : Bool) :
    ((∃ s, construct x y noise fn = .ok s) ↔ Acceptable x y noise ∧ (fn = true → noise = .none)) ∧
    ∀ s, construct x y noise fn = .ok s → s.xArg = x ∧ s.nArg = noise ∧ s.fn = fn ∧ (∀ n, x = .list n → s.dim = 1) ∧ (∀ w r, x = .array2 w r → s.dim = w) ∧
      (∀ v, y = .arr1 v → s.cols = 1 ∧ s.y = v.map fun a => [a]) ∧ ∀ c r, y = .arr2 c r → s.cols = c ∧ s.y = r := by
  constructor
  · constructor
    · rintro ⟨s, h⟩
      obtain ⟨h1, h2, -⟩ := (construct_ok _ _ _ _ _).1 h
      exact ⟨h1, h2⟩
    · rintro ⟨h1, h2⟩
      exact ⟨_, (construct_ok _ _ _ _ _).2 ⟨h1, h2, rfl⟩⟩
  · intro s h
    obtain ⟨h1, h2, rfl⟩ := (construct_ok _ _ _ _ _).1 h
    refine ⟨?_, ?_, rfl, fun n hn => by rw [hn]; rfl, fun w r hr => by rw [hr]; rfl, ?_, ?_⟩
    · rcases h1.points with ⟨n, rfl⟩ | ⟨w, r, rfl, -⟩ <;> rfl
    · rcases h1.noise with rfl | ⟨v, rfl, -⟩ <;> rfl
    · rintro v rfl; exact ⟨rfl, rfl⟩
    · rintro c r rfl; exact ⟨rfl, rfl⟩

/-! ## Examples -/

/-- A GP on a table of one point. -/
noncomputable def tblStore : Store := ⟨.rows 1 [[.num 0]], 1, [[.num 2]], some [.num 1], false, 1⟩

theorem tbl_construct : construct (.array2 1 [[.num 0]]) (.arr1 [.num 2]) (.arr1 [.num 1]) false = .ok tblStore := by
  refine (construct_ok _ _ _ _ _).2 ⟨⟨.inr ⟨1, _, rfl, by simp⟩, .inl ⟨_, rfl⟩, ⟨1, rfl, rfl⟩, .inr ⟨_, rfl, rfl, by simp [Pos]⟩, ?_⟩, by simp, by simp [stored, tblStore]⟩
  intro w r h
  simp only [XArg.array2.injEq] at h
  simp [← h.2, NoNaN, YArg.entries]

/-- The hypotheses of C158_append_partial and C158_history_partial are met by appending a point to it. -/
example : ∃ t, updateStore tblStore (.array2 1 [[.num 5]]) (.arr1 [.num 3]) (.arr1 [.num 4]) true = .ok t ∧
    construct (.array2 1 [[.num 0], [.num 5]]) (.arr2 1 [[.num 2], [.num 3]]) (.arr1 [.num 1, .num 4]) false = .ok t := by
  have hs : Proper tblStore := ⟨_, _, _, tbl_construct⟩
  have hu : ¬ Unchecked tblStore (.array2 1 [[.num 5]]) (.arr1 [.num 3]) (.arr1 [.num 4]) true := by
    rintro (⟨h, -⟩ | ⟨h, -⟩ | ⟨v, h, h' | ⟨a, ha, ha'⟩⟩)
    · simp at h
    · simp at h
    · rw [NArg.arr1.injEq] at h; subst h; exact h' rfl
    · rw [NArg.arr1.injEq] at h; subst h
      rw [List.mem_singleton] at ha; subst ha
      exact ha' (.inr ⟨4, by norm_num, rfl⟩)
  have h : updateStore tblStore (.array2 1 [[.num 5]]) (.arr1 [.num 3]) (.arr1 [.num 4]) true
      = .ok ⟨.rows 1 [[.num 0], [.num 5]], 1, [[.num 2], [.num 3]], some [.num 1, .num 4], false, 1⟩ :=
    (update_good _ _ _ _ _ _ (.rows 1 [[.num 5]]) 1 [[.num 3]] (some [.num 4]) (some ([.num 1] ++ [.num 4])) 1 (.inr ⟨_, _, _, _, rfl, rfl, rfl⟩) rfl rfl
      (.inr ⟨_, _, rfl, rfl, rfl, rfl⟩)).2 ⟨rfl, by simp, fun _ => ⟨.rows 1 [[.num 0], [.num 5]], by simp [tblStore, Pts.append], rfl,
        (nanCheck_rows _ _ _).2 (by simp [NoNaN, tblStore]), rfl⟩⟩
  obtain ⟨-, -, -, rows, hr, hc⟩ := (C158_append_partial tblStore _ _ _ _ hs).1 ⟨h, hu⟩
  refine ⟨_, h, ?_⟩
  simp only [YArg.rows, List.map_cons, List.map_nil, Option.some.injEq, Prod.mk.injEq] at hr
  rw [← hr.2] at hc
  exact hc

/-- The hypotheses of C158_width_violated and C158_empty_violated: a GP on a table without noise variances, overwritten by a point with two coordinates. -/
example : ∃ s t, construct (.array2 1 [[.num 0]]) (.arr1 [.num 2]) .none false = .ok s ∧
    updateStore s (.array2 2 [[.num 5, .num 6]]) (.arr1 [.num 3]) .none false = .ok t ∧ predictCheck t 1 = .ok () := by
  have hc : construct (.array2 1 [[.num 0]]) (.arr1 [.num 2]) .none false = .ok ⟨.rows 1 [[.num 0]], 1, [[.num 2]], none, false, 1⟩ := by
    refine (construct_ok _ _ _ _ _).2 ⟨⟨.inr ⟨1, _, rfl, by simp⟩, .inl ⟨_, rfl⟩, ⟨1, rfl, rfl⟩, .inl rfl, ?_⟩, by simp, rfl⟩
    intro w r h
    simp only [XArg.array2.injEq] at h
    simp [← h.2, NoNaN, YArg.entries]
  obtain ⟨t, c, h1, -, -, -, -, h2, -⟩ := C158_width_violated ⟨.rows 1 [[.num 0]], 1, [[.num 2]], none, false, 1⟩ 1 _ ⟨_, _, _, hc⟩ rfl rfl 2 (by decide)
    [.num 5, .num 6] (.num 3) (by simp [NoNaN])
  exact ⟨_, t, hc, h1, h2⟩

/-- A GP with a noise function meets the hypotheses of C158_ignored_violated. -/
example : Proper ⟨.list 1, 1, [[.num 2]], none, true, 1⟩ :=
  ⟨.list 1, .arr1 [.num 2], .none, (construct_ok _ _ _ _ _).2 ⟨⟨.inl ⟨1, rfl⟩, .inl ⟨_, rfl⟩, ⟨1, rfl, rfl⟩, .inl rfl, by simp⟩, by simp, rfl⟩⟩

end Verif.State
