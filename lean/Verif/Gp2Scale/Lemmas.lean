import Verif.Gp2Scale.Model
import Mathlib.Algebra.BigOperators.Intervals
import Mathlib.Tactic.Linarith
import Mathlib.Tactic.Ring

/-! Helper lemmas about the gp2Scale model. -/

namespace Verif.Gp2Scale

theorem clampBatch_pos (b : ℤ) : 1 ≤ clampBatch b := by
  unfold clampBatch; omega

/-- number of chunks -/
def nChunks (n B : ℕ) : ℕ := (n + B - 1) / B

theorem lt_nChunks {n B k : ℕ} (hB : 1 ≤ B) : k < nChunks n B ↔ k * B < n := by
  unfold nChunks
  rw [Nat.lt_iff_add_one_le, Nat.le_div_iff_mul_le (by omega), Nat.add_mul]
  omega

theorem ranges_eq (n : ℕ) (b : ℤ) :
    ranges n b = (List.range (nChunks n (clampBatch b))).map
      fun k => (k * clampBatch b, min (k * clampBatch b + clampBatch b) n) := by
  simp [ranges, pyRange, nChunks, Function.comp_def]

theorem mem_chunk_iff {n B k i : ℕ} (hB : 1 ≤ B) (hi : i < n) :
    (k * B ≤ i ∧ i < min (k * B + B) n) ↔ k = i / B := by
  constructor
  · rintro ⟨h1, h2⟩
    have h3 : i < k * B + B := lt_of_lt_of_le h2 (min_le_left _ _)
    symm
    exact Nat.div_eq_of_lt_le h1 (by rw [Nat.add_mul]; omega)
  · rintro rfl
    have h1 := Nat.div_mul_le_self i B
    have h2 : i < i / B * B + B := by
      have := Nat.lt_div_mul_add (a := i) (b := B) (by omega)
      omega
    exact ⟨h1, lt_min h2 hi⟩

section
variable {R : Type*} [AddCommMonoid R]

theorem sum_map_range (N : ℕ) (f : ℕ → R) :
    ((List.range N).map f).sum = ∑ k ∈ Finset.range N, f k := by
  induction N with
  | zero => simp
  | succ N ih => simp [List.range_succ, Finset.sum_range_succ, ih]

/-- Summing over chunks something that vanishes unless the chunk contains `i` picks the chunk of `i`. -/
theorem sum_ranges_single {n : ℕ} (b : ℤ) {i : ℕ} (hi : i < n) (f : ℕ × ℕ → R)
    (hf : ∀ r ∈ ranges n b, ¬ (r.1 ≤ i ∧ i < r.2) → f r = 0) :
    ((ranges n b).map f).sum
      = f (i / clampBatch b * clampBatch b,
          min (i / clampBatch b * clampBatch b + clampBatch b) n) := by
  have hB := clampBatch_pos b
  rw [ranges_eq] at *
  rw [List.map_map, sum_map_range]
  rw [Finset.sum_eq_single (i / clampBatch b)]
  · rfl
  · intro k hk hne
    apply hf
    · simp only [List.mem_map, List.mem_range]
      exact ⟨k, Finset.mem_range.1 hk, rfl⟩
    · intro h; exact hne ((mem_chunk_iff hB hi).1 h)
  · intro hk
    exfalso; apply hk
    rw [Finset.mem_range, lt_nChunks hB]
    have h1 := Nat.div_mul_le_self i (clampBatch b)
    omega

theorem sum_ranges_none {n : ℕ} (b : ℤ) (f : ℕ × ℕ → R)
    (hf : ∀ r ∈ ranges n b, f r = 0) :
    ((ranges n b).map f).sum = 0 := by
  apply List.sum_eq_zero
  intro x hx
  obtain ⟨r, hr, rfl⟩ := List.mem_map.1 hx
  exact hf r hr

variable [DecidableEq R]

@[simp] theorem tripletsAt_nil (i j : ℕ) : tripletsAt ([] : List (Triplet R)) i j = 0 := rfl

theorem tripletsAt_append (l m : List (Triplet R)) (i j : ℕ) :
    tripletsAt (l ++ m) i j = tripletsAt l i j + tripletsAt m i j := by
  simp [tripletsAt]

theorem tripletsAt_cons (t : Triplet R) (l : List (Triplet R)) (i j : ℕ) :
    tripletsAt (t :: l) i j = (if t.row = i ∧ t.col = j then t.val else 0) + tripletsAt l i j := by
  unfold tripletsAt
  by_cases h : t.row = i ∧ t.col = j
  · simp [h]
  · rw [if_neg h, List.filter_cons_of_neg (by simpa using h), zero_add]

theorem tripletsAt_perm {l m : List (Triplet R)} (h : l.Perm m) (i j : ℕ) :
    tripletsAt l i j = tripletsAt m i j := by
  unfold tripletsAt
  exact ((h.filter _).map _).sum_eq

theorem tripletsAt_flatten (L : List (List (Triplet R))) (i j : ℕ) :
    tripletsAt L.flatten i j = (L.map fun l => tripletsAt l i j).sum := by
  induction L with
  | nil => simp
  | cons l L ih => simp [tripletsAt_append, ih]

theorem tripletsAt_eq_zero {l : List (Triplet R)} {i j : ℕ}
    (h : ∀ t ∈ l, ¬ (t.row = i ∧ t.col = j)) : tripletsAt l i j = 0 := by
  unfold tripletsAt
  rw [List.filter_eq_nil_iff.2]
  · rfl
  · intro t ht; simpa using h t ht

/-- offsetting all triplets -/
theorem tripletsAt_offset (l : List (Triplet R)) (a c i j : ℕ) :
    tripletsAt (l.map fun t => (⟨t.val, t.row + a, t.col + c⟩ : Triplet R)) i j
      = if a ≤ i ∧ c ≤ j then tripletsAt l (i - a) (j - c) else 0 := by
  induction l with
  | nil => simp
  | cons t l ih =>
    rw [List.map_cons, tripletsAt_cons, tripletsAt_cons, ih]
    by_cases h : a ≤ i ∧ c ≤ j
    · have : (t.row + a = i ∧ t.col + c = j) ↔ (t.row = i - a ∧ t.col = j - c) := by omega
      simp only [this, if_pos h]
    · have : ¬ (t.row + a = i ∧ t.col + c = j) := by omega
      simp only [if_neg h, this, if_false, add_zero]

theorem tripletsAt_swap (l : List (Triplet R)) (i j : ℕ) :
    tripletsAt (l.map fun t => (⟨t.val, t.col, t.row⟩ : Triplet R)) i j = tripletsAt l j i := by
  induction l with
  | nil => simp
  | cons t l ih =>
    rw [List.map_cons, tripletsAt_cons, tripletsAt_cons, ih]
    simp only [and_comm]

theorem tripletsAt_filter (l : List (Triplet R)) (p : ℕ → ℕ → Bool) (i j : ℕ) :
    tripletsAt (l.filter fun t => p t.row t.col) i j = if p i j then tripletsAt l i j else 0 := by
  induction l with
  | nil => simp
  | cons t l ih =>
    by_cases hp : p t.row t.col = true
    · rw [List.filter_cons_of_pos (p := fun t : Triplet R => p t.row t.col) hp, tripletsAt_cons,
        tripletsAt_cons, ih]
      by_cases h : t.row = i ∧ t.col = j
      · obtain ⟨rfl, rfl⟩ := h
        simp [hp]
      · simp [h]
    · rw [List.filter_cons_of_neg (p := fun t : Triplet R => p t.row t.col) hp, tripletsAt_cons, ih]
      by_cases h : t.row = i ∧ t.col = j
      · obtain ⟨rfl, rfl⟩ := h
        simp [hp]
      · simp [h]

/-- dropping zero-valued triplets does not change the matrix -/
theorem tripletsAt_filter_ne_zero (l : List (Triplet R)) (i j : ℕ) :
    tripletsAt (l.filter fun t => t.val ≠ 0) i j = tripletsAt l i j := by
  induction l with
  | nil => simp
  | cons t l ih =>
    by_cases h : t.val = 0
    · rw [List.filter_cons_of_neg (by simpa using h), tripletsAt_cons, ih, h]; simp
    · rw [List.filter_cons_of_pos (by simpa using h), tripletsAt_cons, tripletsAt_cons, ih]

theorem tripletsAt_mapIdx_row (row : List R) (r i j : ℕ) (o : ℕ) :
    tripletsAt (row.mapIdx fun k v => (⟨v, r, k + o⟩ : Triplet R)) i j
      = if r = i ∧ o ≤ j then (row[j - o]?).getD 0 else 0 := by
  induction row generalizing o with
  | nil => simp
  | cons a row ih =>
    rw [List.mapIdx_cons, tripletsAt_cons]
    have e : (fun k v => (⟨v, r, k + 1 + o⟩ : Triplet R)) = fun k v => ⟨v, r, k + (o + 1)⟩ := by
      funext k v; congr 1; omega
    rw [e, ih (o + 1)]
    by_cases hr : r = i
    · subst hr
      rcases Nat.lt_trichotomy j o with h | h | h
      · rw [if_neg (by simp; omega), if_neg (by omega), if_neg (by omega), add_zero]
      · subst h; simp
      · rw [if_neg (by simp; omega), if_pos (by omega), if_pos (by omega)]
        obtain ⟨d, rfl⟩ : ∃ d, j = o + 1 + d := ⟨j - (o + 1), by omega⟩
        rw [show o + 1 + d - o = d + 1 by omega, show o + 1 + d - (o + 1) = d by omega]
        simp
    · simp [hr]

theorem tripletsAt_rowTriplets (row : List R) (r i j : ℕ) :
    tripletsAt (rowTriplets r row) i j = if r = i then (row[j]?).getD 0 else 0 := by
  unfold rowTriplets
  rw [tripletsAt_filter_ne_zero]
  have := tripletsAt_mapIdx_row row r i j 0
  simpa using this

theorem tripletsAt_dense_aux (rows : List (List R)) (o i j : ℕ) :
    tripletsAt (rows.mapIdx fun k row => rowTriplets (k + o) row).flatten i j
      = if o ≤ i then ((rows[i - o]?).bind (fun r => r[j]?)).getD 0 else 0 := by
  induction rows generalizing o with
  | nil => simp
  | cons row rows ih =>
    rw [List.mapIdx_cons, List.flatten_cons, tripletsAt_append, tripletsAt_rowTriplets]
    have e : (fun k row => rowTriplets (R := R) (k + 1 + o) row)
        = fun k row => rowTriplets (k + (o + 1)) row := by
      funext k v; congr 1; omega
    rw [e, ih (o + 1)]
    rcases Nat.lt_trichotomy i o with h | h | h
    · rw [if_neg (by omega), if_neg (by omega), if_neg (by omega), add_zero]
    · subst h; simp
    · rw [if_neg (by omega), if_pos (by omega), if_pos (by omega)]
      obtain ⟨d, rfl⟩ : ∃ d, i = o + 1 + d := ⟨i - (o + 1), by omega⟩
      rw [show o + 1 + d - o = d + 1 by omega, show o + 1 + d - (o + 1) = d by omega]
      simp

theorem tripletsAt_blockToCoo_dense (rows : List (List R)) (i j : ℕ) :
    tripletsAt (blockToCoo (.dense rows)) i j
      = ((rows[i]?).bind (fun r => r[j]?)).getD 0 := by
  have := tripletsAt_dense_aux rows 0 i j
  simpa [blockToCoo] using this

end

theorem length_slice {X : Type*} (x : List X) (a b : ℕ) :
    (slice x a b).length = min (b - a) (x.length - a) := by
  simp [slice]

theorem getElem?_slice {X : Type*} (x : List X) (a b i : ℕ) :
    (slice x a b)[i]? = if i < b - a then x[a + i]? else none := by
  simp [slice, List.getElem?_take, List.getElem?_drop]

/-! ### Buffers -/

section
variable {R : Type*}

/-- the entries written for one part -/
def written (symmetric : Bool) (p : List (Triplet R)) : List (Triplet R) :=
  p ++ (if symmetric then (p.filter fun t => t.row ≠ t.col).map fun t => ⟨t.val, t.col, t.row⟩ else [])

theorem filter_length_compl {α : Type*} (p : α → Bool) (l : List α) :
    (l.filter fun a => !p a).length = l.length - (l.filter p).length := by
  induction l with
  | nil => simp
  | cons a l ih =>
    have := List.length_filter_le p l
    by_cases h : p a = true
    · simp [h, ih]
    · simp [h, ih]; omega

theorem length_written (symmetric : Bool) (p : List (Triplet R)) :
    (written symmetric p).length
      = p.length + (if symmetric then p.length - (p.filter fun t => t.row = t.col).length else 0) := by
  unfold written
  cases symmetric
  · simp
  · have := filter_length_compl (fun t : Triplet R => decide (t.row = t.col)) p
    simp only [List.length_append, if_true, List.length_map]
    congr 1
    rw [← this]
    congr 2
    funext t; simp

theorem allocTotal_eq (symmetric : Bool) (parts : List (List (Triplet R))) :
    allocTotal symmetric parts = (parts.map fun p => (written symmetric p).length).sum := by
  simp [allocTotal, length_written]

theorem writeSlice_ok {α : Type*} (pre data : List α) (k : ℕ) :
    writeSlice (pre.map some ++ List.replicate (data.length + k) none) pre.length data
      = .ok ((pre ++ data).map some ++ List.replicate k none) := by
  unfold writeSlice
  rw [if_pos (by simp)]
  congr 1
  rw [List.take_left' (by simp), List.drop_append]
  simp [List.drop_replicate]

theorem fillLoop_ok (symmetric : Bool) (parts : List (List (Triplet R))) (pre : List (Triplet R)) :
    fillLoop symmetric parts pre.length
        (pre.map some ++ List.replicate ((parts.map fun p => (written symmetric p).length).sum) none)
      = .ok (pre.length + (parts.map fun p => (written symmetric p).length).sum,
          (pre ++ (parts.map (written symmetric)).flatten).map some) := by
  induction parts generalizing pre with
  | nil => simp [fillLoop]
  | cons p rest ih =>
    unfold fillLoop
    simp only [List.map_cons, List.sum_cons]
    cases symmetric with
    | false =>
      have hw : ∀ q : List (Triplet R), written false q = q := by intro q; simp [written]
      have e := writeSlice_ok pre p ((rest.map fun p => (written false p).length).sum)
      rw [hw p, e]
      have := ih (pre ++ p)
      simp only [List.length_append] at this
      simp only [bind, Except.bind, Bool.false_eq_true, if_false]
      rw [this]
      simp [hw, Nat.add_assoc]
    | true =>
      set off := (p.filter fun t => t.row ≠ t.col) with hoff
      set mir := off.map fun t => (⟨t.val, t.col, t.row⟩ : Triplet R) with hmir
      have hw : written true p = p ++ mir := by simp [written, hmir, hoff]
      set S := (rest.map fun p => (written true p).length).sum
      rw [hw]
      have e := writeSlice_ok pre p (mir.length + S)
      have e1 : (p ++ mir).length + S = p.length + (mir.length + S) := by simp [Nat.add_assoc]
      rw [e1, e]
      simp only [bind, Except.bind, if_true]
      have e2 := writeSlice_ok (pre ++ p) mir S
      have hl : off.length = mir.length := by simp [hmir]
      by_cases h0 : off.length ≠ 0
      · rw [if_pos h0]
        have e3 : pre.length + p.length = (pre ++ p).length := by simp
        rw [e3, e2]
        have := ih (pre ++ p ++ mir)
        simp only [bind, Except.bind]
        have e4 : (pre ++ p).length + off.length = (pre ++ p ++ mir).length := by
          simp [hmir, Nat.add_assoc]
        rw [e4, this]
        simp [Nat.add_assoc, hl]
      · rw [if_neg h0]
        have hm : mir = [] := by
          apply List.length_eq_zero_iff.1; omega
        have := ih (pre ++ p)
        have e3 : pre.length + p.length = (pre ++ p).length := by simp
        rw [hm, e3]
        simp only [List.length_nil, Nat.zero_add]
        rw [this]
        simp [Nat.add_assoc]

theorem mapM_map_some {α : Type*} (l : List α) : (l.map some).mapM id = some l := by
  induction l with
  | nil => rfl
  | cons a l ih => simp [List.mapM_cons, ih]

theorem written_nil (symmetric : Bool) : written symmetric ([] : List (Triplet R)) = [] := by
  cases symmetric <;> rfl

theorem flatten_written_filter (symmetric : Bool) (h : List (List (Triplet R))) :
    ((h.filter fun p => p.length ≠ 0).map (written symmetric)).flatten
      = (h.map (written symmetric)).flatten := by
  induction h with
  | nil => rfl
  | cons p h ih =>
    cases p with
    | nil => simpa [written_nil] using ih
    | cons t p => simp at ih ⊢; rw [ih]

/-- The assembled matrix always exists and consists exactly of the parts and their mirror images, in
some order. -/
theorem assembleTriplets_ok (harvest : List (List (Triplet R))) (n1 n2 : ℕ) (symmetric : Bool) :
    ∃ l, assembleTriplets harvest n1 n2 symmetric = .ok ⟨n1, n2, l⟩
      ∧ l.Perm (harvest.map (written symmetric)).flatten := by
  unfold assembleTriplets
  set parts := harvest.filter fun p => p.length ≠ 0 with hparts
  by_cases h0 : parts.length = 0
  · refine ⟨[], by simp [h0], ?_⟩
    have : parts = [] := List.length_eq_zero_iff.1 h0
    rw [← flatten_written_filter, ← hparts, this]
    exact List.Perm.refl _
  · simp only [if_neg h0]
    have e := fillLoop_ok symmetric parts.reverse []
    have hs : (parts.reverse.map fun p => (written symmetric p).length).sum
        = allocTotal symmetric parts := by
      rw [allocTotal_eq, List.map_reverse, List.sum_reverse]
    simp only [List.length_nil, List.map_nil, List.nil_append, Nat.zero_add] at e
    rw [hs] at e
    refine ⟨(parts.reverse.map (written symmetric)).flatten, ?_, ?_⟩
    · rw [e]
      simp only [bind, Except.bind]
      rw [mapM_map_some]
    · rw [← flatten_written_filter symmetric harvest, ← hparts]
      exact ((List.reverse_perm parts).map _).flatten

end

end Verif.Gp2Scale
