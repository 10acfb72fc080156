import Verif.Train.DefaultModel
import Verif.Train.TrainProps
import Verif.Kernels.MaternPsd
import Verif.FV.Props
import Mathlib.Algebra.BigOperators.Field

/-!
C119: default hyperparameters and default bounds fit the data.
-/

namespace Verif.Train

open Verif.GP Verif.Kernels Verif.LinAlg Verif.FV

/-! ### Default hyperparameters -/

/-- **C119** (constructor). A GP starts with the vector that was given, or with ones, one per input dimension and one for the signal, if
nothing was given, inputs are Euclidean and kernel, mean and noise are the defaults. Nothing else is accepted. -/
theorem C119_start (c : Ctor) (v : List ℝ) : startHps c = .ok v ↔
    c.init = some v ∨ c.init = none ∧ c.euclidean = true ∧ c.kernel = false ∧ c.mean = false ∧ c.noise = false ∧
      v.length = c.dim + 1 ∧ ∀ a ∈ v, a = 1 := by
  obtain ⟨e, n, k, m, o, i⟩ := c
  have hr : (List.replicate (n + 1) (1 : ℝ) = v) ↔ v.length = n + 1 ∧ ∀ a ∈ v, a = 1 := by
    rw [eq_comm]; exact List.eq_replicate_iff
  cases e <;> cases k <;> cases m <;> cases o <;> cases i <;> simp [startHps, bind, Except.bind, hr]

/-! ### Bounds -/

theorem foldl_max_spec (l : List ℝ) (a : ℝ) : IsGreatest {b | b ∈ a :: l} (l.foldl max a) := by
  induction l generalizing a with
  | nil => simp [IsGreatest, upperBounds]
  | cons c l ih =>
    obtain ⟨h1, h2⟩ := ih (max a c)
    simp only [List.foldl_cons]
    constructor
    · simp only [Set.mem_setOf_eq, List.mem_cons] at h1 ⊢
      rcases h1 with h | h
      · rcases max_choice a c with e | e <;> rw [e] at h
        · exact .inl (by rw [e]; exact h)
        · exact .inr (.inl (by rw [e]; exact h))
      · exact .inr (.inr h)
    · intro b hb
      have hm : max a c ≤ l.foldl max (max a c) := h2 (by simp)
      simp only [Set.mem_setOf_eq, List.mem_cons] at hb
      rcases hb with rfl | rfl | hb
      · exact (le_max_left _ _).trans hm
      · exact (le_max_right _ _).trans hm
      · exact h2 (by simp [hb])

theorem foldl_min_spec (l : List ℝ) (a : ℝ) : IsLeast {b | b ∈ a :: l} (l.foldl min a) := by
  induction l generalizing a with
  | nil => simp [IsLeast, lowerBounds]
  | cons c l ih =>
    obtain ⟨h1, h2⟩ := ih (min a c)
    simp only [List.foldl_cons]
    constructor
    · simp only [Set.mem_setOf_eq, List.mem_cons] at h1 ⊢
      rcases h1 with h | h
      · rcases min_choice a c with e | e <;> rw [e] at h
        · exact .inl (by rw [e]; exact h)
        · exact .inr (.inl (by rw [e]; exact h))
      · exact .inr (.inr h)
    · intro b hb
      have hm : l.foldl min (min a c) ≤ min a c := h2 (by simp)
      simp only [Set.mem_setOf_eq, List.mem_cons] at hb
      rcases hb with rfl | rfl | hb
      · exact hm.trans (min_le_left _ _)
      · exact hm.trans (min_le_right _ _)
      · exact h2 (by simp [hb])

/-- The extent of a column: the largest difference of two points in it. -/
def Extent {D : ℕ} (x : List (Fin D → ℝ)) (i : Fin D) (r : ℝ) : Prop :=
  IsGreatest {t | ∃ p ∈ x, ∃ q ∈ x, t = |p i - q i|} r

theorem colRange_extent {D : ℕ} (p : Fin D → ℝ) (ps : List (Fin D → ℝ)) (i : Fin D) : Extent (p :: ps) i (colRange p ps i) := by
  obtain ⟨hM, hM2⟩ := foldl_max_spec (ps.map fun q => q i) (p i)
  obtain ⟨hm, hm2⟩ := foldl_min_spec (ps.map fun q => q i) (p i)
  have hmem : ∀ t, t ∈ p i :: ps.map (fun q => q i) ↔ ∃ q ∈ p :: ps, q i = t := by
    intro t; simp [eq_comm]
  obtain ⟨q, hq, hqM⟩ := (hmem _).1 hM
  obtain ⟨r, hr, hrm⟩ := (hmem _).1 hm
  have hle : r i ≤ q i := by rw [hqM]; exact hM2 ((hmem _).2 ⟨r, hr, rfl⟩)
  constructor
  · refine ⟨q, hq, r, hr, ?_⟩
    rw [abs_of_nonneg (sub_nonneg.2 hle), hqM, hrm]; rfl
  · rintro t ⟨a, ha, b, hb, rfl⟩
    have a1 := hM2 ((hmem _).2 ⟨a, ha, rfl⟩)
    have a2 := hm2 ((hmem _).2 ⟨a, ha, rfl⟩)
    have b1 := hM2 ((hmem _).2 ⟨b, hb, rfl⟩)
    have b2 := hm2 ((hmem _).2 ⟨b, hb, rfl⟩)
    rw [abs_le]
    constructor <;> unfold colRange <;> linarith

theorem Extent.unique {D : ℕ} {x : List (Fin D → ℝ)} {i : Fin D} {r s : ℝ} (h : Extent x i r) (h' : Extent x i s) : r = s :=
  IsGreatest.unique h h'

/-- The mean squared difference of two entries, halved. -/
def Spread (v : List ℝ) (s : ℝ) : Prop :=
  2 * (v.length : ℝ) ^ 2 * s = (v.map fun a => (v.map fun b => (a - b) ^ 2).sum).sum

theorem sum_map_sq_sub (v : List ℝ) (c : ℝ) :
    (v.map fun a => (a - c) ^ 2).sum = (v.map fun a => a ^ 2).sum - 2 * c * v.sum + v.length * c ^ 2 := by
  induction v with
  | nil => simp
  | cons a v ih =>
    simp only [List.map_cons, List.sum_cons, ih, List.length_cons, Nat.cast_succ]
    ring

theorem variance_spread (v : List ℝ) (hv : v ≠ []) : Spread v (variance v) := by
  have hn : (v.length : ℝ) ≠ 0 := by
    have := List.length_pos_iff.2 hv
    positivity
  have e : ∀ w : List ℝ, (w.map fun a => (v.map fun b => (a - b) ^ 2).sum).sum
      = v.length * (w.map fun a => a ^ 2).sum - 2 * v.sum * w.sum + w.length * (v.map fun a => a ^ 2).sum := by
    intro w
    induction w with
    | nil => simp
    | cons a w ih =>
      have h1 : (v.map fun b => (a - b) ^ 2) = v.map fun b => (b - a) ^ 2 := by
        congr 1; funext b; ring
      simp only [List.map_cons, List.sum_cons, ih, List.length_cons, Nat.cast_succ, h1, sum_map_sq_sub]
      ring
  unfold Spread
  rw [e v, variance, sum_map_sq_sub]
  field_simp
  ring

theorem Spread.unique {v : List ℝ} (hv : v ≠ []) {s t : ℝ} (h : Spread v s) (h' : Spread v t) : s = t := by
  have hn : (v.length : ℝ) ≠ 0 := by
    have := List.length_pos_iff.2 hv
    positivity
  unfold Spread at h h'
  have := h.trans h'.symm
  exact mul_left_cancel₀ (by positivity) this

theorem variance_nonneg (v : List ℝ) : 0 ≤ variance v := by
  unfold variance
  refine div_nonneg (List.sum_nonneg ?_) (by positivity)
  intro a ha
  obtain ⟨b, -, rfl⟩ := List.mem_map.1 ha
  positivity

theorem Spread.pos_iff {v : List ℝ} (hv : v ≠ []) {s : ℝ} (h : Spread v s) : 0 < s ↔ ∃ a ∈ v, ∃ b ∈ v, a ≠ b := by
  have hn : (0 : ℝ) < v.length := by
    have := List.length_pos_iff.2 hv
    positivity
  unfold Spread at h
  have hs : 0 < s ↔ 0 < (v.map fun a => (v.map fun b => (a - b) ^ 2).sum).sum := by
    rw [← h]
    constructor
    · intro hs; positivity
    · intro hs; by_contra hc
      push Not at hc
      have : 2 * (v.length : ℝ) ^ 2 * s ≤ 0 := mul_nonpos_of_nonneg_of_nonpos (by positivity) hc
      linarith
  rw [hs]
  have hin : ∀ a, 0 ≤ (v.map fun b => (a - b) ^ 2).sum := fun a => List.sum_nonneg (by
    intro t ht; obtain ⟨b, -, rfl⟩ := List.mem_map.1 ht; positivity)
  constructor
  · intro hp
    by_contra hc
    push Not at hc
    have : (v.map fun a => (v.map fun b => (a - b) ^ 2).sum).sum = 0 := by
      apply List.sum_eq_zero
      intro t ht
      obtain ⟨a, ha, rfl⟩ := List.mem_map.1 ht
      apply List.sum_eq_zero
      intro t ht
      obtain ⟨b, hb, rfl⟩ := List.mem_map.1 ht
      rw [hc a ha b hb]; ring
    linarith
  · rintro ⟨a, ha, b, hb, hab⟩
    have h1 : (v.map fun b => (a - b) ^ 2).sum ≤ (v.map fun a => (v.map fun b => (a - b) ^ 2).sum).sum :=
      List.single_le_sum (by intro t ht; obtain ⟨c, -, rfl⟩ := List.mem_map.1 ht; exact hin c) _ (List.mem_map.2 ⟨a, ha, rfl⟩)
    have h2 : (a - b) ^ 2 ≤ (v.map fun b => (a - b) ^ 2).sum :=
      List.single_le_sum (by intro t ht; obtain ⟨c, -, rfl⟩ := List.mem_map.1 ht; positivity) _ (List.mem_map.2 ⟨b, hb, rfl⟩)
    have h3 : 0 < (a - b) ^ 2 := by have := sub_ne_zero.2 hab; positivity
    linarith

theorem Extent.pos_iff {D : ℕ} {x : List (Fin D → ℝ)} {i : Fin D} {r : ℝ} (h : Extent x i r) :
    0 < r ↔ ∃ p ∈ x, ∃ q ∈ x, p i ≠ q i := by
  obtain ⟨⟨p, hp, q, hq, e⟩, h2⟩ := h
  constructor
  · intro hr
    exact ⟨p, hp, q, hq, fun he => by rw [e, he] at hr; simp at hr⟩
  · rintro ⟨a, ha, b, hb, hab⟩
    have := h2 ⟨a, ha, b, hb, rfl⟩
    have h3 : 0 < |a i - b i| := abs_pos.2 (sub_ne_zero.2 hab)
    linarith

theorem Extent.nonneg {D : ℕ} {x : List (Fin D → ℝ)} {i : Fin D} {r : ℝ} (h : Extent x i r) : 0 ≤ r := by
  obtain ⟨⟨p, hp, q, hq, e⟩, -⟩ := h
  rw [e]; positivity

/-- The documented bounds: a hundredth to ten times the variance of the values, and of the extent of every column. -/
structure DataBounds {D : ℕ} (x : List (Fin D → ℝ)) (v : List ℝ) (b : Bounds) : Prop where
  len : b.length = D + 1
  signal : ∃ s, Spread v s ∧ b[0]? = some (s / 100, s * 10)
  length : ∀ i : Fin D, ∃ r, Extent x i r ∧ b[(i : ℕ) + 1]? = some (r / 100, r * 10)

/-- **C119** (bounds). Default bounds exist exactly for Euclidean inputs and as many hyperparameters as the default kernel has; they are
a hundredth to ten times the variance of the values and of the extents of the columns. -/
theorem C119_bounds {D : ℕ} (eu : Bool) (hps : List ℝ) (d : Data (Fin D → ℝ)) (hx : d.x ≠ []) (hv : d.y.flatten ≠ []) (b : Bounds) :
    defaultBounds eu hps d = .ok b ↔ eu = true ∧ hps.length = D + 1 ∧ DataBounds d.x d.y.flatten b := by
  obtain ⟨p, ps, hps'⟩ := List.exists_cons_of_ne_nil hx
  have hdb : DataBounds d.x d.y.flatten ((variance d.y.flatten / 100, variance d.y.flatten * 10)
        :: List.ofFn fun i => (colRange p ps i / 100, colRange p ps i * 10)) := by
    refine ⟨by simp, ⟨_, variance_spread _ hv, by simp⟩, fun i => ⟨_, by rw [hps']; exact colRange_extent p ps i, ?_⟩⟩
    simp
  have huniq : ∀ b, DataBounds d.x d.y.flatten b → b = ((variance d.y.flatten / 100, variance d.y.flatten * 10)
        :: List.ofFn fun i => (colRange p ps i / 100, colRange p ps i * 10)) := by
    intro b hb
    obtain ⟨s, hs, hs0⟩ := hb.signal
    obtain ⟨s', hs', hs0'⟩ := hdb.signal
    apply List.ext_getElem? 
    intro k
    rcases Nat.lt_or_ge k (D + 1) with hk | hk
    · rcases k with _ | k
      · rw [hs0, hs0', hs.unique hv hs']
      · obtain ⟨r, hr, hr0⟩ := hb.length ⟨k, by omega⟩
        obtain ⟨r', hr', hr0'⟩ := hdb.length ⟨k, by omega⟩
        simp only at hr0 hr0'
        rw [hr0, hr0', hr.unique hr']
    · rw [List.getElem?_eq_none (by rw [hb.len]; exact hk), List.getElem?_eq_none (by rw [hdb.len]; exact hk)]
  unfold defaultBounds
  cases eu with
  | false => simp
  | true =>
    by_cases hl : hps.length = D + 1
    · rw [hps'] at hdb huniq ⊢
      simp only [hl, ne_eq, not_true_eq_false, if_false, Bool.true_eq_false, Except.ok.injEq, true_and]
      exact ⟨fun h => h ▸ hdb, fun h => (huniq b h).symm⟩
    · simp [hl]

/-- Some two values and, in every column, some two points differ. -/
def Varies {D : ℕ} (d : Data (Fin D → ℝ)) : Prop :=
  (∃ a ∈ d.y.flatten, ∃ b ∈ d.y.flatten, a ≠ b) ∧ ∀ i, ∃ p ∈ d.x, ∃ q ∈ d.x, p i ≠ q i

/-- **C119** (box). All lower bounds are positive and below the upper ones exactly if the values and every column vary; the upper bound
is always a thousand times the lower one and none is negative. -/
theorem C119_box {D : ℕ} (eu : Bool) (hps : List ℝ) (d : Data (Fin D → ℝ)) (hx : d.x ≠ []) (hv : d.y.flatten ≠ []) {b : Bounds}
    (hb : defaultBounds eu hps d = .ok b) :
    (∀ r ∈ b, 0 ≤ r.1 ∧ r.2 = 1000 * r.1) ∧ ((∀ r ∈ b, 0 < r.1 ∧ r.1 < r.2) ↔ Varies d) := by
  obtain ⟨-, -, h⟩ := (C119_bounds eu hps d hx hv b).1 hb
  obtain ⟨s, hs, hs0⟩ := h.signal
  have hall : ∀ P : ℝ × ℝ → Prop, (∀ r ∈ b, P r) ↔ P (s / 100, s * 10) ∧ ∀ i r, Extent d.x i r → P (r / 100, r * 10) := by
    intro P
    constructor
    · intro hP
      refine ⟨hP _ (List.mem_of_getElem? hs0), fun i r hr => ?_⟩
      obtain ⟨r', hr', hr0⟩ := h.length i
      rw [hr.unique hr']
      exact hP _ (List.mem_of_getElem? hr0)
    · rintro ⟨h0, h1⟩ r hr
      obtain ⟨k, hk, rfl⟩ := List.mem_iff_getElem.1 hr
      rcases k with _ | k
      · have := List.getElem?_eq_getElem hk
        rw [hs0] at this
        injection this with this
        rw [← this]; exact h0
      · obtain ⟨r, hr, hr0⟩ := h.length ⟨k, by have := h.len; omega⟩
        have := List.getElem?_eq_getElem hk
        simp only at hr0
        rw [hr0] at this
        injection this with this
        rw [← this]; exact h1 _ _ hr
  constructor
  · rw [hall]
    have hs1 : 0 ≤ s := by rw [hs.unique hv (variance_spread _ hv)]; exact variance_nonneg _
    refine ⟨⟨by positivity, by ring⟩, fun i r hr => ⟨by have := hr.nonneg; positivity, by ring⟩⟩
  · rw [hall, Varies, ← hs.pos_iff hv]
    constructor
    · rintro ⟨h0, h1⟩
      refine ⟨by have := h0.1; linarith, fun i => ?_⟩
      obtain ⟨r, hr, -⟩ := h.length i
      exact hr.pos_iff.1 (by have := (h1 i r hr).1; linarith)
    · rintro ⟨h0, h1⟩
      refine ⟨⟨by positivity, by linarith⟩, fun i r hr => ?_⟩
      have := hr.pos_iff.2 (h1 i)
      exact ⟨by positivity, by linarith⟩

/-- **C119** (units and order). Shifting, scaling or reordering the data changes the bounds accordingly: scaling the values by `a`
scales the signal bounds by `a²`, scaling column `i` by `c i` scales the length bounds `i` by `|c i|`, shifts and the order of points
do not matter. -/
theorem C119_units {D : ℕ} (eu : Bool) (hps : List ℝ) (d d' : Data (Fin D → ℝ)) (hx : d.x ≠ []) (hv : d.y.flatten ≠ [])
    (a s : ℝ) (c t : Fin D → ℝ) (hpx : d'.x.Perm (d.x.map fun p i => c i * p i + t i))
    (hpy : d'.y.flatten.Perm (d.y.flatten.map fun v => a * v + s)) {b b' : Bounds} (hb : defaultBounds eu hps d = .ok b)
    (hb' : defaultBounds eu hps d' = .ok b') :
    ∃ (w : ℝ × ℝ) (r : Fin D → ℝ × ℝ), b[0]? = some w ∧ b'[0]? = some (a ^ 2 * w.1, a ^ 2 * w.2) ∧
      ∀ i : Fin D, b[(i : ℕ) + 1]? = some (r i) ∧ b'[(i : ℕ) + 1]? = some (|c i| * (r i).1, |c i| * (r i).2) := by
  have hx' : d'.x ≠ [] := by
    intro h; rw [h] at hpx; have := hpx.length_eq; rw [List.length_map] at this; exact hx (List.length_eq_zero_iff.1 this.symm)
  have hv' : d'.y.flatten ≠ [] := by
    intro h; rw [h] at hpy; have := hpy.length_eq
    rw [List.length_map] at this
    exact hv (List.length_eq_zero_iff.1 this.symm)
  obtain ⟨-, -, h⟩ := (C119_bounds eu hps d hx hv b).1 hb
  obtain ⟨-, -, h'⟩ := (C119_bounds eu hps d' hx' hv' b').1 hb'
  obtain ⟨w, hw, hw0⟩ := h.signal
  obtain ⟨w', hw', hw0'⟩ := h'.signal
  have hww : w' = a ^ 2 * w := by
    refine hw'.unique hv' ?_
    unfold Spread at hw ⊢
    rw [hpy.length_eq, List.length_map]
    have h1 : ∀ e : ℝ, (d'.y.flatten.map fun b => (e - b) ^ 2).sum
        = ((d.y.flatten.map fun v => a * v + s).map fun b => (e - b) ^ 2).sum := fun e => (hpy.map _).sum_eq
    simp only [h1]
    rw [(hpy.map fun e => ((d.y.flatten.map fun v => a * v + s).map fun b => (e - b) ^ 2).sum).sum_eq]
    simp only [List.map_map]
    have h2 : ∀ e : ℝ, (d.y.flatten.map ((fun b => (a * e + s - b) ^ 2) ∘ fun v => a * v + s)).sum
        = a ^ 2 * (d.y.flatten.map fun v => (e - v) ^ 2).sum := by
      intro e
      rw [← List.sum_map_mul_left]
      congr 1
      apply List.map_congr_left
      intro v _
      simp only [Function.comp]
      ring
    have h3 : ((fun e => (d.y.flatten.map ((fun b => (e - b) ^ 2) ∘ fun v => a * v + s)).sum) ∘ fun v => a * v + s)
        = fun e => a ^ 2 * (d.y.flatten.map fun v => (e - v) ^ 2).sum := by
      funext e; exact h2 e
    rw [h3, List.sum_map_mul_left, ← hw]
    ring
  choose r hr hr0 using h.length
  choose r' hr' hr0' using h'.length
  have hrr : ∀ i, r' i = |c i| * r i := by
    intro i
    refine (hr' i).unique ⟨?_, ?_⟩
    · obtain ⟨p, hp, q, hq, e⟩ := (hr i).1
      refine ⟨_, (hpx.mem_iff).2 (List.mem_map.2 ⟨p, hp, rfl⟩), _, (hpx.mem_iff).2 (List.mem_map.2 ⟨q, hq, rfl⟩), ?_⟩
      rw [e, ← abs_mul]; congr 1; ring
    · rintro z ⟨p, hp, q, hq, rfl⟩
      obtain ⟨p, hp', rfl⟩ := List.mem_map.1 ((hpx.mem_iff).1 hp)
      obtain ⟨q, hq', rfl⟩ := List.mem_map.1 ((hpx.mem_iff).1 hq)
      have h1 := (hr i).2 ⟨p, hp', q, hq', rfl⟩
      have : c i * p i + t i - (c i * q i + t i) = c i * (p i - q i) := by ring
      simp only [this, abs_mul]
      gcongr
  refine ⟨_, fun i => (r i / 100, r i * 10), hw0, ?_, fun i => ⟨hr0 i, ?_⟩⟩
  · rw [hw0', hww]; simp only [Option.some.injEq, Prod.mk.injEq]; constructor <;> ring
  · rw [hr0' i, hrr]; simp only [Option.some.injEq, Prod.mk.injEq]; constructor <;> ring

/-! ### The default kernel with infinities and NaN -/

theorem fold_num {ι : Type*} (f : ι → Fl) (g : ι → ℝ) (hg : ∀ i, f i = .num (g i)) (l : List ι) (r : ℝ) :
    l.foldl (fun acc i => Fl.add acc (f i)) (.num r) = .num (r + (l.map g).sum) := by
  induction l generalizing r with
  | nil => simp
  | cons i l ih =>
    have e : Fl.add (.num r) (f i) = .num (r + g i) := by rw [hg]; rfl
    rw [List.foldl_cons, e, ih, List.map_cons, List.sum_cons, add_assoc]

/-- Sums of squares with a zero divisor are infinite or NaN. -/
theorem fold_bad {ι : Type*} (f : ι → Fl) (hf : ∀ i, (∃ r, f i = .num r) ∨ f i = .pinf ∨ f i = .nan) (l : List ι) (acc : Fl)
    (h : acc = .pinf ∨ acc = .nan ∨ ((∃ r, acc = .num r) ∧ ∃ i ∈ l, f i = .pinf ∨ f i = .nan)) :
    l.foldl (fun acc i => Fl.add acc (f i)) acc = .pinf ∨ l.foldl (fun acc i => Fl.add acc (f i)) acc = .nan := by
  induction l generalizing acc with
  | nil =>
    rcases h with h | h | ⟨-, i, hi, -⟩
    · exact .inl h
    · exact .inr h
    · simp at hi
  | cons i l ih =>
    simp only [List.foldl_cons]
    apply ih
    rcases h with rfl | rfl | ⟨⟨r, rfl⟩, j, hj, hb⟩
    · rcases hf i with ⟨r, hr⟩ | hr | hr <;> rw [hr] <;> simp [Fl.add]
    · simp [Fl.add]
    · rcases hf i with ⟨t, ht⟩ | ht | ht
      · refine .inr (.inr ⟨⟨r + t, by rw [ht]; rfl⟩, j, ?_, hb⟩)
        rcases List.mem_cons.1 hj with rfl | hj
        · rw [ht] at hb; simp at hb
        · exact hj
      · rw [ht]; exact .inl rfl
      · rw [ht]; exact .inr (.inl rfl)

/-- **C119** (arithmetic). An entry of the default covariance is a number exactly if no length scale is zero, and then it is the value
of the kernel; with a zero length scale every entry is NaN, whatever the points are. -/
theorem C119_nan {D : ℕ} (x y : Fin D → ℝ) (a : ℝ) (l : Fin D → ℝ) :
    ((∀ i, l i ≠ 0) → defaultKernelFl x y a l = .num (defaultKernel x y a l)) ∧
    ((∃ i, l i = 0) → defaultKernelFl x y a l = .nan) := by
  constructor
  · intro hl
    unfold defaultKernelFl
    rw [fold_num _ (fun i => |(x i - y i) / l i| ^ 2) (fun i => by simp [Fl.div, hl i, Fl.abs, Fl.sq])]
    have hs : ((List.finRange D).map fun i => |(x i - y i) / l i| ^ 2).sum = ∑ i, |(x i - y i) / l i| ^ 2 :=
      (Fin.sum_univ_def _).symm
    have hnn : ¬ ((0 : ℝ) + ∑ i, |(x i - y i) / l i| ^ 2 < 0) := by
      rw [zero_add, not_lt]; positivity
    rw [hs]
    simp only [Fl.sqrt, if_neg hnn, matern1Fl, Fl.smul, Fl.add, Fl.neg, Fl.exp, Fl.mul, defaultKernel, matern1, anisoDistance]
    simp
  · rintro ⟨i, hi⟩
    unfold defaultKernelFl
    have hb := fold_bad (fun i => Fl.sq (Fl.abs (Fl.div (x i - y i) (l i)))) (fun j => by
        by_cases h : l j = 0
        · rcases lt_trichotomy (x j - y j) 0 with h1 | h1 | h1
          · right; left; simp [Fl.div, h, h1.ne, h1.le, not_lt.2 h1.le, Fl.abs, Fl.sq]
          · right; right; simp [Fl.div, h, h1, Fl.abs, Fl.sq]
          · right; left; simp [Fl.div, h, h1.ne', h1, Fl.abs, Fl.sq]
        · left; exact ⟨|(x j - y j) / l j| ^ 2, by simp only [Fl.div, ne_eq, h, not_false_eq_true, if_true, Fl.abs, Fl.sq]⟩)
      (List.finRange D) (.num 0) (.inr (.inr ⟨⟨0, rfl⟩, i, List.mem_finRange i, by
        rcases lt_trichotomy (x i - y i) 0 with h1 | h1 | h1
        · left; simp [Fl.div, hi, h1.ne, not_lt.2 h1.le, Fl.abs, Fl.sq]
        · right; simp [Fl.div, hi, h1, Fl.abs, Fl.sq]
        · left; simp [Fl.div, hi, h1.ne', h1, Fl.abs, Fl.sq]⟩))
    rcases hb with hb | hb <;> rw [hb] <;> simp [Fl.sqrt, matern1Fl, Fl.smul, Fl.add, Fl.neg, Fl.exp, Fl.mul]

/-! ### Training with the defaults -/

theorem InBox.get {h : List ℝ} {b : Bounds} (hb : InBox h b) (k : ℕ) {r : ℝ × ℝ} (hr : b[k]? = some r) :
    r.1 ≤ h.getD k 0 ∧ h.getD k 0 ≤ r.2 := by
  have hk : k < b.length := (List.getElem?_eq_some_iff.1 hr).1
  have hk' : k < h.length := by rw [hb.length_eq]; exact hk
  have h1 := (List.forall₂_iff_get.1 hb).2 k hk' hk
  have h2 : b.get ⟨k, hk⟩ = r := (List.getElem?_eq_some_iff.1 hr).2
  rw [h2] at h1
  rw [List.getD_eq_getElem?_getD, List.getElem?_eq_getElem hk']
  exact h1

/-- **C119** (validity). If values and columns vary, every vector within the default bounds gives a valid default model: the signal
variance and all length scales are positive, no covariance is NaN and the covariance with the default noise or with positive measured
noise can be factorised, in every linear-algebra mode. -/
theorem C119_valid {D : ℕ} (mode : Mode) (ext : Ext) (he : SpluContract ext) (eu : Bool) (hps : List ℝ) (d : Data (Fin D → ℝ))
    (hx : d.x ≠ []) (hn : d.y.flatten.length = d.x.length * d.cols) (hvar : Varies d) {b : Bounds}
    (hb : defaultBounds eu hps d = .ok b) (h : List ℝ) (hh : InBox h b) :
    0 < amplitude h ∧ (∀ i, 0 < lengths D h i) ∧
    (∀ x y, defaultKernelFl x y (amplitude h) (lengths D h) = .num (defaultKernel x y (amplitude h) (lengths D h))) ∧
    (∃ gp, init (defaultConfig D .default mode ext) d (amplitude h, lengths D h) = .ok gp) ∧
    (∀ v, d.noiseVar = some v → v.length = d.x.length → (∀ e ∈ v, 0 < e) →
      ∃ gp, init (defaultConfig D .measured mode ext) d (amplitude h, lengths D h) = .ok gp) := by
  have hv : d.y.flatten ≠ [] := by
    obtain ⟨⟨a, ha, -⟩, -⟩ := hvar
    exact List.ne_nil_of_mem ha
  have hpos := (C119_box eu hps d hx hv hb).2.2 hvar
  obtain ⟨-, -, hd⟩ := (C119_bounds eu hps d hx hv b).1 hb
  have ha : 0 < amplitude h := by
    obtain ⟨s, -, hs⟩ := hd.signal
    exact (hpos _ (List.mem_of_getElem? hs)).1.trans_le (hh.get 0 hs).1
  have hl : ∀ i, 0 < lengths D h i := by
    intro i
    obtain ⟨r, -, hr⟩ := hd.length i
    exact (hpos _ (List.mem_of_getElem? hr)).1.trans_le (hh.get _ hr).1
  refine ⟨ha, hl, fun x y => (C119_nan x y _ _).1 fun i => (hl i).ne', ?_, fun v hv' hlen hp =>
    C84_default_model mode ext he d v hv' hlen hp _ ha.le _ fun i => (hl i).ne'⟩
  refine C84_default_noise mode ext he d ?_ _ ha.le _ fun i => (hl i).ne'
  have hN : (0 : ℝ) < d.x.length * d.cols := by
    have : 0 < d.y.flatten.length := List.length_pos_iff.2 hv
    rw [hn] at this
    exact_mod_cast this
  have hsum : (d.y.map fun r => (r.map fun v => |v|).sum).sum = (d.y.flatten.map fun v => |v|).sum := by
    rw [List.map_flatten, List.sum_flatten, List.map_map]; rfl
  unfold Data.yAbsMean
  refine div_ne_zero ?_ hN.ne'
  rw [hsum]
  obtain ⟨⟨p, hp, q, hq, hpq⟩, -⟩ := hvar
  have hle : ∀ e ∈ d.y.flatten, |e| ≤ (d.y.flatten.map fun v => |v|).sum := fun e he =>
    List.single_le_sum (by intro t ht; obtain ⟨c, -, rfl⟩ := List.mem_map.1 ht; positivity) _ (List.mem_map.2 ⟨e, he, rfl⟩)
  have h1 := hle p hp
  have h2 := hle q hq
  intro h0
  rw [h0] at h1 h2
  have e1 := abs_eq_zero.1 (le_antisymm h1 (abs_nonneg p))
  have e2 := abs_eq_zero.1 (le_antisymm h2 (abs_nonneg q))
  exact hpq (e1.trans e2.symm)

/-- **C119** (start of training). A training with default bounds starts from a vector within them, whatever the vector held or given. -/
theorem C119_training {D : ℕ} (eu : Bool) (hps : List ℝ) (d : Data (Fin D → ℝ)) (hx : d.x ≠ []) (hv : d.y.flatten ≠ []) {b : Bounds}
    (hb : defaultBounds eu hps d = .ok b) (given : Option (List ℝ)) (hg : ∀ v, given = some v → v.length = D + 1) (draw : List ℝ)
    (hd : InBox draw b) : ∃ s, trainStart b given hps draw = .ok s ∧ InBox s b := by
  obtain ⟨-, hl, h⟩ := (C119_bounds eu hps d hx hv b).1 hb
  have hlen : (given.getD hps).length = b.length := by
    rw [h.len]
    cases given with
    | none => exact hl
    | some v => exact hg v rfl
  by_cases hi : InBox (given.getD hps) b
  · exact ⟨_, (C48_start_used b given hps draw hlen hd).1 hi, hi⟩
  · exact ⟨_, (C48_start_used b given hps draw hlen hd).2 hi, hd⟩

/-- **C119** is violated if a column of the inputs is constant: the bounds of its length scale are zero and zero, and every entry of the
covariance at the start of training is NaN, whatever vector was held or given. -/
theorem C119_constant_column_violated {D : ℕ} (eu : Bool) (hps : List ℝ) (d : Data (Fin D → ℝ)) (hx : d.x ≠ [])
    (hv : d.y.flatten ≠ []) (i : Fin D) (hc : ∀ p ∈ d.x, ∀ q ∈ d.x, p i = q i) {b : Bounds}
    (hb : defaultBounds eu hps d = .ok b) (given : Option (List ℝ)) (hg : ∀ v, given = some v → v.length = D + 1) (draw : List ℝ)
    (hd : InBox draw b) :
    ∃ s, trainStart b given hps draw = .ok s ∧ ∀ x y, defaultKernelFl x y (amplitude s) (lengths D s) = .nan := by
  obtain ⟨s, hs, hin⟩ := C119_training eu hps d hx hv hb given hg draw hd
  refine ⟨s, hs, fun x y => (C119_nan x y _ _).2 ⟨i, ?_⟩⟩
  obtain ⟨-, -, h⟩ := (C119_bounds eu hps d hx hv b).1 hb
  obtain ⟨r, hr, hr0⟩ := h.length i
  have hr1 : r = 0 := by
    refine le_antisymm (not_lt.1 fun hp => ?_) hr.nonneg
    obtain ⟨p, hp, q, hq, hpq⟩ := hr.pos_iff.1 hp
    exact hpq (hc p hp q hq)
  have := hin.get _ hr0
  rw [hr1] at this
  simp only [zero_div, zero_mul] at this
  exact le_antisymm this.2 this.1

theorem collect_mem {β γ : Type} {f : β → Except String (Option γ)} {l : List β} {rs : List γ} (h : collect f l = .ok rs) {r : γ}
    (hr : r ∈ rs) : ∃ b ∈ l, f b = .ok (some r) := by
  induction l generalizing rs with
  | nil => simp only [collect, Except.ok.injEq] at h; subst h; simp at hr
  | cons b l ih =>
    simp only [collect] at h
    cases hb : f b with
    | error e => simp [hb] at h
    | ok o =>
      cases hl : collect f l with
      | error e => simp [hb, hl] at h
      | ok rs' =>
        simp only [hb, hl, Except.ok.injEq] at h
        subst h
        rcases List.mem_append.1 hr with hr | hr
        · refine ⟨b, by simp, ?_⟩
          rw [hb]
          cases o with
          | none => simp at hr
          | some t => simp at hr; rw [hr]
        · obtain ⟨c, hc, e⟩ := ih hl hr
          exact ⟨c, by simp [hc], e⟩

theorem transform_task {α : Type} {n : ℕ} {m : MT α} {d : Data (α × ℕ)} (hm : transform n m = .ok d) (q : α × ℕ) (hq : q ∈ d.x) :
    q.2 < n := by
  unfold transform at hm
  cases hp : points n m with
  | error e => simp [hp] at hm
  | ok ps =>
    simp only [hp, Except.ok.injEq] at hm
    subst hm
    obtain ⟨pt, hpt, rfl⟩ := List.mem_map.1 hq
    unfold points at hp
    split_ifs at hp
    obtain ⟨b, hb, hf⟩ := collect_mem hp hpt
    obtain ⟨i, hi, hj⟩ := List.mem_flatMap.1 hb
    obtain ⟨j, -, rfl⟩ := List.mem_map.1 hj
    unfold entry at hf
    split_ifs at hf
    revert hf
    cases (m.y.getD j []).getD i none with
    | none => simp
    | some v =>
      cases m.x[j]? with
      | none => simp
      | some a =>
        intro hf
        simp only [Except.ok.injEq, Option.some.injEq] at hf
        rw [← hf]
        exact List.mem_range.1 hi

/-- **C119** (several tasks). The default bounds of an `fvGP` follow the extents of the input coordinates, in their order, and then the
spread of the task indices. -/
theorem C119_task_bounds {D : ℕ} (d : Data ((Fin D → ℝ) × ℕ)) (eu : Bool) (hps : List ℝ) (hx : d.x ≠ []) (hv : d.y.flatten ≠ [])
    {b : Bounds} (hb : defaultBounds eu hps (taskData d) = .ok b) :
    (∀ i : Fin D, ∃ r, Extent (d.x.map Prod.fst) i r ∧ b[(i : ℕ) + 1]? = some (r / 100, r * 10)) ∧
    ∃ r, IsGreatest {t | ∃ p ∈ d.x, ∃ q ∈ d.x, t = |(p.2 : ℝ) - q.2|} r ∧ b[D + 1]? = some (r / 100, r * 10) := by
  obtain ⟨-, -, h⟩ := (C119_bounds eu hps (taskData d) (by simpa [taskData] using hx) hv b).1 hb
  constructor
  · intro i
    obtain ⟨r, hr, hr0⟩ := h.length i.castSucc
    refine ⟨r, ?_, by simpa using hr0⟩
    simpa [Extent, taskData, taskRow] using hr
  · obtain ⟨r, hr, hr0⟩ := h.length (Fin.last D)
    refine ⟨r, ?_, by simpa using hr0⟩
    simpa [Extent, taskData, taskRow] using hr

/-- **C119** is violated by every `fvGP` with a single task: the task index is a constant column. -/
theorem C119_single_task_violated {D : ℕ} (m : MT (Fin D → ℝ)) {d : Data ((Fin D → ℝ) × ℕ)} (hm : transform 1 m = .ok d)
    (eu : Bool) (hps : List ℝ) (hx : d.x ≠ []) (hv : d.y.flatten ≠ []) {b : Bounds}
    (hb : defaultBounds eu hps (taskData d) = .ok b) (given : Option (List ℝ)) (hg : ∀ v, given = some v → v.length = D + 2)
    (draw : List ℝ) (hd : InBox draw b) :
    ∃ s, trainStart b given hps draw = .ok s ∧
      ∀ x y : Fin (D + 1) → ℝ, defaultKernelFl x y (amplitude s) (lengths (D + 1) s) = .nan := by
  refine C119_constant_column_violated eu hps (taskData d) (by simpa [taskData] using hx) hv (Fin.last D) ?_ hb given hg draw hd
  have hc : ∀ p ∈ (taskData d).x, p (Fin.last D) = 0 := by
    intro p hp
    obtain ⟨q, hq, rfl⟩ := List.mem_map.1 hp
    have := transform_task hm q hq
    have h0 : q.2 = 0 := by omega
    simp [taskRow, h0]
  intro p hp q hq
  rw [hc p hp, hc q hq]

/-- **C119** is violated if the values are constant: the bounds of the signal variance are zero and zero, and every vector
within the bounds gives a prior without any uncertainty. -/
theorem C119_constant_values_violated {D : ℕ} (eu : Bool) (hps : List ℝ) (d : Data (Fin D → ℝ)) (hx : d.x ≠ [])
    (hv : d.y.flatten ≠ []) (hc : ∀ p ∈ d.y.flatten, ∀ q ∈ d.y.flatten, p = q) {b : Bounds}
    (hb : defaultBounds eu hps d = .ok b) (h : List ℝ) (hh : InBox h b) (x y : Fin D → ℝ) :
    defaultKernel x y (amplitude h) (lengths D h) = 0 := by
  obtain ⟨-, -, hd⟩ := (C119_bounds eu hps d hx hv b).1 hb
  obtain ⟨s, hs, hs0⟩ := hd.signal
  have h1 : ¬ 0 < s := fun hp => by
    obtain ⟨p, hp, q, hq, hpq⟩ := (hs.pos_iff hv).1 hp
    exact hpq (hc p hp q hq)
  have h2 : 0 ≤ s := by rw [hs.unique hv (variance_spread _ hv)]; exact variance_nonneg _
  have h3 : s = 0 := le_antisymm (not_lt.1 h1) h2
  have := hh.get _ hs0
  rw [h3] at this
  simp only [zero_div, zero_mul] at this
  have ha : amplitude h = 0 := le_antisymm this.2 this.1
  simp [defaultKernel, ha]

/-! ### Examples -/

/-- Three points in the plane with varying values. -/
noncomputable def exData : Data (Fin 2 → ℝ) := ⟨[![0, 1], ![2, 1], ![1, 5]], [[1], [3], [2]], 1, none⟩

theorem exData_varies : Varies exData :=
  ⟨⟨1, by simp [exData], 3, by simp [exData], by norm_num⟩, fun i => by
    fin_cases i
    · exact ⟨![0, 1], by simp [exData], ![2, 1], by simp [exData], by simp⟩
    · exact ⟨![0, 1], by simp [exData], ![1, 5], by simp [exData], by norm_num⟩⟩

/-- The bounds of the example: variance `2/3`, extents `2` and `4`. -/
theorem exData_bounds : defaultBounds true [1, 1, 1] exData = .ok [(2 / 3 / 100, 2 / 3 * 10), (2 / 100, 2 * 10), (4 / 100, 4 * 10)] := by
  norm_num [defaultBounds, exData, variance, colRange, List.ofFn_succ]

/-- Ones are within the bounds and give a valid model. -/
example (mode : Mode) : ∃ gp, init (defaultConfig 2 .default mode cholExt) exData (amplitude [1, 1, 1], lengths 2 [1, 1, 1]) = .ok gp :=
  (C119_valid mode cholExt cholExt_contract true [1, 1, 1] exData (by simp [exData]) rfl exData_varies exData_bounds [1, 1, 1]
    (by norm_num [InBox])).2.2.2.1

/-- A constant second column. -/
example : ∃ b, defaultBounds true [1, 1, 1] (⟨[![0, 1], ![2, 1]], [[1], [3]], 1, none⟩ : Data (Fin 2 → ℝ)) = .ok b ∧ InBox [1, 1, 0] b :=
  ⟨_, rfl, by norm_num [variance, colRange, List.ofFn_succ, InBox]⟩

/-- Two tasks of a function of one coordinate. -/
example : ∃ b, defaultBounds true [1, 1, 1] (taskData ⟨[(![1], 0), (![4], 0), (![1], 1)], [[1], [2], [5]], 1, none⟩) = .ok b ∧
    b[1]? = some (3 / 100, 3 * 10) ∧ b[2]? = some (1 / 100, 1 * 10) := by
  refine ⟨_, rfl, ?_, ?_⟩ <;> norm_num [colRange, List.ofFn_succ, taskRow, Fin.snoc]

/-- A single task. -/
example : ∃ d, transform 1 (⟨[![0, 1], ![2, 5]], 2, [[some 1], [some 3]], 1, none, 0⟩ : MT (Fin 2 → ℝ)) = .ok d ∧ d.x ≠ [] ∧
    d.y.flatten ≠ [] := ⟨_, rfl, by simp [arrays], by simp [arrays]⟩

example : startHps ⟨true, 3, false, false, false, none⟩ = .ok [1, 1, 1, 1] := rfl

end Verif.Train
