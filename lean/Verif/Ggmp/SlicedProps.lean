import Verif.Ggmp.SlicedModel
import Verif.GP.Law
import Mathlib.Data.Fin.Tuple.Sort
import Mathlib.Analysis.InnerProductSpace.Basic
import Mathlib.MeasureTheory.Integral.Prod
import Mathlib.MeasureTheory.Measure.Lebesgue.EqHaar
import Mathlib.Probability.StrongLaw
import Mathlib.Probability.Independence.InfinitePi
import Mathlib.Probability.Distributions.Gaussian.Real

/-!
C117: the sliced Wasserstein distance.
-/

namespace Verif.Ggmp

open Finset MeasureTheory ProbabilityTheory Filter Topology

variable {n m l D : ℕ}

/-! ### Specification -/

/-- A transport plan between the samples: nonnegative, every point of the samples has the same share. -/
structure IsPlan (π : Fin n → Fin m → ℝ) : Prop where
  nonneg : ∀ i j, 0 ≤ π i j
  left : ∀ i, ∑ j, π i j = 1 / n
  right : ∀ j, ∑ i, π i j = 1 / m

/-- The work of a transport plan. -/
noncomputable def planCost (π : Fin n → Fin m → ℝ) (a : Fin n → Fin D → ℝ) (b : Fin m → Fin D → ℝ) : ℝ :=
  ∑ i, ∑ j, π i j * √(∑ k, (a i k - b j k) ^ 2)

/-- The samples are the same distribution: every point has the same share in both. -/
def SameSample (a : Fin n → Fin D → ℝ) (b : Fin m → Fin D → ℝ) : Prop :=
  ∀ z, (∑ i, if a i = z then (1 : ℝ) else 0) / n = (∑ j, if b j = z then (1 : ℝ) else 0) / m

/-! ### The area between distribution functions -/

/-- Difference of two unit steps. -/
noncomputable def stepDiff (a b x : ℝ) : ℝ := (if a ≤ x then 1 else 0) - if b ≤ x then 1 else 0

theorem abs_stepDiff (a b : ℝ) : (fun x => |stepDiff a b x|) = (Set.Ico (min a b) (max a b)).indicator 1 := by
  funext x
  unfold stepDiff
  rw [Set.indicator_apply]
  by_cases h1 : a ≤ x <;> by_cases h2 : b ≤ x <;> simp [h1, h2] <;> grind

theorem integrable_stepDiff (a b : ℝ) : Integrable (fun x => |stepDiff a b x|) := by
  rw [abs_stepDiff]
  refine (integrable_indicator_iff measurableSet_Ico).2 ?_
  exact integrableOn_const (by simp)

theorem integral_stepDiff (a b : ℝ) : ∫ x, |stepDiff a b x| = |a - b| := by
  rw [abs_stepDiff, integral_indicator_one measurableSet_Ico]
  simp [Measure.real, max_sub_min_eq_abs]
  rw [abs_sub_comm]

theorem measurable_stepDiff (a b : ℝ) : Measurable (stepDiff a b) := by
  unfold stepDiff
  exact ((measurable_const.ite measurableSet_Ici measurable_const)).sub (measurable_const.ite measurableSet_Ici measurable_const)

theorem ecdf_sub {π : Fin n → Fin m → ℝ} (h : IsPlan π) (p : Fin n → ℝ) (q : Fin m → ℝ) (x : ℝ) :
    ecdf p x - ecdf q x = ∑ i, ∑ j, π i j * stepDiff (p i) (q j) x := by
  unfold ecdf stepDiff
  simp only [mul_sub, sum_sub_distrib]
  congr 1
  · rw [sum_div]
    refine sum_congr rfl fun i _ => ?_
    rw [← sum_mul, h.left]; ring
  · rw [sum_comm, sum_div]
    refine sum_congr rfl fun i _ => ?_
    rw [← sum_mul, h.right]; ring

theorem plan_exists (hn : n ≠ 0) (hm : m ≠ 0) : IsPlan fun (_ : Fin n) (_ : Fin m) => (1 : ℝ) / (n * m) := by
  have hn' : (n : ℝ) ≠ 0 := by exact_mod_cast hn
  have hm' : (m : ℝ) ≠ 0 := by exact_mod_cast hm
  refine ⟨fun _ _ => by positivity, fun _ => ?_, fun _ => ?_⟩ <;>
    · simp only [sum_const, card_univ, Fintype.card_fin, nsmul_eq_mul]; field_simp

theorem integrable_ecdf (hn : n ≠ 0) (hm : m ≠ 0) (p : Fin n → ℝ) (q : Fin m → ℝ) :
    Integrable fun x => |ecdf p x - ecdf q x| := by
  have h := plan_exists hn hm
  have hi : Integrable fun x => ecdf p x - ecdf q x := by
    simp only [ecdf_sub h]
    refine integrable_finsetSum _ fun i _ => integrable_finsetSum _ fun j _ => Integrable.const_mul ?_ _
    exact (integrable_norm_iff (measurable_stepDiff _ _).aestronglyMeasurable).1 (integrable_stepDiff (p i) (q j))
  exact hi.abs

theorem w1_le {π : Fin n → Fin m → ℝ} (h : IsPlan π) (hn : n ≠ 0) (hm : m ≠ 0) (p : Fin n → ℝ) (q : Fin m → ℝ) :
    w1 p q ≤ ∑ i, ∑ j, π i j * |p i - q j| := by
  have e : ∑ i, ∑ j, π i j * |p i - q j| = ∫ x, ∑ i, ∑ j, π i j * |stepDiff (p i) (q j) x| := by
    rw [integral_finsetSum _ fun i _ => integrable_finsetSum _ fun j _ => (integrable_stepDiff _ _).const_mul _]
    refine sum_congr rfl fun i _ => ?_
    rw [integral_finsetSum _ fun j _ => (integrable_stepDiff _ _).const_mul _]
    refine sum_congr rfl fun j _ => ?_
    rw [integral_const_mul, integral_stepDiff]
  rw [e]
  refine integral_mono (integrable_ecdf hn hm p q)
    (integrable_finsetSum _ fun i _ => integrable_finsetSum _ fun j _ => (integrable_stepDiff _ _).const_mul _) fun x => ?_
  simp only
  rw [ecdf_sub h]
  refine (abs_sum_le_sum_abs _ _).trans (sum_le_sum fun i _ => (abs_sum_le_sum_abs _ _).trans (sum_le_sum fun j _ => ?_))
  rw [abs_mul, abs_of_nonneg (h.nonneg i j)]

theorem w1_nonneg (p : Fin n → ℝ) (q : Fin m → ℝ) : 0 ≤ w1 p q := integral_nonneg fun _ => abs_nonneg _

theorem w1_comm (p : Fin n → ℝ) (q : Fin m → ℝ) : w1 p q = w1 q p := by
  unfold w1; simp only [abs_sub_comm]

theorem w1_triangle (hn : n ≠ 0) (hm : m ≠ 0) (hl : l ≠ 0) (p : Fin n → ℝ) (q : Fin m → ℝ) (s : Fin l → ℝ) :
    w1 p s ≤ w1 p q + w1 q s := by
  unfold w1
  rw [← integral_add (integrable_ecdf hn hm p q) (integrable_ecdf hm hl q s)]
  exact integral_mono (integrable_ecdf hn hl p s) ((integrable_ecdf hn hm p q).add (integrable_ecdf hm hl q s)) fun x =>
    abs_sub_le _ _ _

/-! ### Directions -/

theorem direction_norm (v : Fin D → ℝ) : √(∑ j, direction v j ^ 2) ≤ 1 := by
  unfold direction
  set s := max √(∑ j, v j ^ 2) (1 / 10 ^ 12) with hs
  have hs0 : 0 < s := lt_of_lt_of_le (by norm_num) (le_max_right _ _)
  have : ∑ j, (v j / s) ^ 2 = (∑ j, v j ^ 2) / s ^ 2 := by
    rw [sum_div]; simp only [div_pow]
  rw [this, Real.sqrt_div' _ (by positivity), Real.sqrt_sq hs0.le, div_le_one hs0]
  exact le_max_left _ _

theorem project_sub_le (a : Fin n → Fin D → ℝ) (b : Fin m → Fin D → ℝ) (v : Fin D → ℝ) (i : Fin n) (j : Fin m) :
    |project a (direction v) i - project b (direction v) j| ≤ √(∑ k, (a i k - b j k) ^ 2) := by
  unfold project
  rw [← sum_sub_distrib]
  have e : ∑ k, (a i k * direction v k - b j k * direction v k) = ∑ k, (a i k - b j k) * direction v k :=
    sum_congr rfl fun k _ => by ring
  rw [e]
  have h1 := Real.sum_mul_le_sqrt_mul_sqrt univ (fun k => a i k - b j k) (direction v)
  have h2 := Real.sum_mul_le_sqrt_mul_sqrt univ (fun k => -(a i k - b j k)) (direction v)
  simp only [neg_sq, neg_mul, sum_neg_distrib] at h2
  have h3 : √(∑ k, (a i k - b j k) ^ 2) * √(∑ k, direction v k ^ 2) ≤ √(∑ k, (a i k - b j k) ^ 2) :=
    mul_le_of_le_one_right (Real.sqrt_nonneg _) (direction_norm v)
  rw [abs_le]
  constructor <;> linarith

theorem count_pos (nProj : ℤ) : (0 : ℝ) < ((max 1 nProj).toNat : ℕ) := by
  have : 0 < (max 1 nProj).toNat := by omega
  exact_mod_cast this

/-! ### Theorems -/

/-- **C117** (defined). The distance is defined exactly for samples that are not empty, and does not depend on how many projections
below one are asked for. -/
theorem C117_defined (nProj : ℤ) (draws : ℕ → Fin D → ℝ) (a : Fin n → Fin D → ℝ) (b : Fin m → Fin D → ℝ) :
    ((∃ v, slicedW1 nProj draws a b = .ok v) ↔ n ≠ 0 ∧ m ≠ 0) ∧ (nProj ≤ 1 → slicedW1 nProj draws a b = slicedW1 1 draws a b) := by
  unfold slicedW1
  refine ⟨?_, fun h => by rw [max_eq_left h, max_self]⟩
  split_ifs with h
  · simp only [reduceCtorEq, exists_false, false_iff]; tauto
  · simp only [Except.ok.injEq, exists_eq', true_iff]; tauto

/-- **C117** (symmetry). -/
theorem C117_symmetric (nProj : ℤ) (draws : ℕ → Fin D → ℝ) (a : Fin n → Fin D → ℝ) (b : Fin m → Fin D → ℝ) :
    slicedW1 nProj draws a b = slicedW1 nProj draws b a := by
  unfold slicedW1
  by_cases h : n = 0 ∨ m = 0
  · rw [if_pos h, if_pos h.symm]
  · rw [if_neg h, if_neg (by tauto)]
    simp only [w1_comm (project a _)]

/-- **C117** (metric laws). With the same `random_state` the value is not negative and the triangle inequality holds. -/
theorem C117_triangle (nProj : ℤ) (draws : ℕ → Fin D → ℝ) (a : Fin n → Fin D → ℝ) (b : Fin m → Fin D → ℝ) (c : Fin l → Fin D → ℝ)
    {ab bc ac : ℝ} (hab : slicedW1 nProj draws a b = .ok ab) (hbc : slicedW1 nProj draws b c = .ok bc)
    (hac : slicedW1 nProj draws a c = .ok ac) : 0 ≤ ab ∧ ac ≤ ab + bc := by
  have h1 := ((C117_defined nProj draws a b).1).1 ⟨_, hab⟩
  have h2 := ((C117_defined nProj draws b c).1).1 ⟨_, hbc⟩
  unfold slicedW1 at hab hbc hac
  rw [if_neg (by tauto)] at hab hbc hac
  injection hab with hab; injection hbc with hbc; injection hac with hac
  rw [← hab, ← hbc, ← hac]
  have hp := count_pos nProj
  constructor
  · exact div_nonneg (sum_nonneg fun _ _ => w1_nonneg _ _) hp.le
  · rw [← add_div, ← sum_add_distrib]
    exact div_le_div_of_nonneg_right (sum_le_sum fun r _ => w1_triangle h1.1 h1.2 h2.2 _ _ _) hp.le

/-- **C117** (bound). The value is at most the work of every transport plan between the samples: it never exceeds the Wasserstein
distance of the samples. -/
theorem C117_transport (nProj : ℤ) (draws : ℕ → Fin D → ℝ) (a : Fin n → Fin D → ℝ) (b : Fin m → Fin D → ℝ) {v : ℝ}
    (hv : slicedW1 nProj draws a b = .ok v) {π : Fin n → Fin m → ℝ} (h : IsPlan π) : v ≤ planCost π a b := by
  have h1 := ((C117_defined nProj draws a b).1).1 ⟨_, hv⟩
  unfold slicedW1 at hv
  rw [if_neg (by tauto)] at hv
  injection hv with hv
  rw [← hv, div_le_iff₀ (count_pos nProj)]
  have hr : ∀ r ∈ range (max 1 nProj).toNat, w1 (project a (direction (draws r))) (project b (direction (draws r))) ≤ planCost π a b :=
    fun r _ => (w1_le h h1.1 h1.2 _ _).trans (sum_le_sum fun i _ => sum_le_sum fun j _ =>
      mul_le_mul_of_nonneg_left (project_sub_le a b _ i j) (h.nonneg i j))
  have hsum := sum_le_sum hr
  rw [sum_const, card_range, nsmul_eq_mul, mul_comm] at hsum
  exact hsum

/-! ### Which samples have distance zero -/

theorem sameSample_sum {a : Fin n → Fin D → ℝ} {b : Fin m → Fin D → ℝ} (h : SameSample a b) (f : (Fin D → ℝ) → ℝ) :
    (∑ i, f (a i)) / n = (∑ j, f (b j)) / m := by
  classical
  set S : Finset (Fin D → ℝ) := univ.image a ∪ univ.image b with hS
  have key : ∀ {k : ℕ} (c : Fin k → Fin D → ℝ), (∀ i, c i ∈ S) → ∑ i, f (c i) = ∑ z ∈ S, (∑ i, if c i = z then (1 : ℝ) else 0) * f z := by
    intro k c hc
    simp only [sum_mul]
    rw [sum_comm]
    refine sum_congr rfl fun i _ => ?_
    rw [sum_eq_single (c i)]
    · simp
    · intro z _ hz; simp [Ne.symm hz]
    · exact fun hh => absurd (hc i) hh
  rw [key a fun i => by simp [hS], key b fun i => by simp [hS], sum_div, sum_div]
  refine sum_congr rfl fun z _ => ?_
  have := h z
  rw [mul_comm, mul_div_assoc, this]; ring

/-- **C117** (same samples). Samples in which all points have the same shares — reordered, or with every point repeated the same
number of times — have distance zero. -/
theorem C117_same (nProj : ℤ) (draws : ℕ → Fin D → ℝ) (a : Fin n → Fin D → ℝ) (b : Fin m → Fin D → ℝ) (hn : n ≠ 0) (hm : m ≠ 0)
    (h : SameSample a b) : slicedW1 nProj draws a b = .ok 0 := by
  unfold slicedW1
  rw [if_neg (by tauto)]
  have : ∀ v, w1 (project a v) (project b v) = 0 := by
    intro v
    unfold w1
    have : ∀ x, |ecdf (project a v) x - ecdf (project b v) x| = 0 := by
      intro x
      rw [abs_eq_zero, sub_eq_zero]
      exact sameSample_sum h fun z => if ∑ k, z k * v k ≤ x then 1 else 0
    simp [this]
  simp [this]

theorem ecdf_right (p : Fin n → ℝ) (x : ℝ) : ∀ᶠ t in 𝓝[>] x, ecdf p t = ecdf p x := by
  have : ∀ i, ∀ᶠ t in 𝓝[>] x, (p i ≤ t ↔ p i ≤ x) := by
    intro i
    by_cases h : p i ≤ x
    · filter_upwards [self_mem_nhdsWithin] with t ht
      exact ⟨fun _ => h, fun _ => h.trans (le_of_lt ht)⟩
    · push Not at h
      filter_upwards [nhdsWithin_le_nhds (Iio_mem_nhds h)] with t ht
      exact ⟨fun h' => absurd (lt_of_le_of_lt h' ht) (lt_irrefl _), fun h' => absurd h' (not_le.2 h)⟩
  filter_upwards [eventually_all.2 this] with t ht
  unfold ecdf
  simp only [ht]

theorem ecdf_left (p : Fin n → ℝ) (x : ℝ) : ∀ᶠ t in 𝓝[<] x, ecdf p t = (∑ i, if p i < x then 1 else 0) / n := by
  have : ∀ i, ∀ᶠ t in 𝓝[<] x, (p i ≤ t ↔ p i < x) := by
    intro i
    by_cases h : p i < x
    · filter_upwards [nhdsWithin_le_nhds (Ioi_mem_nhds h)] with t ht
      exact ⟨fun _ => h, fun _ => le_of_lt ht⟩
    · filter_upwards [self_mem_nhdsWithin] with t ht
      exact ⟨fun h' => lt_of_le_of_lt h' ht, fun h' => absurd h' h⟩
  filter_upwards [eventually_all.2 this] with t ht
  unfold ecdf
  simp only [ht]

theorem w1_eq_zero (hn : n ≠ 0) (hm : m ≠ 0) {p : Fin n → ℝ} {q : Fin m → ℝ} (h : w1 p q = 0) (x : ℝ) :
    (∑ i, if p i = x then (1 : ℝ) else 0) / n = (∑ j, if q j = x then (1 : ℝ) else 0) / m := by
  have hae : ∀ᵐ t, ecdf p t = ecdf q t := by
    have := (integral_eq_zero_iff_of_nonneg (fun _ => abs_nonneg _) (integrable_ecdf hn hm p q)).1 h
    filter_upwards [this] with t ht
    simpa [sub_eq_zero] using ht
  have hdense : Dense {t | ecdf p t = ecdf q t} := Measure.dense_of_ae hae
  have hfr : ∀ x, ∃ᶠ t in 𝓝[>] x, ecdf p t = ecdf q t := by
    intro x hx
    obtain ⟨u, hu, hsub⟩ := mem_nhdsGT_iff_exists_Ioo_subset.1 hx
    obtain ⟨t, ht, htu⟩ := hdense.exists_mem_open isOpen_Ioo (Set.nonempty_Ioo.2 hu)
    exact hsub htu ht
  have hfl : ∀ x, ∃ᶠ t in 𝓝[<] x, ecdf p t = ecdf q t := by
    intro x hx
    obtain ⟨u, hu, hsub⟩ := mem_nhdsLT_iff_exists_Ioo_subset.1 hx
    obtain ⟨t, ht, htu⟩ := hdense.exists_mem_open isOpen_Ioo (Set.nonempty_Ioo.2 hu)
    exact hsub htu ht
  have hle : ecdf p x = ecdf q x := by
    obtain ⟨t, ht, h1, h2⟩ := ((hfr x).and_eventually ((ecdf_right p x).and (ecdf_right q x))).exists
    rw [← h1, ← h2, ht]
  have hlt : (∑ i, if p i < x then (1 : ℝ) else 0) / n = (∑ j, if q j < x then (1 : ℝ) else 0) / m := by
    obtain ⟨t, ht, h1, h2⟩ := ((hfl x).and_eventually ((ecdf_left p x).and (ecdf_left q x))).exists
    rw [← h1, ← h2, ht]
  have split : ∀ {k : ℕ} (r : Fin k → ℝ), (∑ i, if r i = x then (1 : ℝ) else 0) / k
      = ecdf r x - (∑ i, if r i < x then (1 : ℝ) else 0) / k := by
    intro k r
    unfold ecdf
    rw [← sub_div, ← sum_sub_distrib]
    congr 1
    refine sum_congr rfl fun i _ => ?_
    by_cases h1 : r i < x
    · simp [h1, h1.le, h1.ne]
    · by_cases h2 : r i = x
      · simp [h2]
      · have : ¬ r i ≤ x := fun h => h1 (lt_of_le_of_ne h h2)
        simp [h1, h2, this]
  rw [split, split, hle, hlt]

/-- A direction separates the samples: different points have different projections. -/
def Separates (v : Fin D → ℝ) (a : Fin n → Fin D → ℝ) (b : Fin m → Fin D → ℝ) : Prop :=
  ∀ y ∈ Set.range a ∪ Set.range b, ∀ z ∈ Set.range a ∪ Set.range b, ∑ k, y k * v k = ∑ k, z k * v k → y = z

theorem sameSample_of_projection (hn : n ≠ 0) (hm : m ≠ 0) {a : Fin n → Fin D → ℝ} {b : Fin m → Fin D → ℝ} {v : Fin D → ℝ}
    (hs : Separates v a b) (h : w1 (project a (direction v)) (project b (direction v)) = 0) : SameSample a b := by
  classical
  have hscale : ∃ s : ℝ, 0 < s ∧ ∀ y : Fin D → ℝ, ∑ k, y k * direction v k = (∑ k, y k * v k) / s := by
    refine ⟨max √(∑ j, v j ^ 2) (1 / 10 ^ 12), lt_of_lt_of_le (by norm_num) (le_max_right _ _), fun y => ?_⟩
    unfold direction
    rw [sum_div]
    exact sum_congr rfl fun k _ => by ring
  obtain ⟨s, hs0, hsc⟩ := hscale
  intro z
  by_cases hz : z ∈ Set.range a ∪ Set.range b
  · have hx := w1_eq_zero hn hm h (∑ k, z k * direction v k)
    have ha : ∀ i, (project a (direction v) i = ∑ k, z k * direction v k) ↔ a i = z := by
      intro i
      unfold project
      rw [hsc, hsc, div_left_inj' hs0.ne']
      exact ⟨fun h => hs _ (Or.inl ⟨i, rfl⟩) _ hz h, fun h => by rw [h]⟩
    have hb : ∀ j, (project b (direction v) j = ∑ k, z k * direction v k) ↔ b j = z := by
      intro i
      unfold project
      rw [hsc, hsc, div_left_inj' hs0.ne']
      exact ⟨fun h => hs _ (Or.inr ⟨i, rfl⟩) _ hz h, fun h => by rw [h]⟩
    simpa only [ha, hb] using hx
  · have ha : ∀ i, a i ≠ z := fun i hi => hz (Or.inl ⟨i, hi⟩)
    have hb : ∀ i, b i ≠ z := fun i hi => hz (Or.inr ⟨i, hi⟩)
    simp [ha, hb]

/-- **C117** (different samples). If one of the drawn directions separates the points, the value is zero exactly for samples that are
the same distribution. -/
theorem C117_zero (nProj : ℤ) (draws : ℕ → Fin D → ℝ) (a : Fin n → Fin D → ℝ) (b : Fin m → Fin D → ℝ) (hn : n ≠ 0) (hm : m ≠ 0)
    (hs : ∃ r : ℕ, (r : ℤ) < max 1 nProj ∧ Separates (draws r) a b) : slicedW1 nProj draws a b = .ok 0 ↔ SameSample a b := by
  refine ⟨fun h => ?_, C117_same nProj draws a b hn hm⟩
  obtain ⟨r, hr, hsep⟩ := hs
  unfold slicedW1 at h
  rw [if_neg (by tauto)] at h
  injection h with h
  rw [div_eq_zero_iff, or_iff_left (count_pos nProj).ne', sum_eq_zero_iff_of_nonneg fun _ _ => w1_nonneg _ _] at h
  exact sameSample_of_projection hn hm hsep (h r (by rw [mem_range]; omega))

/-- A direction of which the law has a density separates the points with probability one. -/
theorem separates_ae {Ω : Type} {mΩ : MeasurableSpace Ω} (P : Measure Ω) (v : Ω → Fin D → ℝ) (hv : AEMeasurable v P)
    (hac : P.map v ≪ volume) (a : Fin n → Fin D → ℝ) (b : Fin m → Fin D → ℝ) : ∀ᵐ ω ∂P, Separates (v ω) a b := by
  have key : ∀ y z : Fin D → ℝ, y ≠ z → ∀ᵐ ω ∂P, ∑ k, y k * v ω k ≠ ∑ k, z k * v ω k := by
    intro y z hyz
    let f : (Fin D → ℝ) →ₗ[ℝ] ℝ := ∑ k, (y k - z k) • LinearMap.proj k
    have hf : ∀ x, f x = ∑ k, (y k - z k) * x k := by intro x; simp [f]
    have hker : LinearMap.ker f ≠ ⊤ := by
      intro ht
      refine hyz (funext fun k => ?_)
      have : f (Pi.single k 1) = 0 := by
        have : Pi.single k 1 ∈ LinearMap.ker f := by rw [ht]; trivial
        exact this
      rw [hf, sum_eq_single k] at this
      · simpa [sub_eq_zero] using this
      · intro j _ hj; simp [hj]
      · simp
    have h0 : (volume : Measure (Fin D → ℝ)) (LinearMap.ker f) = 0 := Measure.addHaar_submodule _ _ hker
    have h1 := ae_of_ae_map hv (measure_eq_zero_iff_ae_notMem.1 (hac h0))
    filter_upwards [h1] with ω hω he
    apply hω
    change f (v ω) = 0
    rw [hf]
    have : ∑ k, (y k - z k) * v ω k = ∑ k, y k * v ω k - ∑ k, z k * v ω k := by
      rw [← sum_sub_distrib]; exact sum_congr rfl fun k _ => by ring
    rw [this, he, sub_self]
  have hfin : ∀ᵐ ω ∂P, ∀ y ∈ Set.range a ∪ Set.range b, ∀ z ∈ Set.range a ∪ Set.range b,
      ∑ k, y k * v ω k = ∑ k, z k * v ω k → y = z := by
    have hS : (Set.range a ∪ Set.range b).Countable := ((Set.finite_range a).union (Set.finite_range b)).countable
    refine (ae_ball_iff hS).2 fun y _ => (ae_ball_iff hS).2 fun z _ => ?_
    by_cases hyz : y = z
    · exact Eventually.of_forall fun _ _ => hyz
    · filter_upwards [key y z hyz] with ω hω h
      exact absurd h hω
  exact hfin

/-- **C117** (different samples, random directions). Directions from a law with a density, such as the normal law: with probability
one the value is zero exactly for samples that are the same distribution, however many projections are used. -/
theorem C117_identifies {Ω : Type} {mΩ : MeasurableSpace Ω} (P : Measure Ω) (nProj : ℤ) (draws : Ω → ℕ → Fin D → ℝ)
    (hv : AEMeasurable (fun ω => draws ω 0) P) (hac : P.map (fun ω => draws ω 0) ≪ volume) (a : Fin n → Fin D → ℝ)
    (b : Fin m → Fin D → ℝ) (hn : n ≠ 0) (hm : m ≠ 0) :
    ∀ᵐ ω ∂P, slicedW1 nProj (draws ω) a b = .ok 0 ↔ SameSample a b := by
  filter_upwards [separates_ae P (fun ω => draws ω 0) hv hac a b] with ω hω
  exact C117_zero nProj (draws ω) a b hn hm ⟨0, by push_cast; omega, hω⟩

/-! ### One dimension -/

theorem ecdf_neg (hn : n ≠ 0) (p : Fin n → ℝ) {x : ℝ} (hx : ∀ i, p i ≠ -x) : ecdf (fun i => -p i) x = 1 - ecdf p (-x) := by
  have hn' : (n : ℝ) ≠ 0 := by exact_mod_cast hn
  unfold ecdf
  rw [eq_sub_iff_add_eq, ← add_div, ← sum_add_distrib, div_eq_one_iff_eq hn']
  have : ∀ i, ((if -p i ≤ x then (1 : ℝ) else 0) + if p i ≤ -x then 1 else 0) = 1 := by
    intro i
    rcases lt_or_gt_of_ne (hx i) with h | h
    · rw [if_neg (by linarith), if_pos h.le, zero_add]
    · rw [if_pos (by linarith), if_neg (by linarith), add_zero]
  simp [this]

theorem w1_neg (hn : n ≠ 0) (hm : m ≠ 0) (p : Fin n → ℝ) (q : Fin m → ℝ) : w1 (fun i => -p i) (fun j => -q j) = w1 p q := by
  unfold w1
  rw [← integral_neg_eq_self fun x => |ecdf p x - ecdf q x|]
  refine integral_congr_ae ?_
  have h1 : ∀ {k : ℕ} (r : Fin k → ℝ), ∀ᵐ x : ℝ, ∀ i, r i ≠ -x := by
    intro k r
    rw [ae_all_iff]
    intro i
    filter_upwards [(measure_eq_zero_iff_ae_notMem.1 (measure_singleton (μ := (volume : Measure ℝ)) (-r i)))] with x hx h
    exact hx (by rw [Set.mem_singleton_iff, h, neg_neg])
  filter_upwards [h1 p, h1 q] with x hp hq
  rw [ecdf_neg hn p hp, ecdf_neg hm q hq, abs_sub_comm]
  congr 1
  ring

/-- **C117** (one dimension). Scalar samples: whatever the draws of size at least `1e-12`, the value is the area between the
empirical distribution functions. -/
theorem C117_scalar (nProj : ℤ) (draws : ℕ → Fin 1 → ℝ) (hd : ∀ r, 1 / 10 ^ 12 ≤ |draws r 0|) (a : Fin n → Fin 1 → ℝ)
    (b : Fin m → Fin 1 → ℝ) (hn : n ≠ 0) (hm : m ≠ 0) :
    slicedW1 nProj draws a b = .ok (∫ x, |(∑ i, if a i 0 ≤ x then (1 : ℝ) else 0) / n - (∑ j, if b j 0 ≤ x then (1 : ℝ) else 0) / m|) := by
  unfold slicedW1
  rw [if_neg (by tauto)]
  have key : ∀ r, w1 (project a (direction (draws r))) (project b (direction (draws r))) = w1 (fun i => a i 0) fun j => b j 0 := by
    intro r
    have hdir : direction (draws r) 0 = 1 ∨ direction (draws r) 0 = -1 := by
      unfold direction
      have h0 : 0 < |draws r 0| := lt_of_lt_of_le (by norm_num) (hd r)
      rw [Fin.sum_univ_one, Real.sqrt_sq_eq_abs, max_eq_left (hd r)]
      rcases abs_choice (draws r 0) with h | h
      · left; rw [h, div_self]; rw [h] at h0; exact h0.ne'
      · right; rw [h, div_neg, div_self]; rw [h] at h0; linarith
    unfold project
    simp only [Fin.sum_univ_one]
    rcases hdir with h | h
    · simp only [h, mul_one]
    · simp only [h, mul_neg, mul_one]
      exact w1_neg hn hm _ _
  simp only [key, sum_const, card_range, nsmul_eq_mul]
  rw [mul_div_cancel_left₀ _ (count_pos nProj).ne']
  rfl

theorem w1_sorted {p q : Fin n → ℝ} (hp : Monotone p) (hq : Monotone q) : w1 p q = (∑ i, |p i - q i|) / n := by
  rcases Nat.eq_zero_or_pos n with h0 | h0
  · subst h0; simp [w1, ecdf]
  unfold w1
  have e : ∀ x, |ecdf p x - ecdf q x| = (∑ i, |stepDiff (p i) (q i) x|) / n := by
    intro x
    unfold ecdf
    rw [← sub_div, abs_div, Nat.abs_cast, ← sum_sub_distrib]
    congr 1
    by_cases hs : ∀ i, 0 ≤ stepDiff (p i) (q i) x
    · rw [sum_congr rfl fun i _ => abs_of_nonneg (hs i)]
      exact abs_of_nonneg (sum_nonneg fun i _ => hs i)
    · push Not at hs
      obtain ⟨j, hj⟩ := hs
      have hj' : q j ≤ x ∧ ¬ p j ≤ x := by
        unfold stepDiff at hj
        by_cases h1 : p j ≤ x <;> by_cases h2 : q j ≤ x <;> simp [h1, h2] at hj ⊢ <;> linarith
      have hs : ∀ i, stepDiff (p i) (q i) x ≤ 0 := by
        intro i
        by_contra hi
        have hi' : p i ≤ x ∧ ¬ q i ≤ x := by
          unfold stepDiff at hi
          by_cases h1 : p i ≤ x <;> by_cases h2 : q i ≤ x <;> simp [h1, h2] at hi ⊢ <;> linarith
        rcases le_total i j with h | h
        · exact hi'.2 ((hq h).trans hj'.1)
        · exact hj'.2 ((hp h).trans hi'.1)
      rw [sum_congr rfl fun i _ => abs_of_nonpos (hs i), sum_neg_distrib]
      exact abs_of_nonpos (sum_nonpos fun i _ => hs i)
  simp only [e, integral_div]
  rw [integral_finsetSum _ fun i _ => integrable_stepDiff _ _]
  simp only [integral_stepDiff]

theorem ecdf_perm (p : Fin n → ℝ) (σ : Equiv.Perm (Fin n)) : ecdf (p ∘ σ) = ecdf p := by
  funext x
  unfold ecdf
  rw [← Equiv.sum_comp σ fun i => if p i ≤ x then (1 : ℝ) else 0]
  rfl

/-- **C117** (optimality in one dimension). For scalar samples of the same size the value is the work of a transport plan, with
`C117_transport` the least one: moving the `i`-th smallest point to the `i`-th smallest. -/
theorem C117_optimal (nProj : ℤ) (draws : ℕ → Fin 1 → ℝ) (hd : ∀ r, 1 / 10 ^ 12 ≤ |draws r 0|) (a b : Fin n → Fin 1 → ℝ)
    (hn : n ≠ 0) : ∃ π, IsPlan π ∧ slicedW1 nProj draws a b = .ok (planCost π a b) := by
  classical
  set p : Fin n → ℝ := fun i => a i 0 with hpd
  set q : Fin n → ℝ := fun i => b i 0 with hqd
  set σ := Tuple.sort p with hσ
  set τ := Tuple.sort q with hτ
  have hn' : (n : ℝ) ≠ 0 := by exact_mod_cast hn
  refine ⟨fun i j => if σ.symm i = τ.symm j then 1 / n else 0, ⟨fun i j => by split_ifs <;> positivity, fun i => ?_, fun j => ?_⟩, ?_⟩
  · rw [sum_eq_single (τ (σ.symm i))]
    · simp
    · intro j _ hj
      rw [if_neg]
      intro h; apply hj; rw [h]; simp
    · simp
  · rw [sum_eq_single (σ (τ.symm j))]
    · simp
    · intro i _ hi
      rw [if_neg]
      intro h; apply hi; rw [← h]; simp
    · simp
  · rw [C117_scalar nProj draws hd a b hn hn]
    congr 1
    have h1 : w1 p q = w1 (p ∘ σ) (q ∘ τ) := by unfold w1; rw [ecdf_perm, ecdf_perm]
    have h2 : w1 p q = (∑ i, |p (σ i) - q (τ i)|) / n := by
      rw [h1, w1_sorted (Tuple.monotone_sort p) (Tuple.monotone_sort q)]; rfl
    refine (show _ = w1 p q from rfl).trans (h2.trans ?_)
    unfold planCost
    rw [← Equiv.sum_comp σ fun i => ∑ j, (if σ.symm i = τ.symm j then (1 : ℝ) / n else 0) * √(∑ k, (a i k - b j k) ^ 2), sum_div]
    refine sum_congr rfl fun i _ => ?_
    rw [sum_eq_single (τ i)]
    · simp only [Equiv.symm_apply_apply, if_true, Fin.sum_univ_one, Real.sqrt_sq_eq_abs]
      rw [hpd, hqd]; ring
    · intro j _ hj
      rw [if_neg, zero_mul]
      intro h; apply hj
      rw [Equiv.symm_apply_apply] at h
      rw [h]; simp
    · simp

/-! ### Many projections -/

theorem measurable_direction : Measurable (direction : (Fin D → ℝ) → Fin D → ℝ) := by
  unfold direction
  fun_prop

theorem measurable_w1 (a : Fin n → Fin D → ℝ) (b : Fin m → Fin D → ℝ) :
    Measurable fun v : Fin D → ℝ => w1 (project a (direction v)) (project b (direction v)) := by
  have hd := measurable_direction (D := D)
  have hecdf : ∀ {k : ℕ} (c : Fin k → Fin D → ℝ), Measurable fun t : (Fin D → ℝ) × ℝ => ecdf (project c (direction t.1)) t.2 := by
    intro k c
    unfold ecdf project
    refine Measurable.div_const (Finset.measurable_fun_sum _ fun i _ => ?_) _
    refine Measurable.ite (measurableSet_le ?_ measurable_snd) measurable_const measurable_const
    exact Finset.measurable_fun_sum _ fun k _ => ((measurable_pi_apply k).comp (hd.comp measurable_fst)).const_mul _
  have hf : Measurable fun t : (Fin D → ℝ) × ℝ => |ecdf (project a (direction t.1)) t.2 - ecdf (project b (direction t.1)) t.2| :=
    ((hecdf a).sub (hecdf b)).abs
  exact (hf.stronglyMeasurable.integral_prod_right).measurable

theorem integrable_w1 (hn : n ≠ 0) (hm : m ≠ 0) (ν : Measure (Fin D → ℝ)) [IsFiniteMeasure ν] (a : Fin n → Fin D → ℝ)
    (b : Fin m → Fin D → ℝ) : Integrable (fun v => w1 (project a (direction v)) (project b (direction v))) ν := by
  refine Integrable.of_bound (measurable_w1 a b).aestronglyMeasurable (planCost (fun _ _ => (1 : ℝ) / (n * m)) a b)
    (Eventually.of_forall fun v => ?_)
  rw [Real.norm_of_nonneg (w1_nonneg _ _)]
  have h := plan_exists hn hm
  exact (w1_le h hn hm _ _).trans (sum_le_sum fun i _ => sum_le_sum fun j _ =>
    mul_le_mul_of_nonneg_left (project_sub_le a b _ i j) (h.nonneg i j))

/-- The sliced distance for a law of directions: the mean over directions of the area between the distribution functions of
the projections. -/
noncomputable def slicedLimit (ν : Measure (Fin D → ℝ)) (a : Fin n → Fin D → ℝ) (b : Fin m → Fin D → ℝ) : ℝ :=
  ∫ v, (∫ x, |(∑ i, if ∑ k, a i k * (v k / max √(∑ j, v j ^ 2) (1 / 10 ^ 12)) ≤ x then (1 : ℝ) else 0) / n
    - (∑ i, if ∑ k, b i k * (v k / max √(∑ j, v j ^ 2) (1 / 10 ^ 12)) ≤ x then (1 : ℝ) else 0) / m|) ∂ν

/-- **C117** (unbiased). If all directions have the same law, the value is an unbiased estimate of the sliced distance, whatever the
number of projections. -/
theorem C117_unbiased {Ω : Type} {mΩ : MeasurableSpace Ω} (P : Measure Ω) [IsProbabilityMeasure P] (nProj : ℤ)
    (draws : ℕ → Ω → Fin D → ℝ) (ν : Measure (Fin D → ℝ)) [IsProbabilityMeasure ν] (hm' : ∀ r, Measurable (draws r))
    (hlaw : ∀ r, P.map (draws r) = ν) (a : Fin n → Fin D → ℝ) (b : Fin m → Fin D → ℝ) (hn : n ≠ 0) (hm : m ≠ 0) :
    ∃ V : Ω → ℝ, (∀ ω, slicedW1 nProj (fun r => draws r ω) a b = .ok (V ω)) ∧ ∫ ω, V ω ∂P = slicedLimit ν a b := by
  set f := fun v : Fin D → ℝ => w1 (project a (direction v)) (project b (direction v)) with hf
  have hint : ∀ r, Integrable (fun ω => f (draws r ω)) P := fun r => by
    have := integrable_w1 hn hm ν a b
    rw [← hlaw r] at this
    exact this.comp_measurable (hm' r)
  have hI : ∀ r, ∫ ω, f (draws r ω) ∂P = slicedLimit ν a b := fun r => by
    rw [← integral_map (hm' r).aemeasurable (measurable_w1 a b).aestronglyMeasurable, hlaw r]
    rfl
  refine ⟨fun ω => (∑ r ∈ range (max 1 nProj).toNat, f (draws r ω)) / ((max 1 nProj).toNat : ℕ), fun ω => ?_, ?_⟩
  · unfold slicedW1
    rw [if_neg (by tauto)]
  · rw [integral_div, integral_finsetSum _ fun r _ => hint r]
    simp only [hI, sum_const, card_range, nsmul_eq_mul]
    rw [mul_div_cancel_left₀ _ (count_pos nProj).ne']

/-- **C117** (consistent). With independent directions of the same law the value converges with probability one to the sliced distance
when the number of projections grows. -/
theorem C117_consistent {Ω : Type} {mΩ : MeasurableSpace Ω} (P : Measure Ω) [IsProbabilityMeasure P]
    (draws : ℕ → Ω → Fin D → ℝ) (ν : Measure (Fin D → ℝ)) [IsProbabilityMeasure ν] (hm' : ∀ r, Measurable (draws r))
    (hlaw : ∀ r, P.map (draws r) = ν) (hind : iIndepFun draws P) (a : Fin n → Fin D → ℝ) (b : Fin m → Fin D → ℝ)
    (hn : n ≠ 0) (hm : m ≠ 0) :
    ∃ V : ℕ → Ω → ℝ, (∀ (N : ℕ) ω, slicedW1 (N : ℤ) (fun r => draws r ω) a b = .ok (V N ω)) ∧
      ∀ᵐ ω ∂P, Tendsto (fun N => V N ω) atTop (𝓝 (slicedLimit ν a b)) := by
  set f := fun v : Fin D → ℝ => w1 (project a (direction v)) (project b (direction v)) with hf
  have hfm : Measurable f := measurable_w1 a b
  refine ⟨fun N ω => (∑ r ∈ range (max 1 (N : ℤ)).toNat, f (draws r ω)) / ((max 1 (N : ℤ)).toNat : ℕ), fun N ω => ?_, ?_⟩
  · unfold slicedW1
    rw [if_neg (by tauto)]
  · have hint : Integrable (fun ω => f (draws 0 ω)) P := by
      have := integrable_w1 hn hm ν a b
      rw [← hlaw 0] at this
      exact this.comp_measurable (hm' 0)
    have hI : ∫ ω, f (draws 0 ω) ∂P = slicedLimit ν a b := by
      rw [← integral_map (hm' 0).aemeasurable hfm.aestronglyMeasurable, hlaw 0]
      rfl
    have hid : ∀ r, IdentDistrib (fun ω => f (draws r ω)) (fun ω => f (draws 0 ω)) P P := fun r =>
      (⟨(hm' r).aemeasurable, (hm' 0).aemeasurable, by rw [hlaw, hlaw]⟩ : IdentDistrib (draws r) (draws 0) P P).comp hfm
    have hslln := strong_law_ae_real (fun r ω => f (draws r ω)) hint
      (fun i j hij => (hind.indepFun hij).comp hfm hfm) hid
    rw [hI] at hslln
    filter_upwards [hslln] with ω hω
    refine hω.congr' ?_
    filter_upwards [eventually_ge_atTop 1] with N hN
    have : (max 1 (N : ℤ)).toNat = N := by omega
    rw [this]

/-! ### Examples -/

/-- Normal draws have a density. -/
theorem normal_absolutelyContinuous : (Measure.pi fun _ : Fin D => gaussianReal 0 1) ≪ volume := by
  rw [Verif.GP.pi_gaussian_density]
  exact withDensity_absolutelyContinuous _ _

/-- A generator of independent normal directions, its law and its consequences for two samples in the plane. -/
example (a : Fin 2 → Fin 2 → ℝ) (b : Fin 3 → Fin 2 → ℝ) :
    ∃ (P : Measure (ℕ → Fin 2 → ℝ)), IsProbabilityMeasure P ∧
      (∀ᵐ ω ∂P, slicedW1 64 ω a b = .ok 0 ↔ SameSample a b) ∧
      (∃ V : ℕ → (ℕ → Fin 2 → ℝ) → ℝ, (∀ (N : ℕ) ω, slicedW1 (N : ℤ) ω a b = .ok (V N ω)) ∧
      ∀ᵐ ω ∂P, Tendsto (fun N => V N ω) atTop (𝓝 (slicedLimit (Measure.pi fun _ => gaussianReal 0 1) a b))) := by
  set ν : Measure (Fin 2 → ℝ) := Measure.pi fun _ => gaussianReal 0 1 with hν
  set P := Measure.infinitePi fun _ : ℕ => ν with hP
  have hlaw : ∀ r, P.map (fun ω => ω r) = ν := fun r => Measure.infinitePi_map_eval _ r
  refine ⟨P, inferInstance, ?_, ?_⟩
  · exact C117_identifies P 64 (fun ω => ω) (measurable_pi_apply 0).aemeasurable (by rw [hlaw 0]; exact normal_absolutelyContinuous) a b (by norm_num)
      (by norm_num)
  · exact C117_consistent P (fun r ω => ω r) ν (fun r => by fun_prop) hlaw
      (iIndepFun_infinitePi (X := fun _ => id) fun i => by fun_prop) a b (by norm_num) (by norm_num)

/-- A sample and the sample with every point twice. -/
example (draws : ℕ → Fin 2 → ℝ) (y z : Fin 2 → ℝ) : slicedW1 64 draws ![y, z] ![z, y, y, z] = .ok 0 := by
  refine C117_same _ _ _ _ (by norm_num) (by norm_num) fun t => ?_
  rw [Fin.sum_univ_two, Fin.sum_univ_four]
  change ((if y = t then (1 : ℝ) else 0) + if z = t then 1 else 0) / (2 : ℕ)
    = ((if z = t then (1 : ℝ) else 0) + (if y = t then 1 else 0) + (if y = t then 1 else 0) + if z = t then 1 else 0) / (4 : ℕ)
  push_cast
  ring

/-- Translation of a sample moves it by at most the length of the translation. -/
example (draws : ℕ → Fin D → ℝ) (a : Fin 3 → Fin D → ℝ) (t : Fin D → ℝ) :
    ∃ v, slicedW1 64 draws a (fun i => a i + t) = .ok v ∧ v ≤ √(∑ k, t k ^ 2) := by
  obtain ⟨v, hv⟩ := (C117_defined 64 draws a fun i => a i + t).1.2 (by norm_num)
  refine ⟨v, hv, (C117_transport 64 draws a _ hv (π := fun i j => if i = j then 1 / 3 else 0)
    ⟨fun i j => by split_ifs <;> norm_num, fun i => by simp, fun j => by simp⟩).trans (le_of_eq ?_)⟩
  unfold planCost
  simp [← sum_mul]

/-- Three numbers against three numbers: two projections with draws of both signs. -/
example : slicedW1 2 (fun r => ![(-1) ^ r]) ![![0], ![1], ![3]] ![![4], ![1], ![1]] = .ok (2 / 3) := by
  have hd : ∀ r, (1 : ℝ) / 10 ^ 12 ≤ |(![(-1) ^ r] : Fin 1 → ℝ) 0| := fun r => by
    simp only [Matrix.cons_val_zero, abs_pow, abs_neg, abs_one, one_pow]; norm_num
  rw [C117_scalar _ _ hd _ _ (by norm_num) (by norm_num)]
  congr 1
  have h := w1_sorted (p := ![0, 1, 3]) (q := ![1, 1, 4]) (by intro i j h; fin_cases i <;> fin_cases j <;> simp_all)
    (by intro i j h; fin_cases i <;> fin_cases j <;> simp_all)
  rw [Fin.sum_univ_three] at h
  have e : (∫ x : ℝ, |(∑ i, if (![![0], ![1], ![3]] : Fin 3 → Fin 1 → ℝ) i 0 ≤ x then (1 : ℝ) else 0) / (3 : ℕ)
      - (∑ j, if (![![4], ![1], ![1]] : Fin 3 → Fin 1 → ℝ) j 0 ≤ x then (1 : ℝ) else 0) / (3 : ℕ)|) = w1 ![0, 1, 3] ![1, 1, 4] := by
    unfold w1 ecdf
    congr 1
    funext x
    simp only [Fin.sum_univ_three]
    congr 2
    simp only [Matrix.cons_val_zero, Matrix.cons_val_one, Matrix.cons_val]
    by_cases h1 : (1 : ℝ) ≤ x <;> by_cases h4 : (4 : ℝ) ≤ x <;> simp [h1, h4] <;> norm_num
  rw [e, h]
  simp only [Matrix.cons_val_zero, Matrix.cons_val_one, Matrix.cons_val]
  norm_num

end Verif.Ggmp
