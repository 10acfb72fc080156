import Verif.Kernels.MaternPsd
import Mathlib.LinearAlgebra.Vandermonde

/-! Strictly positive definite kernels. -/

namespace Verif.Kernels

open Finset Real MeasureTheory Verif.GP

variable {α β : Type}

/-- A symmetric kernel whose matrices at distinct points are positive definite. -/
def IsStrictKernel (k : α → α → ℝ) : Prop :=
  (∀ a b, k a b = k b a) ∧
  ∀ (n : ℕ) (x : Fin n → α) (w : Fin n → ℝ), Function.Injective x → w ≠ 0 → 0 < ∑ i, ∑ j, w i * w j * k (x i) (x j)

theorem IsStrictKernel.smul {k : α → α → ℝ} (hk : IsStrictKernel k) {c : ℝ} (hc : 0 < c) :
    IsStrictKernel fun a b => c * k a b := by
  refine ⟨fun a b => by simp only [hk.1 a b], fun n x w hx hw => ?_⟩
  have e : ∑ i, ∑ j, w i * w j * (c * k (x i) (x j)) = c * ∑ i, ∑ j, w i * w j * k (x i) (x j) := by
    simp only [mul_sum]
    exact sum_congr rfl fun i _ => sum_congr rfl fun j _ => by ring
  rw [e]
  exact mul_pos hc (hk.2 n x w hx hw)

theorem IsStrictKernel.comp {k : β → β → ℝ} (hk : IsStrictKernel k) {f : α → β} (hf : Function.Injective f) :
    IsStrictKernel fun a b => k (f a) (f b) :=
  ⟨fun a b => hk.1 _ _, fun n x w hx hw => hk.2 n (f ∘ x) w (hf.comp hx) hw⟩

/-- Repeated points: the form is positive if the weights of some point do not cancel. -/
theorem IsStrictKernel.merge {k : α → α → ℝ} (hk : IsStrictKernel k) [DecidableEq α] {n : ℕ} (x : Fin n → α) (w : Fin n → ℝ)
    (a : α) (ha : ∑ i with x i = a, w i ≠ 0) : 0 < ∑ i, ∑ j, w i * w j * k (x i) (x j) := by
  set S : Finset α := univ.image x with hS
  let e : Fin S.card ≃ S := S.equivFin.symm
  let W : α → ℝ := fun b => ∑ i with x i = b, w i
  have hsum : ∀ f : α → ℝ, ∑ i, w i * f (x i) = ∑ b ∈ S, W b * f b := by
    intro f
    rw [← sum_fiberwise_of_maps_to (s := univ) (t := S) (g := x) fun i _ => mem_image_of_mem x (mem_univ i)]
    refine sum_congr rfl fun b _ => ?_
    rw [sum_mul]
    exact sum_congr rfl fun i hi => by rw [(mem_filter.1 hi).2]
  have hfin : ∀ f : α → ℝ, ∑ b ∈ S, f b = ∑ s : Fin S.card, f (e s) := by
    intro f
    rw [← sum_coe_sort S]
    exact (Equiv.sum_comp e fun b : S => f b).symm
  have hform : ∑ i, ∑ j, w i * w j * k (x i) (x j) =
      ∑ s : Fin S.card, ∑ t : Fin S.card, W (e s) * W (e t) * k (e s) (e t) := by
    have h1 : ∀ i, ∑ j, w i * w j * k (x i) (x j) = w i * ∑ b ∈ S, W b * k (x i) b := by
      intro i
      rw [← hsum fun b => k (x i) b, mul_sum]
      exact sum_congr rfl fun j _ => by ring
    simp only [h1]
    rw [hsum fun b => ∑ b' ∈ S, W b' * k b b', hfin]
    refine sum_congr rfl fun s _ => ?_
    rw [hfin, mul_sum]
    exact sum_congr rfl fun t _ => by ring
  rw [hform]
  refine hk.2 S.card (fun s => (e s : α)) (fun s => W (e s)) (Subtype.val_injective.comp e.injective) fun h0 => ha ?_
  by_cases hmem : a ∈ S
  · have := congrFun h0 (e.symm ⟨a, hmem⟩)
    simpa [W] using this
  · refine sum_eq_zero fun i hi => absurd ?_ hmem
    rw [← (mem_filter.1 hi).2]
    exact mem_image_of_mem x (mem_univ i)

theorem IsStrictKernel.psd {k : α → α → ℝ} (hk : IsStrictKernel k) : IsPSDKernel k := by
  classical
  refine ⟨hk.1, fun n x w => ?_⟩
  by_cases h : ∃ a, ∑ i with x i = a, w i ≠ 0
  · obtain ⟨a, ha⟩ := h
    exact (hk.merge x w a ha).le
  · push Not at h
    have e : ∀ f : α → ℝ, ∑ i, w i * f (x i) = 0 := by
      intro f
      rw [← sum_fiberwise_of_maps_to (s := univ) (t := univ.image x) (g := x) fun i _ => mem_image_of_mem x (mem_univ i)]
      refine sum_eq_zero fun b _ => ?_
      have : ∑ i with x i = b, w i * f (x i) = (∑ i with x i = b, w i) * f b := by
        rw [sum_mul]
        exact sum_congr rfl fun i hi => by rw [(mem_filter.1 hi).2]
      rw [this, h b, zero_mul]
    refine le_of_eq (sum_eq_zero fun i _ => ?_).symm
    have : ∑ j, w i * w j * k (x i) (x j) = w i * ∑ j, w j * k (x i) (x j) := by
      rw [mul_sum]
      exact sum_congr rfl fun j _ => by ring
    rw [this, e fun b => k (x i) b, mul_zero]

/-- A form of a positive semidefinite kernel that vanishes at `w` annihilates `w`. -/
theorem IsPSDKernel.null {k : α → α → ℝ} (hk : IsPSDKernel k) {n : ℕ} {x : Fin n → α} {w : Fin n → ℝ}
    (h0 : ∑ i, ∑ j, w i * w j * k (x i) (x j) = 0) (u : α) : ∑ i, w i * k (x i) u = 0 := by
  by_contra hne
  set b := ∑ i, w i * k (x i) u with hb
  have key : ∀ s : ℝ, 0 ≤ s * s * k u u + 2 * s * b := by
    intro s
    have h := hk.2 (n + 1) (Fin.cons u x) (Fin.cons s w)
    simp only [Fin.sum_univ_succ, Fin.cons_zero, Fin.cons_succ] at h
    rw [sum_add_distrib, h0] at h
    have e1 : ∑ i, s * w i * k u (x i) = s * b := by
      rw [hb, mul_sum]; exact sum_congr rfl fun i _ => by rw [hk.1 u]; ring
    have e2 : ∑ i, w i * s * k (x i) u = s * b := by
      rw [hb, mul_sum]; exact sum_congr rfl fun i _ => by ring
    rw [e1, e2] at h
    linarith
  have hk0 : 0 ≤ k u u := by
    have := hk.2 1 (fun _ => u) fun _ => 1
    simpa using this
  have h1 := key (-b / (k u u + 1))
  have hpos : 0 < k u u + 1 := by linarith
  have hb2 : 0 < b ^ 2 := by positivity
  have e : -b / (k u u + 1) * (-b / (k u u + 1)) * k u u + 2 * (-b / (k u u + 1)) * b
      = -(b ^ 2 * (k u u + 2)) / (k u u + 1) ^ 2 := by
    field_simp
    ring
  rw [e] at h1
  have : -(b ^ 2 * (k u u + 2)) / (k u u + 1) ^ 2 < 0 := div_neg_of_neg_of_pos (by nlinarith) (by positivity)
  linarith

/-- A direction in which finitely many distinct points have distinct components. -/
theorem exists_separating {D n : ℕ} (x : Fin n → Fin D → ℝ) (hx : Function.Injective x) :
    ∃ u : Fin D → ℝ, Function.Injective fun i => ∑ a, x i a * u a := by
  classical
  let p : Fin n → Polynomial ℝ := fun i => ∑ a : Fin D, Polynomial.monomial (a : ℕ) (x i a)
  have hp : Function.Injective p := by
    intro i j hij
    apply hx
    funext a
    have := congrArg (fun q => Polynomial.coeff q (a : ℕ)) hij
    simpa [p, Polynomial.finset_sum_coeff, Polynomial.coeff_monomial, Fin.val_inj] using this
  let q : Polynomial ℝ := ∏ i, ∏ j, if i = j then 1 else p i - p j
  have hq : q ≠ 0 := by
    refine prod_ne_zero_iff.2 fun i _ => prod_ne_zero_iff.2 fun j _ => ?_
    split
    · exact one_ne_zero
    · rename_i hij
      exact sub_ne_zero.2 fun h => hij (hp h)
  obtain ⟨t, ht⟩ : ∃ t, q.eval t ≠ 0 := by
    by_contra hc
    push Not at hc
    exact hq (Polynomial.funext fun t => by rw [hc t, Polynomial.eval_zero])
  refine ⟨fun a => t ^ (a : ℕ), fun i j hij => ?_⟩
  by_contra hne
  apply ht
  rw [Polynomial.eval_prod]
  refine prod_eq_zero (mem_univ i) ?_
  rw [Polynomial.eval_prod]
  refine prod_eq_zero (mem_univ j) ?_
  rw [if_neg hne, Polynomial.eval_sub, sub_eq_zero]
  simpa [p, Polynomial.eval_finset_sum] using hij

/-- The Gaussian kernel is strictly positive definite. -/
theorem gauss_strict {D : ℕ} {c : ℝ} (hc : 0 < c) :
    IsStrictKernel fun x y : Fin D → ℝ => Real.exp (-c * ∑ i, (x i - y i) ^ 2) := by
  have hpsd := gauss_psd (D := D) hc.le
  refine ⟨hpsd.1, fun n x w hx hw => ?_⟩
  refine lt_of_le_of_ne (hpsd.2 n x w) fun h0 => hw ?_
  have hnull := IsPSDKernel.null hpsd h0.symm
  obtain ⟨u, hu⟩ := exists_separating x hx
  have hinj : Function.Injective fun i => Real.exp (2 * c * ∑ a, x i a * u a) := by
    intro i j hij
    apply hu
    have := Real.exp_injective hij
    exact mul_left_cancel₀ (by positivity) this
  have hz : (fun i => w i * Real.exp (-c * ∑ a, x i a ^ 2)) = 0 := by
    refine Matrix.eq_zero_of_forall_pow_sum_mul_pow_eq_zero hinj fun m => ?_
    have h := hnull fun a => (m : ℕ) * u a
    have e : ∀ i, w i * Real.exp (-c * ∑ a, (x i a - (m : ℕ) * u a) ^ 2)
        = (w i * Real.exp (-c * ∑ a, x i a ^ 2) * Real.exp (2 * c * ∑ a, x i a * u a) ^ (m : ℕ))
          * Real.exp (-c * ∑ a, ((m : ℕ) * u a) ^ 2) := by
      intro i
      rw [← Real.exp_nat_mul, mul_assoc, mul_assoc, ← Real.exp_add, ← Real.exp_add]
      congr 2
      simp only [mul_sum, ← sum_add_distrib]
      exact sum_congr rfl fun a _ => by ring
    simp only [e, ← sum_mul] at h
    exact (mul_eq_zero.1 h).resolve_right (Real.exp_pos _).ne'
  funext i
  have := congrFun hz i
  exact (mul_eq_zero.1 this).resolve_right (Real.exp_pos _).ne'

/-- Mixtures of Gaussian kernels are strictly positive definite. -/
theorem mix_strict {D : ℕ} (m : ℕ) {s : ℝ} (hs : s ≠ 0) :
    IsStrictKernel fun x y : Fin D → ℝ => ∫ v in Set.Ioi 0, mix m (s * distance x y) v := by
  refine ⟨(mix_psd m s).1, fun n x w hx hw => ?_⟩
  have hint : ∀ i j, IntegrableOn (fun v => w i * w j * mix m (s * distance (x i) (x j)) v) (Set.Ioi 0) :=
    fun i j => (mix_integrable m _).const_mul _
  have e : ∑ i, ∑ j, w i * w j * ∫ v in Set.Ioi 0, mix m (s * distance (x i) (x j)) v
      = ∫ v in Set.Ioi 0, ∑ i, ∑ j, w i * w j * mix m (s * distance (x i) (x j)) v := by
    rw [integral_finsetSum _ fun i _ => integrable_finsetSum _ fun j _ => hint i j]
    refine sum_congr rfl fun i _ => ?_
    rw [integral_finsetSum _ fun j _ => hint i j]
    exact sum_congr rfl fun j _ => (integral_const_mul _ _).symm
  have hpos : ∀ v ∈ Set.Ioi (0 : ℝ), 0 < ∑ i, ∑ j, w i * w j * mix m (s * distance (x i) (x j)) v := by
    intro v hv
    have hv' : 0 < v := hv
    have h := (gauss_strict (D := D) (c := s ^ 2 / v ^ 2) (by positivity)).2 n x w hx hw
    have e2 : ∑ i, ∑ j, w i * w j * mix m (s * distance (x i) (x j)) v = v ^ m * exp (-v ^ 2) *
        ∑ i, ∑ j, w i * w j * exp (-(s ^ 2 / v ^ 2) * ∑ k, (x i k - x j k) ^ 2) := by
      simp only [mul_sum]
      refine sum_congr rfl fun i _ => sum_congr rfl fun j _ => ?_
      unfold mix
      rw [← mul_sum, ← distance_sq, neg_add, exp_add]
      have : -((s * distance (x i) (x j)) ^ 2 / v ^ 2) = -(s ^ 2 / v ^ 2) * distance (x i) (x j) ^ 2 := by ring
      rw [this]
      ring
    rw [e2]
    exact mul_pos (by positivity) h
  rw [e]
  have hI : IntegrableOn (fun v => ∑ i, ∑ j, w i * w j * mix m (s * distance (x i) (x j)) v) (Set.Ioi 0) :=
    integrable_finsetSum _ fun i _ => integrable_finsetSum _ fun j _ => hint i j
  rw [setIntegral_pos_iff_support_of_nonneg_ae
    ((ae_restrict_iff' measurableSet_Ioi).2 (Filter.Eventually.of_forall fun v hv => (hpos v hv).le)) hI]
  have : Function.support (fun v => ∑ i, ∑ j, w i * w j * mix m (s * distance (x i) (x j)) v) ∩ Set.Ioi 0 = Set.Ioi 0 :=
    Set.inter_eq_right.2 fun v hv => (hpos v hv).ne'
  rw [this]
  simp

end Verif.Kernels
