import Verif.Kernels.WendlandOverlap
import Verif.Kernels.Model

/-!
The Wendland kernel is a mixture of overlaps of smoothed balls.
-/

namespace Verif.Kernels

open MeasureTheory Real Set

/-- Weight of the balls of diameter `t`. -/
noncomputable def ballWeight (t : ℝ) : ℝ := (t⁻¹) ^ 8 * (7 - 3 * t ^ 2)

theorem ballWeight_nonneg {t : ℝ} (h1 : t ≤ 1) (h0 : 0 < t) : 0 ≤ ballWeight t := by
  unfold ballWeight
  have : 0 ≤ 7 - 3 * t ^ 2 := by nlinarith
  positivity

theorem integral_laurent {n : ℕ} (c : Fin n → ℝ) (e : Fin n → ℤ) (a b : ℝ) (h0 : (0 : ℝ) ∉ uIcc a b) (he : ∀ k, e k ≠ -1) :
    ∫ x in a..b, ∑ k, c k * x ^ e k = ∑ k, c k * ((b ^ (e k + 1) - a ^ (e k + 1)) / ((e k : ℝ) + 1)) := by
  rw [intervalIntegral.integral_finsetSum]
  · refine Finset.sum_congr rfl fun k _ => ?_
    rw [intervalIntegral.integral_const_mul, integral_zpow (Or.inr ⟨he k, h0⟩)]
  · intro k _
    exact (intervalIntegral.intervalIntegrable_zpow (Or.inr h0)).const_mul _

noncomputable def mixCoef (r : ℝ) : Fin 18 → ℝ :=
  ![7 / 720720, -7 * r ^ 2 / 80080, 7 * r ^ 4 / 18480, -7 * r ^ 6 / 5040, 7 * r ^ 7 / 4480, -7 * r ^ 9 / 10080,
    7 * r ^ 11 / 24640, -7 * r ^ 13 / 96096, 7 * r ^ 15 / 823680,
    -3 / 720720, 3 * r ^ 2 / 80080, -3 * r ^ 4 / 18480, 3 * r ^ 6 / 5040, -3 * r ^ 7 / 4480, 3 * r ^ 9 / 10080,
    -3 * r ^ 11 / 24640, 3 * r ^ 13 / 96096, -3 * r ^ 15 / 823680]

def mixExp : Fin 18 → ℤ := ![7, 5, 3, 1, 0, -2, -4, -6, -8, 9, 7, 5, 3, 2, 0, -2, -4, -6]

theorem mix_laurent {t : ℝ} (ht : t ≠ 0) (r : ℝ) : ballWeight t * hat t r = ∑ k, mixCoef r k * t ^ mixExp k := by
  simp only [Fin.sum_univ_succ, mixCoef, mixExp, Matrix.cons_val_zero, Matrix.cons_val_succ,
    Finset.univ_eq_empty, Finset.sum_empty, ballWeight, hat]
  have e : ∀ n : ℕ, t ^ (-(n : ℤ)) = (t⁻¹) ^ n := fun n => by rw [zpow_neg, zpow_natCast, inv_pow]
  have e2 := e 2
  have e4 := e 4
  have e6 := e 6
  have e8 := e 8
  push_cast at e2 e4 e6 e8
  rw [e2, e4, e6, e8]
  have z : ∀ n : ℕ, t ^ (n : ℤ) = t ^ n := fun n => zpow_natCast t n
  have z0 := z 0
  have z1 := z 1
  have z2 := z 2
  have z3 := z 3
  have z5 := z 5
  have z7 := z 7
  have z9 := z 9
  push_cast at z0 z1 z2 z3 z5 z7 z9
  rw [z0, z1, z2, z3, z5, z7, z9]
  field_simp
  ring

theorem mix_interval {r : ℝ} (h0 : 0 < r) (h1 : r ≤ 1) :
    295680 * hat 1 r + 739200 * ∫ t in r..1, ballWeight t * hat t r = wendlandPoly r := by
  have h : ∫ t in r..1, ballWeight t * hat t r = ∫ t in r..1, ∑ k, mixCoef r k * t ^ mixExp k := by
    refine intervalIntegral.integral_congr fun t ht => ?_
    rw [uIcc_of_le h1] at ht
    exact mix_laurent (h0.trans_le ht.1).ne' r
  have hz : (0 : ℝ) ∉ uIcc r 1 := by
    rw [uIcc_of_le h1]
    exact fun h => absurd h.1 (not_le.2 h0)
  rw [h, integral_laurent _ _ _ _ hz (by decide)]
  simp only [Fin.sum_univ_succ, mixCoef, mixExp, Matrix.cons_val_zero, Matrix.cons_val_succ,
    Finset.univ_eq_empty, Finset.sum_empty, hat, wendlandPoly, one_zpow]
  norm_num
  field_simp
  ring

theorem integrable_ballWeight {r : ℝ} (h0 : 0 < r) (h1 : r ≤ 1) :
    IntervalIntegrable (fun t => ballWeight t * hat t r) volume r 1 := by
  refine ContinuousOn.intervalIntegrable ?_
  rw [uIcc_of_le h1]
  unfold ballWeight hat
  refine ContinuousOn.mul (ContinuousOn.mul (ContinuousOn.pow (continuousOn_id.inv₀ fun t ht => ?_) 8) ?_) ?_
  · exact (h0.trans_le ht.1).ne'
  · fun_prop
  · fun_prop

/-- The integrand of the mixture, with balls that do not meet removed. -/
theorem clip_Ioc {r : ℝ} (h0 : 0 < r) (h1 : r ≤ 1) :
    IntegrableOn (fun t => ballWeight t * hatClip t r) (Ioc 0 1) ∧
      ∫ t in Ioc (0 : ℝ) 1, ballWeight t * hatClip t r = ∫ t in r..1, ballWeight t * hat t r := by
  have hi : IntegrableOn (fun t => ballWeight t * hatClip t r) (Icc r 1) := by
    have := (integrableOn_Icc_iff_integrableOn_Ioc (μ := volume) (f := fun t => ballWeight t * hat t r) (a := r) (b := 1)).2
      ((intervalIntegrable_iff_integrableOn_Ioc_of_le h1).1 (integrable_ballWeight h0 h1))
    refine this.congr_fun (fun t ht => ?_) measurableSet_Icc
    beta_reduce
    rw [hatClip, if_pos ht.1]
  have hz : ∀ t ∈ Ioc (0 : ℝ) 1 \ Icc r 1, ballWeight t * hatClip t r = 0 := by
    intro t ht
    have : t < r := by
      by_contra hc
      exact ht.2 ⟨not_lt.1 hc, ht.1.2⟩
    rw [hatClip, if_neg (not_le.2 this), mul_zero]
  have hsub : Icc r 1 ⊆ Ioc 0 1 := fun t ht => ⟨h0.trans_le ht.1, ht.2⟩
  refine ⟨hi.of_forall_diff_eq_zero measurableSet_Ioc hz, ?_⟩
  rw [setIntegral_eq_of_subset_of_forall_diff_eq_zero measurableSet_Ioc hsub hz, integral_Icc_eq_integral_Ioc,
    intervalIntegral.integral_of_le h1]
  refine setIntegral_congr_fun measurableSet_Ioc fun t ht => ?_
  beta_reduce
  rw [hatClip, if_pos ht.1.le]

/-- The Wendland kernel as a mixture of overlaps. -/
theorem wendland_mix {r : ℝ} (h0 : 0 ≤ r) :
    IntegrableOn (fun t => ballWeight t * hatClip t r) (Ioc 0 1) ∧
      wendland r = 295680 * hatClip 1 r + 739200 * ∫ t in Ioc (0 : ℝ) 1, ballWeight t * hatClip t r := by
  rcases lt_or_ge 1 r with h1 | h1
  · have hz : ∀ t ∈ Ioc (0 : ℝ) 1, ballWeight t * hatClip t r = 0 := by
      intro t ht
      rw [hatClip, if_neg (not_le.2 (ht.2.trans_lt h1)), mul_zero]
    refine ⟨(integrableOn_zero).congr_fun (fun t ht => (hz t ht).symm) measurableSet_Ioc, ?_⟩
    rw [setIntegral_congr_fun measurableSet_Ioc (g := fun _ => 0) hz, integral_zero, hatClip, if_neg (not_le.2 h1), wendland,
      if_pos h1]
    unfold wendlandPoly
    norm_num
  · rcases h0.eq_or_lt with rfl | h0
    · have hc : ∀ t ∈ Ioc (0 : ℝ) 1, (7 * t ^ 7 - 3 * t ^ 9) / 720720 = ballWeight t * hatClip t 0 := by
        intro t ht
        have := ht.1.ne'
        rw [hatClip, if_pos ht.1.le]
        unfold ballWeight hat
        field_simp
        ring
      have hi : IntegrableOn (fun t : ℝ => (7 * t ^ 7 - 3 * t ^ 9) / 720720) (Ioc 0 1) := by
        rw [← intervalIntegrable_iff_integrableOn_Ioc_of_le zero_le_one]
        apply Continuous.intervalIntegrable
        fun_prop
      refine ⟨hi.congr_fun (fun t ht => hc t ht) measurableSet_Ioc, ?_⟩
      rw [← setIntegral_congr_fun measurableSet_Ioc hc, ← intervalIntegral.integral_of_le zero_le_one,
        intervalIntegral.integral_div, intervalIntegral.integral_sub (by apply Continuous.intervalIntegrable; fun_prop)
          (by apply Continuous.intervalIntegrable; fun_prop), intervalIntegral.integral_const_mul,
        intervalIntegral.integral_const_mul, integral_pow, integral_pow, wendland, if_neg (by norm_num), hatClip,
        if_pos (by norm_num)]
      unfold wendlandPoly hat
      norm_num
    · obtain ⟨hi, he⟩ := clip_Ioc h0 h1
      refine ⟨hi, ?_⟩
      rw [he, hatClip, if_pos h1, mix_interval h0 h1, wendland, if_neg (not_lt.2 h1)]

end Verif.Kernels
