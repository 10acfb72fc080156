import Mathlib.MeasureTheory.Constructions.HaarToSphere
import Mathlib.MeasureTheory.Measure.Haar.InnerProductSpace
import Mathlib.MeasureTheory.Measure.Lebesgue.VolumeOfBalls
import Mathlib.MeasureTheory.Measure.Lebesgue.Integral
import Mathlib.MeasureTheory.Integral.IntervalIntegral.FundThmCalculus
import Mathlib.Analysis.InnerProductSpace.Projection.Reflection
import Mathlib.Analysis.Calculus.Deriv.Pow
import Mathlib.Analysis.SpecialFunctions.Integrals.Basic

/-!
Overlap of smoothed balls in three dimensions: for `b_t(z) = max(t²/4 - |z|², 0)³` the integral of `b_t(z - x) b_t(z - y)` is
an explicit polynomial of the distance of `x` and `y`. This is the building block of the proof that the Wendland kernel is
positive semidefinite.
-/

namespace Verif.Kernels

open MeasureTheory Real Set

/-- Space of dimension three, as a line and a plane. -/
abbrev V3 := WithLp 2 (ℝ × EuclideanSpace ℝ (Fin 2))

noncomputable def cap (c : ℝ) : ℝ := max c 0 ^ 3

theorem cap_of_nonneg {c : ℝ} (h : 0 ≤ c) : cap c = c ^ 3 := by rw [cap, max_eq_left h]

theorem cap_of_nonpos {c : ℝ} (h : c ≤ 0) : cap c = 0 := by rw [cap, max_eq_right h]; norm_num

theorem continuous_cap : Continuous cap := by unfold cap; fun_prop

/-- Integral of the product of two caps over a plane. -/
noncomputable def capPair (m δ : ℝ) : ℝ := δ ^ 3 * m ^ 4 / 4 + 3 * δ ^ 2 * m ^ 5 / 5 + δ * m ^ 6 / 2 + m ^ 7 / 7

theorem radial_integral {A B : ℝ} (h : A ≤ B) (hA : 0 ≤ A) :
    ∫ y in Ioi (0 : ℝ), y * (cap (A - y ^ 2) * cap (B - y ^ 2)) = capPair A (B - A) / 2 := by
  have h1 : ∫ y in Ioi (0 : ℝ), y * (cap (A - y ^ 2) * cap (B - y ^ 2)) =
      ∫ y in Ioc (0 : ℝ) √A, y * (cap (A - y ^ 2) * cap (B - y ^ 2)) := by
    refine setIntegral_eq_of_subset_of_forall_diff_eq_zero measurableSet_Ioi Ioc_subset_Ioi_self fun y hy => ?_
    have hy0 : 0 < y := hy.1
    have : √A < y := by
      by_contra hc
      exact hy.2 ⟨hy0, not_lt.1 hc⟩
    have : A < y ^ 2 := (sqrt_lt' hy0).1 this
    rw [cap_of_nonpos (by linarith)]
    ring
  rw [h1, ← intervalIntegral.integral_of_le (sqrt_nonneg A)]
  have h2 : ∫ y in (0 : ℝ)..√A, y * (cap (A - y ^ 2) * cap (B - y ^ 2)) =
      ∫ y in (0 : ℝ)..√A, y * ((A - y ^ 2) ^ 3 * (B - y ^ 2) ^ 3) := by
    refine intervalIntegral.integral_congr fun y hy => ?_
    rw [uIcc_of_le (sqrt_nonneg A)] at hy
    have : y ^ 2 ≤ A := by
      have := pow_le_pow_left₀ hy.1 hy.2 2
      rwa [sq_sqrt hA] at this
    beta_reduce
    rw [cap_of_nonneg (by linarith), cap_of_nonneg (by linarith)]
  rw [h2]
  have hd : ∀ y ∈ uIcc 0 √A, HasDerivAt (fun y => -(capPair (A - y ^ 2) (B - A) / 2))
      (y * ((A - y ^ 2) ^ 3 * (B - y ^ 2) ^ 3)) y := by
    intro y _
    have hm : HasDerivAt (fun y : ℝ => A - y ^ 2) (-(2 * y)) y := by
      have := (hasDerivAt_pow 2 y).const_sub A
      simpa using this
    have hc : HasDerivAt (fun m => capPair m (B - A))
        ((B - A) ^ 3 * (A - y ^ 2) ^ 3 + 3 * (B - A) ^ 2 * (A - y ^ 2) ^ 4 + 3 * (B - A) * (A - y ^ 2) ^ 5 + (A - y ^ 2) ^ 6) (A - y ^ 2) := by
      unfold capPair
      have h4 := ((hasDerivAt_pow 4 (A - y ^ 2)).const_mul ((B - A) ^ 3)).div_const 4
      have h5 := ((hasDerivAt_pow 5 (A - y ^ 2)).const_mul (3 * (B - A) ^ 2)).div_const 5
      have h6 := ((hasDerivAt_pow 6 (A - y ^ 2)).const_mul (B - A)).div_const 2
      have h7 := (hasDerivAt_pow 7 (A - y ^ 2)).div_const 7
      refine (((h4.add h5).add h6).add h7).congr_deriv ?_
      norm_num
      ring
    have := ((hc.comp y hm).div_const 2).neg
    refine this.congr_deriv ?_
    ring
  rw [intervalIntegral.integral_eq_sub_of_hasDerivAt hd (by
    apply Continuous.intervalIntegrable; fun_prop)]
  rw [sq_sqrt hA]
  unfold capPair
  ring

/-- The product of two caps integrated over the plane. -/
theorem slice_integral {A B : ℝ} (h : A ≤ B) :
    ∫ p : EuclideanSpace ℝ (Fin 2), cap (A - ‖p‖ ^ 2) * cap (B - ‖p‖ ^ 2) = if 0 ≤ A then π * capPair A (B - A) else 0 := by
  split_ifs with hA
  · rw [integral_fun_norm_addHaar volume (fun y => cap (A - y ^ 2) * cap (B - y ^ 2))]
    have hb : (volume : Measure (EuclideanSpace ℝ (Fin 2))).real (Metric.ball 0 1) = π := by
      rw [measureReal_def, EuclideanSpace.volume_ball_fin_two]
      simp [pi_pos.le]
    rw [hb, finrank_euclideanSpace, Fintype.card_fin]
    simp only [smul_eq_mul, nsmul_eq_mul, show 2 - 1 = 1 from rfl, pow_one]
    rw [radial_integral h hA]
    push_cast
    ring
  · have : ∀ p : EuclideanSpace ℝ (Fin 2), cap (A - ‖p‖ ^ 2) * cap (B - ‖p‖ ^ 2) = 0 := by
      intro p
      rw [cap_of_nonpos (by nlinarith [sq_nonneg ‖p‖, not_le.1 hA]), zero_mul]
    simp only [this, integral_zero]

/-- The smoothed ball of diameter `t`. -/
noncomputable def blob (t : ℝ) (z : V3) : ℝ := cap (t ^ 2 / 4 - ‖z‖ ^ 2)

theorem continuous_blob (t : ℝ) : Continuous (blob t) := by
  unfold blob
  exact continuous_cap.comp (by fun_prop)

theorem blob_support (t : ℝ) (z : V3) (h : |t| / 2 < ‖z‖) : blob t z = 0 := by
  refine cap_of_nonpos ?_
  have : (|t| / 2) ^ 2 ≤ ‖z‖ ^ 2 := pow_le_pow_left₀ (by positivity) h.le 2
  rw [div_pow, sq_abs] at this
  linarith

theorem compact_blob (t : ℝ) : HasCompactSupport (blob t) := by
  refine HasCompactSupport.of_support_subset_isCompact (isCompact_closedBall (0 : V3) (|t| / 2)) fun z hz => ?_
  rw [mem_closedBall_zero_iff]
  by_contra hc
  exact hz (blob_support t z (not_le.1 hc))

/-- Overlap of two smoothed balls. -/
noncomputable def overlap (t : ℝ) (x y : V3) : ℝ := ∫ z, blob t (z - x) * blob t (z - y)

/-- The polynomial of the overlap. -/
noncomputable def hat (t r : ℝ) : ℝ :=
  t ^ 15 / 720720 - t ^ 13 * r ^ 2 / 80080 + t ^ 11 * r ^ 4 / 18480 - t ^ 9 * r ^ 6 / 5040 + t ^ 8 * r ^ 7 / 4480
    - t ^ 6 * r ^ 9 / 10080 + t ^ 4 * r ^ 11 / 24640 - t ^ 2 * r ^ 13 / 96096 + r ^ 15 / 823680

theorem integral_poly {n : ℕ} (c : Fin n → ℝ) (a b : ℝ) :
    ∫ x in a..b, ∑ k, c k * x ^ (k : ℕ) = ∑ k, c k * ((b ^ ((k : ℕ) + 1) - a ^ ((k : ℕ) + 1)) / ((k : ℕ) + 1)) := by
  rw [intervalIntegral.integral_finsetSum fun i _ => by apply Continuous.intervalIntegrable; fun_prop]
  refine Finset.sum_congr rfl fun k _ => ?_
  rw [intervalIntegral.integral_const_mul, integral_pow]

/-- Coefficients of the slice in powers of the position. -/
noncomputable def sliceCoef (t r : ℝ) : Fin 15 → ℝ :=
    ![(-1 / 1024) * t ^ 8 * r ^ 6 + (3 / 5120) * t ^ 10 * r ^ 4 + (-1 / 8192) * t ^ 12 * r ^ 2 + (1 / 114688) * t ^ 14,
      (3 / 512) * t ^ 8 * r ^ 5 + (-3 / 1280) * t ^ 10 * r ^ 3 + (1 / 4096) * t ^ 12 * r,
      (-3 / 128) * t ^ 8 * r ^ 4 + (1 / 64) * t ^ 6 * r ^ 6 + (27 / 5120) * t ^ 10 * r ^ 2 + (-1 / 4096) * t ^ 12,
      (7 / 128) * t ^ 8 * r ^ 3 + (-3 / 32) * t ^ 6 * r ^ 5 + (-3 / 512) * t ^ 10 * r,
      (9 / 32) * t ^ 6 * r ^ 4 + (-3 / 32) * t ^ 4 * r ^ 6 + (-39 / 512) * t ^ 8 * r ^ 2 + (3 / 1024) * t ^ 10,
      (-1 / 2) * t ^ 6 * r ^ 3 + (9 / 16) * t ^ 4 * r ^ 5 + (15 / 256) * t ^ 8 * r,
      (-3 / 2) * t ^ 4 * r ^ 4 + (1 / 4) * t ^ 2 * r ^ 6 + (17 / 32) * t ^ 6 * r ^ 2 + (-5 / 256) * t ^ 8,
      (9 / 4) * t ^ 4 * r ^ 3 + (-3 / 2) * t ^ 2 * r ^ 5 + (-5 / 16) * t ^ 6 * r,
      (15 / 4) * t ^ 2 * r ^ 4 + (-1 / 4) * r ^ 6 + (-63 / 32) * t ^ 4 * r ^ 2 + (5 / 64) * t ^ 6,
      (-5 / 1) * t ^ 2 * r ^ 3 + (3 / 2) * r ^ 5 + (15 / 16) * t ^ 4 * r,
      (-18 / 5) * r ^ 4 + (15 / 4) * t ^ 2 * r ^ 2 + (-3 / 16) * t ^ 4,
      (22 / 5) * r ^ 3 + (-3 / 2) * t ^ 2 * r,
      (-29 / 10) * r ^ 2 + (1 / 4) * t ^ 2,
      (1 / 1) * r,
      (-1 / 7)]

theorem slice_poly (t r x : ℝ) : capPair (t ^ 2 / 4 - x ^ 2) (r * (2 * x - r)) = ∑ k, sliceCoef t r k * x ^ (k : ℕ) := by
  simp only [Fin.sum_univ_succ, sliceCoef, capPair, Matrix.cons_val_zero, Matrix.cons_val_succ, Fin.val_zero, Fin.val_succ,
    Finset.univ_eq_empty, Finset.sum_empty]
  ring

theorem line_integral (t r : ℝ) : ∫ x in (r / 2)..(t / 2), capPair (t ^ 2 / 4 - x ^ 2) (r * (2 * x - r)) = hat t r := by
  simp only [slice_poly]
  rw [integral_poly]
  simp only [Fin.sum_univ_succ, sliceCoef, hat, Matrix.cons_val_zero, Matrix.cons_val_succ, Fin.val_zero, Fin.val_succ,
    Finset.univ_eq_empty, Finset.sum_empty]
  norm_num
  ring

end Verif.Kernels
