import Verif.Kernels.WendlandBall

namespace Verif.Kernels

open MeasureTheory Real Set

/-- The unit vector along the line. -/
noncomputable def axis (s : ℝ) : V3 := WithLp.toLp 2 (s, 0)

theorem axis_norm {s : ℝ} (hs : 0 ≤ s) : ‖axis s‖ = s := by
  have h := WithLp.prod_norm_sq_eq_of_L2 (axis s)
  have h2 : ‖axis s‖ ^ 2 = s ^ 2 := by rw [h]; simp [axis]
  exact (sq_eq_sq₀ (norm_nonneg _) hs).1 h2

theorem integrable_blobs (t : ℝ) (x y : V3) : Integrable fun z => blob t (z - x) * blob t (z - y) := by
  refine Continuous.integrable_of_hasCompactSupport ?_ ?_
  · exact ((continuous_blob t).comp (by fun_prop)).mul ((continuous_blob t).comp (by fun_prop))
  · refine HasCompactSupport.mul_right ?_
    exact (compact_blob t).comp_homeomorph (Homeomorph.subRight x)

/-- The overlap depends on the difference only. -/
theorem overlap_centre (t : ℝ) (x y : V3) :
    overlap t x y = overlap t ((1 / 2 : ℝ) • (x - y)) (-((1 / 2 : ℝ) • (x - y))) := by
  unfold overlap
  rw [← integral_add_right_eq_self (fun z => blob t (z - x) * blob t (z - y)) ((1 / 2 : ℝ) • (x + y))]
  congr 1
  funext z
  have h1 : z + (1 / 2 : ℝ) • (x + y) - x = z - (1 / 2 : ℝ) • (x - y) := by module
  have h2 : z + (1 / 2 : ℝ) • (x + y) - y = z - -((1 / 2 : ℝ) • (x - y)) := by module
  rw [h1, h2]

/-- ... and on its length only. -/
theorem overlap_rotate (t : ℝ) (v : V3) : overlap t v (-v) = overlap t (axis ‖v‖) (-axis ‖v‖) := by
  set R := ((ℝ ∙ (v - axis ‖v‖))ᗮ).reflection with hR
  have hv : R v = axis ‖v‖ := Submodule.reflection_sub (axis_norm (norm_nonneg v)).symm
  unfold overlap
  symm
  rw [← (LinearIsometryEquiv.measurePreserving R).integral_comp R.toHomeomorph.measurableEmbedding]
  congr 1
  funext z
  have h1 : R z - axis ‖v‖ = R (z - v) := by rw [map_sub, hv]
  have h2 : R z - -axis ‖v‖ = R (z - -v) := by rw [map_sub, map_neg, hv]
  rw [h1, h2]
  simp only [blob, LinearIsometryEquiv.norm_map]

theorem blob_axis (t a s : ℝ) (p : EuclideanSpace ℝ (Fin 2)) :
    blob t (WithLp.toLp 2 (a, p) - axis s) = cap (t ^ 2 / 4 - (a - s) ^ 2 - ‖p‖ ^ 2) := by
  unfold blob
  rw [WithLp.prod_norm_sq_eq_of_L2]
  simp [axis, sub_sub]

theorem blob_axis_neg (t a s : ℝ) (p : EuclideanSpace ℝ (Fin 2)) :
    blob t (WithLp.toLp 2 (a, p) - -axis s) = cap (t ^ 2 / 4 - (a + s) ^ 2 - ‖p‖ ^ 2) := by
  unfold blob
  rw [WithLp.prod_norm_sq_eq_of_L2]
  simp [axis, sub_sub]

/-- The slice at distance `a` from the centre. -/
noncomputable def sliceAt (t s a : ℝ) : ℝ :=
  if 0 ≤ t ^ 2 / 4 - (a + s) ^ 2 then π * capPair (t ^ 2 / 4 - (a + s) ^ 2) (4 * a * s) else 0

theorem slice_eq (t a s : ℝ) (hs : 0 ≤ s) :
    ∫ p : EuclideanSpace ℝ (Fin 2), cap (t ^ 2 / 4 - (a - s) ^ 2 - ‖p‖ ^ 2) * cap (t ^ 2 / 4 - (a + s) ^ 2 - ‖p‖ ^ 2) =
      sliceAt t s |a| := by
  rcases le_total 0 a with ha | ha
  · have h := slice_integral (A := t ^ 2 / 4 - (a + s) ^ 2) (B := t ^ 2 / 4 - (a - s) ^ 2) (by nlinarith)
    simp only [mul_comm (cap (t ^ 2 / 4 - (a - s) ^ 2 - _))]
    rw [h, abs_of_nonneg ha, sliceAt]
    congr 3
    ring
  · have h := slice_integral (A := t ^ 2 / 4 - (a - s) ^ 2) (B := t ^ 2 / 4 - (a + s) ^ 2) (by nlinarith)
    rw [h, abs_of_nonpos ha, sliceAt]
    have e : (a - s) ^ 2 = (-a + s) ^ 2 := by ring
    rw [e]
    congr 3
    ring

theorem overlap_axis (t s : ℝ) (ht : 0 ≤ t) (hs : 0 ≤ s) :
    overlap t (axis s) (-axis s) = if 2 * s ≤ t then 2 * π * hat t (2 * s) else 0 := by
  have h1 : overlap t (axis s) (-axis s) = ∫ a : ℝ, sliceAt t s |a| := by
    unfold overlap
    rw [← (WithLp.volume_preserving_toLp ℝ (EuclideanSpace ℝ (Fin 2))).integral_comp
      (MeasurableEquiv.toLp 2 (ℝ × EuclideanSpace ℝ (Fin 2))).measurableEmbedding]
    rw [Measure.volume_eq_prod, integral_prod]
    · congr 1
      funext a
      simp only [blob_axis, blob_axis_neg]
      exact slice_eq t a s hs
    · have h := (WithLp.volume_preserving_toLp ℝ (EuclideanSpace ℝ (Fin 2))).integrable_comp_emb
        (MeasurableEquiv.toLp 2 (ℝ × EuclideanSpace ℝ (Fin 2))).measurableEmbedding |>.2 (integrable_blobs t (axis s) (-axis s))
      exact h
  rw [h1, integral_comp_abs]
  split_ifs with hst
  · have h2 : ∫ a in Ioi (0 : ℝ), sliceAt t s a = ∫ a in Ioc (0 : ℝ) (t / 2 - s), sliceAt t s a := by
      refine setIntegral_eq_of_subset_of_forall_diff_eq_zero measurableSet_Ioi Ioc_subset_Ioi_self fun a ha => ?_
      have ha0 : 0 < a := ha.1
      have : t / 2 - s < a := by
        by_contra hc
        exact ha.2 ⟨ha0, not_lt.1 hc⟩
      rw [sliceAt, if_neg]
      nlinarith
    rw [h2, ← intervalIntegral.integral_of_le (by linarith)]
    have h3 : ∫ a in (0 : ℝ)..(t / 2 - s), sliceAt t s a =
        ∫ a in (0 : ℝ)..(t / 2 - s), π * capPair (t ^ 2 / 4 - (a + s) ^ 2) (2 * s * (2 * (a + s) - 2 * s)) := by
      refine intervalIntegral.integral_congr fun a ha => ?_
      rw [uIcc_of_le (by linarith)] at ha
      beta_reduce
      rw [sliceAt, if_pos (by nlinarith [ha.1, ha.2])]
      congr 2
      ring
    rw [h3, intervalIntegral.integral_comp_add_right (fun x => π * capPair (t ^ 2 / 4 - x ^ 2) (2 * s * (2 * x - 2 * s)))]
    rw [intervalIntegral.integral_const_mul]
    have h4 := line_integral t (2 * s)
    rw [show 2 * s / 2 = 0 + s by ring, show t / 2 = t / 2 - s + s by ring] at h4
    rw [h4]
    ring
  · have : ∫ a in Ioi (0 : ℝ), sliceAt t s a = 0 := by
      rw [setIntegral_congr_fun (g := fun _ => 0) measurableSet_Ioi, integral_zero]
      intro a ha
      have ha0 : 0 < a := ha
      beta_reduce
      rw [sliceAt, if_neg]
      nlinarith
    rw [this, mul_zero]

/-- The overlap as a function of the distance. -/
noncomputable def hatClip (t r : ℝ) : ℝ := if r ≤ t then hat t r else 0

theorem overlap_eq (t : ℝ) (ht : 0 ≤ t) (x y : V3) : overlap t x y = 2 * π * hatClip t ‖x - y‖ := by
  rw [overlap_centre, overlap_rotate, overlap_axis t _ ht (norm_nonneg _), norm_smul]
  have : 2 * (‖(1 / 2 : ℝ)‖ * ‖x - y‖) = ‖x - y‖ := by norm_num; ring
  rw [this, hatClip]
  split_ifs <;> ring

/-- The form of the overlaps of a set of balls is the integral of a square. -/
theorem hatClip_form (t : ℝ) (ht : 0 ≤ t) (n : ℕ) (x : Fin n → V3) (w : Fin n → ℝ) :
    2 * π * ∑ i, ∑ j, w i * w j * hatClip t ‖x i - x j‖ = ∫ z, (∑ i, w i * blob t (z - x i)) ^ 2 := by
  have e : ∀ z, (∑ i, w i * blob t (z - x i)) ^ 2 = ∑ i, ∑ j, w i * w j * (blob t (z - x i) * blob t (z - x j)) := by
    intro z
    rw [sq, Finset.sum_mul_sum]
    exact Finset.sum_congr rfl fun i _ => Finset.sum_congr rfl fun j _ => by ring
  simp only [e]
  have hint : ∀ i j, Integrable fun z => w i * w j * (blob t (z - x i) * blob t (z - x j)) :=
    fun i j => (integrable_blobs t _ _).const_mul _
  rw [integral_finsetSum _ fun i _ => integrable_finsetSum _ fun j _ => hint i j, Finset.mul_sum]
  refine Finset.sum_congr rfl fun i _ => ?_
  rw [integral_finsetSum _ fun j _ => hint i j, Finset.mul_sum]
  refine Finset.sum_congr rfl fun j _ => ?_
  rw [integral_const_mul]
  have := overlap_eq t ht (x i) (x j)
  unfold overlap at this
  rw [this]
  ring

/-- The overlaps of a set of balls form a positive semidefinite matrix. -/
theorem hatClip_psd (t : ℝ) (ht : 0 ≤ t) (n : ℕ) (x : Fin n → V3) (w : Fin n → ℝ) :
    0 ≤ ∑ i, ∑ j, w i * w j * hatClip t ‖x i - x j‖ := by
  have h0 : 0 ≤ ∫ z, (∑ i, w i * blob t (z - x i)) ^ 2 := integral_nonneg fun z => sq_nonneg _
  rw [← hatClip_form t ht n x w] at h0
  exact nonneg_of_mul_nonneg_right h0 (by positivity)

end Verif.Kernels
