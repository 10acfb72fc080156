import Verif.Kernels.StrictLemmas
import Verif.Kernels.WendlandPsd

/-! The Wendland kernel is strictly positive definite in up to three dimensions. -/

namespace Verif.Kernels

open Finset Real MeasureTheory Verif.GP

/-- A point that lies in the ball about one of finitely many distinct points and in no other of the balls. -/
theorem exists_private {n : ℕ} (x : Fin n → V3) (hx : Function.Injective x) (w : Fin n → ℝ) (hw : w ≠ 0) :
    ∃ z i, w i ≠ 0 ∧ blob 1 (z - x i) ≠ 0 ∧ ∀ j, j ≠ i → w j ≠ 0 → blob 1 (z - x j) = 0 := by
  classical
  have hne : (univ.filter fun i => w i ≠ 0).Nonempty := by
    by_contra hc
    rw [not_nonempty_iff_eq_empty] at hc
    refine hw (funext fun i => ?_)
    by_contra hi
    have : i ∈ univ.filter fun i => w i ≠ 0 := mem_filter.2 ⟨mem_univ i, hi⟩
    rw [hc] at this
    exact absurd this (notMem_empty i)
  obtain ⟨i, hi, hmax⟩ := exists_max_image _ (fun i => (x i).fst) hne
  have hev : ∀ᶠ s in nhdsWithin (1 / 2 : ℝ) (Set.Iio (1 / 2)), ∀ j, j ≠ i → 1 / 4 - ‖x i - x j‖ ^ 2 < s ^ 2 := by
    refine Filter.eventually_all.2 fun j => ?_
    by_cases hj : j = i
    · exact Filter.Eventually.of_forall fun s h => absurd hj h
    · have hpos : 0 < ‖x i - x j‖ := norm_pos_iff.2 (sub_ne_zero.2 fun h => hj (hx h.symm))
      have hlt : 1 / 4 - ‖x i - x j‖ ^ 2 < (1 / 2 : ℝ) ^ 2 := by
        have : 0 < ‖x i - x j‖ ^ 2 := by positivity
        linarith
      have hc : ContinuousAt (fun s : ℝ => s ^ 2) (1 / 2) := by fun_prop
      have := (hc.tendsto.mono_left (nhdsWithin_le_nhds (s := Set.Iio (1 / 2)))).eventually (lt_mem_nhds hlt)
      exact this.mono fun s h _ => h
  have hpos : ∀ᶠ s in nhdsWithin (1 / 2 : ℝ) (Set.Iio (1 / 2)), 0 < s :=
    nhdsWithin_le_nhds (lt_mem_nhds (by norm_num))
  obtain ⟨s, ⟨hs, hs0⟩, hs1⟩ := ((hev.and hpos).and self_mem_nhdsWithin).exists
  have hs1 : s < 1 / 2 := hs1
  refine ⟨x i + axis s, i, (mem_filter.1 hi).2, ?_, fun j hj hwj => ?_⟩
  · rw [add_sub_cancel_left, blob, axis_norm hs0.le]
    have : 0 < 1 ^ 2 / 4 - s ^ 2 := by nlinarith
    rw [cap_of_nonneg this.le]
    positivity
  · have hm := hmax j (mem_filter.2 ⟨mem_univ j, hwj⟩)
    have e : ‖x i + axis s - x j‖ ^ 2 = ‖x i - x j‖ ^ 2 + 2 * s * ((x i).fst - (x j).fst) + s ^ 2 := by
      rw [WithLp.prod_norm_sq_eq_of_L2, WithLp.prod_norm_sq_eq_of_L2]
      have e1 : (x i + axis s - x j).fst = ((x i).fst - (x j).fst) + s := by
        simp [axis]
        ring
      have e2 : (x i + axis s - x j).snd = (x i - x j).snd := by
        simp [axis]
      rw [e1, e2]
      simp only [WithLp.sub_fst, Real.norm_eq_abs, sq_abs]
      ring
    rw [blob]
    refine cap_of_nonpos ?_
    rw [e]
    have := hs j hj
    have := mul_nonneg hs0.le (sub_nonneg.2 hm)
    linarith

theorem hatClip_strict (n : ℕ) (x : Fin n → V3) (w : Fin n → ℝ) (hx : Function.Injective x) (hw : w ≠ 0) :
    0 < ∑ i, ∑ j, w i * w j * hatClip 1 ‖x i - x j‖ := by
  have h := hatClip_form 1 zero_le_one n x w
  obtain ⟨z, i, hwi, hz, ho⟩ := exists_private x hx w hw
  have hcont : Continuous fun z => (∑ i, w i * blob 1 (z - x i)) ^ 2 :=
    (continuous_finset_sum _ fun i _ => ((continuous_blob 1).comp (by fun_prop)).const_mul _).pow 2
  have hnz : (∑ i, w i * blob 1 (z - x i)) ^ 2 ≠ 0 := by
    rw [sum_eq_single i]
    · exact pow_ne_zero 2 (mul_ne_zero hwi hz)
    · intro j _ hj
      by_cases hwj : w j = 0
      · rw [hwj, zero_mul]
      · rw [ho j hj hwj, mul_zero]
    · exact fun hc => absurd (mem_univ i) hc
  have hint : Integrable fun z => (∑ i, w i * blob 1 (z - x i)) ^ 2 := by
    have e : ∀ z, (∑ i, w i * blob 1 (z - x i)) ^ 2 = ∑ i, ∑ j, w i * w j * (blob 1 (z - x i) * blob 1 (z - x j)) := by
      intro z
      rw [sq, Finset.sum_mul_sum]
      exact Finset.sum_congr rfl fun i _ => Finset.sum_congr rfl fun j _ => by ring
    simp only [e]
    exact integrable_finsetSum _ fun i _ => integrable_finsetSum _ fun j _ => (integrable_blobs 1 _ _).const_mul _
  have hpos : 0 < ∫ z, (∑ i, w i * blob 1 (z - x i)) ^ 2 :=
    integral_pos_of_integrable_nonneg_nonzero hcont hint (fun z => sq_nonneg _) hnz
  rw [← h] at hpos
  exact pos_of_mul_pos_right hpos (by positivity)

theorem point3_injective : Function.Injective point3 := by
  intro a b h
  have h1 : a 0 = b 0 := congrArg (fun p : V3 => p.fst) h
  have h2 : (![a 1, a 2] : Fin 2 → ℝ) = ![b 1, b 2] := by
    have := congrArg (fun p : V3 => p.snd) h
    simpa [point3] using this
  funext i
  fin_cases i
  · exact h1
  · simpa using congrFun h2 0
  · simpa using congrFun h2 1

theorem wendland_strict3 : IsStrictKernel fun x y : Fin 3 → ℝ => wendland (distance x y) := by
  refine ⟨wendland_psd3.1, fun n x w hx hw => ?_⟩
  have h1 := hatClip_strict n (fun i => point3 (x i)) w (point3_injective.comp hx) hw
  simp only [point3_distance] at h1
  obtain ⟨R, hR, e⟩ := wendland_form x w
  rw [e]
  positivity

theorem pad_injective {D : ℕ} (k : ℕ) : Function.Injective (pad (D := D) k) := by
  intro a b h
  funext i
  simpa [pad] using congrFun h (Fin.castAdd k i)

theorem wendland_strict {D : ℕ} (hD : D ≤ 3) : IsStrictKernel fun x y : Fin D → ℝ => wendland (distance x y) := by
  obtain ⟨k, hk⟩ := Nat.exists_eq_add_of_le hD
  have h3 : IsStrictKernel fun x y : Fin (D + k) → ℝ => wendland (distance x y) := by
    rw [← hk]
    exact wendland_strict3
  have := h3.comp (pad_injective (D := D) k)
  simpa only [pad_distance] using this

end Verif.Kernels
