import Verif.Ggmp.SampleModel
import Verif.Kernels.MaternPsd
import Verif.Kernels.SparseProps

/-!
C111: energy distance of samples.
-/

namespace Verif.Ggmp

open Finset Verif.GP Filter Topology

variable {n m D : ℕ}

/-- Distances are of negative type. -/
theorem negative_type_fin (x : Fin n → Fin D → ℝ) (c : Fin n → ℝ) (hc : ∑ i, c i = 0) :
    ∑ i, ∑ j, c i * c j * Kernels.distance (x i) (x j) ≤ 0 := by
  have hk : ∀ k : ℕ, ∑ i, ∑ j, c i * c j * (((k : ℝ) + 1) * (1 - Real.exp (-Kernels.distance (x i) (x j) / (k + 1)))) ≤ 0 := by
    intro k
    have h := (Kernels.C84_exponential (D := D) ((k : ℝ) + 1) (by positivity)).2 n x c
    have h0 : ∑ i, ∑ j, c i * c j = 0 := by rw [← sum_mul_sum, hc, zero_mul]
    have e : ∑ i, ∑ j, c i * c j * (((k : ℝ) + 1) * (1 - Real.exp (-Kernels.distance (x i) (x j) / (k + 1))))
        = ((k : ℝ) + 1) * (∑ i, ∑ j, c i * c j - ∑ i, ∑ j, c i * c j * Kernels.exponential (Kernels.distance (x i) (x j)) (k + 1)) := by
      rw [← sum_sub_distrib, mul_sum]
      refine sum_congr rfl fun i _ => ?_
      rw [← sum_sub_distrib, mul_sum]
      refine sum_congr rfl fun j _ => ?_
      unfold Kernels.exponential
      ring
    rw [e, h0, zero_sub]
    exact mul_nonpos_of_nonneg_of_nonpos (by positivity) (neg_nonpos.2 h)
  have hl : ∀ r : ℝ, Tendsto (fun k : ℕ => ((k : ℝ) + 1) * (1 - Real.exp (-r / (k + 1)))) atTop (𝓝 r) := by
    intro r
    have hd : HasDerivAt (fun t : ℝ => 1 - Real.exp (-(r * t))) r 0 := by
      have h1 : HasDerivAt (fun t : ℝ => -(r * t)) (-r) 0 := by
        simpa using ((hasDerivAt_id (0 : ℝ)).const_mul r).fun_neg
      have := (h1.exp).const_sub 1
      simpa using this
    have hs := hasDerivAt_iff_tendsto_slope_zero.1 hd
    have ht : Tendsto (fun k : ℕ => 1 / ((k : ℝ) + 1)) atTop (𝓝[≠] 0) :=
      tendsto_nhdsWithin_iff.2 ⟨tendsto_one_div_add_atTop_nhds_zero_nat, Eventually.of_forall fun k => by
        simp only [Set.mem_compl_iff, Set.mem_singleton_iff]; positivity⟩
    have := hs.comp ht
    refine this.congr fun k => ?_
    simp only [Function.comp, zero_add, smul_eq_mul, one_div, inv_inv, mul_zero, neg_zero, Real.exp_zero, sub_self, sub_zero]
    rw [neg_div, div_eq_mul_inv]
  have ht := tendsto_finset_sum univ fun i (_ : i ∈ univ) => tendsto_finset_sum univ fun j (_ : j ∈ univ) =>
    (hl (Kernels.distance (x i) (x j))).const_mul (c i * c j)
  exact le_of_tendsto ht (Eventually.of_forall hk)

theorem negative_type {ι : Type} [Fintype ι] (x : ι → Fin D → ℝ) (c : ι → ℝ) (hc : ∑ i, c i = 0) :
    ∑ i, ∑ j, c i * c j * Kernels.distance (x i) (x j) ≤ 0 := by
  have e := (Fintype.equivFin ι).symm
  have h := negative_type_fin (fun i => x (e i)) (fun i => c (e i)) ((e.sum_comp c).trans hc)
  rw [← e.sum_comp]
  simp only [← e.sum_comp (fun j => c (e _) * c j * Kernels.distance (x (e _)) (x j))]
  exact h

/-- The mean of a function of pairs from two samples. -/
noncomputable def meanPair (f : (Fin D → ℝ) → (Fin D → ℝ) → ℝ) (a : Fin n → Fin D → ℝ) (b : Fin m → Fin D → ℝ) : ℝ :=
  (1 / n) * ∑ i, (1 / m) * ∑ j, f (a i) (b j)

theorem meanMatrix_eq (f : (Fin D → ℝ) → (Fin D → ℝ) → ℝ) (a : Fin n → Fin D → ℝ) (b : Fin m → Fin D → ℝ) :
    meanMatrix (fun i j => f (a i) (b j)) = meanPair f a b := by
  unfold meanMatrix meanPair
  rw [← mul_sum, div_eq_mul_inv, mul_inv, one_div, one_div]
  ring

/-- The energy distance of the empirical distributions is not negative. -/
theorem energy_nonneg (hn : n ≠ 0) (hm : m ≠ 0) (a : Fin n → Fin D → ℝ) (b : Fin m → Fin D → ℝ) :
    0 ≤ 2 * meanPair Kernels.distance a b - meanPair Kernels.distance a a - meanPair Kernels.distance b b := by
  have hn' : (n : ℝ) ≠ 0 := Nat.cast_ne_zero.2 hn
  have hm' : (m : ℝ) ≠ 0 := Nat.cast_ne_zero.2 hm
  have h := negative_type (Sum.elim a b) (Sum.elim (fun _ => 1 / (n : ℝ)) fun _ => -(1 / (m : ℝ)))
    (by simp [Fintype.sum_sum_type, hn', hm'])
  simp only [Fintype.sum_sum_type, Sum.elim_inl, Sum.elim_inr] at h
  have hsym : ∑ i, ∑ j, Kernels.distance (b i) (a j) = ∑ i, ∑ j, Kernels.distance (a i) (b j) := by
    rw [sum_comm]
    exact sum_congr rfl fun i _ => sum_congr rfl fun j _ => Kernels.distance_comm _ _
  simp only [sum_add_distrib, ← mul_sum] at h
  unfold meanPair
  simp only [← mul_sum]
  rw [hsym] at h
  nlinarith [h]

/-- The result is the energy distance `2 E|X-Y| - E|X-X'| - E|Y-Y'|` of the empirical distributions; the clipping at zero
never acts. -/
theorem C111_energy (hn : n ≠ 0) (hm : m ≠ 0) (a : Fin n → Fin D → ℝ) (b : Fin m → Fin D → ℝ) :
    energyDistance a b = .ok (2 * meanPair Kernels.distance a b - meanPair Kernels.distance a a - meanPair Kernels.distance b b) ∧
      0 ≤ 2 * meanPair Kernels.distance a b - meanPair Kernels.distance a a - meanPair Kernels.distance b b := by
  have h := energy_nonneg hn hm a b
  refine ⟨?_, h⟩
  unfold energyDistance
  rw [if_neg (by tauto)]
  simp only [meanMatrix_eq Kernels.distance]
  rw [max_eq_left h]

/-- Empty samples are refused, others never. -/
theorem C111_defined (a : Fin n → Fin D → ℝ) (b : Fin m → Fin D → ℝ) :
    (∃ v, energyDistance a b = .ok v) ↔ n ≠ 0 ∧ m ≠ 0 := by
  unfold energyDistance
  split_ifs with h
  · simp only [reduceCtorEq, exists_false, false_iff]; tauto
  · simp only [Except.ok.injEq, exists_eq', true_iff]; tauto

/-- The order of the arguments does not matter. -/
theorem C111_symmetric (a : Fin n → Fin D → ℝ) (b : Fin m → Fin D → ℝ) : energyDistance a b = energyDistance b a := by
  unfold energyDistance
  by_cases h : n = 0 ∨ m = 0
  · rw [if_pos h, if_pos h.symm]
  · rw [if_neg h, if_neg (by tauto)]
    have : meanMatrix (fun i j => Kernels.distance (a i) (b j)) = meanMatrix fun i j => Kernels.distance (b i) (a j) := by
      unfold meanMatrix
      rw [sum_comm, mul_comm (n : ℝ)]
      congr 1
      exact sum_congr rfl fun i _ => sum_congr rfl fun j _ => Kernels.distance_comm _ _
    rw [this, sub_right_comm]

/-- The fraction of a sample at a point. -/
noncomputable def freq (a : Fin n → Fin D → ℝ) (x : Fin D → ℝ) : ℝ := (univ.filter fun i => a i = x).card / n

theorem mean_freq (a : Fin n → Fin D → ℝ) (f : (Fin D → ℝ) → ℝ) (s : Finset (Fin D → ℝ)) (hs : ∀ i, a i ∈ s) :
    1 / (n : ℝ) * ∑ i, f (a i) = ∑ x ∈ s, freq a x * f x := by
  have h1 : ∑ i, f (a i) = ∑ x ∈ s, ∑ i ∈ univ.filter (fun i => a i = x), f (a i) :=
    (sum_fiberwise_of_maps_to (fun i _ => hs i) _).symm
  rw [h1, mul_sum]
  refine sum_congr rfl fun x _ => ?_
  have : ∑ i ∈ univ.filter (fun i => a i = x), f (a i) = (univ.filter fun i => a i = x).card * f x := by
    rw [← nsmul_eq_mul]
    exact sum_eq_card_nsmul fun i hi => by rw [(mem_filter.1 hi).2]
  rw [this]
  unfold freq
  ring

/-- Samples with the same frequencies have distance zero, whatever their sizes and orders. -/
theorem C111_same_distribution (hn : n ≠ 0) (hm : m ≠ 0) (a : Fin n → Fin D → ℝ) (b : Fin m → Fin D → ℝ)
    (h : ∀ x, freq a x = freq b x) : energyDistance a b = .ok 0 := by
  classical
  have hf : ∀ f : (Fin D → ℝ) → ℝ, 1 / (n : ℝ) * ∑ i, f (a i) = 1 / (m : ℝ) * ∑ i, f (b i) := by
    intro f
    rw [mean_freq a f (univ.image a ∪ univ.image b) (fun i => mem_union_left _ (mem_image_of_mem _ (mem_univ _))),
      mean_freq b f (univ.image a ∪ univ.image b) (fun i => mem_union_right _ (mem_image_of_mem _ (mem_univ _)))]
    simp only [h]
  rw [(C111_energy hn hm a b).1]
  have h1 : meanPair Kernels.distance a b = meanPair Kernels.distance b b := by
    unfold meanPair
    exact hf fun x => 1 / (m : ℝ) * ∑ j, Kernels.distance x (b j)
  have h2 : meanPair Kernels.distance a a = meanPair Kernels.distance b b := by
    unfold meanPair
    rw [hf fun x => 1 / (n : ℝ) * ∑ j, Kernels.distance x (a j)]
    congr 1
    exact sum_congr rfl fun i _ => hf fun y => Kernels.distance (b i) y
  rw [h1, h2]
  congr 1
  ring

/-- Two samples of different sizes. -/
example : ∃ v, 0 ≤ v ∧ energyDistance ![![0, 1], ![2, 3], ![4, 5]] ![![1, 1], ![0, 2]] = .ok v :=
  ⟨_, (C111_energy (by norm_num) (by norm_num) _ _).2, (C111_energy (by norm_num) (by norm_num) _ _).1⟩

end Verif.Ggmp
