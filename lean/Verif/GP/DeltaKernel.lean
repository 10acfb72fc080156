import Verif.GP.Spec

/-! The kernel of uncorrelated values, used in examples. -/

namespace Verif.GP

open Finset

/-- Uncorrelated values. -/
noncomputable def deltaKernel (a b : ℝ) : ℝ := open Classical in if a = b then 1 else 0

theorem deltaKernel_psd : IsPSDKernel deltaKernel := by
  classical
  refine ⟨fun a b => by simp [deltaKernel, eq_comm], fun n x w => ?_⟩
  have : ∑ i, ∑ j, w i * w j * deltaKernel (x i) (x j)
      = ∑ a ∈ Finset.univ.image x, (∑ i, if x i = a then w i else 0) ^ 2 := by
    have h1 : ∀ i j, deltaKernel (x i) (x j)
        = ∑ a ∈ Finset.univ.image x, (if x i = a then (1 : ℝ) else 0) * if x j = a then 1 else 0 := by
      intro i j
      simp only [deltaKernel]
      rw [Finset.sum_eq_single (x i)]
      · simp [eq_comm]
      · intro b _ hb
        simp [hb.symm]
      · intro hx
        exact absurd (Finset.mem_image_of_mem x (Finset.mem_univ i)) hx
    simp only [h1, Finset.mul_sum]
    rw [Finset.sum_congr rfl fun i _ => Finset.sum_comm, Finset.sum_comm]
    refine Finset.sum_congr rfl fun a _ => ?_
    rw [sq, Finset.sum_mul_sum]
    refine Finset.sum_congr rfl fun i _ => Finset.sum_congr rfl fun j _ => ?_
    split_ifs <;> simp
  rw [this]
  exact Finset.sum_nonneg fun a _ => sq_nonneg _

end Verif.GP
