import Verif.LinAlg.PrecondProps

/-!
C23: the values of the shifts that the retry loops try.
-/

namespace Verif.LinAlg

/-- C23: the shifts tried after the unshifted matrix are `1e-10` (dense factorization) or `1e-12` (`ilupp`) times the powers of the growth
factor; from a positive start they are the start times these powers, in `ilupp` provided the start is at least `1e-12`. -/
theorem C23_shift_values (growth : ℝ) (hg : 1 ≤ growth) :
    (∀ m, (denseNext growth)^[m + 1] 0 = 1e-10 * growth ^ m) ∧ (∀ m, (iluppNext growth)^[m + 1] 0 = 1e-12 * growth ^ m) ∧
    (∀ s, 0 < s → ∀ m, (denseNext growth)^[m] s = s * growth ^ m) ∧
    ∀ s, 1e-12 ≤ s → ∀ m, (iluppNext growth)^[m] s = s * growth ^ m := by
  have g0 : 0 < growth := by linarith
  have d : ∀ s, 0 < s → ∀ m, (denseNext growth)^[m] s = s * growth ^ m := by
    intro s hs m
    induction m with
    | zero => simp
    | succ m ih =>
      rw [Function.iterate_succ_apply', ih, denseNext, if_neg (by positivity)]
      ring
  have i : ∀ s, 1e-12 ≤ s → ∀ m, (iluppNext growth)^[m] s = s * growth ^ m := by
    intro s hs m
    have s0 : (0 : ℝ) < s := lt_of_lt_of_le (by norm_num) hs
    induction m with
    | zero => simp
    | succ m ih =>
      rw [Function.iterate_succ_apply', ih, iluppNext, max_eq_left]
      · ring
      · have h1 : 1 ≤ growth ^ m := one_le_pow₀ hg
        have h2 : s ≤ s * growth ^ m := le_mul_of_one_le_right s0.le h1
        have h3 : s * growth ^ m ≤ s * growth ^ m * growth := le_mul_of_one_le_right (by positivity) hg
        linarith
  refine ⟨fun m => ?_, fun m => ?_, d, i⟩
  · rw [Function.iterate_succ_apply, show denseNext growth 0 = 1e-10 by simp [denseNext]]
    exact d _ (by norm_num) m
  · rw [Function.iterate_succ_apply, show iluppNext growth 0 = 1e-12 by rw [iluppNext, zero_mul]; exact max_eq_right (by norm_num)]
    exact i _ (le_refl _) m

/-- With the default growth of ten, the third retry of `ilupp` shifts by `1e-10`. -/
example : (iluppNext 10)^[3] 0 = 1e-10 := by
  rw [(C23_shift_values 10 (by norm_num)).2.1 2]
  norm_num

end Verif.LinAlg
