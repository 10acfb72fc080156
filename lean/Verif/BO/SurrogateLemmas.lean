import Verif.BO.SurrogateModel
import Verif.Kernels.StatProps
import Mathlib.Analysis.Calculus.FDeriv.Extend
import Mathlib.Analysis.SpecialFunctions.Sqrt
import Mathlib.Analysis.SpecialFunctions.ExpDeriv

/-!
The Matérn-5/2 kernel as a function of the squared distance is differentiable, also at zero.
-/

namespace Verif.BO

open Finset Real Verif.Kernels Verif.GP Filter Topology Set

theorem matern2_one (d : ℝ) : matern2 d 1 = (1 + √5 * d + 5 / 3 * d ^ 2) * exp (-√5 * d) := by
  unfold matern2
  have : -(√5 * d) / 1 = -√5 * d := by ring
  rw [this]
  ring

/-- Matérn-5/2 as a function of the squared distance. -/
noncomputable def mat5 (q : ℝ) : ℝ := matern2 √q 1

/-- Its derivative. -/
noncomputable def mat5' (q : ℝ) : ℝ := -(5 / 6) * (1 + √5 * √q) * exp (-√5 * √q)

theorem mat5_hasDerivAt {q : ℝ} (hq : 0 < q) : HasDerivAt mat5 (mat5' q) q := by
  have hr : HasDerivAt (fun q => √q) (1 / (2 * √q)) q := hasDerivAt_sqrt hq.ne'
  have h1 : HasDerivAt (fun q => 1 + √5 * √q + 5 / 3 * √q ^ 2) (√5 * (1 / (2 * √q)) + 5 / 3 * (2 * √q * (1 / (2 * √q)))) q := by
    have := ((hr.const_mul √5).const_add 1).fun_add ((hr.fun_pow 2).const_mul (5 / 3))
    refine this.congr_deriv ?_
    norm_num
  have h2 : HasDerivAt (fun q => exp (-√5 * √q)) (exp (-√5 * √q) * (-√5 * (1 / (2 * √q)))) q := (hr.const_mul (-√5)).exp
  have h3 := h1.fun_mul h2
  refine (h3.congr_deriv ?_).congr_of_eventuallyEq (Filter.Eventually.of_forall fun t => ?_)
  · unfold mat5'
    have hp : 0 < √q := sqrt_pos.2 hq
    have h5 : √5 ^ 2 = 5 := sq_sqrt (by norm_num)
    field_simp
    ring_nf
    rw [h5]
    ring
  · simp only [mat5, matern2_one]

theorem mat5_continuous : Continuous mat5 := by
  unfold mat5
  simp only [matern2_one]
  fun_prop

theorem mat5'_continuous : Continuous mat5' := by
  unfold mat5'
  fun_prop

theorem mat5_hasDerivWithinAt {q : ℝ} (hq : 0 ≤ q) : HasDerivWithinAt mat5 (mat5' q) (Ici 0) q := by
  rcases hq.lt_or_eq with h | h
  · exact (mat5_hasDerivAt h).hasDerivWithinAt
  · subst h
    refine hasDerivWithinAt_Ici_of_tendsto_deriv (s := Ioi 0) ?_ ?_ self_mem_nhdsWithin ?_
    · exact fun x hx => (mat5_hasDerivAt hx).differentiableAt.differentiableWithinAt
    · exact mat5_continuous.continuousWithinAt
    · have : Tendsto mat5' (𝓝[>] 0) (𝓝 (mat5' 0)) := mat5'_continuous.continuousAt.mono_left nhdsWithin_le_nhds
      refine this.congr' ?_
      filter_upwards [self_mem_nhdsWithin] with x hx
      exact (mat5_hasDerivAt hx).deriv.symm

/-- Chain rule, valid where the squared distance vanishes too. -/
theorem mat5_chain {Q : ℝ → ℝ} {Q' t : ℝ} (hQ : HasDerivAt Q Q' t) (h0 : ∀ s, 0 ≤ Q s) :
    HasDerivAt (fun s => mat5 (Q s)) (mat5' (Q t) * Q') t := by
  have h := (mat5_hasDerivWithinAt (h0 t)).comp t (hQ.hasDerivWithinAt (s := univ)) (fun s _ => h0 s)
  exact hasDerivWithinAt_univ.1 h

theorem surrogateKernel_eq {D : ℕ} (h : SHps D) (x y : Pos D) :
    surrogateKernel h x y = h.signal * mat5 (∑ i, ((x i - y i) / h.len i) ^ 2) := by
  simp only [surrogateKernel, mat5, anisoDistance, sq_abs]

theorem sumsq_nonneg {D : ℕ} (x y l : Fin D → ℝ) : 0 ≤ ∑ i, ((x i - y i) / l i) ^ 2 := sum_nonneg fun _ _ => sq_nonneg _

/-- Derivative of a sum of which one term moves. -/
theorem hasDerivAt_sum_one {D : ℕ} {f : ℝ → Fin D → ℝ} {k : Fin D} {f' t : ℝ} (hk : HasDerivAt (fun s => f s k) f' t)
    (ho : ∀ i, i ≠ k → ∀ s, f s i = f t i) : HasDerivAt (fun s => ∑ i, f s i) f' t := by
  have hterm : ∀ i ∈ (univ : Finset (Fin D)), HasDerivAt (fun s => f s i) (if i = k then f' else 0) t := by
    intro i _
    by_cases hi : i = k
    · subst hi; simpa using hk
    · rw [if_neg hi]
      have : (fun s => f s i) = fun _ => f t i := funext fun s => ho i hi s
      rw [this]
      exact hasDerivAt_const t (f t i)
  refine (HasDerivAt.fun_sum hterm).congr_deriv ?_
  simp

end Verif.BO
