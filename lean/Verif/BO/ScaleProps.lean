import Verif.BO.FitProps

/-!
C104: the bounds of the signal variance are scaled to what the mean function leaves over.
-/

namespace Verif.BO

open Verif.Kernels Verif.GP

theorem zipWith_residual {D : ℕ} (c : Quad D) : ∀ (y : List ℝ) (u : List (Pos D)), y.length = u.length →
    List.zipWith (fun v p => v - c.eval p) (List.zipWith (fun v p => v + c.eval p) y u) u = y
  | [], _, _ => rfl
  | _ :: _, [], h => by simp at h
  | v :: y, p :: u, h => by
    simp only [List.zipWith_cons_cons, List.cons.injEq, add_sub_cancel_right, true_and]
    exact zipWith_residual c y u (by simpa using h)

/-- C104: values that are a quadratic plus `y` give the scale that `y` alone gives, its variance, if the quadratic is the mean function;
so does a constant plus `y` without a mean function. -/
theorem C104_scale {D : ℕ} (u : List (Pos D)) (y : List ℝ) (hl : y.length = u.length) (hv : 0 < lvar y) (c : Quad D) :
    fitScale u (List.zipWith (fun v p => v + c.eval p) y u) (some c) = lvar y ∧ fitScale u y none = lvar y := by
  refine ⟨?_, ?_⟩
  · simp only [fitScale, zipWith_residual c y u hl, if_neg (not_le.2 hv)]
  · have : lvar (y.map fun v => v - lmean y) = lvar y := by
      have hm : lmean (y.map fun v => v - lmean y) = 0 := by
        have hy : (y.length : ℝ) ≠ 0 := by
          intro h0
          have : y = [] := List.length_eq_zero_iff.1 (by exact_mod_cast h0)
          rw [this] at hv
          simp [lvar, lmean] at hv
        have hs : ∀ (l : List ℝ) (a : ℝ), (l.map fun v => v - a).sum = l.sum - l.length * a := by
          intro l a
          induction l with
          | nil => simp
          | cons b l ih => simp [ih]; ring
        unfold lmean
        rw [hs, List.length_map, mul_div_cancel₀ _ hy, sub_self, zero_div]
      unfold lvar
      rw [hm]
      simp [lmean, Function.comp_def]
    simp only [fitScale, this, if_neg (not_le.2 hv)]

/-- C104: values that the mean function explains completely fall back to the variance of the values, or to one. -/
theorem C104_scale_exact {D : ℕ} (u : List (Pos D)) (c : Quad D) :
    fitScale u (u.map c.eval) (some c) = if lvar (u.map c.eval) = 0 then 1 else lvar (u.map c.eval) := by
  have hr : List.zipWith (fun v p => v - c.eval p) (u.map c.eval) u = u.map fun _ => (0 : ℝ) := by
    induction u with
    | nil => rfl
    | cons p u ih => simp [ih]
  have h0 : lvar (u.map fun _ => (0 : ℝ)) = 0 := by
    simp [lvar, lmean]
  simp only [fitScale, hr, h0, le_refl, if_true]

/-- Two points, values that differ by two around the parabola `x²`. -/
example : fitScale (D := 1) [![1], ![2]] (List.zipWith (fun v p => v + (⟨0, 0, fun _ => 1⟩ : Quad 1).eval p) [-1, 1] [![1], ![2]])
    (some ⟨0, 0, fun _ => 1⟩) = lvar [-1, 1] :=
  (C104_scale _ _ rfl (by norm_num [lvar, lmean]) _).1

end Verif.BO
