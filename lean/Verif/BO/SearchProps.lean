import Verif.BO.SurrogateModel
import Mathlib.LinearAlgebra.Matrix.PosDef

/-!
C107: the search for the best acquisition value. C108: the Laplace approximation.
-/

namespace Verif.BO

open Finset

/-! ## C107 -/

/-- A point of the unit cube. -/
def InUnit {D : ℕ} (u : Pos D) : Prop := ∀ i, 0 ≤ u i ∧ u i ≤ 1

theorem clip01_of_mem {a : ℝ} (h : 0 ≤ a ∧ a ≤ 1) : clip01 a = a := by
  rw [clip01, max_eq_left h.1, min_eq_left h.2]

/-- What is known about the pieces: candidates in the cube, largest value first; a local search stays in the cube and reports
the negated value of the function `g` it was given. -/
structure Search {D : ℕ} (cand : List (Pos D × ℝ)) (runLocal : Pos D → Local D) (g : Pos D → ℝ) : Prop where
  cube : ∀ c ∈ cand, InUnit c.1
  sorted : cand.Pairwise fun a b => b.2 ≤ a.2
  localCube : ∀ p, InUnit (runLocal p).x
  localVal : ∀ p, (runLocal p).fn = -g (runLocal p).x

/-- One step of the loop over the starts. -/
noncomputable def searchStep {D : ℕ} (runLocal : Pos D → Local D) (best : Pos D × ℝ) (c : Pos D × ℝ) : Pos D × ℝ :=
  let res := runLocal c.1
  if res.success = true ∧ -res.fn > best.2 then (fun i => clip01 (res.x i), -res.fn) else best

theorem search_fold {D : ℕ} {cand : List (Pos D × ℝ)} {runLocal : Pos D → Local D} {g : Pos D → ℝ} (hS : Search cand runLocal g)
    (l : List (Pos D × ℝ)) (b : Pos D × ℝ) :
    b.2 ≤ (l.foldl (searchStep runLocal) b).2 ∧
    (∀ c ∈ l, (runLocal c.1).success = true → g (runLocal c.1).x ≤ (l.foldl (searchStep runLocal) b).2) ∧
    (l.foldl (searchStep runLocal) b = b ∨ ∃ c ∈ l, (runLocal c.1).success = true ∧
      l.foldl (searchStep runLocal) b = ((runLocal c.1).x, g (runLocal c.1).x)) := by
  induction l generalizing b with
  | nil => exact ⟨le_rfl, by simp, .inl rfl⟩
  | cons a l ih =>
    simp only [List.foldl_cons]
    have hclip : (fun i => clip01 ((runLocal a.1).x i)) = (runLocal a.1).x := funext fun i => clip01_of_mem (hS.localCube a.1 i)
    have hv : -(runLocal a.1).fn = g (runLocal a.1).x := by rw [hS.localVal, neg_neg]
    obtain ⟨h1, h2, h3⟩ := ih (searchStep runLocal b a)
    by_cases hc : (runLocal a.1).success = true ∧ g (runLocal a.1).x > b.2
    · have e : searchStep runLocal b a = ((runLocal a.1).x, g (runLocal a.1).x) := by
        simp only [searchStep, hclip, hv, if_pos hc]
      rw [e] at h1 h2 h3 ⊢
      refine ⟨hc.2.le.trans h1, ?_, .inr ?_⟩
      · intro c hcm hs
        rcases List.mem_cons.1 hcm with rfl | hm
        · exact h1
        · exact h2 c hm hs
      · rcases h3 with h3 | ⟨c, hm, hs, h3⟩
        · exact ⟨a, List.mem_cons_self, hc.1, h3⟩
        · exact ⟨c, List.mem_cons_of_mem _ hm, hs, h3⟩
    · have e : searchStep runLocal b a = b := by
        simp only [searchStep, hclip, hv, if_neg hc]
      rw [e] at h1 h2 h3 ⊢
      refine ⟨h1, ?_, ?_⟩
      · intro c hcm hs
        rcases List.mem_cons.1 hcm with rfl | hm
        · exact (not_lt.1 fun h => hc ⟨hs, h⟩).trans h1
        · exact h2 c hm hs
      · rcases h3 with h3 | ⟨c, hm, hs, h3⟩
        · exact .inl h3
        · exact .inr ⟨c, List.mem_cons_of_mem _ hm, hs, h3⟩

/-- C107: the proposal lies in the unit cube; the reported value is at least the value of every random candidate and of every
successful local search, and it is attained: the proposal is the best candidate or the end of a successful local search. -/
theorem C107_search {D : ℕ} (cand : List (Pos D × ℝ)) (n : ℕ) (runLocal : Pos D → Local D) (g : Pos D → ℝ)
    (hS : Search cand runLocal g) (u : Pos D) (w : ℝ) (h : maximizeAcquisition cand n runLocal = .ok (u, w)) :
    InUnit u ∧ (∀ c ∈ cand, c.2 ≤ w) ∧ (∀ c ∈ cand.take n, (runLocal c.1).success = true → g (runLocal c.1).x ≤ w) ∧
      ((u, w) ∈ cand ∨ ∃ c ∈ cand.take n, (runLocal c.1).success = true ∧ u = (runLocal c.1).x ∧ w = g u) := by
  cases hc : cand with
  | nil => simp [maximizeAcquisition, hc] at h
  | cons s l =>
    cases n with
    | zero => simp [maximizeAcquisition] at h
    | succ n =>
      simp only [maximizeAcquisition, hc, List.take_succ_cons] at h
      injection h with h
      obtain ⟨h1, h2, h3⟩ := search_fold hS (s :: l.take n) (s.1, s.2)
      have e : (s :: l.take n).foldl (searchStep runLocal) (s.1, s.2) = (u, w) := h
      rw [e] at h1 h2 h3
      have hs := hS.sorted
      rw [hc] at hs
      have hmax : ∀ c ∈ s :: l, c.2 ≤ w := by
        intro c hm
        rcases List.mem_cons.1 hm with rfl | hm
        · exact h1
        · exact ((List.pairwise_cons.1 hs).1 c hm).trans h1
      have h4 : (u, w) ∈ s :: l ∨ ∃ c ∈ (s :: l).take (n + 1), (runLocal c.1).success = true ∧ u = (runLocal c.1).x ∧ w = g u := by
        rcases h3 with h3 | ⟨c, hm, hs', h3⟩
        · left
          rw [h3]
          exact List.mem_cons_self
        · right
          injection h3 with e1 e2
          subst e1
          exact ⟨c, hm, hs', rfl, e2⟩
      refine ⟨?_, hmax, h2, h4⟩
      rcases h4 with h4 | ⟨c, -, -, rfl, -⟩
      · exact hS.cube (u, w) (by rw [hc]; exact h4)
      · exact hS.localCube _

/-- C107: if the local search maximises the function the candidates were screened with, the reported value is the acquisition of
the proposal, which is therefore at least as good as every candidate. -/
theorem C107_value {D : ℕ} (cand : List (Pos D × ℝ)) (n : ℕ) (runLocal : Pos D → Local D) (g : Pos D → ℝ)
    (hS : Search cand runLocal g) (hg : ∀ c ∈ cand, c.2 = g c.1) (u : Pos D) (w : ℝ)
    (h : maximizeAcquisition cand n runLocal = .ok (u, w)) : w = g u ∧ ∀ c ∈ cand, g c.1 ≤ g u := by
  obtain ⟨-, h1, -, h2⟩ := C107_search cand n runLocal g hS u w h
  have e : w = g u := by
    rcases h2 with h2 | ⟨c, -, -, -, h2⟩
    · exact hg (u, w) h2
    · exact h2
  exact ⟨e, fun c hc => by rw [← e, ← hg c hc]; exact h1 c hc⟩

/-- C107: a proposal is made exactly when there is a candidate and at least one restart. -/
theorem C107_defined {D : ℕ} (cand : List (Pos D × ℝ)) (n : ℕ) (runLocal : Pos D → Local D) :
    (∃ r, maximizeAcquisition cand n runLocal = .ok r) ↔ cand ≠ [] ∧ 0 < n := by
  cases cand with
  | nil => simp [maximizeAcquisition]
  | cons s l =>
    cases n with
    | zero => simp [maximizeAcquisition]
    | succ n => simp [maximizeAcquisition]

/-- A failed local search does not count: with `u ↦ u` as acquisition and one candidate at `1/2`, a search that fails at `1`
leaves the candidate. -/
example : maximizeAcquisition (D := 1) [(![1 / 2], 1 / 2)] 1 (fun _ => ⟨false, -1, ![1]⟩) = .ok (![1 / 2], 1 / 2) := by
  simp [maximizeAcquisition]

example : Search (D := 1) [(![1 / 2], 1 / 2), (![1 / 4], 1 / 4)] (fun _ => ⟨true, -1, ![1]⟩) (fun u => u 0) where
  cube := by
    intro c hc i
    simp only [List.mem_cons, List.not_mem_nil, or_false] at hc
    rcases hc with rfl | rfl <;> fin_cases i <;> norm_num
  sorted := by norm_num
  localCube := by intro p i; fin_cases i; norm_num
  localVal := by intro p; simp

/-! ## C108 -/

/-- A quadratic function. -/
noncomputable def quadratic {D : ℕ} (c : ℝ) (b : Fin D → ℝ) (W : Matrix (Fin D) (Fin D) ℝ) (w : Pos D) : ℝ :=
  c + ∑ i, b i * w i + 1 / 2 * ∑ i, ∑ j, w i * W i j * w j

theorem quadratic_stencil {D : ℕ} (c : ℝ) (b : Fin D → ℝ) (W : Matrix (Fin D) (Fin D) ℝ) (x p q : Pos D) :
    quadratic c b W (x + p + q) - quadratic c b W (x + p - q) - quadratic c b W (x - p + q) + quadratic c b W (x - p - q)
      = 2 * ∑ i, ∑ j, (p i * W i j * q j + q i * W i j * p j) := by
  unfold quadratic
  have e1 : ∑ i, b i * (x + p + q) i - ∑ i, b i * (x + p - q) i - ∑ i, b i * (x - p + q) i + ∑ i, b i * (x - p - q) i = 0 := by
    rw [← sum_sub_distrib, ← sum_sub_distrib, ← sum_add_distrib]
    refine sum_eq_zero fun i _ => ?_
    simp only [Pi.add_apply, Pi.sub_apply]
    ring
  have e2 : ∑ i, ∑ j, (x + p + q) i * W i j * (x + p + q) j - ∑ i, ∑ j, (x + p - q) i * W i j * (x + p - q) j
      - ∑ i, ∑ j, (x - p + q) i * W i j * (x - p + q) j + ∑ i, ∑ j, (x - p - q) i * W i j * (x - p - q) j
      = 4 * ∑ i, ∑ j, (p i * W i j * q j + q i * W i j * p j) := by
    rw [← sum_sub_distrib, ← sum_sub_distrib, ← sum_add_distrib, mul_sum]
    refine sum_congr rfl fun i _ => ?_
    rw [← sum_sub_distrib, ← sum_sub_distrib, ← sum_add_distrib, mul_sum]
    refine sum_congr rfl fun j _ => ?_
    simp only [Pi.add_apply, Pi.sub_apply]
    ring
  linear_combination e1 + 1 / 2 * e2

theorem single_sum {D : ℕ} (W : Matrix (Fin D) (Fin D) ℝ) (s : Fin D → ℝ) (a b : Fin D) (x y : ℝ) :
    ∑ i, ∑ j, (s i * (Pi.single a x : Fin D → ℝ) i) * W i j * (s j * (Pi.single b y : Fin D → ℝ) j) = s a * x * W a b * (s b * y) := by
  rw [sum_eq_single a, sum_eq_single b]
  · simp
  · intro j _ hj; simp [hj]
  · simp
  · intro i _ hi
    refine sum_eq_zero fun j _ => ?_
    simp [hi]
  · simp

/-- C108: for a surrogate that is quadratic in the searched (log) coordinates, the reported curvature is its Hessian in those
coordinates, whatever the step and the spans. -/
theorem C108_curvature {D : ℕ} (c : ℝ) (b : Fin D → ℝ) (W : Matrix (Fin D) (Fin D) ℝ) (hW : W.transpose = W) (lo span : Fin D → ℝ)
    (hs : ∀ i, span i ≠ 0) (u : Pos D) (step : ℝ) (h0 : step ≠ 0) :
    laplaceHessW (fun u => quadratic c b W fun i => lo i + u i * span i) u step span = W := by
  have hsym : ∀ i j, W i j = W j i := fun i j => by
    conv_lhs => rw [← hW]
    rfl
  have hess : ∀ i j, laplaceHess (fun u => quadratic c b W fun i => lo i + u i * span i) u step i j
      = span i * W i j * span j := by
    intro i j
    have key : ∀ a b' : Fin D, (quadratic c b W (fun i => lo i + (u + Pi.single a step + Pi.single b' step : Pos D) i * span i)
        - quadratic c b W (fun i => lo i + (u + Pi.single a step - Pi.single b' step : Pos D) i * span i)
        - quadratic c b W (fun i => lo i + (u - Pi.single a step + Pi.single b' step : Pos D) i * span i)
        + quadratic c b W (fun i => lo i + (u - Pi.single a step - Pi.single b' step : Pos D) i * span i)) / (4 * step * step)
        = span a * W a b' * span b' := by
      intro a b'
      set x : Pos D := fun i => lo i + u i * span i
      set p : Pos D := fun i => span i * (Pi.single a step : Fin D → ℝ) i
      set q : Pos D := fun i => span i * (Pi.single b' step : Fin D → ℝ) i
      have r1 : (fun i => lo i + (u + Pi.single a step + Pi.single b' step : Pos D) i * span i) = x + p + q := by
        funext i; simp only [x, p, q, Pi.add_apply]; ring
      have r2 : (fun i => lo i + (u + Pi.single a step - Pi.single b' step : Pos D) i * span i) = x + p - q := by
        funext i; simp only [x, p, q, Pi.add_apply, Pi.sub_apply]; ring
      have r3 : (fun i => lo i + (u - Pi.single a step + Pi.single b' step : Pos D) i * span i) = x - p + q := by
        funext i; simp only [x, p, q, Pi.add_apply, Pi.sub_apply]; ring
      have r4 : (fun i => lo i + (u - Pi.single a step - Pi.single b' step : Pos D) i * span i) = x - p - q := by
        funext i; simp only [x, p, q, Pi.sub_apply]; ring
      rw [r1, r2, r3, r4, quadratic_stencil]
      simp only [sum_add_distrib]
      simp only [p, q]
      rw [single_sum, single_sum, hsym b' a]
      field_simp
      ring
    simp only [laplaceHess]
    rw [key]
    rcases le_total i j with h | h
    · rw [min_eq_left h, max_eq_right h]
    · rw [min_eq_right h, max_eq_left h, hsym j i]
      ring
  have hw : (Matrix.diagonal (fun i => 1 / span i) * Matrix.of (laplaceHess (fun u => quadratic c b W fun i => lo i + u i * span i) u step)
      * Matrix.diagonal fun i => 1 / span i) = W := by
    ext i j
    rw [Matrix.mul_diagonal, Matrix.diagonal_mul, Matrix.of_apply, hess]
    have := hs i
    have := hs j
    field_simp
  simp only [laplaceHessW]
  rw [hw, hW]
  ext i j
  simp
  ring

/-- C108: the reported curvature is always symmetric. -/
theorem C108_symmetric {D : ℕ} (f : Pos D → ℝ) (u : Pos D) (span : Fin D → ℝ) :
    (laplacePosterior f u span).2.transpose = (laplacePosterior f u span).2 := by
  have h : ∀ step, (laplaceHessW f u step span).transpose = laplaceHessW f u step span := by
    intro step
    simp only [laplaceHessW, Matrix.transpose_smul, Matrix.transpose_add, Matrix.transpose_transpose]
    rw [add_comm]
  simp only [laplacePosterior]
  split_ifs <;> exact h _

/-- C108: a covariance is returned exactly when the curvature is positive definite; it is then positive definite and the inverse
of the curvature. -/
theorem C108_covariance {D : ℕ} (f : Pos D → ℝ) (u : Pos D) (span : Fin D → ℝ) :
    ((laplacePosterior f u span).1.isSome = true ↔ (laplacePosterior f u span).2.PosDef) ∧
    ∀ C, (laplacePosterior f u span).1 = some C → C.PosDef ∧ C * (laplacePosterior f u span).2 = 1 := by
  unfold laplacePosterior
  by_cases h : (laplaceHessW f u (1 / 1000) span).PosDef
  · simp only [if_pos h]
    refine ⟨by simpa using h, ?_⟩
    rintro C hC
    injection hC with hC
    subst hC
    exact ⟨h.inv, Matrix.nonsing_inv_mul _ ((Matrix.isUnit_iff_isUnit_det _).1 h.isUnit)⟩
  · simp only [if_neg h]
    exact ⟨by simpa using h, by simp⟩

/-- The two combined: at a strict quadratic minimum the covariance is the inverse of the Hessian in the searched coordinates. -/
theorem C108_quadratic_minimum {D : ℕ} (c : ℝ) (b : Fin D → ℝ) (W : Matrix (Fin D) (Fin D) ℝ) (hW : W.PosDef) (lo span : Fin D → ℝ)
    (hs : ∀ i, span i ≠ 0) (u : Pos D) :
    laplacePosterior (fun u => quadratic c b W fun i => lo i + u i * span i) u span = (some W⁻¹, W) := by
  have hsym : W.transpose = W := by
    ext i j
    have := congrFun (congrFun hW.isHermitian i) j
    simpa using this
  simp only [laplacePosterior]
  rw [C108_curvature c b W hsym lo span hs u (1 / 1000) (by norm_num), if_pos hW]

example : laplacePosterior (fun u => quadratic 3 ![1, 2] (1 : Matrix (Fin 2) (Fin 2) ℝ) fun i => (![0, 5] : Fin 2 → ℝ) i + u i * (![2, 3] : Fin 2 → ℝ) i)
    ![1 / 2, 1 / 3] ![2, 3] = (some 1⁻¹, 1) :=
  C108_quadratic_minimum 3 ![1, 2] 1 Matrix.PosDef.one ![0, 5] ![2, 3] (by simp [Fin.forall_fin_two]) _

end Verif.BO
