import Verif.LinAlg.SpaiModel
import Mathlib.Analysis.Matrix.PosDef
import Mathlib.Analysis.Matrix.Order
import Mathlib.Analysis.SpecificLimits.Basic

/-!
C136: the sparse approximate inverse.
-/

namespace Verif.LinAlg

open Matrix Finset
open scoped MatrixOrder Matrix.Norms.L2Operator

variable {n : ℕ}

theorem fro2_trace (X : Matrix (Fin n) (Fin n) ℝ) : fro2 X = trace (Xᵀ * X) := by
  unfold fro2
  rw [sum_comm]
  simp only [trace, diag_apply, mul_apply, transpose_apply, pow_two]

theorem fro2_nonneg (X : Matrix (Fin n) (Fin n) ℝ) : 0 ≤ fro2 X := sum_nonneg fun _ _ => sum_nonneg fun _ _ => sq_nonneg _

theorem fro2_eq_zero (X : Matrix (Fin n) (Fin n) ℝ) : fro2 X = 0 ↔ X = 0 := by
  constructor
  · intro h
    ext i j
    have h1 := (sum_eq_zero_iff_of_nonneg fun i _ => sum_nonneg fun j _ => sq_nonneg (X i j)).1 h i (mem_univ _)
    have h2 := (sum_eq_zero_iff_of_nonneg fun j _ => sq_nonneg (X i j)).1 h1 j (mem_univ _)
    simpa using h2
  · rintro rfl; simp [fro2]

theorem fro2_mul_le (A B : Matrix (Fin n) (Fin n) ℝ) : fro2 (A * B) ≤ fro2 A * fro2 B := by
  have h : ∀ i j, (A * B) i j ^ 2 ≤ (∑ k, A i k ^ 2) * ∑ k, B k j ^ 2 := by
    intro i j
    rw [mul_apply]
    exact sum_mul_sq_le_sq_mul_sq _ _ _
  calc fro2 (A * B) ≤ ∑ i, ∑ j, (∑ k, A i k ^ 2) * ∑ k, B k j ^ 2 := sum_le_sum fun i _ => sum_le_sum fun j _ => h i j
    _ = fro2 A * ∑ j, ∑ k, B k j ^ 2 := by
        unfold fro2
        rw [sum_mul]
        exact sum_congr rfl fun i _ => (mul_sum _ _ _).symm
    _ = fro2 A * fro2 B := by unfold fro2; rw [sum_comm (f := fun i j => B i j ^ 2)]

theorem fro2_sub_smul (X Y : Matrix (Fin n) (Fin n) ℝ) (b : ℝ) :
    fro2 (X - b • Y) = fro2 X - 2 * b * trace (Xᵀ * Y) + b ^ 2 * fro2 Y := by
  have : trace (Xᵀ * Y) = ∑ i, ∑ j, X i j * Y i j := by
    rw [sum_comm]
    simp only [trace, diag_apply, mul_apply, transpose_apply]
  rw [this]
  unfold fro2
  simp only [mul_sum, ← sum_add_distrib, ← sum_sub_distrib]
  refine sum_congr rfl fun i _ => sum_congr rfl fun j _ => ?_
  simp only [Matrix.sub_apply, Matrix.smul_apply, smul_eq_mul]
  ring

/-- The residual `I - A M`. -/
def residual (A M : Matrix (Fin n) (Fin n) ℝ) : Matrix (Fin n) (Fin n) ℝ := 1 - A * M

theorem residual_add (A M G : Matrix (Fin n) (Fin n) ℝ) (b : ℝ) :
    residual A (M + b • G) = residual A M - b • (A * G) := by
  unfold residual
  rw [Matrix.mul_add, Matrix.mul_smul]
  abel

/-- One step: either nothing changes because the inverse is found, or the residual drops by a known amount. -/
theorem step_residual {A M M' : Matrix (Fin n) (Fin n) ℝ} (h : spaiStep A M = some M') :
    (M' = M ∧ residual A M = 0) ∨
    (∃ b, M' = M + b • residual A M ∧ 0 < fro2 (A * residual A M) ∧
      b = trace ((residual A M)ᵀ * (A * residual A M)) / fro2 (A * residual A M)) := by
  classical
  unfold spaiStep at h
  simp only at h
  by_cases h0 : A * (1 - A * M) = 0
  · rw [if_pos h0] at h
    by_cases h1 : 1 - A * M = 0
    · rw [if_pos h1] at h
      exact Or.inl ⟨(Option.some.inj h).symm, h1⟩
    · rw [if_neg h1] at h; simp at h
  · rw [if_neg h0] at h
    refine Or.inr ⟨_, (Option.some.inj h).symm, ?_, rfl⟩
    exact lt_of_le_of_ne (fro2_nonneg _) fun e => h0 ((fro2_eq_zero _).1 e.symm)

theorem step_value {A M M' : Matrix (Fin n) (Fin n) ℝ} (h : spaiStep A M = some M') :
    fro2 (residual A M') * fro2 (A * residual A M) =
      fro2 (residual A M) * fro2 (A * residual A M) - trace ((residual A M)ᵀ * (A * residual A M)) ^ 2 := by
  rcases step_residual h with ⟨rfl, h0⟩ | ⟨b, rfl, hp, hb⟩
  · rw [h0]; simp
  · rw [residual_add, fro2_sub_smul, hb]
    field_simp
    ring

/-- C136: a step is the best one in its direction: no other multiple of the residual gives an approximate inverse with a
smaller residual. In particular (with multiple 0) the residual never grows, for any square matrix. -/
theorem C136_best_step (A M M' : Matrix (Fin n) (Fin n) ℝ) (h : spaiStep A M = some M') (b : ℝ) :
    fro2 (1 - A * M') ≤ fro2 (1 - A * (M + b • (1 - A * M))) := by
  change fro2 (residual A M') ≤ fro2 (residual A (M + b • residual A M))
  rcases step_residual h with ⟨rfl, h0⟩ | ⟨c, rfl, hp, hc⟩
  · rw [h0]; simp [h0]
  · rw [residual_add, residual_add, fro2_sub_smul, fro2_sub_smul]
    set t := trace ((residual A M)ᵀ * (A * residual A M))
    set q := fro2 (A * residual A M)
    have ht : t = c * q := by rw [hc]; field_simp
    rw [ht]
    nlinarith [mul_nonneg (sq_nonneg (b - c)) hp.le]

/-- C136: hence more steps never give a worse approximate inverse. -/
theorem C136_monotone (A : Matrix (Fin n) (Fin n) ℝ) (est : ℝ) (m k : ℕ) (M M' : Matrix (Fin n) (Fin n) ℝ)
    (h : spai A est m = some M) (h' : spai A est (m + k) = some M') : fro2 (1 - A * M') ≤ fro2 (1 - A * M) := by
  induction k generalizing M' with
  | zero =>
    rw [Nat.add_zero, h] at h'
    obtain rfl := Option.some.inj h'
    exact le_rfl
  | succ k ih =>
    rw [← Nat.add_assoc, spai, Option.bind_eq_some_iff] at h'
    obtain ⟨N, hN, hs⟩ := h'
    have := C136_best_step A N M' hs 0
    rw [zero_smul, add_zero] at this
    exact this.trans (ih N hN)

/-- C136: for a symmetric matrix the approximate inverse is symmetric and commutes with the matrix. -/
theorem C136_symmetric (A : Matrix (Fin n) (Fin n) ℝ) (hA : A.IsSymm) (est : ℝ) (m : ℕ) (M : Matrix (Fin n) (Fin n) ℝ)
    (h : spai A est m = some M) : M.IsSymm ∧ A * M = M * A := by
  induction m generalizing M with
  | zero =>
    obtain rfl := Option.some.inj h
    exact ⟨hA.smul _, by rw [Matrix.mul_smul, Matrix.smul_mul]⟩
  | succ m ih =>
    rw [spai, Option.bind_eq_some_iff] at h
    obtain ⟨N, hN, hs⟩ := h
    obtain ⟨h1, h2⟩ := ih N hN
    rcases step_residual hs with ⟨rfl, _⟩ | ⟨b, rfl, _, _⟩
    · exact ⟨h1, h2⟩
    · have hr : (residual A N).IsSymm := by
        unfold residual IsSymm
        rw [transpose_sub, transpose_one, transpose_mul, h1.eq, hA.eq, h2]
      have hc : A * residual A N = residual A N * A := by
        unfold residual
        rw [Matrix.mul_sub, Matrix.sub_mul, Matrix.mul_one, Matrix.one_mul, Matrix.mul_assoc, ← h2]
      refine ⟨h1.add (hr.smul b), ?_⟩
      rw [Matrix.mul_add, Matrix.add_mul, h2, Matrix.mul_smul, Matrix.smul_mul, hc]

/-- A positive definite matrix bounds the trace form from below. -/
theorem trace_lower (A : Matrix (Fin n) (Fin n) ℝ) (hA : A.PosDef) :
    ∃ c > 0, ∀ G : Matrix (Fin n) (Fin n) ℝ, c * fro2 G ≤ trace (Gᵀ * (A * G)) := by
  obtain ⟨B, hB⟩ := CStarAlgebra.nonneg_iff_eq_star_mul_self.mp hA.posSemidef.nonneg
  rw [star_eq_conjTranspose, conjTranspose_eq_transpose_of_trivial] at hB
  have hdet : IsUnit B.det := by
    have h := hA.det_pos
    rw [hB, det_mul, det_transpose] at h
    exact isUnit_iff_ne_zero.2 fun h0 => by rw [h0] at h; simp at h
  refine ⟨1 / (fro2 B⁻¹ + 1), by have := fro2_nonneg B⁻¹; positivity, fun G => ?_⟩
  have e : trace (Gᵀ * (A * G)) = fro2 (B * G) := by
    rw [fro2_trace, hB, transpose_mul]
    simp only [Matrix.mul_assoc]
  have h1 : fro2 G ≤ fro2 B⁻¹ * fro2 (B * G) := by
    have := fro2_mul_le B⁻¹ (B * G)
    rwa [← Matrix.mul_assoc, nonsing_inv_mul _ hdet, Matrix.one_mul] at this
  rw [e, one_div, inv_mul_le_iff₀ (by have := fro2_nonneg B⁻¹; positivity)]
  nlinarith [fro2_nonneg (B * G)]

/-- C136: for a positive definite matrix no step fails, and the square of the residual shrinks at least by a factor below 1
in each step that depends on the matrix only. -/
theorem C136_contracts (A : Matrix (Fin n) (Fin n) ℝ) (hA : A.PosDef) :
    ∃ q, 0 ≤ q ∧ q < 1 ∧ ∀ est m, ∃ M, spai A est m = some M ∧
      fro2 (1 - A * M) ≤ q ^ m * fro2 (1 - (2 / est) • (A * A)) := by
  obtain ⟨c, hc, hlow⟩ := trace_lower A hA
  set K := fro2 A + c ^ 2 with hK
  have hK0 : 0 < K := by have := fro2_nonneg A; positivity
  have hcK : c ^ 2 ≤ K := by have := fro2_nonneg A; linarith
  refine ⟨1 - c ^ 2 / K, ?_, ?_, fun est m => ?_⟩
  · rw [sub_nonneg]; exact div_le_one_of_le₀ hcK hK0.le
  · have : 0 < c ^ 2 / K := by positivity
    linarith
  · have hstep : ∀ M, ∃ M', spaiStep A M = some M' := by
      classical
      intro M
      unfold spaiStep
      simp only
      by_cases h0 : A * (1 - A * M) = 0
      · have h1 : 1 - A * M = 0 := by
          have := hlow (1 - A * M)
          rw [h0, Matrix.mul_zero, trace_zero] at this
          exact (fro2_eq_zero _).1 (le_antisymm (by by_contra h; push Not at h; nlinarith) (fro2_nonneg _))
        rw [if_pos h0, if_pos h1]
        exact ⟨_, rfl⟩
      · rw [if_neg h0]; exact ⟨_, rfl⟩
    induction m with
    | zero =>
      refine ⟨_, rfl, ?_⟩
      rw [pow_zero, one_mul, Matrix.mul_smul]
    | succ m ih =>
      obtain ⟨M, hM, hb⟩ := ih
      obtain ⟨M', hM'⟩ := hstep M
      refine ⟨M', by rw [spai, hM]; exact hM', ?_⟩
      have hv := step_value hM'
      have hl := hlow (residual A M)
      have hu := fro2_mul_le A (residual A M)
      change fro2 (residual A M') ≤ _
      change fro2 (residual A M) ≤ _ at hb
      set g := fro2 (residual A M)
      set t := trace ((residual A M)ᵀ * (A * residual A M))
      set a := fro2 (A * residual A M)
      have hg : 0 ≤ g := fro2_nonneg _
      have ha : 0 ≤ a := fro2_nonneg _
      have key : fro2 (residual A M') ≤ (1 - c ^ 2 / K) * g := by
        rcases hg.eq_or_lt with h0 | hpos
        · have : residual A M = 0 := (fro2_eq_zero _).1 h0.symm
          rcases step_residual hM' with ⟨rfl, _⟩ | ⟨b, rfl, hp, _⟩
          · rw [this]; simp [fro2, ← h0]
          · rw [this] at hp; simp [fro2] at hp
        · have hap : 0 < a := by
            rcases ha.eq_or_lt with h0 | h; swap
            · exact h
            · have hz : A * residual A M = 0 := (fro2_eq_zero _).1 h0.symm
              have : t = 0 := by simp only [t, hz, Matrix.mul_zero, trace_zero]
              rw [this] at hl
              nlinarith
          have haK : a ≤ K * g := hu.trans (mul_le_mul_of_nonneg_right (by rw [hK]; nlinarith [sq_nonneg c]) hg)
          have ht : (c * g) ^ 2 ≤ t ^ 2 := pow_le_pow_left₀ (by positivity) hl 2
          have h1 : fro2 (residual A M') = g - t ^ 2 / a := by
            field_simp
            linarith
          rw [h1]
          have h2 : c ^ 2 / K * g ≤ t ^ 2 / a := by
            rw [le_div_iff₀ hap]
            calc c ^ 2 / K * g * a ≤ c ^ 2 / K * g * (K * g) := by gcongr
              _ = (c * g) ^ 2 := by field_simp
              _ ≤ t ^ 2 := ht
          linarith
      refine key.trans ?_
      rw [pow_succ (1 - c ^ 2 / K) m, mul_comm ((1 - c ^ 2 / K) ^ m), mul_assoc]
      refine mul_le_mul_of_nonneg_left hb ?_
      rw [sub_nonneg]; exact div_le_one_of_le₀ hcK hK0.le

/-- C136: the approximate inverses of a positive definite matrix converge to its inverse, whatever the estimate of the norm. -/
theorem C136_converges (A : Matrix (Fin n) (Fin n) ℝ) (hA : A.PosDef) (est ε : ℝ) (hε : 0 < ε) :
    ∃ m₀, ∀ m ≥ m₀, ∃ M, spai A est m = some M ∧ ∀ i j, |M i j - A⁻¹ i j| < ε := by
  obtain ⟨q, hq0, hq1, h⟩ := C136_contracts A hA
  set R := fro2 A⁻¹ * fro2 (1 - (2 / est) • (A * A)) + 1 with hR
  have hR0 : 0 < R := by have := fro2_nonneg A⁻¹; have := fro2_nonneg (1 - (2 / est) • (A * A)); positivity
  obtain ⟨m₀, hm₀⟩ := exists_pow_lt_of_lt_one (show 0 < ε ^ 2 / R by positivity) hq1
  refine ⟨m₀, fun m hm => ?_⟩
  obtain ⟨M, hM, hb⟩ := h est m
  refine ⟨M, hM, fun i j => ?_⟩
  have hdet : IsUnit A.det := isUnit_iff_ne_zero.2 hA.det_pos.ne'
  have e : A⁻¹ - M = A⁻¹ * (1 - A * M) := by
    rw [Matrix.mul_sub, Matrix.mul_one, ← Matrix.mul_assoc, nonsing_inv_mul _ hdet, Matrix.one_mul]
  have h1 : (M i j - A⁻¹ i j) ^ 2 ≤ fro2 (A⁻¹ - M) := by
    unfold fro2
    refine le_trans ?_ (single_le_sum (f := fun i => ∑ j, (A⁻¹ - M) i j ^ 2) (fun i _ => sum_nonneg fun _ _ => sq_nonneg _) (mem_univ i))
    refine le_trans (le_of_eq ?_) (single_le_sum (f := fun j => (A⁻¹ - M) i j ^ 2) (fun _ _ => sq_nonneg _) (mem_univ j))
    simp only [Matrix.sub_apply]
    ring
  have h2 : fro2 (A⁻¹ - M) ≤ q ^ m * R := by
    rw [e]
    refine (fro2_mul_le _ _).trans ((mul_le_mul_of_nonneg_left hb (fro2_nonneg _)).trans ?_)
    have : 0 ≤ q ^ m := pow_nonneg hq0 m
    rw [hR]
    nlinarith
  have h3 : q ^ m * R < ε ^ 2 := by
    have : q ^ m ≤ q ^ m₀ := pow_le_pow_of_le_one hq0 hq1.le hm
    calc q ^ m * R ≤ q ^ m₀ * R := by gcongr
      _ < ε ^ 2 / R * R := by gcongr
      _ = ε ^ 2 := by field_simp
  exact abs_lt_of_sq_lt_sq (h1.trans_lt (h2.trans_lt h3)) hε.le

/-- C136 (partial): once the residual is below 1, the approximate inverse of a positive definite matrix is positive definite,
as CG and MINRES require of a preconditioner. -/
theorem C136_posdef_partial (A : Matrix (Fin n) (Fin n) ℝ) (hA : A.PosDef) (est : ℝ) (m : ℕ) (M : Matrix (Fin n) (Fin n) ℝ)
    (h : spai A est m = some M) (hr : fro2 (1 - A * M) < 1) : M.PosDef := by
  have hAs : A.IsSymm := by
    have := hA.1
    rwa [IsHermitian, conjTranspose_eq_transpose_of_trivial] at this
  obtain ⟨hs, _⟩ := C136_symmetric A hAs est m M h
  have hM : M.IsHermitian := by
    rw [IsHermitian, conjTranspose_eq_transpose_of_trivial]; exact hs
  rw [hM.posDef_iff_eigenvalues_pos]
  intro i
  set v : Fin n → ℝ := ⇑(hM.eigenvectorBasis i) with hv
  have hMv : M *ᵥ v = hM.eigenvalues i • v := hM.mulVec_eigenvectorBasis i
  have hv0 : v ≠ 0 := by
    intro h0
    have h1 := hM.eigenvectorBasis.orthonormal.1 i
    have h2 : hM.eigenvectorBasis i = 0 := by
      ext k
      exact congrFun h0 k
    rw [h2, norm_zero] at h1
    exact zero_ne_one h1
  have hvv : 0 < v ⬝ᵥ v := by
    rw [lt_iff_le_and_ne]
    refine ⟨sum_nonneg fun k _ => mul_self_nonneg _, fun h => hv0 (dotProduct_self_eq_zero.1 h.symm)⟩
  have hAv : 0 < v ⬝ᵥ (A *ᵥ v) := by
    have := hA.dotProduct_mulVec_pos hv0
    simpa using this
  -- the residual as a form
  set G := 1 - A * M with hG
  have hform : v ⬝ᵥ (A *ᵥ (M *ᵥ v)) = v ⬝ᵥ v - v ⬝ᵥ (G *ᵥ v) := by
    rw [hG, sub_mulVec, one_mulVec, dotProduct_sub, mulVec_mulVec]; ring
  have hbound : (v ⬝ᵥ (G *ᵥ v)) ^ 2 ≤ fro2 G * (v ⬝ᵥ v) ^ 2 := by
    have h1 : (v ⬝ᵥ (G *ᵥ v)) ^ 2 ≤ (∑ k, v k ^ 2) * ∑ k, (G *ᵥ v) k ^ 2 := sum_mul_sq_le_sq_mul_sq _ _ _
    have h2 : ∑ k, (G *ᵥ v) k ^ 2 ≤ fro2 G * ∑ k, v k ^ 2 := by
      unfold fro2
      rw [sum_mul]
      exact sum_le_sum fun k _ => sum_mul_sq_le_sq_mul_sq univ (fun l => G k l) v
    have h3 : v ⬝ᵥ v = ∑ k, v k ^ 2 := sum_congr rfl fun k _ => (pow_two _).symm
    rw [h3]
    have h4 : 0 ≤ ∑ k, v k ^ 2 := sum_nonneg fun _ _ => sq_nonneg _
    nlinarith
  have hlt : v ⬝ᵥ (G *ᵥ v) < v ⬝ᵥ v := by
    refine lt_of_le_of_lt (le_abs_self _) (abs_lt_of_sq_lt_sq (hbound.trans_lt ?_) hvv.le)
    nlinarith [sq_pos_of_pos hvv]
  have hpos : 0 < hM.eigenvalues i * (v ⬝ᵥ (A *ᵥ v)) := by
    have : v ⬝ᵥ (A *ᵥ (M *ᵥ v)) = hM.eigenvalues i * (v ⬝ᵥ (A *ᵥ v)) := by
      rw [hMv, mulVec_smul, dotProduct_smul, smul_eq_mul]
    rw [← this, hform]
    linarith
  exact (pos_iff_pos_of_mul_pos hpos).2 hAv

/-! ### Diagonal matrices -/

theorem residual_diagonal (d w : Fin n → ℝ) :
    residual (diagonal d) (diagonal w) = diagonal fun i => 1 - d i * w i := by
  unfold residual
  rw [diagonal_mul_diagonal, ← diagonal_one, diagonal_sub]

theorem fro2_diagonal (d : Fin n → ℝ) : fro2 (diagonal d) = ∑ i, d i ^ 2 := by
  unfold fro2
  refine sum_congr rfl fun i _ => ?_
  rw [sum_eq_single i (fun j _ hj => by rw [diagonal_apply_ne' _ hj]; simp) (by simp), diagonal_apply_eq]

/-- One step on a diagonal matrix. -/
theorem step_diagonal (d w r : Fin n → ℝ) (hr : ∀ i, r i = 1 - d i * w i) (i₀ : Fin n) (h0 : d i₀ * r i₀ ≠ 0) :
    spaiStep (diagonal d) (diagonal w) =
      some (diagonal fun i => w i + (∑ k, d k * r k ^ 2) / (∑ k, (d k * r k) ^ 2) * r i) := by
  classical
  have hres : (1 : Matrix (Fin n) (Fin n) ℝ) - diagonal d * diagonal w = diagonal r := by
    have := residual_diagonal d w
    unfold residual at this
    rw [this]
    congr 1
    funext i
    exact (hr i).symm
  unfold spaiStep
  simp only [hres]
  simp only [diagonal_mul_diagonal]
  have hne : diagonal (fun i => d i * r i) ≠ 0 := by
    intro h
    have := congrFun (congrFun h i₀) i₀
    rw [diagonal_apply_eq] at this
    exact h0 this
  rw [if_neg hne, diagonal_transpose, diagonal_mul_diagonal, trace_diagonal, fro2_diagonal]
  congr 1
  rw [← diagonal_smul, diagonal_add]
  congr 1
  funext i
  simp only [Pi.smul_apply, smul_eq_mul]
  congr 3
  exact sum_congr rfl fun k _ => by ring

/-- C136 is violated for singular matrices: for `diag(1, 0)` the second step divides zero by zero and the result has NaN
entries; the first step still gave a matrix. -/
theorem C136_singular_violated :
    spai (diagonal ![1, 0]) 1 1 = some (1 : Matrix (Fin 2) (Fin 2) ℝ) ∧ ∀ m, spai (diagonal ![1, 0] : Matrix (Fin 2) (Fin 2) ℝ) 1 (m + 2) = none := by
  have h0 : spai (diagonal ![1, 0] : Matrix (Fin 2) (Fin 2) ℝ) 1 0 = some (diagonal ![2, 0]) := by
    simp only [spai]
    rw [← diagonal_smul]
    congr 2
    funext i
    fin_cases i <;> simp
  have h1 : spai (diagonal ![1, 0] : Matrix (Fin 2) (Fin 2) ℝ) 1 1 = some 1 := by
    rw [spai, h0, Option.bind_some, step_diagonal _ _ ![-1, 1] (by intro i; fin_cases i <;> norm_num) 0 (by norm_num)]
    congr 1
    rw [← diagonal_one]
    congr 1
    funext i
    fin_cases i <;> norm_num [Fin.sum_univ_two]
  refine ⟨h1, fun m => ?_⟩
  induction m with
  | zero =>
    rw [spai, h1, Option.bind_some]
    have hG : (1 : Matrix (Fin 2) (Fin 2) ℝ) - diagonal ![1, 0] * 1 = diagonal ![0, 1] := by
      rw [Matrix.mul_one, ← diagonal_one, diagonal_sub]
      congr 1
      funext i
      fin_cases i <;> norm_num
    unfold spaiStep
    simp only [hG]
    have h2 : (diagonal ![1, 0] : Matrix (Fin 2) (Fin 2) ℝ) * diagonal ![0, 1] = 0 := by
      rw [diagonal_mul_diagonal, ← diagonal_zero]
      congr 1
      funext i
      fin_cases i <;> norm_num
    have h3 : (diagonal ![0, 1] : Matrix (Fin 2) (Fin 2) ℝ) ≠ 0 := by
      intro h
      have := congrFun (congrFun h 1) 1
      simp at this
    rw [if_pos h2, if_neg h3]
  | succ m ih => rw [spai, ih]; rfl

/-- A diagonal matrix with one large entry. -/
def spike : Fin 13 → ℝ := fun i => if i = 0 then 4 else 1

theorem sum_spike (f : Fin 13 → ℝ) (c : ℝ) (hf : ∀ i, i ≠ 0 → f i = c) : ∑ i, f i = f 0 + 12 * c := by
  rw [Fin.sum_univ_succ, sum_congr rfl fun i _ => hf (Fin.succ i) (Fin.succ_ne_zero i)]
  simp

/-- C136 is violated as a preconditioner: one step on the positive definite `diag(4, 1, ..., 1)` of size 13 gives a matrix
with a negative diagonal entry (with 16 the exact norm of `A Aᵀ`). -/
theorem C136_indefinite_violated :
    (diagonal spike).PosDef ∧ ∃ M, spai (diagonal spike) 16 1 = some M ∧ M 0 0 < 0 := by
  refine ⟨?_, ?_⟩
  · rw [posDef_diagonal_iff]
    intro i
    unfold spike
    split_ifs <;> norm_num
  · have h0 : spai (diagonal spike) 16 0 = some (diagonal fun i => spike i / 8) := by
      simp only [spai]
      rw [← diagonal_smul]
      congr 2
      funext i
      simp only [Pi.smul_apply, smul_eq_mul]
      ring
    refine ⟨_, by
      rw [spai, h0, Option.bind_some, step_diagonal spike _ (fun i => 1 - spike i * (spike i / 8)) (fun _ => rfl) 0
        (by norm_num [spike])], ?_⟩
    rw [diagonal_apply_eq, sum_spike _ (49 / 64) (fun i hi => by simp only [spike, if_neg hi]; norm_num),
      sum_spike _ (49 / 64) (fun i hi => by simp only [spike, if_neg hi]; norm_num)]
    norm_num [spike]

/-- A positive definite matrix that is not diagonal: its approximate inverses converge. -/
example (ε : ℝ) (hε : 0 < ε) : ∃ m₀, ∀ m ≥ m₀, ∃ M, spai !![2, 1; 1, 2] 9 m = some M ∧
    ∀ i j, |M i j - (!![2, 1; 1, 2] : Matrix (Fin 2) (Fin 2) ℝ)⁻¹ i j| < ε := by
  refine C136_converges _ ?_ 9 ε hε
  refine .of_dotProduct_mulVec_pos ?_ fun x hx => ?_
  · ext i j
    fin_cases i <;> fin_cases j <;> simp
  · have hx' : x 0 ≠ 0 ∨ x 1 ≠ 0 := by
      by_contra h
      push Not at h
      exact hx (by funext i; fin_cases i; exacts [h.1, h.2])
    simp only [dotProduct, mulVec, Fin.sum_univ_two, star_trivial, of_apply, cons_val_zero, cons_val_one, cons_val', cons_val_fin_one]
    rcases hx' with h | h
    · nlinarith [sq_pos_of_ne_zero h, sq_nonneg (x 0 + x 1), sq_nonneg (x 1)]
    · nlinarith [sq_pos_of_ne_zero h, sq_nonneg (x 0 + x 1), sq_nonneg (x 0)]

/-- In one dimension one step finds the inverse. -/
example : spai (diagonal ![2] : Matrix (Fin 1) (Fin 1) ℝ) 4 1 = some (diagonal ![1 / 2]) := by
  have h0 : spai (diagonal ![2] : Matrix (Fin 1) (Fin 1) ℝ) 4 0 = some (diagonal ![1]) := by
    simp only [spai]
    rw [← diagonal_smul]
    congr 2
    funext i
    fin_cases i
    norm_num
  rw [spai, h0, Option.bind_some, step_diagonal _ _ ![-1] (by intro i; fin_cases i; norm_num) 0 (by norm_num)]
  congr 2
  funext i
  fin_cases i
  norm_num

end Verif.LinAlg
