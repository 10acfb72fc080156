import Verif.LinAlg.CholModel
import Mathlib.Analysis.Matrix.PosDef
import Mathlib.LinearAlgebra.Matrix.Block
import Mathlib.LinearAlgebra.Matrix.ToLinearEquiv
import Mathlib.Tactic.LinearCombination
import Mathlib.Tactic.Positivity
import Mathlib.Algebra.Order.Star.Real

/-! Specification notions and helper lemmas for the Cholesky properties. -/

namespace Verif.LinAlg

open Finset

/-- Lower-triangular part of an array. -/
def low (F : ℕ → ℕ → ℝ) (i k : ℕ) : ℝ := if k ≤ i then F i k else 0

/-- Specification: the lower triangle of `F` is a Cholesky factor of the leading `n x n` block of `A`:
positive diagonal and `L Lᵀ = A`. What is stored above the diagonal does not matter. -/
def IsFactor (n : ℕ) (F A : ℕ → ℕ → ℝ) : Prop :=
  (∀ i < n, 0 < F i i) ∧ ∀ i < n, ∀ j < n, ∑ k ∈ range n, low F i k * low F j k = A i j

/-- The leading `n x n` block as a Mathlib matrix. -/
def toMat (n : ℕ) (A : ℕ → ℕ → ℝ) : Matrix (Fin n) (Fin n) ℝ := Matrix.of fun i j => A i j

theorem fsub_eq (L : ℕ → ℕ → ℝ) (b : ℕ → ℝ) (i : ℕ) :
    fsub L b i = (b i - ∑ j ∈ range i, L i j * fsub L b j) / L i i := by
  rw [fsub, Finset.sum_range]

theorem fsub_spec {L : ℕ → ℕ → ℝ} {b : ℕ → ℝ} {i : ℕ} (h : L i i ≠ 0) :
    ∑ j ∈ range i, L i j * fsub L b j + L i i * fsub L b i = b i := by
  rw [fsub_eq L b i]
  field_simp
  ring

theorem fsub_congr {L : ℕ → ℕ → ℝ} {L' : ℕ → ℕ → ℝ} {b b' : ℕ → ℝ} {n : ℕ}
    (hL : ∀ i < n, ∀ j ≤ i, L i j = L' i j) (hb : ∀ i < n, b i = b' i) :
    ∀ i < n, fsub L b i = fsub L' b' i := by
  intro i
  induction i using Nat.strong_induction_on with
  | _ i ih =>
    intro hi
    rw [fsub_eq L, fsub_eq L', hb i hi, hL i hi i le_rfl]
    congr 2
    apply Finset.sum_congr rfl
    intro j hj
    rw [Finset.mem_range] at hj
    rw [hL i hi j hj.le, ih j hj (by omega)]

theorem sum_low {F : ℕ → ℕ → ℝ} {v : ℕ → ℝ} {n j : ℕ} (hj : j < n) :
    ∑ k ∈ range n, low F j k * v k = ∑ k ∈ range j, F j k * v k + F j j * v j := by
  have h1 : ∑ k ∈ range n, low F j k * v k = ∑ k ∈ range (j + 1), low F j k * v k := by
    symm
    apply Finset.sum_subset
    · intro k hk; simp only [Finset.mem_range] at *; omega
    · intro k _ hk
      simp only [Finset.mem_range] at hk
      rw [low, if_neg (by omega), zero_mul]
  rw [h1, Finset.sum_range_succ]
  congr 1
  · apply Finset.sum_congr rfl
    intro k hk
    rw [Finset.mem_range] at hk
    rw [low, if_pos hk.le]
  · rw [low, if_pos le_rfl]

theorem fsub_low {F : ℕ → ℕ → ℝ} {b : ℕ → ℝ} {n j : ℕ} (hj : j < n) (h : F j j ≠ 0) :
    ∑ k ∈ range n, low F j k * fsub F b k = b j := by
  rw [sum_low hj, fsub_spec h]

/-- Factorisation of the grown matrix with the pivot kept symbolic. -/
theorem grow_sum {n : ℕ} {F A : ℕ → ℕ → ℝ} (hF : IsFactor n F A) (hs : ∀ j < n, A j n = A n j)
    (F' : ℕ → ℕ → ℝ) (d p : ℝ)
    (hF' : F' = fun i j =>
      if i < n then (if j < n then F i j else 0) else (if j < n then fsub F (A n) j else d))
    (hp : p * (d * d) = A n n - ∑ i ∈ range n, fsub F (A n) i * fsub F (A n) i)
    (i j : ℕ) (hi : i < n + 1) (hj : j < n + 1) :
    ∑ k ∈ range n, low F' i k * low F' j k + low F' i n * p * low F' j n = A i j := by
  have hlow : ∀ i k, i < n → k < n → low F' i k = low F i k := by
    intro i k hi hk
    subst hF'
    simp [low, hi, hk]
  have hlow0 : ∀ i, i < n → low F' i n = 0 := by
    intro i hi
    simp [low, hi]
  have hv : ∀ k, k < n → low F' n k = fsub F (A n) k := by
    intro k hk
    subst hF'
    simp [low, hk, hk.le]
  have hd : low F' n n = d := by
    subst hF'
    simp [low]
  rcases Nat.lt_succ_iff_lt_or_eq.1 hi with hi' | rfl
  · rcases Nat.lt_succ_iff_lt_or_eq.1 hj with hj' | rfl
    · rw [hlow0 i hi', zero_mul, zero_mul, add_zero, ← hF.2 i hi' j hj']
      apply Finset.sum_congr rfl
      intro k hk
      rw [Finset.mem_range] at hk
      rw [hlow i k hi' hk, hlow j k hj' hk]
    · rw [hlow0 i hi', zero_mul, zero_mul, add_zero, hs i hi', ← fsub_low (b := A _) hi' (hF.1 i hi').ne']
      apply Finset.sum_congr rfl
      intro k hk
      rw [Finset.mem_range] at hk
      rw [hlow i k hi' hk, hv k hk]
  · rcases Nat.lt_succ_iff_lt_or_eq.1 hj with hj' | rfl
    · rw [hlow0 j hj', mul_zero, add_zero, ← fsub_low (b := A _) hj' (hF.1 j hj').ne']
      apply Finset.sum_congr rfl
      intro k hk
      rw [Finset.mem_range] at hk
      rw [hlow j k hj' hk, hv k hk, mul_comm]
    · rw [hd]
      have : ∑ k ∈ range j, low F' j k * low F' j k
          = ∑ k ∈ range j, fsub F (A j) k * fsub F (A j) k := by
        apply Finset.sum_congr rfl
        intro k hk
        rw [Finset.mem_range] at hk
        rw [hv k hk]
      rw [this]
      linear_combination hp

theorem rank1_factor {n : ℕ} {F A : ℕ → ℕ → ℝ} (hF : IsFactor n F A) (hs : ∀ j < n, A j n = A n j)
    {F' : ℕ → ℕ → ℝ} (h : rank1 n F (A n) (A n n) = .ok F') : IsFactor (n + 1) F' A := by
  unfold rank1 at h
  simp only at h
  split at h
  · simp at h
  · rename_i hd
    simp only [Except.ok.injEq] at h
    have hd' : 0 < A n n - ∑ i ∈ range n, fsub F (A n) i * fsub F (A n) i := by linarith
    refine ⟨?_, ?_⟩
    · intro i hi
      rw [← h]
      by_cases h' : i < n
      · simp [h', hF.1 i h']
      · simp only [h', if_false]
        exact Real.sqrt_pos.2 hd'
    · intro i hi j hj
      have := grow_sum hF hs F' (Real.sqrt _) 1 h.symm
        (by rw [one_mul, Real.mul_self_sqrt hd'.le]) i j hi hj
      rw [Finset.sum_range_succ, ← this]
      ring

theorem toMat_low_tri (n : ℕ) (F : ℕ → ℕ → ℝ) : (toMat n (low F)).IsLowerTriangular := by
  intro i j hij
  have : (i : ℕ) < j := by simpa using hij
  simp only [toMat, low, Matrix.of_apply]
  rw [if_neg (by omega)]

theorem det_toMat_low (n : ℕ) (F : ℕ → ℕ → ℝ) :
    (toMat n (low F)).det = ∏ i : Fin n, F i i := by
  rw [Matrix.det_of_isLowerTriangular _ (toMat_low_tri n F)]
  simp [toMat, low]

theorem toMat_eq_mul {n : ℕ} {F A : ℕ → ℕ → ℝ} (hF : IsFactor n F A) :
    toMat n A = toMat n (low F) * (toMat n (low F)).transpose := by
  ext i j
  rw [Matrix.mul_apply]
  simp only [toMat, Matrix.of_apply, Matrix.transpose_apply]
  rw [← hF.2 i i.2 j j.2, Finset.sum_range]

theorem prod_diag_pos {n : ℕ} {F A : ℕ → ℕ → ℝ} (hF : IsFactor n F A) :
    0 < ∏ i : Fin n, F i i := Finset.prod_pos fun i _ => hF.1 i i.2

theorem posDef_of_factor {n : ℕ} {F A : ℕ → ℕ → ℝ} (hF : IsFactor n F A) :
    (toMat n A).PosDef := by
  rw [toMat_eq_mul hF]
  have : (toMat n (low F)).transpose = (toMat n (low F)).conjTranspose := by
    simp [Matrix.conjTranspose_eq_transpose_of_trivial]
  rw [this]
  apply Matrix.PosDef.mul_conjTranspose_self
  rw [Matrix.vecMul_injective_iff_isUnit, Matrix.isUnit_iff_isUnit_det, det_toMat_low]
  exact (prod_diag_pos hF).ne'.isUnit

/-- The determinant of the grown matrix is the squared product of the old pivots times the new one. -/
theorem det_grow {n : ℕ} {F A : ℕ → ℕ → ℝ} (hF : IsFactor n F A) (hs : ∀ j < n, A j n = A n j) :
    (toMat (n + 1) A).det = (∏ i : Fin n, F i i) ^ 2
      * (A n n - ∑ i ∈ range n, fsub F (A n) i * fsub F (A n) i) := by
  set disc := A n n - ∑ i ∈ range n, fsub F (A n) i * fsub F (A n) i with hdisc
  set F' : ℕ → ℕ → ℝ := fun i j =>
    if i < n then (if j < n then F i j else 0) else (if j < n then fsub F (A n) j else 1) with hF'
  have hmul : toMat (n + 1) A = toMat (n + 1) (low F')
      * Matrix.diagonal (fun k : Fin (n + 1) => if (k : ℕ) < n then 1 else disc)
      * (toMat (n + 1) (low F')).transpose := by
    ext i j
    rw [Matrix.mul_apply]
    simp only [Matrix.mul_diagonal]
    simp only [toMat, Matrix.of_apply, Matrix.transpose_apply]
    rw [← grow_sum hF hs F' 1 disc hF' (by rw [hdisc]; ring) i j i.2 j.2]
    rw [Fin.sum_univ_castSucc, Finset.sum_range]
    simp
  rw [hmul, Matrix.det_mul, Matrix.det_mul, Matrix.det_transpose, det_toMat_low,
    Matrix.det_diagonal, Fin.prod_univ_castSucc, Fin.prod_univ_castSucc]
  have : ∏ i : Fin n, F' (Fin.castSucc i : Fin (n + 1)) (Fin.castSucc i : Fin (n + 1))
      = ∏ i : Fin n, F i i := by
    apply Finset.prod_congr rfl
    intro i _
    simp [hF']
  rw [this]
  simp [hF']
  ring

theorem posDef_leading {n m : ℕ} {A : ℕ → ℕ → ℝ} (h : (toMat m A).PosDef) (hnm : n ≤ m) :
    (toMat n A).PosDef := by
  have := h.submatrix (e := Fin.castLE hnm) (Fin.castLE_injective hnm)
  exact this

theorem rank1_ok_iff {n : ℕ} {F A : ℕ → ℕ → ℝ} (hF : IsFactor n F A) (hs : ∀ j < n, A j n = A n j) :
    (∃ F', rank1 n F (A n) (A n n) = .ok F') ↔ (toMat (n + 1) A).PosDef := by
  constructor
  · rintro ⟨F', h⟩
    exact posDef_of_factor (rank1_factor hF hs h)
  · intro h
    have hdet := h.det_pos
    rw [det_grow hF hs] at hdet
    have hd : 0 < A n n - ∑ i ∈ range n, fsub F (A n) i * fsub F (A n) i :=
      pos_of_mul_pos_right hdet (sq_nonneg _)
    unfold rank1
    simp only
    rw [if_neg (not_le.2 hd)]
    exact ⟨_, rfl⟩

theorem rank1_congr_b {n : ℕ} {F : ℕ → ℕ → ℝ} {b b' : ℕ → ℝ} {c : ℝ} (h : ∀ j < n, b j = b' j) :
    rank1 n F b c = rank1 n F b' c := by
  have hv : ∀ i < n, fsub F b i = fsub F b' i := fsub_congr (fun _ _ _ _ => rfl) h
  unfold rank1
  have hsum : ∑ i ∈ range n, fsub F b i * fsub F b i = ∑ i ∈ range n, fsub F b' i * fsub F b' i := by
    apply Finset.sum_congr rfl
    intro i hi
    rw [Finset.mem_range] at hi
    rw [hv i hi]
  simp only [hsum]
  split
  · rfl
  · congr 1
    funext i j
    by_cases hi : i < n <;> by_cases hj : j < n <;> simp [hi, hj, hv]

/-- One iteration of the loop, with the vectors read off the symmetric new matrix. -/
theorem updateChol_succ {n N : ℕ} {L A : ℕ → ℕ → ℝ} (hnN : n ≤ N) (hs : ∀ i < N, ∀ j < N, A i j = A j i) :
    ∀ m, n + m < N → updateChol n L (n + m + 1) A
      = (updateChol n L (n + m) A >>= fun F => rank1 (n + m) F (A (n + m)) (A (n + m) (n + m))) := by
  intro m hm
  unfold updateChol
  have e1 : n + m + 1 - n = m + 1 := by omega
  have e2 : n + m - n = m := by omega
  rw [e1, e2, rankN]
  congr 1
  funext F
  apply rank1_congr_b
  intro j hj
  by_cases h : j < n
  · simp [h]
  · simp only [h, if_false]
    rw [show n + (j - n) = j by omega]
    exact hs j (by omega) _ hm

end Verif.LinAlg
