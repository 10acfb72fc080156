import Verif.GP.PostLemmas

/-! What `posteriorCovariance` returns in a consistent state, and positivity of joint covariances. -/

namespace Verif.GP

open Finset Verif.LinAlg Matrix

variable {α H : Type}

/-- The two lists of variances `posteriorCovariance` can start from are the diagonal of the specification. -/
theorem posteriorCovariance_eq {gp : GP α H} (hc : Consistent gp) (hpd : (KVmat gp.cfg gp.data gp.hps).PosDef)
    (xs : List α) (vo : Bool) (chunk : ℕ) (junk : NMat) :
    ∃ v S, posteriorCovariance gp xs vo false chunk junk = .ok (v, S) ∧
      (∀ i : Fin xs.length, v i = max 0 (specCov gp.cfg gp.data gp.hps xs i i)) ∧
      (vo = false → ∃ T, S = some T ∧ ∀ i j : Fin xs.length,
        T i j = if i = j then max 0 (specCov gp.cfg gp.data gp.hps xs i i)
          else specCov gp.cfg gp.data gp.hps xs i j) ∧
      (∀ T, vo = true → S = some T → ∀ i j : Fin xs.length, T i j = specCov gp.cfg gp.data gp.hps xs i j) := by
  classical
  have hclip : ∀ w : ℕ → ℝ, (∀ i : Fin xs.length, w i = specCov gp.cfg gp.data gp.hps xs i i) →
      ∀ i : Fin xs.length,
        (if ∃ i < xs.length, w i < 0 then fun i => if w i < 0 then 0 else w i else w) i
          = max 0 (specCov gp.cfg gp.data gp.hps xs i i) := by
    intro w hw i
    by_cases hneg : ∃ i < xs.length, w i < 0
    · rw [if_pos hneg]
      by_cases hi : w i < 0
      · simp only [hi, if_true]
        rw [max_eq_left]
        rw [← hw i]; exact hi.le
      · simp only [hi, if_false]
        rw [max_eq_right, hw i]
        rw [← hw i]; exact not_lt.1 hi
    · rw [if_neg hneg, max_eq_right, hw i]
      rw [← hw i]
      exact not_lt.1 fun h => hneg ⟨i, i.2, h⟩
  have hgen : ∀ i j : Fin xs.length, _ := consistent_cross hc hpd xs chunk junk
  unfold posteriorCovariance clippedCovariance
  simp only [Bool.false_eq_true, if_false]
  split
  · rename_i I h1 h2
    have hvo : vo = true := by revert h2; cases vo <;> simp
    subst hvo
    refine ⟨_, _, rfl, hclip _ fun i => ?_, by simp, ?_⟩
    · exact consistent_einsum hc _ (by assumption) xs i
    · simp
  · refine ⟨_, _, rfl, hclip _ fun i => hgen i i, ?_, ?_⟩
    · intro hvo
      subst hvo
      by_cases hneg : ∃ i < xs.length, gram (gp.cfg.kernel gp.hps) xs xs i i
          - crossSolveProduct gp.kv.factor gp.data.x.length xs.length
            (gram (gp.cfg.kernel gp.hps) gp.data.x xs) chunk junk i i < 0
      · refine ⟨_, by simp only [hneg, and_self, if_true, Option.map_some]; rfl, fun i j => ?_⟩
        by_cases hij : i = j
        · subst hij
          simp only [if_true]
          have := hclip (fun i => gram (gp.cfg.kernel gp.hps) xs xs i i
            - crossSolveProduct gp.kv.factor gp.data.x.length xs.length
              (gram (gp.cfg.kernel gp.hps) gp.data.x xs) chunk junk i i) (fun i => hgen i i) i
          rw [if_pos hneg] at this
          exact this
        · have : (i : ℕ) ≠ j := fun h => hij (Fin.ext h)
          simp only [hij, this, if_false]
          exact hgen i j
      · refine ⟨_, by simp only [hneg, false_and, if_false]; rfl, fun i j => ?_⟩
        have := hgen i j
        by_cases hij : i = j
        · subst hij
          simp only [if_true]
          rw [max_eq_right]
          · exact this
          · have h0 : ¬ (_ < (0:ℝ)) := fun h => hneg ⟨i, i.2, h⟩
            rw [this] at h0
            exact not_lt.1 h0
        · simp only [hij, if_false]
          exact this
    · intro T hvo hT i j
      subst hvo
      simp at hT
      rw [← hT]
      exact hgen i j

/-- Kernel matrices of a positive semidefinite kernel are positive semidefinite. -/
theorem kernelMat_posSemidef {k : α → α → ℝ} (hk : IsPSDKernel k) {n : Type*} [Fintype n] [DecidableEq n] (x : n → α) :
    (Matrix.of fun i j => k (x i) (x j)).PosSemidef := by
  apply posSemidef_of_quad
  · ext i j
    simp [hk.1 (x j) (x i)]
  · intro w
    have e := Fintype.equivFin n
    have h := hk.2 (Fintype.card n) (x ∘ e.symm) (w ∘ e.symm)
    have : w ⬝ᵥ (Matrix.of fun i j => k (x i) (x j)) *ᵥ w = ∑ i, ∑ j, w i * w j * k (x i) (x j) := by
      simp only [dotProduct, Matrix.mulVec, Matrix.of_apply, Finset.mul_sum]
      exact Finset.sum_congr rfl fun i _ => Finset.sum_congr rfl fun j _ => by ring
    rw [this]
    refine le_of_le_of_eq h ?_
    rw [← Equiv.sum_comp e.symm]
    refine Finset.sum_congr rfl fun i _ => ?_
    rw [← Equiv.sum_comp e.symm]
    rfl

theorem Kmat_posSemidef {k : α → α → ℝ} (hk : IsPSDKernel k) (xs : List α) : (Kmat k xs xs).PosSemidef :=
  kernelMat_posSemidef hk fun i : Fin xs.length => xs[i]

/-- Positive definite noise makes `K + V` positive definite. -/
theorem KVmat_posDef {c : Config α H} {d : Data α} {h : H} (hk : IsPSDKernel (c.kernel h))
    (hV : ((calcV c d h d.x).mat d.x.length).PosDef) : (KVmat c d h).PosDef :=
  Matrix.PosDef.posSemidef_add (Kmat_posSemidef hk d.x) hV

/-- The joint covariance of noisy values and predictions. -/
theorem joint_posSemidef {c : Config α H} {d : Data α} {h : H} (hk : IsPSDKernel (c.kernel h))
    (hV : ((calcV c d h d.x).mat d.x.length).PosSemidef) (xs : List α) :
    (fromBlocks (KVmat c d h) (Kmat (c.kernel h) d.x xs) (Kmat (c.kernel h) d.x xs)ᵀ
      (Kmat (c.kernel h) xs xs)).PosSemidef := by
  have h1 := kernelMat_posSemidef hk (Sum.elim (fun i : Fin d.x.length => d.x[i]) fun i : Fin xs.length => xs[i])
  have h2 : (fromBlocks ((calcV c d h d.x).mat d.x.length) 0 0 (0 : Matrix (Fin xs.length) (Fin xs.length) ℝ)).PosSemidef := by
    apply posSemidef_of_quad
    · rw [fromBlocks_transpose, transpose_of_posSemidef hV]; simp
    · intro w
      have := quad_nonneg hV (w ∘ Sum.inl)
      rw [fromBlocks_mulVec]
      simpa [dotProduct, Fintype.sum_sum_type] using this
  have h3 := h1.add h2
  convert h3 using 1
  ext i j
  rcases i with i | i <;> rcases j with j | j <;>
    simp [KVmat, Kmat, hk.1]

theorem specCov_posSemidef {c : Config α H} {d : Data α} {h : H} (hk : IsPSDKernel (c.kernel h))
    (hV : ((calcV c d h d.x).mat d.x.length).PosSemidef) (hpd : (KVmat c d h).PosDef) (xs : List α) :
    (specCov c d h xs).PosSemidef :=
  condCov_posSemidef hpd _ _ (joint_posSemidef hk hV xs)

end Verif.GP
