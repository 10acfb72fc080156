import Verif.Kernels.MaternPsd

/-!
A kernel that is not positive semidefinite makes the constructor fail for some data.
-/

namespace Verif.Kernels

open Finset Real Verif.GP Verif.LinAlg Verif.State

/-- Additional coordinates that are zero. -/
def pad {D : ℕ} (k : ℕ) (x : Fin D → ℝ) : Fin (D + k) → ℝ := Fin.append x 0

theorem pad_distance {D : ℕ} (k : ℕ) (x y : Fin D → ℝ) : distance (pad k x) (pad k y) = distance x y := by
  unfold distance pad
  rw [Fin.sum_univ_add]
  simp

/-- A model accepted in Cholesky mode has a positive definite matrix. -/
theorem accepted_posDef {α H : Type} (c : Config α H) (hm : c.mode = .chol) (d : Data α) (h : H)
    (hsym : ∀ x y, c.kernel h x y = c.kernel h y x) (v : ℕ → ℝ) (hV : calcV c d h d.x = .diag d.x.length v)
    (gp : Verif.GP.GP α H) (hok : init c d h = .ok gp) :
    (toMat d.x.length fun i j => if i = j then gram (c.kernel h) d.x d.x i i + v i else gram (c.kernel h) d.x d.x i j).PosDef := by
  set KV : NMat := fun i j => if i = j then gram (c.kernel h) d.x d.x i i + v i else gram (c.kernel h) d.x d.x i j with hKV
  have hg : ∀ i j, gram (c.kernel h) d.x d.x i j = gram (c.kernel h) d.x d.x j i := by
    intro i j
    unfold gram
    cases d.x[i]? <;> cases d.x[j]? <;> simp [hsym]
  have hs : ∀ i < d.x.length, ∀ j < d.x.length, KV i j = KV j i := by
    intro i _ j _
    by_cases hij : i = j
    · rw [hij]
    · simp only [hKV, if_neg hij, if_neg (Ne.symm hij)]
      exact hg i j
  have hadd : addKV c.sparseK d.x.length d.x.length (gram (c.kernel h) d.x d.x) (.diag d.x.length v) = .ok KV := by
    cases c.sparseK <;> simp [addKV, hKV]
  cases hF : cholFactor c.ext.junk d.x.length KV with
  | error e => simp [init, refreshFull, hV, hadd, hm, setKV, hF, bind, Except.bind] at hok
  | ok F => exact posDef_of_factor (cholFactor_factor hs hF)

/-- A symmetric kernel that is not positive semidefinite has data with positive noise variances that the constructor rejects
in Cholesky mode. -/
theorem rejected_of_not_psd {α H : Type} (c : Config α H) (hm : c.mode = .chol) (hn : c.noise = .measured) (h : H)
    (hsym : ∀ x y, c.kernel h x y = c.kernel h y x) (hk : ¬ IsPSDKernel (c.kernel h)) :
    ∃ (d : Data α) (v : List ℝ), d.noiseVar = some v ∧ v.length = d.x.length ∧ (∀ e ∈ v, 0 < e) ∧
      ∃ e, init c d h = .error e := by
  have hneg : ∃ (n : ℕ) (x : Fin n → α) (w : Fin n → ℝ), ∑ i, ∑ j, w i * w j * c.kernel h (x i) (x j) < 0 := by
    by_contra hc
    push Not at hc
    exact hk ⟨hsym, fun n x w => hc n x w⟩
  obtain ⟨n, x, w, hq⟩ := hneg
  set Q := ∑ i, ∑ j, w i * w j * c.kernel h (x i) (x j) with hQ
  set S := ∑ i, w i ^ 2 + 1 with hS
  have hS0 : 0 < S := by positivity
  set ε := -Q / S with hε
  have hε0 : 0 < ε := div_pos (by linarith) hS0
  refine ⟨⟨List.ofFn x, List.replicate n [0], 1, some (List.replicate n ε)⟩, List.replicate n ε, rfl, by simp,
    fun e he => by rw [List.eq_of_mem_replicate he]; exact hε0, ?_⟩
  cases hi : init c ⟨List.ofFn x, List.replicate n [0], 1, some (List.replicate n ε)⟩ h with
  | error e => exact ⟨e, rfl⟩
  | ok gp =>
    exfalso
    have hp := accepted_posDef _ hm _ _ hsym (fun i => (List.replicate n ε).getD i 0) (by simp [calcV, hn]) gp hi
    have hw := hp.posSemidef.dotProduct_mulVec_nonneg fun i => w (Fin.cast (by simp) i)
    have e : ∑ i, ∑ j, w i * w j * c.kernel h (x i) (x j) + ε * ∑ i, w i ^ 2 =
        ∑ i : Fin n, ∑ j : Fin n, w i * w j * (if (i : ℕ) = j then c.kernel h (x i) (x i) + ε else
          c.kernel h (x i) (x j)) := by
      rw [mul_sum, ← sum_add_distrib]
      refine sum_congr rfl fun i _ => ?_
      have : ∀ j : Fin n, w i * w j * (if (i : ℕ) = j then c.kernel h (x i) (x i) + ε else
          c.kernel h (x i) (x j)) = w i * w j * c.kernel h (x i) (x j) + if i = j then ε * w i ^ 2 else 0 := by
        intro j
        by_cases hij : i = j
        · subst hij; simp; ring
        · rw [if_neg hij, if_neg (fun h => hij (Fin.ext h)), add_zero]
      simp only [this, sum_add_distrib, sum_ite_eq, mem_univ, if_true]
    have hlt : Q + ε * ∑ i, w i ^ 2 < 0 := by
      have h1 : ε * S = -Q := by rw [hε]; field_simp
      have h2 : ε * S = ε * ∑ i, w i ^ 2 + ε := by rw [hS]; ring
      linarith
    rw [hQ, e] at hlt
    refine absurd hw (not_le.2 (lt_of_eq_of_lt ?_ hlt))
    simp only [_root_.dotProduct, Matrix.mulVec, toMat, Matrix.of_apply, mul_sum, star_trivial]
    have hlen : (List.ofFn x).length = n := List.length_ofFn
    refine Fintype.sum_equiv (finCongr hlen) _ _ fun i => Fintype.sum_equiv (finCongr hlen) _ _ fun j => ?_
    have hi' : (i : ℕ) < n := by have := i.2; simpa using this
    have hj' : (j : ℕ) < n := by have := j.2; simpa using this
    have g : ∀ i j : ℕ, ∀ (hi : i < n) (hj : j < n), gram (c.kernel h) (List.ofFn x) (List.ofFn x) i j =
        c.kernel h (x ⟨i, hi⟩) (x ⟨j, hj⟩) := by
      intro i j hi hj
      simp [gram, hi, hj]
    rw [g i i hi' hi', g i j hi' hj']
    simp [hi', finCongr_apply, Fin.cast]
    ring_nf

end Verif.Kernels
