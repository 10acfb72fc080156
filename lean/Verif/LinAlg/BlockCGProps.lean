import Verif.LinAlg.BlockCGLemmas
import Mathlib.Data.Real.StarOrdered

/-!
C141: block conjugate gradients solve every system they are given.
-/

namespace Verif.LinAlg

open Matrix

variable {n k : ℕ}

/-! ## Specification -/

/-- Error of an approximate solution in the energy norm, squared. -/
def energy (A : Matrix (Fin n) (Fin n) ℝ) (e : Fin n → ℝ) : ℝ := e ⬝ᵥ A *ᵥ e

theorem pd_symm {A : Matrix (Fin n) (Fin n) ℝ} (hA : A.PosDef) : Aᵀ = A := by
  have := hA.isHermitian
  rwa [IsHermitian, conjTranspose_eq_transpose_of_trivial] at this

theorem pd_zero {A : Matrix (Fin n) (Fin n) ℝ} (hA : A.PosDef) {v : Fin n → ℝ} (h : v ⬝ᵥ A *ᵥ v = 0) : v = 0 := by
  by_contra hv
  have := hA.dotProduct_mulVec_pos hv
  rw [star_trivial, h] at this
  exact lt_irrefl _ this

theorem pd_energy {A : Matrix (Fin n) (Fin n) ℝ} (hA : A.PosDef) (v : Fin n → ℝ) : 0 ≤ energy A v := by
  have := hA.posSemidef.dotProduct_mulVec_nonneg v
  rwa [star_trivial] at this

/-- A point of an affine space with residual orthogonal to the space has the least error in it. -/
theorem energy_best {A : Matrix (Fin n) (Fin n) ℝ} (hA : A.PosDef) {b x y xs : Fin n → ℝ} (hs : A *ᵥ xs = b)
    (h : (b - A *ᵥ x) ⬝ᵥ (y - x) = 0) : energy A (x - xs) ≤ energy A (y - xs) := by
  have e : energy A (y - xs) = energy A (x - xs) + energy A (y - x) - 2 * ((b - A *ᵥ x) ⬝ᵥ (y - x)) := by
    have hy : y - xs = (x - xs) + (y - x) := by abel
    have hr : b - A *ᵥ x = -(A *ᵥ (x - xs)) := by rw [mulVec_sub, hs]; abel
    have hsw : (x - xs) ⬝ᵥ A *ᵥ (y - x) = (A *ᵥ (x - xs)) ⬝ᵥ (y - x) := by
      rw [dotProduct_mulVec, ← mulVec_transpose, pd_symm hA]
    rw [hy, hr]
    unfold energy
    rw [mulVec_add, add_dotProduct, dotProduct_add, dotProduct_add, hsw, dotProduct_comm (y - x) (A *ᵥ (x - xs)),
      neg_dotProduct]
    ring
  rw [e, h]
  have := pd_energy hA (y - x)
  linarith

/-- The best approximation of the solution in `x₀ + W`, for every column. -/
def BestIn (A : Matrix (Fin n) (Fin n) ℝ) (B X₀ : Matrix (Fin n) (Fin k) ℝ) (W : Submodule ℝ (Fin n → ℝ))
    (X : Matrix (Fin n) (Fin k) ℝ) : Prop :=
  ∀ j, X.col j - X₀.col j ∈ W ∧ ∀ xs, A *ᵥ xs = B.col j → ∀ y, y - X₀.col j ∈ W →
    energy A (X.col j - xs) ≤ energy A (y - xs)

theorem bestIn_of_orth {A : Matrix (Fin n) (Fin n) ℝ} (hA : A.PosDef) {B X₀ X : Matrix (Fin n) (Fin k) ℝ}
    {W : Submodule ℝ (Fin n → ℝ)} (h1 : ∀ c, (X - X₀) *ᵥ c ∈ W) (h2 : ∀ v ∈ W, (B - A * X)ᵀ *ᵥ v = 0) :
    BestIn A B X₀ W X := by
  intro j
  have hj : X.col j - X₀.col j ∈ W := by
    have := h1 (Pi.single j 1)
    rwa [mulVec_single_one] at this
  refine ⟨hj, fun xs hs y hy => energy_best hA hs ?_⟩
  have hv : y - X.col j ∈ W := by
    have := W.sub_mem hy hj
    rwa [sub_sub_sub_cancel_right] at this
  have := congrFun (h2 _ hv) j
  exact this

section Loop

variable {A N : Matrix (Fin n) (Fin n) ℝ} {M : Option ((Fin n → ℝ) → Fin n → ℝ)}
  {solve : Matrix (Fin k) (Fin k) ℝ → Matrix (Fin k) (Fin k) ℝ → Option (Matrix (Fin k) (Fin k) ℝ)} {tol : ℝ}
  {B X₀ : Matrix (Fin n) (Fin k) ℝ}

/-- A singular small system has a nonzero kernel. -/
theorem exists_kernel {H : Matrix (Fin k) (Fin k) ℝ} (h : ¬ IsUnit H.det) : ∃ c ≠ 0, H *ᵥ c = 0 := by
  rw [isUnit_iff_ne_zero, not_not] at h
  obtain ⟨c, hc, h0⟩ := exists_mulVec_eq_zero_iff.2 h
  exact ⟨c, hc, h0⟩

/-- A singular Gram matrix of residuals comes from dependent residuals. -/
theorem resid_dependent (hN : N.PosDef) {m : ℕ} {s : CGState n k} (hi : CGInv A N B X₀ m s) {c : Fin k → ℝ}
    (h : s.G *ᵥ c = 0) : s.R *ᵥ c = 0 := by
  refine pd_zero hN ?_
  have e : (s.R *ᵥ c) ⬝ᵥ N *ᵥ (s.R *ᵥ c) = c ⬝ᵥ s.G *ᵥ c := by
    rw [hi.gram, ← mulVec_mulVec, ← mulVec_mulVec, dotProduct_mulVec c, vecMul_transpose]
  rw [e, h, dotProduct_zero]

/-- What an iteration that ends the loop returns. -/
theorem inv_done (hA : A.PosDef) (hN : N.PosDef) (hM : PreIs M N) (hsolve : SolveContract solve) {m : ℕ} {s : CGState n k}
    (hi : CGInv A N B X₀ m s) {X : Matrix (Fin n) (Fin k) ℝ} {code : ℕ} (h : cgStep A M solve tol B s = .done X code) :
    (∃ t, t * k ≤ n ∧ BestIn A B X₀ (krylov A N (B - A * X₀) t) X) ∧
      (code = 0 ∧ smallResidual tol B (B - A * X) ∨ code = 2 ∧ ∃ c ≠ 0, (B - A * X) *ᵥ c = 0) := by
  have hdim : ∀ W : Submodule ℝ (Fin n → ℝ), Module.finrank ℝ W ≤ n := by
    intro W
    have := Submodule.finrank_le W
    simpa using this
  unfold cgStep at h
  simp only at h
  split at h
  · rename_i hs
    simp only [CGStep.done.injEq] at h
    obtain ⟨rfl, rfl⟩ := h
    refine ⟨⟨m, by have := hdim (krylov A N (B - A * X₀) m); rwa [hi.dim] at this, ?_⟩, Or.inr ⟨rfl, ?_⟩⟩
    · refine bestIn_of_orth hA hi.iter ?_
      rw [← hi.resid]
      exact hi.orth
    · obtain ⟨c, hc, h0⟩ := exists_kernel (((hsolve _ _).1).1 hs)
      have hP : s.P *ᵥ c = 0 := by
        refine pd_zero hA ?_
        have : (s.P *ᵥ c) ⬝ᵥ A *ᵥ (s.P *ᵥ c) = c ⬝ᵥ (s.Pᵀ * (A * s.P)) *ᵥ c := by
          rw [← mulVec_mulVec, ← mulVec_mulVec, dotProduct_mulVec c, vecMul_transpose]
        rw [this, h0, dotProduct_zero]
      refine ⟨c, hc, ?_⟩
      rw [← hi.resid]
      apply resid_dependent hN hi
      have hGt : s.Gᵀ = s.G := by
        rw [hi.gram]
        simp only [transpose_mul, transpose_transpose, pd_symm hN, Matrix.mul_assoc]
      rw [← hGt, ← hi.dir, transpose_mul, transpose_transpose, ← mulVec_mulVec, hP, mulVec_zero]
  · rename_i α hα
    have hH := (hsolve _ _).2 _ hα
    have uH : IsUnit (s.Pᵀ * (A * s.P)).det := by
      by_contra hc
      rw [((hsolve _ _).1).2 hc] at hα
      simp at hα
    obtain ⟨h1, -, h2, h3, h4⟩ := half_step (pd_symm hA) hi hH uH
    have hbest : ∃ t, t * k ≤ n ∧ BestIn A B X₀ (krylov A N (B - A * X₀) t) (s.X + s.P * α) := by
      refine ⟨m + 1, by have := hdim (krylov A N (B - A * X₀) (m + 1)); rwa [h4] at this, bestIn_of_orth hA h3 ?_⟩
      rwa [← h1]
    split at h
    · rename_i hsm
      simp only [CGStep.done.injEq] at h
      obtain ⟨rfl, rfl⟩ := h
      refine ⟨hbest, Or.inl ⟨rfl, ?_⟩⟩
      rwa [h1] at hsm
    · split at h
      · rename_i hβ
        exfalso
        obtain ⟨c, hc, h0⟩ := exists_kernel (((hsolve _ _).1).1 hβ)
        have hR := resid_dependent hN hi h0
        have hP := hi.null c h0
        rw [hR, mulVec_zero] at hP
        refine hc (eq_zero_of_unit uH ?_)
        rw [← mulVec_mulVec, ← mulVec_mulVec, hP, mulVec_zero, mulVec_zero]
      · simp at h

theorem inv_loop (hA : A.PosDef) (hN : N.PosDef) (hM : PreIs M N) (hsolve : SolveContract solve) :
    ∀ (fuel m : ℕ) (s : CGState n k), CGInv A N B X₀ m s →
      (∃ t, t * k ≤ n ∧ BestIn A B X₀ (krylov A N (B - A * X₀) t) (cgLoop A M solve tol B fuel s).1) ∧
      ((cgLoop A M solve tol B fuel s).2 = 0 ∧ smallResidual tol B (B - A * (cgLoop A M solve tol B fuel s).1) ∨
        (cgLoop A M solve tol B fuel s).2 = 2 ∧ (∃ c ≠ 0, (B - A * (cgLoop A M solve tol B fuel s).1) *ᵥ c = 0) ∨
        (cgLoop A M solve tol B fuel s).2 = 1 ∧ (m + fuel) * k ≤ n) := by
  intro fuel
  induction fuel with
  | zero =>
    intro m s hi
    have hd : m * k ≤ n := by
      have := Submodule.finrank_le (krylov A N (B - A * X₀) m)
      rw [hi.dim] at this
      simpa using this
    refine ⟨⟨m, hd, ?_⟩, Or.inr (Or.inr ⟨rfl, hd⟩)⟩
    refine bestIn_of_orth hA hi.iter ?_
    change ∀ v ∈ _, (B - A * s.X)ᵀ *ᵥ v = 0
    rw [← hi.resid]
    exact hi.orth
  | succ fuel ih =>
    intro m s hi
    rw [cgLoop]
    cases hs : cgStep A M solve tol B s with
    | done X code =>
      obtain ⟨h1, h2⟩ := inv_done hA hN hM hsolve hi hs
      exact ⟨h1, h2.elim Or.inl fun h => Or.inr (Or.inl h)⟩
    | more s' =>
      have := ih (m + 1) s' (inv_step (pd_symm hA) (pd_symm hN) hM hsolve hi hs)
      rwa [show m + 1 + fuel = m + (fuel + 1) by ring] at this

end Loop

/-! ## C141 -/

/-- C141 (partial): with a positive definite matrix and preconditioner and at least two right-hand sides, every iterate has
the least error, in the energy norm, of all points that its number of iterations can reach. -/
theorem C141_iterates_best_partial {A N : Matrix (Fin n) (Fin n) ℝ} (hA : A.PosDef) (hN : N.PosDef)
    (M : Option ((Fin n → ℝ) → Fin n → ℝ)) (hM : PreIs M N)
    (solve : Matrix (Fin k) (Fin k) ℝ → Matrix (Fin k) (Fin k) ℝ → Option (Matrix (Fin k) (Fin k) ℝ))
    (hsolve : SolveContract solve) (tol : ℝ) (B X₀ : Matrix (Fin n) (Fin k) ℝ) (states : ℕ → CGState n k)
    (h0 : states 0 = cgInit A M B X₀) (m : ℕ)
    (hstep : ∀ t < m, cgStep A M solve tol B (states t) = .more (states (t + 1))) :
    BestIn A B X₀ (krylov A N (B - A * X₀) m) (states m).X ∧
      Module.finrank ℝ (krylov A N (B - A * X₀) m) = m * k := by
  have hi : ∀ t ≤ m, CGInv A N B X₀ t (states t) := by
    intro t
    induction t with
    | zero => intro _; rw [h0]; exact inv_init (pd_symm hN) hM B X₀
    | succ t ih =>
      intro ht
      exact inv_step (pd_symm hA) (pd_symm hN) hM hsolve (ih (by omega)) (hstep t (by omega))
  refine ⟨bestIn_of_orth hA (hi m le_rfl).iter ?_, (hi m le_rfl).dim⟩
  rw [← (hi m le_rfl).resid]
  exact (hi m le_rfl).orth

/-- C141 (partial): whatever the exit code, no column of the result is farther from its solution than the initial guess. -/
theorem C141_never_worse_partial {A N : Matrix (Fin n) (Fin n) ℝ} (hA : A.PosDef) (hN : N.PosDef)
    (cg : (Fin n → ℝ) → Option (Fin n → ℝ) → (Fin n → ℝ) × ℤ) (M : Option ((Fin n → ℝ) → Fin n → ℝ)) (hM : PreIs M N)
    (solve : Matrix (Fin k) (Fin k) ℝ → Matrix (Fin k) (Fin k) ℝ → Option (Matrix (Fin k) (Fin k) ℝ))
    (hsolve : SolveContract solve) (tol : ℝ) (B : Matrix (Fin n) (Fin k) ℝ) (hk : 2 ≤ k)
    (x0 : Option (Matrix (Fin n) (Fin k) ℝ)) (maxiter : Option ℤ) (X : Matrix (Fin n) (Fin k) ℝ) (code : ℤ)
    (h : blockCG cg A M solve tol B x0 maxiter = .ok (X, code)) (j : Fin k) (xs : Fin n → ℝ) (hs : A *ᵥ xs = B.col j) :
    energy A (X.col j - xs) ≤ energy A ((x0.getD 0).col j - xs) := by
  unfold blockCG at h
  rw [dif_neg (by omega), if_neg (by omega)] at h
  simp only at h
  split at h
  · simp only [Except.ok.injEq, Prod.mk.injEq] at h
    rw [h.1]
  · simp only [Except.ok.injEq, Prod.mk.injEq] at h
    rw [← h.1]
    obtain ⟨⟨t, -, hb⟩, -⟩ := inv_loop (tol := tol) hA hN hM hsolve (max (maxiter.getD (10 * n)) 1).toNat 0 _
      (inv_init (A := A) (pd_symm hN) hM B (x0.getD 0))
    refine (hb j).2 xs hs _ ?_
    rw [sub_self]
    exact Submodule.zero_mem _

/-- C141 (partial): with at least `n/k + 1` iterations, which the default limit allows, the solver either solves all columns
within the tolerance, or stops with code 2 because a combination of the systems has been solved exactly. It never runs out of
iterations, and its code 3 does not occur. -/
theorem C141_outcome_partial {A N : Matrix (Fin n) (Fin n) ℝ} (hA : A.PosDef) (hN : N.PosDef)
    (cg : (Fin n → ℝ) → Option (Fin n → ℝ) → (Fin n → ℝ) × ℤ) (M : Option ((Fin n → ℝ) → Fin n → ℝ)) (hM : PreIs M N)
    (solve : Matrix (Fin k) (Fin k) ℝ → Matrix (Fin k) (Fin k) ℝ → Option (Matrix (Fin k) (Fin k) ℝ))
    (hsolve : SolveContract solve) (tol : ℝ) (B : Matrix (Fin n) (Fin k) ℝ) (hk : 2 ≤ k)
    (x0 : Option (Matrix (Fin n) (Fin k) ℝ)) (maxiter : Option ℤ) (hmax : ∀ t, maxiter = some t → (n : ℤ) < t * k) :
    ∃ (X : Matrix (Fin n) (Fin k) ℝ) (code : ℤ), blockCG cg A M solve tol B x0 maxiter = .ok (X, code) ∧
      (code = 0 ∧ smallResidual tol B (B - A * X) ∨ code = 2 ∧ ∃ c ≠ 0, (B - A * X) *ᵥ c = 0) := by
  unfold blockCG
  rw [dif_neg (by omega), if_neg (by omega)]
  simp only
  split
  · rename_i hsm
    exact ⟨_, _, rfl, Or.inl ⟨rfl, hsm⟩⟩
  · obtain ⟨-, hb⟩ := inv_loop (tol := tol) hA hN hM hsolve (max (maxiter.getD (10 * n)) 1).toNat 0 _
      (inv_init (A := A) (pd_symm hN) hM B (x0.getD 0))
    refine ⟨_, _, rfl, ?_⟩
    rcases hb with ⟨h1, h2⟩ | ⟨h1, h2⟩ | ⟨h1, h2⟩
    · exact Or.inl ⟨by rw [h1]; rfl, h2⟩
    · exact Or.inr ⟨by rw [h1]; rfl, h2⟩
    · exfalso
      rw [zero_add] at h2
      have hlt : (n : ℤ) < (max (maxiter.getD (10 * n)) 1) * k := by
        cases maxiter with
        | none =>
          simp only [Option.getD_none]
          have : (n : ℤ) + 1 ≤ max (10 * (n : ℤ)) 1 * 2 := by omega
          nlinarith [le_max_right (10 * (n : ℤ)) 1]
        | some t =>
          simp only [Option.getD_some]
          have := hmax t rfl
          nlinarith [le_max_left t 1]
      have h3 : (((max (maxiter.getD (10 * n)) 1).toNat * k : ℕ) : ℤ) ≤ n := by exact_mod_cast h2
      rw [Nat.cast_mul, Int.toNat_of_nonneg (by have := le_max_right (maxiter.getD (10 * n)) 1; omega)] at h3
      omega

/-- Dependent residuals stop the solver at once. -/
theorem dependent_stops {A N : Matrix (Fin n) (Fin n) ℝ}
    (cg : (Fin n → ℝ) → Option (Fin n → ℝ) → (Fin n → ℝ) × ℤ) (M : Option ((Fin n → ℝ) → Fin n → ℝ)) (hM : PreIs M N)
    (solve : Matrix (Fin k) (Fin k) ℝ → Matrix (Fin k) (Fin k) ℝ → Option (Matrix (Fin k) (Fin k) ℝ))
    (hsolve : SolveContract solve) (tol : ℝ) (B : Matrix (Fin n) (Fin k) ℝ) (hk : 2 ≤ k)
    (x0 : Option (Matrix (Fin n) (Fin k) ℝ)) (maxiter : Option ℤ) (hsm : ¬ smallResidual tol B (B - A * x0.getD 0))
    {c : Fin k → ℝ} (hc : c ≠ 0) (hdep : (B - A * x0.getD 0) *ᵥ c = 0) :
    blockCG cg A M solve tol B x0 maxiter = .ok (x0.getD 0, 2) := by
  unfold blockCG
  rw [dif_neg (by omega), if_neg (by omega)]
  simp only
  rw [if_neg hsm]
  obtain ⟨f, hf⟩ : ∃ f, (max (maxiter.getD (10 * n)) 1).toNat = f + 1 := by
    have := le_max_right (maxiter.getD (10 * (n : ℤ))) 1
    exact ⟨(max (maxiter.getD (10 * n)) 1).toNat - 1, by omega⟩
  have hP : (cgInit A M B (x0.getD 0)).P *ᵥ c = 0 := by
    have : (cgInit A M B (x0.getD 0)).P = N * (B - A * x0.getD 0) := applyPre_eq hM _
    rw [this, ← mulVec_mulVec, hdep, mulVec_zero]
  have hsing : ¬ IsUnit ((cgInit A M B (x0.getD 0)).Pᵀ * (A * (cgInit A M B (x0.getD 0)).P)).det := by
    intro hu
    refine hc (eq_zero_of_unit hu ?_)
    rw [← mulVec_mulVec, ← mulVec_mulVec, hP, mulVec_zero, mulVec_zero]
  have hstep : cgStep A M solve tol B (cgInit A M B (x0.getD 0)) = .done (x0.getD 0) 2 := by
    unfold cgStep
    simp only
    rw [((hsolve _ _).1).2 hsing]
    rfl
  rw [hf, cgLoop, hstep]
  rfl

/-- C141 is violated: when the residuals of the initial guess are linearly dependent, for instance for equal or zero right-hand
sides, the initial guess itself is returned with code 2, whatever the matrix and the preconditioner. -/
theorem C141_dependent_violated {A N : Matrix (Fin n) (Fin n) ℝ}
    (cg : (Fin n → ℝ) → Option (Fin n → ℝ) → (Fin n → ℝ) × ℤ) (M : Option ((Fin n → ℝ) → Fin n → ℝ)) (hM : PreIs M N)
    (solve : Matrix (Fin k) (Fin k) ℝ → Matrix (Fin k) (Fin k) ℝ → Option (Matrix (Fin k) (Fin k) ℝ))
    (hsolve : SolveContract solve) (tol : ℝ) (B : Matrix (Fin n) (Fin k) ℝ) (hk : 2 ≤ k)
    (x0 : Option (Matrix (Fin n) (Fin k) ℝ)) (maxiter : Option ℤ) (hsm : ¬ smallResidual tol B (B - A * x0.getD 0))
    (hdep : ¬ LinearIndependent ℝ (B - A * x0.getD 0).col) :
    blockCG cg A M solve tol B x0 maxiter = .ok (x0.getD 0, 2) := by
  rw [← mulVec_injective_iff] at hdep
  have : ∃ c ≠ 0, (B - A * x0.getD 0) *ᵥ c = 0 := by
    by_contra hc
    push Not at hc
    refine hdep fun a b hab => ?_
    by_contra hne
    refine hc (a - b) (sub_ne_zero.2 hne) ?_
    rw [mulVec_sub]
    exact sub_eq_zero.2 hab
  obtain ⟨c, hc, h0⟩ := this
  exact dependent_stops cg M hM solve hsolve tol B hk x0 maxiter hsm hc h0

/-- C141 is violated whenever there are more right-hand sides than unknowns. -/
theorem C141_wide_violated {A N : Matrix (Fin n) (Fin n) ℝ}
    (cg : (Fin n → ℝ) → Option (Fin n → ℝ) → (Fin n → ℝ) × ℤ) (M : Option ((Fin n → ℝ) → Fin n → ℝ)) (hM : PreIs M N)
    (solve : Matrix (Fin k) (Fin k) ℝ → Matrix (Fin k) (Fin k) ℝ → Option (Matrix (Fin k) (Fin k) ℝ))
    (hsolve : SolveContract solve) (tol : ℝ) (B : Matrix (Fin n) (Fin k) ℝ) (hk : 2 ≤ k) (hn : n < k)
    (x0 : Option (Matrix (Fin n) (Fin k) ℝ)) (maxiter : Option ℤ) (hsm : ¬ smallResidual tol B (B - A * x0.getD 0)) :
    blockCG cg A M solve tol B x0 maxiter = .ok (x0.getD 0, 2) := by
  refine C141_dependent_violated cg M hM solve hsolve tol B hk x0 maxiter hsm fun hl => ?_
  have := hl.fintype_card_le_finrank
  simp at this
  omega

/-- C141 is violated for the block mode of `calculate_sparse_conj_grad`: one zero column, such as the covariances of a
prediction point outside the support of all data, makes every column of the result zero, with a warning. -/
theorem C141_zero_column_violated {A N : Matrix (Fin n) (Fin n) ℝ}
    (cg : (Fin n → ℝ) → Option (Fin n → ℝ) → (Fin n → ℝ) × ℤ) (M : Option ((Fin n → ℝ) → Fin n → ℝ)) (hM : PreIs M N)
    (solve : ∀ k, Matrix (Fin k) (Fin k) ℝ → Matrix (Fin k) (Fin k) ℝ → Option (Matrix (Fin k) (Fin k) ℝ))
    (hsolve : ∀ k, SolveContract (solve k)) (tol : ℝ) (htol : tol < 1) (maxiter : Option ℤ) (V : ℕ → Fin n → ℝ) (cols : ℕ)
    (i j : ℕ) (hi : i < cols) (hj : j < cols) (hVi : V i ≠ 0) (hVj : V j = 0) :
    (∀ l, (sparseConjGrad cg A M solve tol maxiter true none V none cols).1 l = 0) ∧
      (sparseConjGrad cg A M solve tol maxiter true none V none cols).2 = true := by
  have hij : i ≠ j := by rintro rfl; exact hVi hVj
  have hcols : 1 < cols := by omega
  have hmax : (max (1 : ℤ) (min (cols : ℤ) cols)).toNat = cols := by omega
  have hstarts : blockStarts cols cols = [0] := by
    have : (cols + cols - 1) / cols = 1 := by
      rw [Nat.div_eq_iff (by omega)]
      omega
    unfold blockStarts
    rw [this]
    simp
  have hw : min (0 + cols) cols - 0 = cols := by omega
  have hblock : cgOneBlock cg A M solve tol maxiter V none 0 cols = ((0 : Matrix (Fin n) (Fin cols) ℝ), (2 : ℤ)) := by
    have := dependent_stops (A := A) cg M hM (solve cols) (hsolve cols) tol (colBlock V 0 cols) (by omega) none maxiter
      (c := Pi.single ⟨j, hj⟩ 1) ?_ ?_ ?_
    · unfold cgOneBlock
      simp only [Option.map_none]
      rw [this]
      rfl
    · simp only [Option.getD_none, Matrix.mul_zero, sub_zero]
      intro hsm
      have h1 := hsm ⟨i, hi⟩
      have hpos : 0 < colNorm (colBlock V 0 cols) ⟨i, hi⟩ := by
        unfold colNorm
        rw [Real.sqrt_pos]
        obtain ⟨a, ha⟩ := Function.ne_iff.1 hVi
        refine Finset.sum_pos' (fun _ _ => sq_nonneg _) ⟨a, Finset.mem_univ _, ?_⟩
        have : colBlock V 0 cols a ⟨i, hi⟩ = V i a := by simp [colBlock]
        rw [this]
        have ha' : V i a ≠ 0 := ha
        positivity
      rw [rhsNorm, if_neg hpos.ne', div_self hpos.ne'] at h1
      linarith
    · intro h
      have := congrFun h ⟨j, hj⟩
      simp at this
    · simp only [Option.getD_none, Matrix.mul_zero, sub_zero]
      rw [mulVec_single_one]
      ext a
      have : (colBlock V 0 cols).col ⟨j, hj⟩ a = V j a := by simp [colBlock, Matrix.col]
      rw [this, hVj]
  have key : ∀ w, w = cols → (writeBlock (fun _ _ => 0) 0 (cgOneBlock cg A M solve tol maxiter V none 0 w).1 = fun _ => 0) ∧
      (cgOneBlock cg A M solve tol maxiter V none 0 w).2 = 2 := by
    rintro w rfl
    rw [hblock]
    refine ⟨?_, rfl⟩
    funext l
    unfold writeBlock
    split <;> rfl
  obtain ⟨k1, k2⟩ := key _ hw
  unfold sparseConjGrad
  rw [if_pos ⟨rfl, hcols⟩]
  simp only [Option.getD_none, hmax, hstarts, cgBlocks, k1, k2]
  exact ⟨fun _ => by trivial, by decide⟩

/-! ## Cases -/

open Classical in
/-- A `np.linalg.solve` that meets the contract. -/
noncomputable def exactSolve (k : ℕ) (H G : Matrix (Fin k) (Fin k) ℝ) : Option (Matrix (Fin k) (Fin k) ℝ) :=
  if IsUnit H.det then some (H⁻¹ * G) else none

theorem exactSolve_contract (k : ℕ) : SolveContract (exactSolve k) := by
  intro H G
  unfold exactSolve
  by_cases h : IsUnit H.det
  · refine ⟨by simp [h], fun Y hY => ?_⟩
    rw [if_pos h, Option.some.injEq] at hY
    rw [← hY, ← Matrix.mul_assoc, Matrix.mul_nonsing_inv _ h, Matrix.one_mul]
  · rw [if_neg h]
    exact ⟨⟨fun _ => h, fun _ => rfl⟩, fun Y hY => by simp at hY⟩

theorem cgLoop_one {A : Matrix (Fin n) (Fin n) ℝ} {M : Option ((Fin n → ℝ) → Fin n → ℝ)}
    {solve : Matrix (Fin k) (Fin k) ℝ → Matrix (Fin k) (Fin k) ℝ → Option (Matrix (Fin k) (Fin k) ℝ)} {tol : ℝ}
    {B : Matrix (Fin n) (Fin k) ℝ} {s : CGState n k} {α : Matrix (Fin k) (Fin k) ℝ}
    (h : solve (s.Pᵀ * (A * s.P)) s.G = some α) : (cgLoop A M solve tol B 1 s).1 = s.X + s.P * α := by
  rw [cgLoop]
  unfold cgStep
  simp only
  rw [h]
  simp only
  split
  · rename_i h1
    split at h1
    · simp only [CGStep.done.injEq] at h1
      exact h1.1.symm
    · split at h1
      · simp only [CGStep.done.injEq] at h1
        exact h1.1.symm
      · simp at h1
  · rename_i h1
    split at h1
    · simp at h1
    · split at h1
      · simp at h1
      · simp only [CGStep.more.injEq] at h1
        rw [← h1]
        rfl

/-- Without symmetry of the preconditioner, for which an incomplete LU factorisation gives no guarantee, an iteration can move
away from the solution. -/
theorem C141_nonsymmetric_violated : ∃ (M : (Fin 2 → ℝ) → Fin 2 → ℝ) (N B X : Matrix (Fin 2) (Fin 2) ℝ) (code : ℤ),
    (∀ v, M v = N *ᵥ v) ∧ IsUnit N.det ∧
      blockCG (fun _ _ => (0, 1)) (1 : Matrix (Fin 2) (Fin 2) ℝ) (some M) (exactSolve 2) (1 / 2) B none (some 1) = .ok (X, code) ∧
      energy 1 (0 - B.col 1) < energy 1 (X.col 1 - B.col 1) := by
  set N : Matrix (Fin 2) (Fin 2) ℝ := !![1, 1; 0, 1] with hN
  have hM : PreIs (some fun v => N *ᵥ v) N := fun _ => rfl
  set s := cgInit (1 : Matrix (Fin 2) (Fin 2) ℝ) (some fun v => N *ᵥ v) (1 : Matrix (Fin 2) (Fin 2) ℝ) 0 with hs
  have hP : s.P = N := by
    have : s.P = N * (1 - 1 * 0) := applyPre_eq hM _
    simpa using this
  have hG : s.G = N := by
    have : s.G = (1 - 1 * 0)ᵀ * s.P := rfl
    rw [this, hP]
    simp
  have hH : s.Pᵀ * ((1 : Matrix (Fin 2) (Fin 2) ℝ) * s.P) = !![1, 1; 1, 2] := by
    rw [hP, Matrix.one_mul, hN]
    ext i j
    fin_cases i <;> fin_cases j <;> simp [Matrix.mul_apply, Fin.sum_univ_two] <;> norm_num
  have uH : IsUnit (s.Pᵀ * ((1 : Matrix (Fin 2) (Fin 2) ℝ) * s.P)).det := by
    rw [hH, det_fin_two_of]
    norm_num
  have hα : exactSolve 2 (s.Pᵀ * ((1 : Matrix (Fin 2) (Fin 2) ℝ) * s.P)) s.G = some !![2, 1; -1, 0] := by
    rw [exactSolve, if_pos uH]
    congr 1
    have e : s.G = s.Pᵀ * ((1 : Matrix (Fin 2) (Fin 2) ℝ) * s.P) * !![2, 1; -1, 0] := by
      rw [hG, hH, hN]
      ext i j
      fin_cases i <;> fin_cases j <;> simp [Matrix.mul_apply, Fin.sum_univ_two] <;> norm_num
    rw [e, ← Matrix.mul_assoc, Matrix.nonsing_inv_mul _ uH, Matrix.one_mul]
  have hX : (cgLoop 1 (some fun v => N *ᵥ v) (exactSolve 2) (1 / 2) 1 1 s).1 = !![1, 1; -1, 0] := by
    have h0 : s.X = 0 := rfl
    rw [cgLoop_one hα, h0, hP, hN]
    ext i j
    fin_cases i <;> fin_cases j <;> simp [Matrix.mul_apply, Fin.sum_univ_two] <;> norm_num
  refine ⟨fun v => N *ᵥ v, N, 1, !![1, 1; -1, 0], (cgLoop 1 (some fun v => N *ᵥ v) (exactSolve 2) (1 / 2) 1 1 s).2,
    fun _ => rfl, by rw [hN, det_fin_two_of]; norm_num, ?_, ?_⟩
  · have hsm : ¬ smallResidual (1 / 2) (1 : Matrix (Fin 2) (Fin 2) ℝ) (1 - 1 * 0) := by
      intro h
      have := h 0
      norm_num [colNorm, rhsNorm, Fin.sum_univ_two] at this
    unfold blockCG
    rw [dif_neg (by norm_num), if_neg (by norm_num)]
    simp only [Option.getD_none, Option.getD_some]
    rw [if_neg hsm, ← hX]
    rfl
  · norm_num [energy, dotProduct, Fin.sum_univ_two, Matrix.col]

/-- The hypotheses of the theorems: a matrix with an off-diagonal entry, two systems, no preconditioner. -/
example : ∃ (X : Matrix (Fin 2) (Fin 2) ℝ) (code : ℤ),
    blockCG (fun _ _ => (0, 1)) !![2, 1; 1, 2] none (exactSolve 2) 0 !![1, 2; 0, 1] none none = .ok (X, code) ∧
      (code = 0 ∧ smallResidual 0 !![1, 2; 0, 1] (!![1, 2; 0, 1] - !![2, 1; 1, 2] * X) ∨
        code = 2 ∧ ∃ c ≠ 0, (!![1, 2; 0, 1] - !![2, 1; 1, 2] * X) *ᵥ c = 0) := by
  refine C141_outcome_partial (N := 1) ?_ PosDef.one _ none (by rfl) _ (exactSolve_contract 2) _ _ le_rfl _ _ (by simp)
  refine PosDef.of_dotProduct_mulVec_pos ?_ fun x hx => ?_
  · ext i j; fin_cases i <;> fin_cases j <;> rfl
  · have e : star x ⬝ᵥ !![(2 : ℝ), 1; 1, 2] *ᵥ x = x 0 ^ 2 + x 1 ^ 2 + (x 0 + x 1) ^ 2 := by
      simp [dotProduct, mulVec, Fin.sum_univ_two]
      ring
    rw [e]
    by_contra hc
    have h0 : x 0 = 0 := by nlinarith [sq_nonneg (x 0), sq_nonneg (x 1), sq_nonneg (x 0 + x 1)]
    have h1 : x 1 = 0 := by nlinarith [sq_nonneg (x 0), sq_nonneg (x 1), sq_nonneg (x 0 + x 1)]
    exact hx (by ext i; fin_cases i <;> assumption)

/-- Two prediction points, the second outside the support of the data. -/
example (cg : (Fin 2 → ℝ) → Option (Fin 2 → ℝ) → (Fin 2 → ℝ) × ℤ) (A : Matrix (Fin 2) (Fin 2) ℝ) :
    (sparseConjGrad cg A none exactSolve (1 / 100000) none true none
      (fun j => if j = 0 then ![1, 1 / 2] else 0) none 2).1 0 = 0 :=
  (C141_zero_column_violated (N := 1) cg none rfl exactSolve exactSolve_contract _ (by norm_num) none _ 2 0 1 (by norm_num)
    (by norm_num) (by simp) (by simp)).1 0

end Verif.LinAlg
