import Verif.LinAlg.KrylovModel
import Mathlib.LinearAlgebra.Matrix.PosDef
import Mathlib.LinearAlgebra.Matrix.NonsingularInverse
import Mathlib.LinearAlgebra.Matrix.ToLin
import Mathlib.LinearAlgebra.FiniteDimensional.Lemmas
import Mathlib.Tactic.Linarith
import Mathlib.Tactic.Abel
import Mathlib.Tactic.NoncommRing

/-!
Invariants of the block conjugate gradient loop.
-/

namespace Verif.LinAlg

open Matrix

variable {n k : ℕ}

/-- Span of the columns of a matrix. -/
def colSpace (P : Matrix (Fin n) (Fin k) ℝ) : Submodule ℝ (Fin n → ℝ) := LinearMap.range P.mulVecLin

theorem mem_colSpace {P : Matrix (Fin n) (Fin k) ℝ} {v : Fin n → ℝ} : v ∈ colSpace P ↔ ∃ c, P *ᵥ c = v := by
  simp [colSpace]

theorem colSpace_le {P : Matrix (Fin n) (Fin k) ℝ} {W : Submodule ℝ (Fin n → ℝ)} (h : ∀ c, P *ᵥ c ∈ W) : colSpace P ≤ W := by
  rintro v hv
  obtain ⟨c, rfl⟩ := mem_colSpace.1 hv
  exact h c

theorem colSpace_mul_unit (P : Matrix (Fin n) (Fin k) ℝ) {α : Matrix (Fin k) (Fin k) ℝ} (hα : IsUnit α.det) :
    colSpace (P * α) = colSpace P := by
  apply le_antisymm
  · exact colSpace_le fun c => mem_colSpace.2 ⟨α *ᵥ c, by rw [mulVec_mulVec]⟩
  · refine colSpace_le fun c => mem_colSpace.2 ⟨α⁻¹ *ᵥ c, ?_⟩
    rw [mulVec_mulVec, Matrix.mul_assoc, Matrix.mul_nonsing_inv _ hα, Matrix.mul_one]

theorem sup_colSpace_congr {W : Submodule ℝ (Fin n → ℝ)} {P Q : Matrix (Fin n) (Fin k) ℝ}
    (h : ∀ c, (P - Q) *ᵥ c ∈ W) : W ⊔ colSpace P = W ⊔ colSpace Q := by
  have key : ∀ {P Q : Matrix (Fin n) (Fin k) ℝ}, (∀ c, (P - Q) *ᵥ c ∈ W) → W ⊔ colSpace P ≤ W ⊔ colSpace Q := by
    intro P Q h
    refine sup_le le_sup_left (colSpace_le fun c => ?_)
    have : P *ᵥ c = (P - Q) *ᵥ c + Q *ᵥ c := by rw [sub_mulVec]; abel
    rw [this]
    exact Submodule.add_mem_sup (h c) (mem_colSpace.2 ⟨c, rfl⟩)
  refine le_antisymm (key h) (key fun c => ?_)
  have : (Q - P) *ᵥ c = -((P - Q) *ᵥ c) := by rw [← neg_mulVec]; congr 1; abel
  rw [this]
  exact W.neg_mem (h c)

theorem eq_zero_of_unit {H : Matrix (Fin k) (Fin k) ℝ} (hH : IsUnit H.det) {c : Fin k → ℝ} (h : H *ᵥ c = 0) : c = 0 := by
  have := congrArg (H⁻¹ *ᵥ ·) h
  simpa only [mulVec_mulVec, Matrix.nonsing_inv_mul _ hH, one_mulVec, mulVec_zero] using this

/-- Block Krylov space: combinations of the columns of `N R`, `(N A) N R`, ..., `(N A)^(m-1) N R`. -/
def krylov (A N : Matrix (Fin n) (Fin n) ℝ) (R : Matrix (Fin n) (Fin k) ℝ) : ℕ → Submodule ℝ (Fin n → ℝ)
  | 0 => ⊥
  | m + 1 => colSpace (N * R) ⊔ (krylov A N R m).map (N * A).mulVecLin

/-- The preconditioner is the matrix `N`. -/
def PreIs (M : Option ((Fin n → ℝ) → Fin n → ℝ)) (N : Matrix (Fin n) (Fin n) ℝ) : Prop :=
  match M with
  | none => N = 1
  | some f => ∀ v, f v = N *ᵥ v

theorem applyPre_eq {M : Option ((Fin n → ℝ) → Fin n → ℝ)} {N : Matrix (Fin n) (Fin n) ℝ} (h : PreIs M N)
    (R : Matrix (Fin n) (Fin k) ℝ) : applyPre M R = N * R := by
  cases M with
  | none =>
    simp only [PreIs] at h
    simp [applyPre, h]
  | some f =>
    ext i j
    simp only [PreIs] at h
    simp only [applyPre, of_apply, h]
    rfl

/-- Contract of `np.linalg.solve`: it raises for singular matrices, and solves the system otherwise. -/
def SolveContract (solve : Matrix (Fin k) (Fin k) ℝ → Matrix (Fin k) (Fin k) ℝ → Option (Matrix (Fin k) (Fin k) ℝ)) : Prop :=
  ∀ H G, (solve H G = none ↔ ¬ IsUnit H.det) ∧ ∀ Y, solve H G = some Y → H * Y = G

/-- What holds before iteration `m`. -/
structure CGInv (A N : Matrix (Fin n) (Fin n) ℝ) (B X₀ : Matrix (Fin n) (Fin k) ℝ) (m : ℕ) (s : CGState n k) : Prop where
  resid : s.R = B - A * s.X
  dir : s.Pᵀ * s.R = s.G
  gram : s.G = s.Rᵀ * (N * s.R)
  null : ∀ c, s.G *ᵥ c = 0 → s.P *ᵥ c = N *ᵥ (s.R *ᵥ c)
  orth : ∀ v ∈ krylov A N (B - A * X₀) m, s.Rᵀ *ᵥ v = 0
  conj : ∀ v ∈ krylov A N (B - A * X₀) m, (s.Pᵀ * A) *ᵥ v = 0
  space : krylov A N (B - A * X₀) (m + 1) = krylov A N (B - A * X₀) m ⊔ colSpace s.P
  pre : ∀ c, (N * s.R) *ᵥ c ∈ krylov A N (B - A * X₀) (m + 1)
  dim : Module.finrank ℝ (krylov A N (B - A * X₀) m) = m * k
  iter : ∀ c, (s.X - X₀) *ᵥ c ∈ krylov A N (B - A * X₀) m

theorem inv_init {A N : Matrix (Fin n) (Fin n) ℝ} {M : Option ((Fin n → ℝ) → Fin n → ℝ)} (hN : Nᵀ = N) (hM : PreIs M N)
    (B X₀ : Matrix (Fin n) (Fin k) ℝ) : CGInv A N B X₀ 0 (cgInit A M B X₀) := by
  have hp : (cgInit A M B X₀).P = N * (B - A * X₀) := applyPre_eq hM _
  have hr : (cgInit A M B X₀).R = B - A * X₀ := rfl
  have hg : (cgInit A M B X₀).G = (B - A * X₀)ᵀ * (N * (B - A * X₀)) := by
    rw [← applyPre_eq hM]; rfl
  have hx : (cgInit A M B X₀).X = X₀ := rfl
  have hs : krylov A N (B - A * X₀) 1 = colSpace (N * (B - A * X₀)) := by simp [krylov]
  refine ⟨rfl, ?_, ?_, ?_, ?_, ?_, ?_, ?_, ?_, ?_⟩
  · rw [hp, hr, hg, transpose_mul, hN, Matrix.mul_assoc]
  · rw [hr, hg]
  · intro c _
    rw [hp, hr, mulVec_mulVec]
  · intro v hv
    rw [(Submodule.mem_bot ℝ).1 hv, mulVec_zero]
  · intro v hv
    rw [(Submodule.mem_bot ℝ).1 hv, mulVec_zero]
  · rw [hp, zero_add, hs, krylov, bot_sup_eq]
  · intro c
    rw [zero_add, hs, hr]
    exact mem_colSpace.2 ⟨c, rfl⟩
  · rw [krylov, finrank_bot, zero_mul]
  · intro c
    rw [hx, sub_self, zero_mulVec]
    exact Submodule.zero_mem _

/-- What an iteration that continues has computed. -/
theorem cgStep_more_iff {A : Matrix (Fin n) (Fin n) ℝ} {M : Option ((Fin n → ℝ) → Fin n → ℝ)}
    {solve : Matrix (Fin k) (Fin k) ℝ → Matrix (Fin k) (Fin k) ℝ → Option (Matrix (Fin k) (Fin k) ℝ)}
    {tol : ℝ} {B : Matrix (Fin n) (Fin k) ℝ} {s s' : CGState n k} (h : cgStep A M solve tol B s = .more s') :
    ∃ α β, solve (s.Pᵀ * (A * s.P)) s.G = some α ∧ ¬ smallResidual tol B s'.R ∧ solve s.G s'.G = some β ∧
      s'.X = s.X + s.P * α ∧ s'.R = s.R - A * s.P * α ∧ s'.P = applyPre M s'.R + s.P * β ∧
      s'.G = s'.Rᵀ * applyPre M s'.R := by
  unfold cgStep at h
  simp only at h
  split at h
  · simp at h
  · rename_i α hα
    split at h
    · simp at h
    · rename_i hsm
      split at h
      · simp at h
      · rename_i β hβ
        simp only [CGStep.more.injEq] at h
        subst h
        exact ⟨α, β, hα, hsm, hβ, rfl, rfl, rfl, rfl⟩

/-- Effect of the first half of an iteration: the new iterate, its residual and the space they belong to. -/
theorem half_step {A N : Matrix (Fin n) (Fin n) ℝ} (hA : Aᵀ = A) {B X₀ : Matrix (Fin n) (Fin k) ℝ} {m : ℕ} {s : CGState n k}
    (hi : CGInv A N B X₀ m s) {α : Matrix (Fin k) (Fin k) ℝ} (hH : s.Pᵀ * (A * s.P) * α = s.G)
    (uH : IsUnit (s.Pᵀ * (A * s.P)).det) :
    s.R - A * s.P * α = B - A * (s.X + s.P * α) ∧ s.Pᵀ * (s.R - A * s.P * α) = 0 ∧
      (∀ v ∈ krylov A N (B - A * X₀) (m + 1), (s.R - A * s.P * α)ᵀ *ᵥ v = 0) ∧
      (∀ c, (s.X + s.P * α - X₀) *ᵥ c ∈ krylov A N (B - A * X₀) (m + 1)) ∧
      Module.finrank ℝ (krylov A N (B - A * X₀) (m + 1)) = (m + 1) * k := by
  have hPR : s.Pᵀ * (s.R - A * s.P * α) = 0 := by
    rw [Matrix.mul_sub, hi.dir, ← Matrix.mul_assoc, hH, sub_self]
  refine ⟨?_, hPR, ?_, ?_, ?_⟩
  · rw [hi.resid, Matrix.mul_add, Matrix.mul_assoc]; abel
  · intro v hv
    rw [hi.space] at hv
    obtain ⟨v₁, hv₁, v₂, hv₂, rfl⟩ := Submodule.mem_sup.1 hv
    obtain ⟨c, rfl⟩ := mem_colSpace.1 hv₂
    rw [mulVec_add]
    have e1 : (s.R - A * s.P * α)ᵀ *ᵥ v₁ = 0 := by
      rw [transpose_sub, sub_mulVec, hi.orth v₁ hv₁, transpose_mul, transpose_mul, hA, ← mulVec_mulVec,
        hi.conj v₁ hv₁, mulVec_zero, sub_zero]
    have e2 : (s.R - A * s.P * α)ᵀ *ᵥ s.P *ᵥ c = 0 := by
      rw [mulVec_mulVec]
      have : (s.R - A * s.P * α)ᵀ * s.P = 0 := by
        have := congrArg transpose hPR
        rwa [transpose_mul, transpose_transpose, transpose_zero] at this
      rw [this, zero_mulVec]
    rw [e1, e2, add_zero]
  · intro c
    have : (s.X + s.P * α - X₀) *ᵥ c = (s.X - X₀) *ᵥ c + s.P *ᵥ (α *ᵥ c) := by
      rw [mulVec_mulVec, ← add_mulVec]
      congr 1
      abel
    rw [this, hi.space]
    exact Submodule.add_mem_sup (hi.iter c) (mem_colSpace.2 ⟨_, rfl⟩)
  · have hinj : Function.Injective s.P.mulVecLin := by
      rw [← LinearMap.ker_eq_bot, LinearMap.ker_eq_bot']
      intro c hc
      have e : (s.Pᵀ * (A * s.P)) *ᵥ c = 0 := by
        have : s.P *ᵥ c = 0 := hc
        rw [← mulVec_mulVec, ← mulVec_mulVec, this, mulVec_zero, mulVec_zero]
      exact eq_zero_of_unit uH e
    have hdisj : krylov A N (B - A * X₀) m ⊓ colSpace s.P = ⊥ := by
      rw [eq_bot_iff]
      rintro v ⟨hv, hv2⟩
      obtain ⟨c, rfl⟩ := mem_colSpace.1 hv2
      have e := hi.conj _ hv
      rw [mulVec_mulVec, Matrix.mul_assoc] at e
      rw [eq_zero_of_unit uH e, mulVec_zero]
      exact Submodule.zero_mem _
    have h3 := Submodule.finrank_sup_add_finrank_inf_eq (krylov A N (B - A * X₀) m) (colSpace s.P)
    rw [hdisj, finrank_bot, add_zero, ← hi.space, hi.dim] at h3
    rw [h3]
    have : Module.finrank ℝ (colSpace s.P) = k := by
      unfold colSpace
      rw [LinearMap.finrank_range_of_inj hinj]
      simp
    rw [this]
    ring

theorem inv_step {A N : Matrix (Fin n) (Fin n) ℝ} {M : Option ((Fin n → ℝ) → Fin n → ℝ)} (hA : Aᵀ = A) (hN : Nᵀ = N)
    (hM : PreIs M N)
    {solve : Matrix (Fin k) (Fin k) ℝ → Matrix (Fin k) (Fin k) ℝ → Option (Matrix (Fin k) (Fin k) ℝ)}
    (hsolve : SolveContract solve) {tol : ℝ} {B X₀ : Matrix (Fin n) (Fin k) ℝ} {m : ℕ} {s s' : CGState n k}
    (hi : CGInv A N B X₀ m s) (h : cgStep A M solve tol B s = .more s') : CGInv A N B X₀ (m + 1) s' := by
  obtain ⟨α, β, h1, -, h2, hX, hR, hP, hG⟩ := cgStep_more_iff h
  rw [applyPre_eq hM] at hP hG
  have hH := (hsolve _ _).2 _ h1
  have hGβ := (hsolve _ _).2 _ h2
  have uH : IsUnit (s.Pᵀ * (A * s.P)).det := by
    by_contra hc
    rw [((hsolve _ _).1).2 hc] at h1
    simp at h1
  have uG : IsUnit s.G.det := by
    by_contra hc
    rw [((hsolve _ _).1).2 hc] at h2
    simp at h2
  have uα : IsUnit α.det := by
    have : (s.Pᵀ * (A * s.P)).det * α.det = s.G.det := by rw [← det_mul, hH]
    rw [← this] at uG
    exact (IsUnit.mul_iff.1 uG).2
  have hGt : s.Gᵀ = s.G := by
    rw [hi.gram]
    simp only [transpose_mul, transpose_transpose, hN, Matrix.mul_assoc]
  have hGt' : s'.Gᵀ = s'.G := by
    rw [hG]
    simp only [transpose_mul, transpose_transpose, hN, Matrix.mul_assoc]
  -- the new residual is orthogonal to the directions used so far
  obtain ⟨hres, hPR, orth', hiter, hdim⟩ := half_step hA hi hH uH
  rw [← hR] at hres hPR orth'
  have hZ : s'.Rᵀ * (N * s.R) = 0 := by
    ext i j
    have := congrFun (orth' _ (hi.pre (Pi.single j 1))) i
    rw [mulVec_mulVec, mulVec_single_one] at this
    exact this
  have hNAP : N * A * s.P * α = N * s.R - N * s'.R := by
    rw [hR, Matrix.mul_sub]
    simp only [Matrix.mul_assoc]
    abel
  have space' : krylov A N (B - A * X₀) (m + 1 + 1) = krylov A N (B - A * X₀) (m + 1) ⊔ colSpace s'.P := by
    have e1 : krylov A N (B - A * X₀) (m + 1 + 1) = krylov A N (B - A * X₀) (m + 1) ⊔ colSpace (N * A * s.P) := by
      rw [krylov, hi.space, Submodule.map_sup]
      have : (colSpace s.P).map (N * A).mulVecLin = colSpace (N * A * s.P) := by
        unfold colSpace
        rw [← LinearMap.range_comp, ← Matrix.mulVecLin_mul]
      rw [this, ← sup_assoc, ← hi.space]
      rfl
    have e2 : colSpace (N * A * s.P) = colSpace (N * A * s.P * -α) := by
      refine (colSpace_mul_unit _ ?_).symm
      rw [det_neg]
      exact (isUnit_one.neg.pow _).mul uα
    rw [e1, e2]
    refine sup_colSpace_congr fun c => ?_
    have : N * A * s.P * -α - s'.P = -(N * s.R) - s.P * β := by
      rw [Matrix.mul_neg, hNAP, hP]; abel
    rw [this, sub_mulVec, neg_mulVec]
    refine Submodule.sub_mem _ (Submodule.neg_mem _ (hi.pre c)) ?_
    rw [hi.space, ← mulVec_mulVec]
    exact Submodule.mem_sup_right (mem_colSpace.2 ⟨_, rfl⟩)
  refine ⟨?_, ?_, ?_, ?_, orth', ?_, space', ?_, ?_, ?_⟩
  · rw [hX]; exact hres
  · rw [hP, transpose_add, Matrix.add_mul, transpose_mul s.P β, Matrix.mul_assoc βᵀ, hPR, Matrix.mul_zero, add_zero,
      transpose_mul, hN, Matrix.mul_assoc, hG]
  · exact hG
  · intro c hc
    have hβ : β *ᵥ c = 0 := by
      have e : s.G *ᵥ (β *ᵥ c) = 0 := by rw [mulVec_mulVec, hGβ, hc]
      exact eq_zero_of_unit uG e
    rw [hP, add_mulVec, ← mulVec_mulVec c s.P β, hβ, mulVec_zero, add_zero, mulVec_mulVec]
  · intro v hv
    have hv0 := hv
    rw [hi.space] at hv
    obtain ⟨v₁, hv₁, v₂, hv₂, rfl⟩ := Submodule.mem_sup.1 hv
    obtain ⟨c, rfl⟩ := mem_colSpace.1 hv₂
    have hPt : s'.Pᵀ * A = s'.Rᵀ * (N * A) + βᵀ * (s.Pᵀ * A) := by
      rw [hP, transpose_add, transpose_mul, transpose_mul, hN, Matrix.add_mul, Matrix.mul_assoc, Matrix.mul_assoc]
    rw [mulVec_add]
    have e1 : (s'.Pᵀ * A) *ᵥ v₁ = 0 := by
      rw [hPt, add_mulVec, ← mulVec_mulVec v₁ βᵀ, hi.conj v₁ hv₁, mulVec_zero, add_zero, ← mulVec_mulVec]
      refine orth' _ ?_
      rw [krylov]
      exact Submodule.mem_sup_right (Submodule.mem_map.2 ⟨v₁, hv₁, rfl⟩)
    have e2 : s'.Pᵀ * A * s.P = 0 := by
      have : s'.Pᵀ * A * s.P * α = 0 := by
        rw [hPt, Matrix.add_mul, Matrix.add_mul]
        have a1 : s'.Rᵀ * (N * A) * s.P * α = -s'.G := by
          have : s'.Rᵀ * (N * A) * s.P * α = s'.Rᵀ * (N * A * s.P * α) := by simp only [Matrix.mul_assoc]
          rw [this, hNAP, Matrix.mul_sub, hZ, zero_sub, hG]
        have a2 : βᵀ * (s.Pᵀ * A) * s.P * α = s'.G := by
          have : βᵀ * (s.Pᵀ * A) * s.P * α = βᵀ * (s.Pᵀ * (A * s.P) * α) := by simp only [Matrix.mul_assoc]
          rw [this, hH, ← hGt, ← transpose_mul, hGβ, hGt']
        rw [a1, a2, neg_add_cancel]
      have := congrArg (· * α⁻¹) this
      simpa [Matrix.mul_assoc, Matrix.mul_nonsing_inv _ uα] using this
    rw [e1, zero_add, mulVec_mulVec, e2, zero_mulVec]
  · intro c
    rw [space']
    have : (N * s'.R) *ᵥ c = -(s.P *ᵥ (β *ᵥ c)) + s'.P *ᵥ c := by
      rw [hP, add_mulVec, mulVec_mulVec]; abel
    rw [this]
    refine Submodule.add_mem_sup (Submodule.neg_mem _ ?_) (mem_colSpace.2 ⟨c, rfl⟩)
    rw [hi.space]
    exact Submodule.mem_sup_right (mem_colSpace.2 ⟨_, rfl⟩)
  · exact hdim
  · intro c
    rw [hX]
    exact hiter c

end Verif.LinAlg
