import Verif.GP.LikModel
import Verif.GP.PostProps
import Mathlib.Analysis.SpecialFunctions.Pow.Real
import Mathlib.Analysis.SpecialFunctions.Sqrt

/-! Property C37: the log marginal likelihood. -/

namespace Verif.GP

open Finset Verif.LinAlg Matrix

variable {α H : Type}

/-- Specification: the density of the multivariate normal distribution. -/
noncomputable def normalDensity {n : Type*} [Fintype n] [DecidableEq n] (A : Matrix n n ℝ) (m y : n → ℝ) : ℝ :=
  (Real.sqrt ((2 * Real.pi) ^ Fintype.card n * A.det))⁻¹ * Real.exp (-(1 / 2) * ((y - m) ⬝ᵥ A⁻¹ *ᵥ (y - m)))

theorem log_normalDensity {n : Type*} [Fintype n] [DecidableEq n] {A : Matrix n n ℝ} (hA : A.PosDef) (m y : n → ℝ) :
    Real.log (normalDensity A m y) = logNormal A m y := by
  have h2 : 0 < (2 * Real.pi) ^ Fintype.card n := pow_pos Real.two_pi_pos _
  have h3 := hA.det_pos
  rw [normalDensity, Real.log_mul (inv_ne_zero (Real.sqrt_ne_zero'.2 (mul_pos h2 h3))) (Real.exp_ne_zero _),
    Real.log_exp, Real.log_inv, Real.log_sqrt (mul_pos h2 h3).le, Real.log_mul h2.ne' h3.ne', Real.log_pow, logNormal]
  ring

/-- The specification of the returned value: the log density of the values, averaged over the output columns. -/
noncomputable def specLogLik (c : Config α H) (d : Data α) (h : H) : ℝ :=
  (∑ j ∈ range d.cols, Real.log (normalDensity (KVmat c d h) (meanAt c d h d.x) (yCol d j))) / d.cols

theorem likFormula_eq (c : Config α H) (d : Data α) (h : H) (hpd : (KVmat c d h).PosDef)
    (hy : d.y.length = d.x.length) (hcols : 1 ≤ d.cols) (m : ℕ → ℝ) (hm : m = evalAt (meanFn c d h) d.x) (B : NMat)
    (hB : ∀ (i : Fin d.x.length) (j : ℕ), B i j = ((KVmat c d h)⁻¹.mulVec fun l : Fin d.x.length => d.yMat l j - m l) i)
    (ld : ℝ) (hld : ld = Real.log (KVmat c d h).det) : likFormula d m B ld = specLogLik c d h := by
  have hmx : ∀ i : Fin d.x.length, m i = meanAt c d h d.x i := fun i => by rw [hm, evalAt_apply]; rfl
  have hc0 : (d.cols : ℝ) ≠ 0 := by positivity
  have e : ∑ i ∈ range d.y.length, ∑ j ∈ range d.cols, (d.yMat i j - m i) * B i j
      = ∑ j ∈ range d.cols, (yCol d j - meanAt c d h d.x) ⬝ᵥ (KVmat c d h)⁻¹ *ᵥ (yCol d j - meanAt c d h d.x) := by
    rw [Finset.sum_comm]
    refine Finset.sum_congr rfl fun j _ => ?_
    rw [hy, Finset.sum_range]
    refine Finset.sum_congr rfl fun i _ => ?_
    rw [hB, hmx]
    congr 1
    simp only [Matrix.mulVec, dotProduct]
    refine Finset.sum_congr rfl fun l _ => ?_
    rw [hmx]
    rfl
  simp only [likFormula, specLogLik, log_normalDensity hpd, logNormal]
  rw [e, hld, ← Finset.mul_sum, Finset.sum_add_distrib, Finset.sum_add_distrib, Finset.sum_const, Finset.sum_const,
    Finset.card_range, Fintype.card_fin, hy]
  simp only [nsmul_eq_mul]
  field_simp

theorem consistent_loglik {gp : GP α H} (hc : Consistent gp) (hpd : (KVmat gp.cfg gp.data gp.hps).PosDef)
    (hmode : gp.cfg.mode ≠ .sparseSolve) (hy : gp.data.y.length = gp.data.x.length) (hcols : 1 ≤ gp.data.cols) :
    logLikelihood gp = specLogLik gp.cfg gp.data gp.hps := by
  apply likFormula_eq gp.cfg gp.data gp.hps hpd hy hcols gp.m hc.m_eq
  · intro i j
    rw [hc.kvinvY_eq, solveY, consistent_solve hc hpd]
  · rw [hc.logdet_eq]
    obtain ⟨KV, hr, hmat⟩ := hc.repr
    rw [← hmat] at hpd ⊢
    rw [← hc.size_eq] at hpd ⊢
    exact logdet_eq gp.cfg.ext hr hpd (by rw [hc.mode_eq]; exact hmode)

theorem computeNew_ok (e : Ext) (he : SpluContract e) (mode : Mode) (hmode : mode ≠ .sparseSolve) (sp : Bool) (n : ℕ)
    (K : NMat) (V : Noise) (y : NMat) (m : ℕ → ℝ) (hfit : V.Fits n sp) (hpd : (toMat n K + V.mat n).PosDef) :
    ∃ B ld, computeNew e mode sp n K V y m = .ok (B, ld) ∧
      (∀ (i : Fin n) (j : ℕ), B i j = ((toMat n K + V.mat n)⁻¹.mulVec fun l : Fin n => y l j - m l) i) ∧
      ld = Real.log (toMat n K + V.mat n).det := by
  obtain ⟨KV, hKV, hmat⟩ := addKV_ok hfit K
  rw [← hmat] at hpd ⊢
  cases mode with
  | chol =>
    obtain ⟨F, hF, hfac⟩ := (C12_from_scratch_iff_posDef n KV e.junk (toMat_symm hpd)).2 hpd
    exact ⟨_, _, by simp only [computeNew, hKV, hF, bind, Except.bind]; rfl,
      fun i j => cholSolve_mulVec hfac _ i, C16_logdet_exact n F KV hfac⟩
  | cholInv =>
    obtain ⟨F, hF, hfac⟩ := (C12_from_scratch_iff_posDef n KV e.junk (toMat_symm hpd)).2 hpd
    exact ⟨_, _, by simp only [computeNew, hKV, hF, bind, Except.bind]; rfl,
      fun i j => cholSolve_mulVec hfac _ i, C16_logdet_exact n F KV hfac⟩
  | inv =>
    refine ⟨_, _, by
      simp only [computeNew, hKV, npInv, ne_eq, hpd.det_pos.ne', not_false_eq_true, if_true, bind, Except.bind]
      rfl, fun i j => ?_, C15_slogdet_posDef _ hpd⟩
    simp only [Finset.sum_range, Matrix.mulVec, dotProduct]
    refine Finset.sum_congr rfl fun l _ => ?_
    have := congrFun (congrFun (toMat_ofMat (toMat n KV)⁻¹) i) l
    rw [← this]
    rfl
  | sparseLU =>
    obtain ⟨f, hf⟩ := he.2 n KV hpd
    exact ⟨_, _, by simp only [computeNew, hKV, hf, bind, Except.bind]; rfl,
      fun i j => luSolve_mulVec (he.1 n KV f hf) hpd.det_pos.ne' _ i, lu_logdet (he.1 n KV f hf) hpd⟩
  | sparseSolve => exact absurd rfl hmode

/-- **C37** (explicit hyperparameters). In every mode with an exact log-determinant, whatever state the GP is in,
`log_likelihood(h')` is the multivariate normal log density of the values, averaged over the output columns. -/
theorem C37_log_likelihood_at (gp : GP α H) (h' : H) (he : SpluContract gp.cfg.ext)
    (hmode : gp.cfg.mode ≠ .sparseSolve) (ha : Admissible gp.cfg gp.data h')
    (hy : gp.data.y.length = gp.data.x.length) (hcols : 1 ≤ gp.data.cols) :
    logLikelihoodAt gp h' = .ok ((∑ j ∈ range gp.data.cols, Real.log (normalDensity (KVmat gp.cfg gp.data h')
      (meanAt gp.cfg gp.data h' gp.data.x) (yCol gp.data j))) / gp.data.cols) := by
  have hpd := ha.posDef
  rw [KVmat, ← toMat_gram] at hpd
  obtain ⟨B, ld, hcomp, hB, hld⟩ := computeNew_ok gp.cfg.ext he gp.cfg.mode hmode gp.cfg.sparseK _ _ _ gp.data.yMat
    (evalAt (meanFn gp.cfg gp.data h') gp.data.x) ha.fits hpd
  simp only [logLikelihoodAt, hcomp, bind, Except.bind]
  rw [toMat_gram] at hB hld
  rw [likFormula_eq gp.cfg gp.data h' ha.posDef hy hcols _ rfl B hB ld hld]
  rfl

/-- **C37** (stored value). After construction, `log_likelihood()` is that density for the current hyperparameters, and
it equals `log_likelihood(h)` evaluated afresh at them. -/
theorem C37_log_likelihood_stored (c : Config α H) (d : Data α) (h : H) (he : SpluContract c.ext)
    (hmode : c.mode ≠ .sparseSolve) (ha : Admissible c d h) (hy : d.y.length = d.x.length) (hcols : 1 ≤ d.cols) :
    ∃ gp, init c d h = .ok gp ∧ logLikelihoodAt gp h = .ok (logLikelihood gp) ∧
      logLikelihood gp = (∑ j ∈ range d.cols, Real.log (normalDensity (KVmat c d h) (meanAt c d h d.x) (yCol d j)))
        / d.cols := by
  obtain ⟨gp, hgp, hc, rfl, rfl, rfl⟩ := init_ok c d h he ha
  have := consistent_loglik hc ha.posDef hmode hy hcols
  refine ⟨gp, hgp, ?_, this⟩
  rw [C37_log_likelihood_at gp gp.hps he hmode ha hy hcols, this]
  rfl

/-- **C37** (one column). For one output column the value is `log N(y; m, K+V)`. -/
theorem C37_one_column (c : Config α H) (d : Data α) (h : H) (he : SpluContract c.ext)
    (hmode : c.mode ≠ .sparseSolve) (ha : Admissible c d h) (hy : d.y.length = d.x.length) (hcols : d.cols = 1) :
    ∃ gp, init c d h = .ok gp ∧
      Real.exp (logLikelihood gp) = normalDensity (KVmat c d h) (meanAt c d h d.x) (yCol d 0) := by
  obtain ⟨gp, hgp, -, hL⟩ := C37_log_likelihood_stored c d h he hmode ha hy hcols.ge
  refine ⟨gp, hgp, ?_⟩
  rw [hL, hcols]
  simp only [Finset.range_one, Finset.sum_singleton, Nat.cast_one, div_one]
  apply Real.exp_log
  have h2 : 0 < (2 * Real.pi) ^ Fintype.card (Fin d.x.length) := pow_pos Real.two_pi_pos _
  exact mul_pos (inv_pos.2 (Real.sqrt_pos.2 (mul_pos h2 ha.posDef.det_pos))) (Real.exp_pos _)

example : ∃ gp, init (exCfg .cholInv) exData 2 = .ok gp ∧
    Real.exp (logLikelihood gp)
      = normalDensity (KVmat (exCfg .cholInv) exData 2) (meanAt (exCfg .cholInv) exData 2 exData.x) (yCol exData 0) :=
  C37_one_column _ _ _ cholExt_contract (by simp [exCfg]) (exAdmissible _ _) rfl rfl

example : ∃ gp, init (exCfg .inv) exData 2 = .ok gp ∧ logLikelihoodAt gp 2 = .ok (logLikelihood gp) ∧
      logLikelihood gp = (∑ j ∈ range exData.cols, Real.log (normalDensity (KVmat (exCfg .inv) exData 2)
        (meanAt (exCfg .inv) exData 2 exData.x) (yCol exData j))) / exData.cols :=
  C37_log_likelihood_stored _ _ _ cholExt_contract (by simp [exCfg]) (exAdmissible _ _) rfl le_rfl

example (gp : GP ℝ ℝ) (h1 : gp.cfg = exCfg .sparseLU) (h2 : gp.data = exData) :
    logLikelihoodAt gp 7 = .ok ((∑ j ∈ range gp.data.cols, Real.log (normalDensity (KVmat gp.cfg gp.data 7)
      (meanAt gp.cfg gp.data 7 gp.data.x) (yCol gp.data j))) / gp.data.cols) :=
  C37_log_likelihood_at gp 7 (h1 ▸ cholExt_contract) (by rw [h1]; simp [exCfg]) (h1 ▸ h2 ▸ exAdmissible _ 7)
    (by rw [h2]; rfl) (by rw [h2]; exact le_rfl)

end Verif.GP
