import Verif.GP.GradModel
import Verif.GP.MatCalc
import Verif.GP.LikProps
import Verif.GP.InfoProps

/-! Properties C38 (gradient) and C39 (Hessian). -/

namespace Verif.GP

open Finset Verif.LinAlg Matrix

variable {α : Type} {p : ℕ}

/-! ## C38 -/

/-- The derivative of the negative log density along a curve of covariances and means. -/
theorem hasDerivAt_negLogNormal {n : ℕ} {A : ℝ → Matrix (Fin n) (Fin n) ℝ} {D : Matrix (Fin n) (Fin n) ℝ} {t : ℝ}
    (h : MatHasDeriv A D t) (hpd : (A t).PosDef) {m : ℝ → Fin n → ℝ} {m' : Fin n → ℝ}
    (hm : ∀ i, HasDerivAt (fun s => m s i) (m' i) t) (y : Fin n → ℝ) :
    HasDerivAt (fun s => -logNormal (A s) (m s) y)
      (-(1 / 2) * ((((A t)⁻¹ *ᵥ (y - m t)) ⬝ᵥ D *ᵥ ((A t)⁻¹ *ᵥ (y - m t))) - ((A t)⁻¹ * D).trace)
        + -(m' ⬝ᵥ (A t)⁻¹ *ᵥ (y - m t))) t := by
  have hr : ∀ i, HasDerivAt (fun s => (y - m s) i) ((-m') i) t := fun i => by
    exact (hm i).const_sub (y i)
  have hq := hasDerivAt_quad h hpd.det_pos.ne' (transpose_of_posDef hpd) (r := fun s => y - m s) hr
  have hl := hasDerivAt_logdet h hpd.det_pos.ne'
  have := (((hq.add hl).add_const ((n : ℝ) * Real.log (2 * Real.pi))).const_mul (-(1 / 2 : ℝ))).neg
  have e : ∀ s, -logNormal (A s) (m s) y = -(-(1 / 2) * ((y - m s) ⬝ᵥ (A s)⁻¹ *ᵥ (y - m s) + Real.log (A s).det
      + (n : ℝ) * Real.log (2 * Real.pi))) := by
    intro s; rw [logNormal, Fintype.card_fin]
  simp only [e]
  refine this.congr_deriv ?_
  rw [neg_dotProduct]
  ring

theorem collect_ok {f : Fin p → Except String ℝ} {v : Fin p → ℝ} (h : ∀ i, f i = .ok (v i)) : collect f = .ok v := by
  have h' : ∀ i, ∃ v, f i = .ok v := fun i => ⟨_, h i⟩
  rw [collect, dif_pos h']
  congr 1
  funext i
  have := (h' i).choose_spec
  exact Except.ok.inj (this.symm.trans (h i))

/-- The value `negLogLikelihoodAt` returns (zero when it raises). -/
noncomputable def nllValue (gp : GP α (Fin p → ℝ)) (h : Fin p → ℝ) : ℝ :=
  match negLogLikelihoodAt gp h with
  | .ok v => v
  | .error _ => 0

/-- Specification: the supplied derivatives are the partial derivatives, at `h`, of kernel, noise and mean at the data
points with respect to hyperparameter `i`. -/
structure GradsCorrect (c : Config α (Fin p → ℝ)) (d : Data α) (g : Grads α p) (h : Fin p → ℝ) (i : Fin p) : Prop where
  dk : ∀ a b : Fin d.x.length, HasDerivAt (fun t => c.kernel (Function.update h i t) d.x[a] d.x[b])
    (g.dk h i d.x[a] d.x[b]) (h i)
  dVfits : match g.dV h i d.x with
    | .diag len _ => len = d.x.length
    | .dense r c _ => r = d.x.length ∧ c = d.x.length
    | .sparse _ _ _ => False
  dV : ∀ a b : Fin d.x.length,
    HasDerivAt (fun t => (calcV c d (Function.update h i t) d.x).mat d.x.length a b)
      ((g.dV h i d.x).mat d.x.length a b) (h i)
  dm : ∀ a : Fin d.x.length, HasDerivAt (fun t => meanFn c d (Function.update h i t) d.x[a]) (g.dm h i d.x[a]) (h i)

/-- The derivative of `K + V`. -/
noncomputable def dKVmat (g : Grads α p) (h : Fin p → ℝ) (xs : List α) (i : Fin p) :
    Matrix (Fin xs.length) (Fin xs.length) ℝ :=
  Kmat (g.dk h i) xs xs + (g.dV h i xs).mat xs.length

/-- The noise derivative has the size of the data and is not stored sparse. -/
def DVFits (g : Grads α p) (h : Fin p → ℝ) (xs : List α) (i : Fin p) : Prop :=
  match g.dV h i xs with
    | .diag len _ => len = xs.length
    | .dense r c _ => r = xs.length ∧ c = xs.length
    | .sparse _ _ _ => False

theorem dKV_ok {d : Data α} {g : Grads α p} {h : Fin p → ℝ} {i : Fin p}
    (hg : DVFits g h d.x i) : dKV g h d.x i = .ok (dKVmat g h d.x i) := by
  have := hg
  simp only [DVFits] at this
  simp only [dKV, dKVmat]
  rw [toMat_gram]
  revert this
  cases g.dV h i d.x with
  | diag len v => intro this; exact if_pos this
  | dense r c V => intro this; exact if_pos this
  | sparse r c V => intro this; exact absurd this id

/-- The solution `b` of `(K+V) b = y - m`, column `j`. -/
noncomputable def specAlpha (c : Config α (Fin p → ℝ)) (d : Data α) (h : Fin p → ℝ) (j : ℕ) : Fin d.x.length → ℝ :=
  (KVmat c d h)⁻¹ *ᵥ (yCol d j - meanAt c d h d.x)

open Classical in
theorem gradComponent_eq {n : ℕ} (lstsq : {n m : Type} → Matrix n n ℝ → Matrix n m ℝ → Matrix n m ℝ)
    {A : Matrix (Fin n) (Fin n) ℝ} (hA : A.PosDef) (D : Matrix (Fin n) (Fin n) ℝ) (b dm : Fin n → ℝ) :
    gradComponent lstsq A D b dm
      = (if dm ⬝ᵥ b = 0 then -(1 / 2) * (b ⬝ᵥ D *ᵥ b - (A⁻¹ * D).trace) else 0) + -(dm ⬝ᵥ b) := by
  have e : ∑ i, ∑ j, (b i * b j) * D j i = b ⬝ᵥ D *ᵥ b := by
    rw [Finset.sum_comm]
    simp only [dotProduct, Matrix.mulVec, Finset.mul_sum]
    exact Finset.sum_congr rfl fun i _ => Finset.sum_congr rfl fun j _ => by ring
  simp only [gradComponent, npSolve_posDef _ hA, e, neg_eq_zero]

open Classical in
/-- What the method returns, for given hyperparameters and from the stored state. -/
theorem gradient_eq_fits (c : Config α (Fin p → ℝ)) (d : Data α) (h0 : Fin p → ℝ) (g : Grads α p)
    (lstsq : {n m : Type} → Matrix n n ℝ → Matrix n m ℝ → Matrix n m ℝ) (he : SpluContract c.ext) (hs : c.sparseK = false)
    (ha : Admissible c d h0) (j : ℕ) :
    ∃ gp, init c d h0 = .ok gp ∧ gp.cfg = c ∧ gp.data = d ∧
      (∀ h, Admissible c d h → (∀ i, DVFits g h d.x i) →
        gradient gp g lstsq (some h) j = .ok fun i =>
          (if (fun a => g.dm h i d.x[a]) ⬝ᵥ specAlpha c d h j = 0 then
            -(1 / 2) * (specAlpha c d h j ⬝ᵥ dKVmat g h d.x i *ᵥ specAlpha c d h j
              - ((KVmat c d h)⁻¹ * dKVmat g h d.x i).trace) else 0)
          + -((fun a : Fin d.x.length => g.dm h i d.x[a]) ⬝ᵥ specAlpha c d h j)) ∧
      ((∀ i, DVFits g h0 d.x i) → gradient gp g lstsq none j = gradient gp g lstsq (some h0) j) := by
  obtain ⟨gp, hgp, hc, rfl, rfl, rfl⟩ := init_ok c d h0 he ha
  have hsome : ∀ h, Admissible gp.cfg gp.data h → (∀ i, DVFits g h gp.data.x i) →
        gradient gp g lstsq (some h) j = .ok fun i =>
          (if (fun a => g.dm h i gp.data.x[a]) ⬝ᵥ specAlpha gp.cfg gp.data h j = 0 then
            -(1 / 2) * (specAlpha gp.cfg gp.data h j ⬝ᵥ dKVmat g h gp.data.x i *ᵥ specAlpha gp.cfg gp.data h j
              - ((KVmat gp.cfg gp.data h)⁻¹ * dKVmat g h gp.data.x i).trace) else 0)
          + -((fun a : Fin gp.data.x.length => g.dm h i gp.data.x[a]) ⬝ᵥ specAlpha gp.cfg gp.data h j) := by
    intro h hah hg
    have hfit := hah.fits
    rw [hs] at hfit
    obtain ⟨KV, hKV, hmat⟩ := addKV_ok hfit (gram (gp.cfg.kernel h) gp.data.x gp.data.x)
    have hmat' : toMat gp.data.x.length KV = KVmat gp.cfg gp.data h := by rw [hmat, toMat_gram]; rfl
    have hpd := hah.posDef
    rw [← hmat'] at hpd
    obtain ⟨B, hB, hBe⟩ := computeNewKVinvY_ok gp.cfg.ext he gp.cfg.mode _ KV hpd gp.data.yMat
      (evalAt (meanFn gp.cfg gp.data h) gp.data.x)
    have hb : (fun a : Fin gp.data.x.length => B a j) = specAlpha gp.cfg gp.data h j := by
      funext a
      rw [hBe, hmat', specAlpha]
      congr 2
      funext l
      rw [evalAt_apply]
      rfl
    simp only [gradient, hs, hKV, hB, bind, Except.bind]
    apply collect_ok
    intro i
    rw [dKV_ok (hg i)]
    simp only [hb, hmat']
    rw [gradComponent_eq lstsq hah.posDef]
  refine ⟨gp, hgp, rfl, rfl, hsome, fun hg => ?_⟩
  rw [hsome _ ha hg]
  have hfit := ha.fits
  rw [← hc.V_eq, hs] at hfit
  obtain ⟨KV, hKV, hmat⟩ := addKV_ok hfit gp.K
  have hmat' : toMat gp.data.x.length KV = KVmat gp.cfg gp.data gp.hps := by rw [hmat, hc.K_eq, hc.V_eq]; rfl
  have hb : (fun a : Fin gp.data.x.length => gp.kv.kvinvY a j) = specAlpha gp.cfg gp.data gp.hps j := by
    funext a
    rw [hc.kvinvY_eq, solveY, consistent_solve hc ha.posDef, specAlpha]
    congr 2
    funext l
    rw [hc.m_eq, evalAt_apply]
    rfl
  simp only [gradient, hs, hKV, bind, Except.bind]
  apply collect_ok
  intro i
  rw [dKV_ok (hg i)]
  simp only [hb, hmat']
  rw [gradComponent_eq lstsq ha.posDef]

open Classical in
theorem gradient_eq (c : Config α (Fin p → ℝ)) (d : Data α) (h0 : Fin p → ℝ) (g : Grads α p)
    (lstsq : {n m : Type} → Matrix n n ℝ → Matrix n m ℝ → Matrix n m ℝ) (he : SpluContract c.ext) (hs : c.sparseK = false)
    (ha : Admissible c d h0) (j : ℕ) :
    ∃ gp, init c d h0 = .ok gp ∧ gp.cfg = c ∧ gp.data = d ∧
      (∀ h, Admissible c d h → (∀ i, GradsCorrect c d g h i) →
        gradient gp g lstsq (some h) j = .ok fun i =>
          (if (fun a => g.dm h i d.x[a]) ⬝ᵥ specAlpha c d h j = 0 then
            -(1 / 2) * (specAlpha c d h j ⬝ᵥ dKVmat g h d.x i *ᵥ specAlpha c d h j
              - ((KVmat c d h)⁻¹ * dKVmat g h d.x i).trace) else 0)
          + -((fun a : Fin d.x.length => g.dm h i d.x[a]) ⬝ᵥ specAlpha c d h j)) ∧
      ((∀ i, GradsCorrect c d g h0 i) → gradient gp g lstsq none j = gradient gp g lstsq (some h0) j) := by
  obtain ⟨gp, h1, h2, h3, h4, h5⟩ := gradient_eq_fits c d h0 g lstsq he hs ha j
  exact ⟨gp, h1, h2, h3, fun h hh hg => h4 h hh fun i => (hg i).dVfits, fun hg => h5 fun i => (hg i).dVfits⟩

/-- The contribution of column `j` to the partial derivative of the negative log likelihood with respect to
hyperparameter `i`. -/
noncomputable def columnDeriv (c : Config α (Fin p → ℝ)) (d : Data α) (g : Grads α p) (h : Fin p → ℝ) (i : Fin p)
    (j : ℕ) : ℝ :=
  -(1 / 2) * (specAlpha c d h j ⬝ᵥ dKVmat g h d.x i *ᵥ specAlpha c d h j - ((KVmat c d h)⁻¹ * dKVmat g h d.x i).trace)
    + -((fun a : Fin d.x.length => g.dm h i d.x[a]) ⬝ᵥ specAlpha c d h j)

/-- The true partial derivative of the negative log likelihood. -/
theorem nll_hasDerivAt (gp : GP α (Fin p → ℝ)) (g : Grads α p) (he : SpluContract gp.cfg.ext)
    (hmode : gp.cfg.mode ≠ .sparseSolve) (hy : gp.data.y.length = gp.data.x.length) (hcols : 1 ≤ gp.data.cols)
    (h : Fin p → ℝ) (i : Fin p) (ha : Admissible gp.cfg gp.data h)
    (hev : ∀ᶠ t in nhds (h i), Admissible gp.cfg gp.data (Function.update h i t))
    (hg : GradsCorrect gp.cfg gp.data g h i) :
    HasDerivAt (fun t => nllValue gp (Function.update h i t))
      ((∑ j ∈ range gp.data.cols, columnDeriv gp.cfg gp.data g h i j) / gp.data.cols) (h i) := by
  have hA : MatHasDeriv (fun t => KVmat gp.cfg gp.data (Function.update h i t)) (dKVmat g h gp.data.x i) (h i) :=
    fun a b => (hg.dk a b).add (hg.dV a b)
  have hself : Function.update h i (h i) = h := Function.update_eq_self i h
  have hcol : ∀ j, HasDerivAt (fun t => -logNormal (KVmat gp.cfg gp.data (Function.update h i t))
      (meanAt gp.cfg gp.data (Function.update h i t) gp.data.x) (yCol gp.data j))
      (columnDeriv gp.cfg gp.data g h i j) (h i) := by
    intro j
    have := hasDerivAt_negLogNormal hA (by rw [hself]; exact ha.posDef)
      (m := fun t => meanAt gp.cfg gp.data (Function.update h i t) gp.data.x)
      (m' := fun a => g.dm h i gp.data.x[a]) (fun a => hg.dm a) (yCol gp.data j)
    rw [hself] at this
    exact this
  have hsum := (HasDerivAt.fun_sum (u := range gp.data.cols) fun j _ => hcol j).div_const (gp.data.cols : ℝ)
  refine hsum.congr_of_eventuallyEq ?_
  filter_upwards [hev] with t ht
  rw [nllValue, negLogLikelihoodAt, C37_log_likelihood_at gp _ he hmode ht hy hcols]
  simp only [bind, Except.bind, log_normalDensity ht.posDef]
  rw [Finset.sum_neg_distrib, neg_div]

/-- **C38**, for hyperparameters that do not enter mean and covariance at the same time. In every direct mode with a
deterministic likelihood, for any number of output columns, the average over the components (columns) of the gradients
has as entry `i` the partial derivative of the negative log likelihood, provided that for every column the mean
derivative is orthogonal to `(K+V)⁻¹(y-m)` (in particular: the mean does not depend on hyperparameter `i`), or kernel and
noise do not depend on it. For one column this is the returned gradient itself. The stored-state variant returns the
same as the variant that recomputes.
What is missing: hyperparameters of both, see `C38_shared_hyperparameter_violated`; component 0 alone is not the
derivative when there are several columns, see `C38_columns_violated`; for the default finite-difference derivatives see
`C124_gradient_partial`. -/
theorem C38_gradient_partial (c : Config α (Fin p → ℝ)) (d : Data α) (h0 : Fin p → ℝ) (g : Grads α p)
    (lstsq : {n m : Type} → Matrix n n ℝ → Matrix n m ℝ → Matrix n m ℝ) (he : SpluContract c.ext) (hs : c.sparseK = false)
    (ha : Admissible c d h0) (hmode : c.mode ≠ .sparseSolve) (hy : d.y.length = d.x.length) (hcols : 1 ≤ d.cols) :
    ∃ gp, init c d h0 = .ok gp ∧ ∀ h, Admissible c d h → (∀ i, GradsCorrect c d g h i) →
      ∃ v : ℕ → Fin p → ℝ, (∀ j, gradient gp g lstsq (some h) j = .ok (v j)) ∧
        (h = h0 → ∀ j, gradient gp g lstsq none j = .ok (v j)) ∧
        ∀ i, (∀ᶠ t in nhds (h i), Admissible c d (Function.update h i t)) →
          ((∀ j < d.cols,
              ∑ a : Fin d.x.length, g.dm h i d.x[a] * ((KVmat c d h)⁻¹ *ᵥ (yCol d j - meanAt c d h d.x)) a = 0) ∨
            Kmat (g.dk h i) d.x d.x + (g.dV h i d.x).mat d.x.length = 0) →
          HasDerivAt (fun t => nllValue gp (Function.update h i t)) ((∑ j ∈ range d.cols, v j i) / d.cols) (h i) := by
  obtain ⟨gp, hgp, hc, rfl, rfl, rfl⟩ := init_ok c d h0 he ha
  have hall := fun j => gradient_eq gp.cfg gp.data gp.hps g lstsq he hs ha j
  have hgp' : ∀ {gp' : GP α (Fin p → ℝ)}, init gp.cfg gp.data gp.hps = .ok gp' → gp' = gp := by
    intro gp' h'
    rw [hgp] at h'
    exact (Except.ok.inj h').symm
  refine ⟨gp, hgp, fun h hah hg => ⟨fun j i => (open Classical in if (fun a => g.dm h i gp.data.x[a]) ⬝ᵥ specAlpha gp.cfg gp.data h j = 0 then
            -(1 / 2) * (specAlpha gp.cfg gp.data h j ⬝ᵥ dKVmat g h gp.data.x i *ᵥ specAlpha gp.cfg gp.data h j
              - ((KVmat gp.cfg gp.data h)⁻¹ * dKVmat g h gp.data.x i).trace) else 0)
          + -((fun a : Fin gp.data.x.length => g.dm h i gp.data.x[a]) ⬝ᵥ specAlpha gp.cfg gp.data h j),
    fun j => ?_, ?_, fun i hev hor => ?_⟩⟩
  · obtain ⟨gp', h1, -, -, h2, -⟩ := hall j
    rw [hgp' h1] at h2
    exact h2 h hah hg
  · rintro rfl j
    obtain ⟨gp', h1, -, -, h2, h3⟩ := hall j
    rw [hgp' h1] at h2 h3
    rw [h3 hg]
    exact h2 _ hah hg
  · have hd := nll_hasDerivAt gp g he hmode hy hcols h i hah hev (hg i)
    convert hd using 2
    refine Finset.sum_congr rfl fun j hj => ?_
    rw [columnDeriv]
    beta_reduce
    congr 1
    split
    · rfl
    · rename_i hne
      rcases hor with h0 | h0
      · exact absurd (h0 j (Finset.mem_range.1 hj)) hne
      · rw [dKVmat, h0]
        simp

/-! ### Witnesses -/

/-- One point, kernel `h₀`, noise variance 1, prior mean given. -/
noncomputable def gCfg (mean : (Fin 1 → ℝ) → ℝ → ℝ) : Config ℝ (Fin 1 → ℝ) where
  kernel h _ _ := h 0
  mean := some mean
  noise := .measured
  mode := .chol
  sparseK := false
  ext := cholExt

noncomputable def gData (row : List ℝ) : Data ℝ where
  x := [0]
  y := [row]
  cols := row.length
  noiseVar := some [1]

noncomputable def gGrads (dm : ℝ) : Grads ℝ 1 where
  dk _ _ _ _ := 1
  dV _ _ xs := .diag xs.length fun _ => 0
  dm _ _ _ := dm

instance (row : List ℝ) : Unique (Fin (gData row).x.length) := inferInstanceAs (Unique (Fin 1))

theorem gKV (mean : (Fin 1 → ℝ) → ℝ → ℝ) (row : List ℝ) (h : Fin 1 → ℝ) :
    KVmat (gCfg mean) (gData row) h = Matrix.diagonal fun _ => h 0 + 1 := by
  ext i j
  obtain rfl := Subsingleton.elim i default
  obtain rfl := Subsingleton.elim j default
  have hV : calcV (gCfg mean) (gData row) h (gData row).x = .diag 1 fun i => ([1] : List ℝ).getD i 0 := by
    simp [calcV, gCfg, gData]
  rw [KVmat, hV]
  simp only [Matrix.add_apply, Noise.mat, Matrix.diagonal_apply_eq]
  rfl

theorem gAdm (mean : (Fin 1 → ℝ) → ℝ → ℝ) (row : List ℝ) (h : Fin 1 → ℝ) (h0 : 0 < h 0) :
    Admissible (gCfg mean) (gData row) h where
  fits := by simp [calcV, gCfg, gData, Noise.Fits]
  posDef := by rw [gKV]; exact Matrix.PosDef.diagonal fun _ => by linarith

theorem gEv (mean : (Fin 1 → ℝ) → ℝ → ℝ) (row : List ℝ) (h : Fin 1 → ℝ) (h0 : 0 < h 0) (i : Fin 1) :
    ∀ᶠ t in nhds (h i), Admissible (gCfg mean) (gData row) (Function.update h i t) := by
  obtain rfl := Subsingleton.elim i 0
  filter_upwards [lt_mem_nhds h0] with t ht
  exact gAdm mean row _ (by simpa using ht)

theorem gGradsCorrect (mean : (Fin 1 → ℝ) → ℝ → ℝ) (row : List ℝ) (dm : ℝ) (h : Fin 1 → ℝ) (i : Fin 1)
    (hm : HasDerivAt (fun t => mean (Function.update h i t) 0) dm (h i)) :
    GradsCorrect (gCfg mean) (gData row) (gGrads dm) h i where
  dk a b := by
    obtain rfl := Subsingleton.elim i 0
    simp only [gCfg, gGrads, Function.update_self]
    exact hasDerivAt_id _
  dVfits := rfl
  dV a b := by
    have e1 : ∀ t, calcV (gCfg mean) (gData row) (Function.update h i t) (gData row).x
        = calcV (gCfg mean) (gData row) h (gData row).x := fun t => rfl
    simp only [e1]
    have e2 : ((gGrads dm).dV h i (gData row).x).mat (gData row).x.length a b = 0 := by
      simp [gGrads, Noise.mat]
    rw [e2]
    exact hasDerivAt_const _ _
  dm a := by
    obtain rfl := Subsingleton.elim a default
    exact hm

theorem gInv {n : Type} [Fintype n] [DecidableEq n] {c : ℝ} (hc : c ≠ 0) :
    (Matrix.diagonal fun _ : n => c)⁻¹ = Matrix.diagonal fun _ => c⁻¹ := by
  apply Matrix.inv_eq_right_inv
  rw [Matrix.diagonal_mul_diagonal]
  simp [hc]

theorem gAlpha (mean : (Fin 1 → ℝ) → ℝ → ℝ) (row : List ℝ) (h : Fin 1 → ℝ) (h0 : 0 < h 0) (j : ℕ) :
    specAlpha (gCfg mean) (gData row) h j = fun _ => (h 0 + 1)⁻¹ * (row.getD j 0 - mean h 0) := by
  funext i
  obtain rfl := Subsingleton.elim i default
  rw [specAlpha, gKV, gInv (by linarith), Matrix.mulVec_diagonal]
  rfl

theorem gColumn (mean : (Fin 1 → ℝ) → ℝ → ℝ) (row : List ℝ) (dm : ℝ) (h : Fin 1 → ℝ) (h0 : 0 < h 0) (i : Fin 1) (j : ℕ) :
    columnDeriv (gCfg mean) (gData row) (gGrads dm) h i j
      = -(1 / 2) * (((h 0 + 1)⁻¹ * (row.getD j 0 - mean h 0)) ^ 2 - (h 0 + 1)⁻¹)
        + -(dm * ((h 0 + 1)⁻¹ * (row.getD j 0 - mean h 0))) := by
  have hD : dKVmat (gGrads dm) h (gData row).x i = Matrix.of fun _ _ => 1 := by
    ext a b
    obtain rfl := Subsingleton.elim a default
    obtain rfl := Subsingleton.elim b default
    simp [dKVmat, Kmat, gGrads, Noise.mat]
  have htr : ((KVmat (gCfg mean) (gData row) h)⁻¹ * dKVmat (gGrads dm) h (gData row).x i).trace = (h 0 + 1)⁻¹ := by
    rw [gKV, gInv (by linarith), hD]
    simp only [Matrix.trace, Matrix.diag_apply, Matrix.diagonal_mul, Fintype.sum_unique, Matrix.of_apply, mul_one]
  rw [columnDeriv, htr, gAlpha mean row h h0, hD]
  simp only [dotProduct, Matrix.mulVec, Fintype.sum_unique, gGrads, Matrix.of_apply]
  ring

/-- A hyperparameter shared by mean and kernel: the returned component is not the derivative. (Here the kernel is `h₀`,
the mean `h₀`, one data point of value 3: the gradient returned at `h₀ = 1` is `-1`, the derivative is `-5/4`.) -/
theorem C38_shared_hyperparameter_violated (lstsq : {n m : Type} → Matrix n n ℝ → Matrix n m ℝ → Matrix n m ℝ) :
    ∃ gp, init (gCfg fun h _ => h 0) (gData [3]) (fun _ => 1) = .ok gp ∧
      (∀ h i, 0 < h 0 → GradsCorrect (gCfg fun h _ => h 0) (gData [3]) (gGrads 1) h i) ∧
      gradient gp (gGrads 1) lstsq (some fun _ => 1) 0 = .ok (fun _ => -1) ∧
      HasDerivAt (fun t => nllValue gp (Function.update (fun _ => 1) 0 t)) (-(5 / 4)) 1 := by
  have hg : ∀ h i, 0 < h 0 → GradsCorrect (gCfg fun h _ => h 0) (gData [3]) (gGrads 1) h i := by
    intro h i _
    apply gGradsCorrect
    obtain rfl := Subsingleton.elim i 0
    simp only [Function.update_self]
    exact hasDerivAt_id _
  have h1 : (0 : ℝ) < (fun _ : Fin 1 => (1 : ℝ)) 0 := one_pos
  obtain ⟨gp, hgp, hcfg, hdata, hsome, -⟩ := gradient_eq (gCfg fun h _ => h 0) (gData [3]) (fun _ => 1) (gGrads 1)
    lstsq cholExt_contract rfl (gAdm _ _ _ h1) 0
  refine ⟨gp, hgp, hg, ?_, ?_⟩
  · rw [hsome _ (gAdm _ _ _ h1) fun i => hg _ i h1]
    congr 1
    funext i
    have : (fun a : Fin (gData [3]).x.length => (gGrads 1).dm (fun _ => 1) i (gData [3]).x[a])
        ⬝ᵥ specAlpha (gCfg fun h _ => h 0) (gData [3]) (fun _ => 1) 0 = 1 := by
      rw [gAlpha _ _ _ h1]
      simp only [dotProduct, Fintype.sum_unique, gGrads]
      norm_num
    rw [this]
    norm_num
  · have := nll_hasDerivAt gp (gGrads 1) (by rw [hcfg]; exact cholExt_contract) (by rw [hcfg]; simp [gCfg])
      (by rw [hdata]; rfl) (by rw [hdata]; simp [gData]) (fun _ => 1) 0 (by rw [hcfg, hdata]; exact gAdm _ _ _ h1)
      (by rw [hcfg, hdata]; exact gEv _ _ _ h1 0) (by rw [hcfg, hdata]; exact hg _ 0 h1)
    rw [hcfg, hdata] at this
    convert this using 1
    simp only [gData, List.length_singleton, Finset.range_one, Finset.sum_singleton]
    rw [show (⟨[0], [[3]], 1, some [1]⟩ : Data ℝ) = gData [3] from rfl, gColumn _ _ _ _ h1]
    norm_num

/-- Several output columns: `log_likelihood` averages over the columns but component 0 (the default) of the gradient
belongs to the first column. (Kernel `h₀`, one data point with values 3 and 1: returned `-7/8`, derivative `-3/8`.) -/
theorem C38_columns_violated (lstsq : {n m : Type} → Matrix n n ℝ → Matrix n m ℝ → Matrix n m ℝ) :
    ∃ gp, init (gCfg fun _ _ => 0) (gData [3, 1]) (fun _ => 1) = .ok gp ∧
      gradient gp (gGrads 0) lstsq (some fun _ => 1) 0 = .ok (fun _ => -(7 / 8)) ∧
      HasDerivAt (fun t => nllValue gp (Function.update (fun _ => 1) 0 t)) (-(3 / 8)) 1 := by
  have hg : ∀ h i, GradsCorrect (gCfg fun _ _ => 0) (gData [3, 1]) (gGrads 0) h i := by
    intro h i
    apply gGradsCorrect
    exact hasDerivAt_const _ _
  have h1 : (0 : ℝ) < (fun _ : Fin 1 => (1 : ℝ)) 0 := one_pos
  obtain ⟨gp, hgp, hcfg, hdata, hsome, -⟩ := gradient_eq (gCfg fun _ _ => 0) (gData [3, 1]) (fun _ => 1) (gGrads 0)
    lstsq cholExt_contract rfl (gAdm _ _ _ h1) 0
  refine ⟨gp, hgp, ?_, ?_⟩
  · rw [hsome _ (gAdm _ _ _ h1) fun i => hg _ i]
    congr 1
    funext i
    have : (fun a : Fin (gData [3, 1]).x.length => (gGrads 0).dm (fun _ => 1) i (gData [3, 1]).x[a])
        ⬝ᵥ specAlpha (gCfg fun _ _ => 0) (gData [3, 1]) (fun _ => 1) 0 = 0 := by
      simp [gGrads, dotProduct]
    have h2 := gColumn (fun _ _ => 0) [3, 1] 0 (fun _ => 1) h1 i 0
    rw [columnDeriv, this] at h2
    rw [this, if_pos rfl, h2]
    norm_num
  · have := nll_hasDerivAt gp (gGrads 0) (by rw [hcfg]; exact cholExt_contract) (by rw [hcfg]; simp [gCfg])
      (by rw [hdata]; rfl) (by rw [hdata]; simp [gData]) (fun _ => 1) 0 (by rw [hcfg, hdata]; exact gAdm _ _ _ h1)
      (by rw [hcfg, hdata]; exact gEv _ _ _ h1 0) (by rw [hcfg, hdata]; exact hg _ 0)
    rw [hcfg, hdata] at this
    convert this using 1
    have hc : (gData [3, 1]).cols = 2 := rfl
    rw [hc, Finset.sum_range_succ, Finset.range_one, Finset.sum_singleton, gColumn _ _ _ _ h1, gColumn _ _ _ _ h1]
    norm_num

/-- The hypotheses of `C38_gradient_partial` are met, for the one-point data set with one column. -/
example (lstsq : {n m : Type} → Matrix n n ℝ → Matrix n m ℝ → Matrix n m ℝ) :
    ∃ gp, init (gCfg fun _ _ => 0) (gData [3]) (fun _ => 1) = .ok gp ∧ ∃ v : ℕ → Fin 1 → ℝ,
      gradient gp (gGrads 0) lstsq none 0 = .ok (v 0) ∧
      HasDerivAt (fun t => nllValue gp (Function.update (fun _ => 1) 0 t)) (v 0 0) 1 := by
  have h1 : (0 : ℝ) < (fun _ : Fin 1 => (1 : ℝ)) 0 := one_pos
  obtain ⟨gp, hgp, h⟩ := C38_gradient_partial (gCfg fun _ _ => 0) (gData [3]) (fun _ => 1) (gGrads 0) lstsq
    cholExt_contract rfl (gAdm _ _ _ h1) (by simp [gCfg]) rfl (by simp [gData])
  obtain ⟨v, -, hv, hd⟩ := h (fun _ => 1) (gAdm _ _ _ h1) fun i => gGradsCorrect _ _ _ _ _ (hasDerivAt_const _ _)
  refine ⟨gp, hgp, v, hv rfl 0, ?_⟩
  have := hd 0 (gEv _ _ _ h1 0) (Or.inl fun j _ => by simp [gGrads])
  simpa [gData] using this

/-! ## C39 -/

theorem hessian_fold (G : (Fin p → ℝ) → Except String (Fin p → ℝ)) (h g0 : Fin p → ℝ) (e : ℝ)
    (gi : Fin p → Fin p → ℝ) (hgi : ∀ i, G (Function.update h i (h i + e)) = .ok (gi i)) (l : List (Fin p))
    (hl : l.Nodup) (D : Matrix (Fin p) (Fin p) ℝ) :
    l.foldlM (fun (d2 : Matrix (Fin p) (Fin p) ℝ) i => (do
          let gi ← G (Function.update h i (h i + e))
          .ok (Matrix.of fun a b => if a = i ∧ i ≤ b then (gi b - g0 b) / e else d2 a b) : Except String _)) D
      = .ok (Matrix.of fun a b => if a ∈ l ∧ a ≤ b then (gi a b - g0 b) / e else D a b) := by
  induction l generalizing D with
  | nil => simp [pure, Except.pure]; rfl
  | cons i l ih =>
    rw [List.foldlM_cons]
    simp only [hgi, bind, Except.bind] at ih ⊢
    rw [ih (List.nodup_cons.1 hl).2]
    congr 1
    ext a b
    simp only [Matrix.of_apply, List.mem_cons]
    have hi := (List.nodup_cons.1 hl).1
    by_cases hal : a ∈ l
    · have : a ≠ i := fun e => hi (e ▸ hal)
      by_cases hab : a ≤ b
      · simp [hal, hab]
      · simp [hab, this]
    · by_cases hai : a = i
      · subst hai; simp [hal]
      · simp [hal, hai]

/-- **C39**. Whenever the gradient can be evaluated at `h` and at the shifted points, the Hessian is returned, it is
symmetric, and its entries on and above the diagonal are the forward differences of the gradient with step `1e-6`. -/
theorem C39_hessian_partial (G : (Fin p → ℝ) → Except String (Fin p → ℝ)) (h g0 : Fin p → ℝ) (hg0 : G h = .ok g0)
    (gi : Fin p → Fin p → ℝ) (hgi : ∀ i, G (Function.update h i (h i + 1e-6)) = .ok (gi i)) :
    ∃ R, hessian G (some h) = .ok R ∧ Rᵀ = R ∧ ∀ i j, i ≤ j → R i j = (gi i j - g0 j) / 1e-6 := by
  have hf := hessian_fold G h g0 1e-6 gi hgi (List.finRange p) (List.nodup_finRange p) 0
  refine ⟨_, by simp only [hessian, hg0, bind, Except.bind] at hf ⊢; rw [hf], ?_, ?_⟩
  · rw [Matrix.transpose_sub, Matrix.transpose_add, Matrix.transpose_transpose, Matrix.diagonal_transpose, add_comm]
  · intro i j hij
    simp only [Matrix.sub_apply, Matrix.add_apply, Matrix.transpose_apply, Matrix.of_apply, List.mem_finRange, true_and]
    by_cases hij' : i = j
    · subst hij'; simp
    · have : ¬ j ≤ i := fun h => hij' (le_antisymm hij h)
      simp [hij, this, hij']

/-- If any of the needed gradients fails, so does the Hessian; it never returns anything else. -/
theorem C39_hessian_only_if (G : (Fin p → ℝ) → Except String (Fin p → ℝ)) (h : Fin p → ℝ)
    (R : Matrix (Fin p) (Fin p) ℝ) (hR : hessian G (some h) = .ok R) : ∃ g0, G h = .ok g0 := by
  cases hG : G h with
  | ok g0 => exact ⟨g0, rfl⟩
  | error e => simp [hessian, hG, bind, Except.bind] at hR

/-- The argument is documented as optional, but without it the method raises. -/
theorem C39_default_argument_violated (G : (Fin p → ℝ) → Except String (Fin p → ℝ)) :
    ∃ e, hessian G none = .error e := ⟨_, rfl⟩

/-- Example: the gradient of `x₀² x₁`. -/
example : ∃ R, hessian (p := 2) (fun x => .ok ![2 * x 0 * x 1, x 0 ^ 2]) (some ![1, 2]) = .ok R ∧ Rᵀ = R := by
  obtain ⟨R, h, ht, -⟩ := C39_hessian_partial (p := 2) (fun x => .ok ![2 * x 0 * x 1, x 0 ^ 2]) ![1, 2] _ rfl _
    fun i => rfl
  exact ⟨R, h, ht⟩

end Verif.GP
