import Verif.BO.SurrogateProps
import Verif.Kernels.MaternPsd

/-!
C104: fitting the surrogate of the Bayesian optimiser never fails on the evaluated points, whatever they are.
C105: the surrogate prediction used by the gradient search is the GP's own prediction.
-/

namespace Verif.BO

open Finset Real Verif.Kernels Verif.GP Verif.LinAlg Verif.State

/-! ## C104 -/

theorem lvar_nonneg (l : List ℝ) : 0 ≤ lvar l := by
  unfold lvar lmean
  refine div_nonneg (List.sum_nonneg ?_) (Nat.cast_nonneg _)
  intro x hx
  obtain ⟨a, -, rfl⟩ := List.mem_map.1 hx
  positivity

theorem fitScale_pos {D : ℕ} (u : List (Pos D)) (y : List ℝ) (mf : Option (Quad D)) : 0 < fitScale u y mf := by
  simp only [fitScale]
  split_ifs with h1 h2
  · norm_num
  · exact lt_of_le_of_ne (lvar_nonneg y) (Ne.symm h2)
  · exact not_le.1 h1

theorem nugget_pos (s : ℝ) : 0 < nugget s := lt_max_of_lt_right (by norm_num)

/-- The box of the surrogate's hyperparameters. -/
structure InFitBox {D : ℕ} (scale : ℝ) (h : SHps D) : Prop where
  signal : scale / 10 ^ 4 + 1 / 10 ^ 12 ≤ h.signal ∧ h.signal ≤ 100 * scale + 1 / 10 ^ 9
  len : ∀ i, 1 / 100 ≤ h.len i ∧ h.len i ≤ 2
  noise : max (scale / 10 ^ 7) (1 / 10 ^ 12) ≤ h.noise ∧ h.noise ≤ max scale (10 * max (scale / 10 ^ 7) (1 / 10 ^ 12))

/-- C104: the bounds given to the surrogate's training are that box. -/
theorem C104_box {D : ℕ} (scale : ℝ) (h : SHps D) :
    InFitBox scale h ↔ ((boundSignal scale).1 ≤ h.signal ∧ h.signal ≤ (boundSignal scale).2) ∧
      (∀ i, boundLen.1 ≤ h.len i ∧ h.len i ≤ boundLen.2) ∧ (boundNoise scale).1 ≤ h.noise ∧ h.noise ≤ (boundNoise scale).2 := by
  have e : ∀ k : ℕ, 1 / (10 : ℝ) ^ k * scale = scale / 10 ^ k := fun k => by ring
  have e2 : (1 : ℝ) / 10 ^ 2 = 1 / 100 := by norm_num
  have e3 : (10 : ℝ) ^ 2 = 100 := by norm_num
  simp only [boundSignal, boundLen, boundNoise, nugget, e, e2, e3]
  exact ⟨fun h => ⟨h.signal, h.len, h.noise⟩, fun h => ⟨h.1, h.2.1, h.2.2⟩⟩

/-- C104: every row of the bounds is a proper interval of positive numbers, for every evaluated data set. -/
theorem C104_bounds_proper {D : ℕ} (u : List (Pos D)) (y : List ℝ) (mf : Option (Quad D)) :
    (0 < (boundSignal (fitScale u y mf)).1 ∧ (boundSignal (fitScale u y mf)).1 < (boundSignal (fitScale u y mf)).2) ∧
    (0 < boundLen.1 ∧ boundLen.1 < boundLen.2) ∧
    0 < (boundNoise (fitScale u y mf)).1 ∧ (boundNoise (fitScale u y mf)).1 < (boundNoise (fitScale u y mf)).2 := by
  have hs := fitScale_pos u y mf
  have hn := nugget_pos (fitScale u y mf)
  simp only [boundSignal, boundLen, boundNoise]
  refine ⟨⟨by positivity, ?_⟩, ⟨by norm_num, by norm_num⟩, hn, lt_max_of_lt_right (by linarith)⟩
  norm_num
  linarith

/-- C104: the starting point of the surrogate's training lies in the bounds exactly when the residual variance is not
tiny. -/
theorem C104_start_partial {D : ℕ} (u : List (Pos D)) (y : List ℝ) (mf : Option (Quad D)) :
    InFitBox (fitScale u y mf) (fitInit D (fitScale u y mf)) ↔ 1 / (10 ^ 12 - 10 ^ 8) ≤ fitScale u y mf := by
  rw [C104_box]
  have hs := fitScale_pos u y mf
  generalize fitScale u y mf = s at hs
  have hlow : (boundSignal s).1 ≤ s ↔ 1 / (10 ^ 12 - 10 ^ 8) ≤ s := by
    simp only [boundSignal]
    norm_num
    constructor <;> intro h <;> linarith
  refine ⟨fun h => hlow.1 h.1.1, fun h => ⟨⟨hlow.2 h, ?_⟩, fun i => ?_, ?_, ?_⟩⟩
  · simp only [boundSignal, fitInit]
    norm_num
    linarith
  · simp only [boundLen, fitInit]
    norm_num
  · exact le_max_right _ _
  · simp only [boundNoise, fitInit]
    refine max_le (le_max_of_le_left ?_) (le_max_of_le_right (by linarith [nugget_pos s]))
    norm_num
    linarith

/-- C104 is violated for a flat objective: two evaluations `0` and `1e-6` give a start outside the bounds. -/
theorem C104_start_violated : ¬ InFitBox (D := 1) (fitScale [![0], ![1]] [0, 1 / 10 ^ 6] none)
    (fitInit 1 (fitScale [![0], ![1]] [0, 1 / 10 ^ 6] none)) := by
  rw [C104_start_partial]
  have : fitScale (D := 1) [![0], ![1]] [0, 1 / 10 ^ 6] none = 1 / (4 * 10 ^ 12) := by
    simp [fitScale, lvar, lmean]
    norm_num
  rw [this]
  norm_num

theorem surrogateKernel_psd {D : ℕ} (h : SHps D) (hs : 0 ≤ h.signal) : IsPSDKernel (surrogateKernel h) := by
  have a := IsPSDKernel.comp (C84_matern2 (D := D) 1 one_pos) fun (x : Fin D → ℝ) i => x i / h.len i
  have := IsPSDKernel.smul a hs
  convert this using 3 with x y
  unfold surrogateKernel
  rw [anisoDistance_eq]

theorem surrogate_admissible {D : ℕ} (ext : Ext) (u : List (Pos D)) (y : List ℝ) (v : Option (List ℝ))
    (hv : ∀ l, v = some l → l.length = u.length) (mf : Option (Quad D)) (scale : ℝ) (h : SHps D) (hs : 0 ≤ h.signal) :
    Admissible (surrogateConfig mf v.isSome ext) (surrogateData u y v scale) h := by
  cases v with
  | some l =>
    refine measured_admissible _ (by simp [surrogateConfig]) _ h (surrogateKernel_psd h hs) (l.map fun e => max e (nugget scale))
      rfl (by simp [surrogateData, hv l rfl]) ?_
    intro x hx
    obtain ⟨e, -, rfl⟩ := List.mem_map.1 hx
    exact lt_max_of_lt_right (nugget_pos _)
  | none =>
    have e : calcV (surrogateConfig mf (none : Option (List ℝ)).isSome ext) (surrogateData u y none scale) h u
        = .diag u.length fun _ => homoNoise h := by simp [calcV, surrogateConfig]
    refine ⟨by show Noise.Fits _ _ _; rw [show (surrogateData u y none scale).x = u from rfl, e]; rfl,
      KVmat_posDef (surrogateKernel_psd h hs) ?_⟩
    rw [show (surrogateData u y none scale).x = u from rfl, e]
    exact Matrix.PosDef.diagonal fun i => lt_max_of_lt_right (by norm_num)

/-- C104: the surrogate is accepted whatever points have been evaluated (repeated points included), whatever noise has been
reported (zero and negative variances included), whatever the least-squares fit answers, for all hyperparameters in the
bounds. -/
theorem C104_fit_succeeds {D : ℕ} (ext : Ext) (he : SpluContract ext) (u : List (Pos D)) (y : List ℝ) (v : Option (List ℝ))
    (hv : ∀ l, v = some l → l.length = u.length) (fit : Option (Quad D)) (h : SHps D)
    (hb : InFitBox (fitScale u y (polynomialMean u.length fit)) h) : ∃ gp, fitSurrogate ext u y v fit h = .ok gp := by
  have hs : 0 ≤ h.signal :=
    ((C104_bounds_proper u y (polynomialMean u.length fit)).1.1.le).trans ((C104_box _ _).1 hb).1.1
  obtain ⟨gp, hgp, -⟩ := init_ok _ _ h (by exact he) (surrogate_admissible ext u y v hv (polynomialMean u.length fit)
    (fitScale u y (polynomialMean u.length fit)) h hs)
  exact ⟨gp, hgp⟩

/-- Two coincident points, reported variances zero and negative. -/
example (ext : Ext) (he : SpluContract ext) : ∃ gp, fitSurrogate (D := 1) ext [![1], ![1]] [0, 2] (some [0, -1]) none
    ⟨1, fun _ => 1 / 2, 1 / 10⟩ = .ok gp := by
  refine C104_fit_succeeds ext he _ _ _ (fun l h => by cases h; rfl) none _ ?_
  have : fitScale (D := 1) [![1], ![1]] [0, 2] (polynomialMean 2 none) = 1 := by
    simp [fitScale, polynomialMean, lvar, lmean]
    norm_num
  show InFitBox (fitScale (D := 1) [![1], ![1]] [0, 2] (polynomialMean 2 none)) _
  rw [this, C104_box]
  refine ⟨?_, fun i => ?_, ?_⟩
  · simp only [boundSignal]; norm_num
  · simp only [boundLen]; norm_num
  · simp only [boundNoise, nugget]
    rw [max_eq_left (by norm_num), max_eq_left (by norm_num)]
    norm_num

/-! ## C105 -/

/-- What the theorems below need of a fitted surrogate. -/
structure Fitted {D : ℕ} (gp : GP (Pos D) (SHps D)) (mf : Option (Quad D)) : Prop where
  consistent : Consistent gp
  posDef : (KVmat gp.cfg gp.data gp.hps).PosDef
  kernel : gp.cfg.kernel = surrogateKernel
  mean : gp.cfg.mean = mf.map fun c _ u => c.eval u

theorem fitted_of_ok {D : ℕ} {ext : Ext} (he : SpluContract ext) {u : List (Pos D)} {y : List ℝ} {v : Option (List ℝ)}
    (hv : ∀ l, v = some l → l.length = u.length) {fit : Option (Quad D)} {h : SHps D} (hs : 0 ≤ h.signal)
    {gp : GP (Pos D) (SHps D)} (hgp : fitSurrogate ext u y v fit h = .ok gp) :
    Fitted gp (polynomialMean u.length fit) ∧ gp.hps = h ∧
      gp.data = surrogateData u y v (fitScale u y (polynomialMean u.length fit)) := by
  have ha := surrogate_admissible ext u y v hv (polynomialMean u.length fit) (fitScale u y (polynomialMean u.length fit)) h hs
  obtain ⟨gp', hgp', hc, h1, h2, h3⟩ := init_ok _ _ h (by exact he) ha
  have : gp = gp' := by
    have : (Except.ok gp : Except String _) = .ok gp' := by rw [← hgp, ← hgp']; rfl
    injection this
  subst this
  refine ⟨⟨hc, ?_, ?_, ?_⟩, h3, h2⟩
  · rw [h1, h2, h3]; exact ha.posDef
  · rw [h1]; rfl
  · rw [h1]; rfl

/-- The unclipped posterior variance at a point, from matrices. -/
noncomputable def specVar {D : ℕ} (gp : GP (Pos D) (SHps D)) (p : Pos D) : ℝ := specCov gp.cfg gp.data gp.hps [p] 0 0

/-- The cross covariances. -/
noncomputable def crossAt {D : ℕ} (gp : GP (Pos D) (SHps D)) (p : Pos D) (j : Fin gp.data.x.length) : ℝ :=
  surrogateKernel gp.hps gp.data.x[j] p

theorem gram_cross {D : ℕ} (gp : GP (Pos D) (SHps D)) (p : Pos D) (j : Fin gp.data.x.length) :
    gram (surrogateKernel gp.hps) gp.data.x [p] j 0 = crossAt gp p j :=
  gram_apply (surrogateKernel gp.hps) gp.data.x [p] j 0

theorem surrogateKernel_self {D : ℕ} (h : SHps D) (p : Pos D) : surrogateKernel h p p = h.signal := by
  simp [surrogateKernel_eq, mat5, matern2_one]

theorem specVar_eq {D : ℕ} {gp : GP (Pos D) (SHps D)} {mf : Option (Quad D)} (hf : Fitted gp mf) (p : Pos D) :
    specVar gp p = gp.hps.signal
      - ∑ j, crossAt gp p j * ((KVmat gp.cfg gp.data gp.hps)⁻¹.mulVec (crossAt gp p)) j := by
  have hk := hf.kernel
  simp only [specVar, specCov, condCov, Matrix.sub_apply, Matrix.mul_assoc]
  rw [show Kmat (gp.cfg.kernel gp.hps) [p] [p] 0 0 = gp.cfg.kernel gp.hps p p from rfl, hk, surrogateKernel_self]
  congr 1

theorem predict_alpha {D : ℕ} {gp : GP (Pos D) (SHps D)} {mf : Option (Quad D)} (hf : Fitted gp mf) (p : Pos D)
    (j : Fin gp.data.x.length) : solve gp.kv.factor (fun j => gram (surrogateKernel gp.hps) gp.data.x [p] j 0) j
      = ((KVmat gp.cfg gp.data gp.hps)⁻¹.mulVec (crossAt gp p)) j := by
  rw [consistent_solve hf.consistent hf.posDef]
  congr 2
  exact funext fun l => gram_cross gp p l

theorem predict_var {D : ℕ} {gp : GP (Pos D) (SHps D)} {mf mf' : Option (Quad D)} (hf : Fitted gp mf) (p : Pos D) :
    (predictAt gp mf' p).var = max (varFloor gp.hps.signal) (specVar gp p) := by
  have e : gp.hps.signal - ∑ j ∈ range gp.data.x.length, gram (surrogateKernel gp.hps) gp.data.x [p] j 0 *
      solve gp.kv.factor (fun j => gram (surrogateKernel gp.hps) gp.data.x [p] j 0) j = specVar gp p := by
    rw [specVar_eq hf, Finset.sum_range]
    congr 1
    exact sum_congr rfl fun j _ => by rw [predict_alpha hf, gram_cross]
  simp only [predictAt, e]
  split_ifs with h
  · exact (max_eq_left h).symm
  · exact (max_eq_right (not_le.1 h).le).symm

theorem predict_mean {D : ℕ} (gp : GP (Pos D) (SHps D)) (mf : Option (Quad D)) (p : Pos D) :
    (predictAt gp mf p).mean = (mf.elim 0 fun c => c.eval p)
      + ∑ j, crossAt gp p j * gp.kv.kvinvY j 0 := by
  simp only [predictAt]
  have : ∑ j ∈ range gp.data.x.length, gram (surrogateKernel gp.hps) gp.data.x [p] j 0 * gp.kv.kvinvY j 0
      = ∑ j : Fin gp.data.x.length, crossAt gp p j * gp.kv.kvinvY j 0 := by
    rw [Finset.sum_range]
    exact sum_congr rfl fun j _ => by rw [gram_cross]
  split_ifs <;> simp only [this]

theorem posterior_mean_eq {D : ℕ} {gp : GP (Pos D) (SHps D)} {mf : Option (Quad D)} (hf : Fitted gp mf) (p : Pos D) :
    posteriorMean gp [p] 0 0 = (mf.elim gp.data.yMean fun c => c.eval p)
      + ∑ j, crossAt gp p j * gp.kv.kvinvY j 0 := by
  rw [posteriorMean, hf.kernel, Finset.sum_range]
  congr 1
  · simp only [evalAt, List.getElem?_cons_zero, meanFn, hf.mean]
    cases mf <;> rfl
  · exact sum_congr rfl fun j _ => by rw [gram_cross]

/-- Specification: the smallest variance the gradient search works with. -/
noncomputable def smallestVariance (signal : ℝ) : ℝ := max signal (1 / 10 ^ 300) / 10 ^ 10

theorem varFloor_eq (signal : ℝ) : smallestVariance signal = varFloor signal := by
  unfold smallestVariance varFloor tiny
  ring

/-- C105: with a fitted polynomial mean, the mean and the variance the gradient search sees are the GP's own posterior mean and
posterior variance, the latter raised to the floor. -/
theorem C105_value_partial {D : ℕ} (ext : Ext) (he : SpluContract ext) (u : List (Pos D)) (y : List ℝ) (v : Option (List ℝ))
    (hv : ∀ l, v = some l → l.length = u.length) (fit : Option (Quad D)) (h : SHps D) (hs : 0 ≤ h.signal) (_hl : ∀ j, h.len j ≠ 0)
    (gp : GP (Pos D) (SHps D)) (hgp : fitSurrogate ext u y v fit h = .ok gp) (c : Quad D)
    (hc : polynomialMean u.length fit = some c) (p : Pos D) (chunk : ℕ) (junk : NMat) :
    ∃ w S, posteriorCovariance gp [p] true false chunk junk = .ok (w, S) ∧
      (predictAt gp (polynomialMean u.length fit) p).mean = posteriorMean gp [p] 0 0 ∧
      (predictAt gp (polynomialMean u.length fit) p).var = max (smallestVariance h.signal) (w 0) := by
  rw [varFloor_eq]
  obtain ⟨hf, hh, -⟩ := fitted_of_ok he hv hs hgp
  obtain ⟨w, S, hw, h1, -⟩ := posteriorCovariance_eq hf.consistent hf.posDef [p] true chunk junk
  refine ⟨w, S, hw, ?_, ?_⟩
  · rw [predict_mean, posterior_mean_eq hf, hc]
    rfl
  · have := h1 (0 : Fin 1)
    rw [show ((0 : Fin 1) : ℕ) = 0 from rfl] at this
    subst hh
    rw [predict_var hf, this]
    have hp : 0 ≤ varFloor gp.hps.signal := by
      unfold varFloor
      have : 0 ≤ max gp.hps.signal tiny := le_max_of_le_left hs
      positivity
    rw [← max_assoc, max_eq_left hp]
    rfl

/-- C105 is violated without the polynomial mean (fewer than `2(1+2d)` points): the surrogate then has the default constant
prior mean, which the gradient search leaves out. The two means differ by the average of the observed values. -/
theorem C105_default_mean_violated {D : ℕ} (ext : Ext) (he : SpluContract ext) (u : List (Pos D)) (y : List ℝ)
    (v : Option (List ℝ)) (hv : ∀ l, v = some l → l.length = u.length) (hy : y.length = u.length) (fit : Option (Quad D))
    (h : SHps D) (hs : 0 ≤ h.signal) (_hl : ∀ j, h.len j ≠ 0) (hn : u.length < 2 * (1 + 2 * D)) (gp : GP (Pos D) (SHps D))
    (hgp : fitSurrogate ext u y v fit h = .ok gp) (p : Pos D) :
    posteriorMean gp [p] 0 0 = (predictAt gp (polynomialMean u.length fit) p).mean + lmean y := by
  obtain ⟨hf, hh, hd⟩ := fitted_of_ok he hv hs hgp
  have hm : polynomialMean u.length fit = none := by simp [polynomialMean, hn]
  rw [hm] at hf ⊢
  rw [predict_mean, posterior_mean_eq hf]
  have : gp.data.yMean = lmean y := by
    rw [hd]
    simp [Data.yMean, surrogateData, lmean, hy, Function.comp_def]
  simp only [this, Option.elim]
  ring

/-- A concrete surrogate with two points for which the gradient search does not see the GP's posterior mean. -/
example (ext : Ext) (he : SpluContract ext) (p : Pos 1) : ∃ gp, fitSurrogate (D := 1) ext [![0], ![1]] [0, 2] none none
    ⟨1, fun _ => 1 / 2, 1 / 10⟩ = .ok gp ∧ posteriorMean gp [p] 0 0 = (predictAt gp none p).mean + 1 := by
  have ha := surrogate_admissible (D := 1) ext [![0], ![1]] [0, 2] none (fun l h => by cases h) none
    (fitScale [![0], ![1]] [0, 2] none) ⟨1, fun _ => 1 / 2, 1 / 10⟩ (by norm_num)
  obtain ⟨gp, hgp, -⟩ := init_ok _ _ _ (by exact he) ha
  refine ⟨gp, hgp, ?_⟩
  rw [C105_default_mean_violated ext he [![0], ![1]] [0, 2] none (fun l h => by cases h) rfl none _ (by norm_num)
    (fun _ => by norm_num) (by norm_num) gp hgp p]
  simp [polynomialMean, lmean]

theorem cross_deriv {D : ℕ} (gp : GP (Pos D) (SHps D)) (p : Pos D) (i : Fin D) (j : Fin gp.data.x.length) :
    HasDerivAt (fun t => crossAt gp (Function.update p i t) j) (surrogateKernelDx gp.hps p gp.data.x[j] i) (p i) :=
  surrogateKernel_dx gp.hps gp.data.x[j] p i

theorem dk_sum {D : ℕ} (gp : GP (Pos D) (SHps D)) (p : Pos D) (i : Fin D) (b : ℕ → ℝ) :
    ∑ j ∈ range gp.data.x.length, (gp.data.x[j]?.map fun x => surrogateKernelDx gp.hps p x i).getD 0 * b j
      = ∑ j : Fin gp.data.x.length, surrogateKernelDx gp.hps p gp.data.x[j] i * b j := by
  rw [Finset.sum_range]
  refine sum_congr rfl fun j _ => ?_
  simp

theorem quad_deriv {D : ℕ} (c : Quad D) (p : Pos D) (i : Fin D) :
    HasDerivAt (fun t => c.eval (Function.update p i t)) (quadDx (some c) p i) (p i) := by
  unfold Quad.eval
  have h1 : HasDerivAt (fun t => ∑ j, Function.update p i t j * c.c1 j) (c.c1 i) (p i) := by
    refine hasDerivAt_sum_one (f := fun t j => Function.update p i t j * c.c1 j) (k := i) ?_
      fun j hj s => by simp [Function.update_of_ne hj]
    simpa using (hasDerivAt_id (p i)).mul_const (c.c1 i)
  have h2 : HasDerivAt (fun t => ∑ j, Function.update p i t j ^ 2 * c.c2 j) (2 * p i * c.c2 i) (p i) := by
    refine hasDerivAt_sum_one (f := fun t j => Function.update p i t j ^ 2 * c.c2 j) (k := i) ?_
      fun j hj s => by simp [Function.update_of_ne hj]
    simp only [Function.update_self]
    refine (((hasDerivAt_id (p i)).fun_pow 2).mul_const (c.c2 i)).congr_deriv ?_
    simp
  refine ((h1.const_add c.c0).fun_add h2).congr_deriv ?_
  simp only [quadDx]
  ring

theorem mean_deriv {D : ℕ} (gp : GP (Pos D) (SHps D)) (mf : Option (Quad D)) (a : ℝ) (p : Pos D) (i : Fin D) :
    HasDerivAt (fun t => (mf.elim a fun c => c.eval (Function.update p i t))
      + ∑ j, crossAt gp (Function.update p i t) j * gp.kv.kvinvY j 0) ((predictAt gp mf p).dMean i) (p i) := by
  have h1 : HasDerivAt (fun t => mf.elim a fun c => c.eval (Function.update p i t)) (quadDx mf p i) (p i) := by
    cases mf with
    | none => exact hasDerivAt_const (p i) a
    | some c => exact quad_deriv c p i
  have h2 := HasDerivAt.fun_sum (u := univ) fun j _ => (cross_deriv gp p i j).mul_const (gp.kv.kvinvY j 0)
  refine (h1.fun_add h2).congr_deriv ?_
  simp only [predictAt]
  split_ifs <;> simp only [dk_sum gp p i fun j => gp.kv.kvinvY j 0]

/-- C105: the returned gradient of the mean is the derivative of the GP's posterior mean, with and without the polynomial
mean. -/
theorem C105_mean_gradient {D : ℕ} (ext : Ext) (he : SpluContract ext) (u : List (Pos D)) (y : List ℝ) (v : Option (List ℝ))
    (hv : ∀ l, v = some l → l.length = u.length) (fit : Option (Quad D)) (h : SHps D) (hs : 0 ≤ h.signal) (_hl : ∀ j, h.len j ≠ 0)
    (gp : GP (Pos D) (SHps D)) (hgp : fitSurrogate ext u y v fit h = .ok gp) (p : Pos D) (i : Fin D) :
    HasDerivAt (fun t => posteriorMean gp [Function.update p i t] 0 0)
      ((predictAt gp (polynomialMean u.length fit) p).dMean i) (p i) := by
  obtain ⟨hf, -, -⟩ := fitted_of_ok he hv hs hgp
  simp only [posterior_mean_eq hf]
  exact mean_deriv gp _ _ p i

theorem specVar_deriv {D : ℕ} {gp : GP (Pos D) (SHps D)} {mf : Option (Quad D)} (hf : Fitted gp mf) (p : Pos D) (i : Fin D) :
    HasDerivAt (fun t => specVar gp (Function.update p i t)) (-2 * ∑ j, surrogateKernelDx gp.hps p gp.data.x[j] i *
      ((KVmat gp.cfg gp.data gp.hps)⁻¹.mulVec (crossAt gp p)) j) (p i) := by
  simp only [specVar_eq hf]
  set B := (KVmat gp.cfg gp.data gp.hps)⁻¹ with hB
  have hsym : ∀ a b, B a b = B b a := by
    intro a b
    have : B.IsHermitian := hf.posDef.isHermitian.inv
    have := congrFun (congrFun this b) a
    simpa using this
  set d : Fin gp.data.x.length → ℝ := fun j => surrogateKernelDx gp.hps p gp.data.x[j] i with hd
  have hmv : ∀ j, HasDerivAt (fun t => (B.mulVec (crossAt gp (Function.update p i t))) j) ((B.mulVec d) j) (p i) := by
    intro j
    simp only [Matrix.mulVec, _root_.dotProduct]
    exact HasDerivAt.fun_sum fun l _ => (cross_deriv gp p i l).const_mul (B j l)
  have h := (HasDerivAt.fun_sum (u := univ) fun j _ => (cross_deriv gp p i j).fun_mul (hmv j)).const_sub gp.hps.signal
  refine h.congr_deriv ?_
  simp only [Function.update_eq_self]
  have e : ∑ j, crossAt gp p j * (B.mulVec d) j = ∑ j, d j * (B.mulVec (crossAt gp p)) j := by
    simp only [Matrix.mulVec, _root_.dotProduct, mul_sum]
    rw [sum_comm]
    refine sum_congr rfl fun j _ => sum_congr rfl fun l _ => ?_
    rw [hsym l j]
    ring
  rw [sum_add_distrib, e]
  ring

/-- C105: the returned gradient of the variance is the derivative of the returned variance, everywhere except where the
posterior variance equals the floor exactly. -/
theorem C105_variance_gradient {D : ℕ} (ext : Ext) (he : SpluContract ext) (u : List (Pos D)) (y : List ℝ)
    (v : Option (List ℝ)) (hv : ∀ l, v = some l → l.length = u.length) (fit : Option (Quad D)) (h : SHps D) (hs : 0 ≤ h.signal) (_hl : ∀ j, h.len j ≠ 0)
    (gp : GP (Pos D) (SHps D)) (hgp : fitSurrogate ext u y v fit h = .ok gp) (p : Pos D) (i : Fin D)
    (hne : specVar gp p ≠ smallestVariance h.signal) :
    HasDerivAt (fun t => (predictAt gp (polynomialMean u.length fit) (Function.update p i t)).var)
      ((predictAt gp (polynomialMean u.length fit) p).dVar i) (p i) := by
  rw [varFloor_eq] at hne
  obtain ⟨hf, hh, -⟩ := fitted_of_ok he hv hs hgp
  subst hh
  simp only [predict_var hf]
  have hd := specVar_deriv hf p i
  have hc := hd.continuousAt
  have e : gp.hps.signal - ∑ j ∈ range gp.data.x.length, gram (surrogateKernel gp.hps) gp.data.x [p] j 0 *
      solve gp.kv.factor (fun j => gram (surrogateKernel gp.hps) gp.data.x [p] j 0) j = specVar gp p := by
    rw [specVar_eq hf, Finset.sum_range]
    congr 1
    exact sum_congr rfl fun j _ => by rw [predict_alpha hf, gram_cross]
  rcases lt_or_gt_of_ne hne with hlt | hgt
  · have hz : (predictAt gp (polynomialMean u.length fit) p).dVar i = 0 := by
      simp only [predictAt, e, if_pos hlt.le]
    rw [hz]
    refine (hasDerivAt_const (p i) (varFloor gp.hps.signal)).congr_of_eventuallyEq ?_
    have : (fun t => specVar gp (Function.update p i t)) (p i) < varFloor gp.hps.signal := by simpa using hlt
    filter_upwards [hc.eventually_lt_const this] with t ht
    exact max_eq_left ht.le
  · have hz : (predictAt gp (polynomialMean u.length fit) p).dVar i = -2 * ∑ j, surrogateKernelDx gp.hps p gp.data.x[j] i *
      ((KVmat gp.cfg gp.data gp.hps)⁻¹.mulVec (crossAt gp p)) j := by
      simp only [predictAt, e, if_neg (not_le.2 hgt), dk_sum]
      congr 1
      exact sum_congr rfl fun j _ => by rw [predict_alpha hf]
    rw [hz]
    refine hd.congr_of_eventuallyEq ?_
    have : varFloor gp.hps.signal < (fun t => specVar gp (Function.update p i t)) (p i) := by simpa using hgt
    filter_upwards [hc.eventually_const_lt this] with t ht
    exact max_eq_right ht.le

end Verif.BO
