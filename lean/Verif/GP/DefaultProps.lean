import Verif.GP.OrderProps

/-!
Property C93: the default prior mean and noise are the documented ones.
Property C94: predictions are linear in the values (default mean), and shifting all values shifts the predictions.
-/

namespace Verif.GP

open Finset Verif.LinAlg Matrix

variable {α H : Type}

/-- One row of `cols` values per point. -/
structure Rectangular (d : Data α) : Prop where
  rows : d.y.length = d.x.length
  row : ∀ r ∈ d.y, r.length = d.cols

theorem sum_row (f : ℝ → ℝ) (r : List ℝ) : (r.map f).sum = ∑ j : Fin r.length, f (r.getD j 0) := by
  rw [← Fin.sum_univ_fun_getElem]
  exact Finset.sum_congr rfl fun i _ => by simp

theorem Rectangular.sum_sum {d : Data α} (hd : Rectangular d) (f : ℝ → ℝ) :
    (d.y.map fun r => (r.map f).sum).sum = ∑ i : Fin d.x.length, ∑ j : Fin d.cols, f (d.yMat i j) := by
  rw [sum_rows _ d.y _ hd.rows]
  refine Finset.sum_congr rfl fun i _ => ?_
  have hi : (i : ℕ) < d.y.length := by rw [hd.rows]; exact i.2
  have hl : (d.y.getD i []).length = d.cols := by
    rw [List.getD_eq_getElem?_getD, List.getElem?_eq_getElem hi, Option.getD_some]
    exact hd.row _ (List.getElem_mem hi)
  rw [sum_row]
  exact Fintype.sum_equiv (finCongr hl) _ _ fun j => rfl

/-! ## C93 -/

/-- **C93** (mean). Without a prior mean function the prior mean is, at every point, the average of all values of all
output columns. -/
theorem C93_default_mean (c : Config α H) (hc : c.mean = none) (d : Data α) (hd : Rectangular d) (h : H) (a : α) :
    meanFn c d h a = (∑ i : Fin d.x.length, ∑ j : Fin d.cols, d.yMat i j) / (d.x.length * d.cols) := by
  have := hd.sum_sum id
  simp only [List.map_id', id] at this
  simp only [meanFn, hc, Data.yMean]
  rw [← this]
  simp

/-- **C93** (noise). Without a noise function and without measured variances the noise variance is
`(0.01 * mean |y|)²` at every point, uncorrelated, for every set of points and all hyperparameters. -/
theorem C93_default_noise (c : Config α H) (hc : c.noise = .default) (d : Data α) (hd : Rectangular d) (h : H)
    (xs : List α) (i j : Fin xs.length) :
    (calcV c d h xs).mat xs.length i j = if i = j then
      (0.01 * ((∑ i : Fin d.x.length, ∑ j : Fin d.cols, |d.yMat i j|) / (d.x.length * d.cols))) ^ 2 else 0 := by
  have := hd.sum_sum fun v => |v|
  simp only [calcV, hc, Noise.mat, Matrix.diagonal_apply, Data.yAbsMean]
  rw [this]
  split_ifs
  · ring
  · rfl

/-- Two points, two columns: the average of the values is 1, that of their absolute values 2. -/
noncomputable def rectData : Data ℕ := ⟨[0, 1], [[3, -1], [-1, 3]], 2, none⟩

theorem rectData_rect : Rectangular rectData := ⟨rfl, by simp [rectData]⟩

example (c : Config ℕ ℝ) (h1 : c.mean = none) (h2 : c.noise = .default) (h : ℝ) :
    meanFn c rectData h 17 = 1 ∧ (calcV c rectData h [5, 6]).mat 2 0 0 = 0.02 ^ 2 := by
  constructor
  · rw [C93_default_mean c h1 _ rectData_rect]
    change (∑ i : Fin 2, ∑ j : Fin 2, rectData.yMat i j) / ((2 : ℕ) * (2 : ℕ)) = 1
    simp only [Fin.sum_univ_two, rectData, Data.yMat]
    norm_num
  · have := C93_default_noise c h2 _ rectData_rect h [5, 6] 0 0
    refine this.trans ?_
    change (if (0 : Fin 2) = 0 then
      (0.01 * ((∑ i : Fin 2, ∑ j : Fin 2, |rectData.yMat i j|) / ((2 : ℕ) * (2 : ℕ)))) ^ 2 else 0) = _
    simp only [Fin.sum_univ_two, rectData, Data.yMat]
    norm_num

/-! ## C94 -/

/-- The noise does not look at the values. -/
theorem calcV_congr (c : Config α H) (hc : c.noise ≠ .default) (d d' : Data α) (hn : d'.noiseVar = d.noiseVar) (h : H)
    (xs : List α) : calcV c d' h xs = calcV c d h xs := by
  unfold calcV
  cases hc' : c.noise with
  | user f => rfl
  | measured => rw [hn]
  | default => exact absurd hc' hc

/-- `d` with other values. -/
def Data.withValues (d : Data α) (y : List (List ℝ)) : Data α := { d with y := y }

theorem KVmat_withValues (c : Config α H) (hc : c.noise ≠ .default) (d : Data α) (y : List (List ℝ)) (h : H) :
    KVmat c (d.withValues y) h = KVmat c d h := by
  rw [KVmat, KVmat]
  congr 1
  exact congrArg (fun V : Noise => V.mat d.x.length) (calcV_congr c hc d (d.withValues y) rfl h d.x)

theorem Admissible.withValues {c : Config α H} (hc : c.noise ≠ .default) {d : Data α} {h : H} (ha : Admissible c d h)
    (y : List (List ℝ)) : Admissible c (d.withValues y) h := by
  refine ⟨?_, ?_⟩
  · have := ha.fits
    rw [calcV_congr c hc d (d.withValues y) rfl h]
    exact this
  · rw [KVmat_withValues c hc]
    exact ha.posDef

theorem specMean_withValues (c : Config α H) (hc : c.noise ≠ .default) (d : Data α) (y : List (List ℝ)) (h : H)
    (xs : List α) (j : ℕ) (i : Fin xs.length) :
    specMean c (d.withValues y) h xs j i = meanFn c (d.withValues y) h xs[i] + ((Kmat (c.kernel h) d.x xs)ᵀ *ᵥ
      ((KVmat c d h)⁻¹ *ᵥ fun l : Fin d.x.length =>
        (d.withValues y).yMat l j - meanFn c (d.withValues y) h d.x[l])) i := by
  rw [specMean, KVmat_withValues c hc]
  rfl

/-- **C94** (covariance). With measured noise or a noise function, the values do not influence the covariance: two data
sets with the same inputs give the same variances and covariances. -/
theorem C94_covariance_independent_of_values (c : Config α H) (hc : c.noise ≠ .default) (d : Data α)
    (y : List (List ℝ)) (h : H) (he : SpluContract c.ext) (ha : Admissible c d h) :
    ∃ gp gp', init c d h = .ok gp ∧ init c (d.withValues y) h = .ok gp' ∧
      ∀ (xs : List α) (chunk : ℕ) (junk : NMat), ∃ v S v' S',
        posteriorCovariance gp xs false false chunk junk = .ok (v, some S) ∧
        posteriorCovariance gp' xs false false chunk junk = .ok (v', some S') ∧
        ∀ i < xs.length, v' i = v i ∧ ∀ j < xs.length, S' i j = S i j := by
  obtain ⟨gp, hgp, hcov⟩ := C25_posterior_covariance c d h he ha
  obtain ⟨gp', hgp', hcov'⟩ := C25_posterior_covariance c (d.withValues y) h he (ha.withValues hc y)
  refine ⟨gp, gp', hgp, hgp', fun xs chunk junk => ?_⟩
  obtain ⟨v, S, h1, h2⟩ := hcov xs chunk junk
  obtain ⟨v', S', h1', h2'⟩ := hcov' xs chunk junk
  have e : specCov c (d.withValues y) h xs = specCov c d h xs := by
    rw [specCov, specCov, KVmat_withValues c hc]; rfl
  rw [e] at h2'
  refine ⟨v, S, v', S', h1, h1', fun i hi => ?_⟩
  have hv : v' i = v i := by rw [(h2' ⟨i, hi⟩).1, (h2 ⟨i, hi⟩).1]
  refine ⟨hv, fun j hj => ?_⟩
  by_cases hij : i = j
  · subst hij
    have a1 := (h2' ⟨i, hi⟩).2.1
    have a2 := (h2 ⟨i, hi⟩).2.1
    simp only at a1 a2
    rw [a1, a2, hv]
  · have hne : (⟨i, hi⟩ : Fin xs.length) ≠ ⟨j, hj⟩ := fun e => hij (congrArg Fin.val e)
    rw [(h2' ⟨i, hi⟩).2.2 ⟨j, hj⟩ hne, (h2 ⟨i, hi⟩).2.2 ⟨j, hj⟩ hne]

/-- **C94** (linearity). With the default mean, and measured noise or a noise function, the posterior mean is linear in
the values: predictions for `a y₁ + b y₂` are `a` times those for `y₁` plus `b` times those for `y₂`. -/
theorem C94_linear (c : Config α H) (hm : c.mean = none) (hc : c.noise ≠ .default) (d : Data α)
    (y₁ y₂ y₃ : List (List ℝ)) (h₁ : Rectangular (d.withValues y₁)) (h₂ : Rectangular (d.withValues y₂))
    (h₃ : Rectangular (d.withValues y₃)) (a b : ℝ)
    (hy : ∀ (i : Fin d.x.length) (j : Fin d.cols), (d.withValues y₃).yMat i j
      = a * (d.withValues y₁).yMat i j + b * (d.withValues y₂).yMat i j)
    (h : H) (he : SpluContract c.ext) (ha : Admissible c d h) :
    ∃ gp₁ gp₂ gp₃, init c (d.withValues y₁) h = .ok gp₁ ∧ init c (d.withValues y₂) h = .ok gp₂ ∧
      init c (d.withValues y₃) h = .ok gp₃ ∧ ∀ (xs : List α), ∀ i < xs.length, ∀ j < d.cols,
        posteriorMean gp₃ xs i j = a * posteriorMean gp₁ xs i j + b * posteriorMean gp₂ xs i j := by
  obtain ⟨g₁, hg₁, p₁⟩ := C25_posterior_mean c (d.withValues y₁) h he (ha.withValues hc y₁)
  obtain ⟨g₂, hg₂, p₂⟩ := C25_posterior_mean c (d.withValues y₂) h he (ha.withValues hc y₂)
  obtain ⟨g₃, hg₃, p₃⟩ := C25_posterior_mean c (d.withValues y₃) h he (ha.withValues hc y₃)
  refine ⟨g₁, g₂, g₃, hg₁, hg₂, hg₃, fun xs i hi j hj => ?_⟩
  rw [p₁ xs ⟨i, hi⟩, p₂ xs ⟨i, hi⟩, p₃ xs ⟨i, hi⟩]
  have em : ∀ p, meanFn c (d.withValues y₃) h p
      = a * meanFn c (d.withValues y₁) h p + b * meanFn c (d.withValues y₂) h p := by
    intro p
    rw [C93_default_mean c hm _ h₁, C93_default_mean c hm _ h₂, C93_default_mean c hm _ h₃]
    have : (∑ i : Fin d.x.length, ∑ j : Fin d.cols, (d.withValues y₃).yMat i j)
        = a * (∑ i : Fin d.x.length, ∑ j : Fin d.cols, (d.withValues y₁).yMat i j)
          + b * (∑ i : Fin d.x.length, ∑ j : Fin d.cols, (d.withValues y₂).yMat i j) := by
      simp only [hy, Finset.sum_add_distrib, Finset.mul_sum]
    change (∑ i : Fin d.x.length, ∑ j : Fin d.cols, (d.withValues y₃).yMat i j) / _ = a * (_ / _) + b * (_ / _)
    rw [this, add_div, mul_div_assoc, mul_div_assoc]
    rfl
  have er : (fun l : Fin d.x.length => (d.withValues y₃).yMat l j - meanFn c (d.withValues y₃) h d.x[l])
      = a • (fun l : Fin d.x.length => (d.withValues y₁).yMat l j - meanFn c (d.withValues y₁) h d.x[l])
        + b • (fun l : Fin d.x.length => (d.withValues y₂).yMat l j - meanFn c (d.withValues y₂) h d.x[l]) := by
    funext l
    have := hy l ⟨j, hj⟩
    simp only [Pi.add_apply, Pi.smul_apply, smul_eq_mul, em] at this ⊢
    rw [this]; ring
  simp only [specMean_withValues c hc]
  rw [er, em]
  simp only [Matrix.mulVec_add, Matrix.mulVec_smul, Pi.add_apply, Pi.smul_apply, smul_eq_mul]
  ring

/-- Values that are all equal to `s`. -/
def constValues (d : Data α) (s : ℝ) : List (List ℝ) := List.replicate d.x.length (List.replicate d.cols s)

theorem constValues_rect (d : Data α) (s : ℝ) : Rectangular (d.withValues (constValues d s)) where
  rows := by simp [Data.withValues, constValues]
  row r hr := by
    simp only [Data.withValues, constValues, List.mem_replicate] at hr
    simp [Data.withValues, hr.2]

theorem constValues_apply (d : Data α) (s : ℝ) (i : ℕ) (hi : i < d.x.length) (j : ℕ) (hj : j < d.cols) :
    (d.withValues (constValues d s)).yMat i j = s := by
  simp [Data.withValues, constValues, Data.yMat, hi, hj]

/-- **C94** (constant values). With the default mean, constant values are predicted exactly, everywhere. -/
theorem C94_constant (c : Config α H) (hm : c.mean = none) (d : Data α) (s : ℝ) (h : H) (he : SpluContract c.ext)
    (ha : Admissible c (d.withValues (constValues d s)) h) (hx : d.x ≠ []) :
    ∃ gp, init c (d.withValues (constValues d s)) h = .ok gp ∧ ∀ (xs : List α), ∀ i < xs.length, ∀ j < d.cols,
      posteriorMean gp xs i j = s := by
  obtain ⟨gp, hgp, p⟩ := C25_posterior_mean c (d.withValues (constValues d s)) h he ha
  refine ⟨gp, hgp, fun xs i hi j hj => ?_⟩
  rw [p xs ⟨i, hi⟩]
  have em : ∀ p, meanFn c (d.withValues (constValues d s)) h p = s := by
    intro p
    rw [C93_default_mean c hm _ (constValues_rect d s)]
    have : (∑ i : Fin (d.withValues (constValues d s)).x.length, ∑ j : Fin (d.withValues (constValues d s)).cols,
        (d.withValues (constValues d s)).yMat i j) = d.x.length * d.cols * s := by
      change (∑ i : Fin d.x.length, ∑ j : Fin d.cols, _) = _
      simp only [constValues_apply d s _ (Fin.is_lt _) _ (Fin.is_lt _), Finset.sum_const, Finset.card_univ,
        Fintype.card_fin, nsmul_eq_mul]
      ring
    rw [this]
    change _ / ((d.x.length : ℝ) * d.cols) = s
    have h1 : (d.x.length : ℝ) ≠ 0 := by
      simpa using hx
    have h2 : (d.cols : ℝ) ≠ 0 := by
      have : 0 < d.cols := by omega
      positivity
    field_simp
  rw [specMean, condMean, Pi.add_apply]
  have er : yCol (d.withValues (constValues d s)) j - meanAt c (d.withValues (constValues d s)) h
      (d.withValues (constValues d s)).x = 0 := by
    funext l
    have := constValues_apply d s l l.2 j hj
    simp only [yCol, meanAt, Pi.sub_apply, em, Pi.zero_apply]
    rw [this, sub_self]
  rw [er, meanAt, em]
  simp

/-- **C94** (shift, partial). With the default mean, and measured noise or a noise function, adding a constant to all
values adds it to every prediction. Missing: the default noise, see `C94_default_noise_violated`. -/
theorem C94_shift_partial (c : Config α H) (hm : c.mean = none) (hc : c.noise ≠ .default) (d : Data α)
    (hd : Rectangular d) (y : List (List ℝ)) (s : ℝ) (hy' : Rectangular (d.withValues y))
    (hy : ∀ (i : Fin d.x.length) (j : Fin d.cols), (d.withValues y).yMat i j = d.yMat i j + s)
    (hx : d.x ≠ []) (h : H) (he : SpluContract c.ext) (ha : Admissible c d h) :
    ∃ gp gp', init c d h = .ok gp ∧ init c (d.withValues y) h = .ok gp' ∧
      ∀ (xs : List α), ∀ i < xs.length, ∀ j < d.cols, posteriorMean gp' xs i j = posteriorMean gp xs i j + s := by
  obtain ⟨g₁, g₂, g₃, h1, h2, h3, H'⟩ := C94_linear c hm hc d d.y (constValues d s) y hd (constValues_rect d s) hy'
    1 1 (fun i j => by
      rw [hy, constValues_apply d s i i.2 j j.2]
      simp [Data.withValues]) h he ha
  obtain ⟨g, hg, hconst⟩ := C94_constant c hm d s h he (ha.withValues hc _) hx
  rw [h2] at hg
  obtain rfl := Except.ok.inj hg
  refine ⟨g₁, g₃, h1, h3, fun xs i hi j hj => ?_⟩
  rw [H' xs i hi j hj, hconst xs i hi j hj]
  ring

/-! The model of the other examples, with the default mean instead: values 1, 3, 4 are replaced by 8, 10, 11. -/

theorem exData_rect : Rectangular exData := ⟨rfl, by simp [exData]⟩

example (mode : Mode) : ∃ gp gp', init { exCfg mode with mean := none } exData 2 = .ok gp ∧
    init { exCfg mode with mean := none } (exData.withValues [[8], [10], [11]]) 2 = .ok gp' ∧
    ∀ (xs : List ℝ), ∀ i < xs.length, ∀ j < 1, posteriorMean gp' xs i j = posteriorMean gp xs i j + 7 :=
  C94_shift_partial { exCfg mode with mean := none } rfl (by simp [exCfg]) exData exData_rect _ 7
    ⟨rfl, by simp [Data.withValues, exData]⟩
    (by
      rintro ⟨i, hi⟩ ⟨j, hj⟩
      have h1 : i < 3 := hi
      have h2 : j < 1 := hj
      interval_cases i <;> interval_cases j <;> simp [Data.withValues, exData, Data.yMat] <;> norm_num)
    (by simp [exData]) 2 cholExt_contract ⟨(exAdmissible mode 2).fits, (exAdmissible mode 2).posDef⟩

example (mode : Mode) : ∃ gp, init { exCfg mode with mean := none } (exData.withValues (constValues exData 5)) 2 = .ok gp ∧
    ∀ (xs : List ℝ), ∀ i < xs.length, ∀ j < 1, posteriorMean gp xs i j = 5 :=
  C94_constant { exCfg mode with mean := none } rfl exData 5 2 cholExt_contract
    (Admissible.withValues (c := { exCfg mode with mean := none }) (by simp [exCfg])
      ⟨(exAdmissible mode 2).fits, (exAdmissible mode 2).posDef⟩ _) (by simp [exData])

example (mode : Mode) (y : List (List ℝ)) : ∃ gp gp', init (exCfg mode) exData 2 = .ok gp ∧
    init (exCfg mode) (exData.withValues y) 2 = .ok gp' ∧
      ∀ (xs : List ℝ) (chunk : ℕ) (junk : NMat), ∃ v S v' S',
        posteriorCovariance gp xs false false chunk junk = .ok (v, some S) ∧
        posteriorCovariance gp' xs false false chunk junk = .ok (v', some S') ∧
        ∀ i < xs.length, v' i = v i ∧ ∀ j < xs.length, S' i j = S i j :=
  C94_covariance_independent_of_values _ (by simp [exCfg]) _ _ _ cholExt_contract (exAdmissible mode 2)

/-! ### The default noise -/

/-- Uncorrelated points with unit variance, all defaults. -/
noncomputable def whiteCfg : Config ℕ ℝ where
  kernel _ a b := if a = b then 1 else 0
  mean := none
  noise := .default
  mode := .chol
  sparseK := false
  ext := cholExt

/-- The prediction at the first of two points with values `a`, `b`. -/
theorem white_prediction (a b : ℝ) (ha : 0 ≤ a) (hb : 0 ≤ b) :
    ∃ gp, init whiteCfg ⟨[0, 1], [[a], [b]], 1, none⟩ 1 = .ok gp ∧
      posteriorMean gp [0] 0 0 = (a + b) / 2 + (a - (a + b) / 2) / (1 + ((a + b) / 200) ^ 2) := by
  set d : Data ℕ := ⟨[0, 1], [[a], [b]], 1, none⟩ with hd
  have hrect : Rectangular d := ⟨rfl, by simp [hd]⟩
  have hm : ∀ p, meanFn whiteCfg d 1 p = (a + b) / 2 := by
    intro p
    simp [meanFn, whiteCfg, Data.yMean, hd]
  have hs : (d.yAbsMean / 100) ^ 2 = ((a + b) / 200) ^ 2 := by
    simp only [Data.yAbsMean, hd, List.map_cons, List.map_nil, List.sum_cons, List.sum_nil, abs_of_nonneg ha,
      abs_of_nonneg hb, List.length_cons, List.length_nil]
    congr 1
    norm_num
    ring
  have hKV : KVmat whiteCfg d 1 = Matrix.diagonal fun _ => 1 + ((a + b) / 200) ^ 2 := by
    ext i j
    simp only [KVmat, Kmat, calcV, whiteCfg, Noise.mat, Matrix.add_apply, Matrix.of_apply, Matrix.diagonal_apply, hs]
    change (if ([0, 1] : List ℕ)[(i : ℕ)] = ([0, 1] : List ℕ)[(j : ℕ)] then (1:ℝ) else 0) + _ = _
    obtain ⟨i, hi⟩ := i
    obtain ⟨j, hj⟩ := j
    have h1 : i < 2 := hi
    have h2 : j < 2 := hj
    interval_cases i <;> interval_cases j <;> simp
  have hpos : 0 < 1 + ((a + b) / 200) ^ 2 := by positivity
  have hadm : Admissible whiteCfg d 1 := ⟨rfl, by rw [hKV]; exact Matrix.PosDef.diagonal fun _ => hpos⟩
  obtain ⟨gp, hgp, p⟩ := C25_posterior_mean whiteCfg d 1 cholExt_contract hadm
  refine ⟨gp, hgp, ?_⟩
  have := p [0] ⟨0, by simp⟩ 0
  simp only at this
  have hinv : (KVmat whiteCfg d 1)⁻¹ = Matrix.diagonal fun _ => (1 + ((a + b) / 200) ^ 2)⁻¹ := by
    apply Matrix.inv_eq_right_inv
    rw [hKV, Matrix.diagonal_mul_diagonal]
    simp only [mul_inv_cancel₀ hpos.ne', Matrix.diagonal_one]
  rw [this, specMean, condMean, Pi.add_apply, hinv, meanAt, hm]
  congr 1
  change ∑ l : Fin 2, Kmat (whiteCfg.kernel 1) d.x [0] l 0 * ((Matrix.diagonal fun _ => (1 + ((a + b) / 200) ^ 2)⁻¹) *ᵥ
    (yCol d 0 - meanAt whiteCfg d 1 d.x)) l = _
  rw [Fin.sum_univ_two]
  have e0 : Kmat (whiteCfg.kernel 1) d.x [0] (0 : Fin 2) 0 = 1 := rfl
  have e1 : Kmat (whiteCfg.kernel 1) d.x [0] (1 : Fin 2) 0 = 0 := rfl
  rw [e0, e1, zero_mul, add_zero, one_mul]
  erw [Matrix.mulVec_diagonal]
  simp only [Pi.sub_apply, meanAt, hm]
  have : yCol d 0 (0 : Fin 2) = a := rfl
  erw [this]
  rw [div_eq_inv_mul (a - (a + b) / 2)]

/-- **C94** (disagreement: default noise). The default noise variance is computed from the absolute values, so it
depends on the offset of the data: adding 1 to the values 0, 2 of a model with all defaults changes the prediction at the
first point by more than 1. -/
theorem C94_default_noise_violated :
    ∃ gp gp', init whiteCfg ⟨[0, 1], [[0], [2]], 1, none⟩ 1 = .ok gp ∧
      init whiteCfg ⟨[0, 1], [[0 + 1], [2 + 1]], 1, none⟩ 1 = .ok gp' ∧
      posteriorMean gp [0] 0 0 + 1 < posteriorMean gp' [0] 0 0 := by
  obtain ⟨gp, h1, h2⟩ := white_prediction 0 2 (by norm_num) (by norm_num)
  obtain ⟨gp', h1', h2'⟩ := white_prediction (0 + 1) (2 + 1) (by norm_num) (by norm_num)
  refine ⟨gp, gp', h1, h1', ?_⟩
  rw [h2, h2']
  norm_num

end Verif.GP
