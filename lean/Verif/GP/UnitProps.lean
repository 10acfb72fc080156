import Verif.GP.LikProps
import Verif.Kernels.MaternPsd

/-! Property C153: units of measurement do not matter. -/

namespace Verif.GP

open Finset Verif.LinAlg Matrix

section Matrices

variable {n p : Type*} [Fintype n] [DecidableEq n]

theorem inv_scaled {A : Matrix n n ℝ} (hA : A.PosDef) {r : ℝ} (hr : r ≠ 0) : (r • A)⁻¹ = r⁻¹ • A⁻¹ := by
  apply Matrix.inv_eq_right_inv
  rw [Matrix.smul_mul, Matrix.mul_smul, smul_smul, mul_inv_cancel₀ hr, one_smul, Matrix.mul_nonsing_inv _ hA.det_pos.ne'.isUnit]

theorem condMean_scaled {A : Matrix n n ℝ} (hA : A.PosDef) {a : ℝ} (ha : a ≠ 0) (s : ℝ) (k : Matrix n p ℝ) (mx : p → ℝ)
    (m y : n → ℝ) (i : p) :
    condMean (a ^ 2 • A) (a ^ 2 • k) (fun i => a * mx i + s) (fun i => a * m i + s) (fun i => a * y i + s) i
      = a * condMean A k mx m y i + s := by
  have hd : ((fun i => a * y i + s) - fun i => a * m i + s) = a • (y - m) := by
    funext i; simp only [Pi.sub_apply, Pi.smul_apply, smul_eq_mul]; ring
  have h2 : a ^ 2 ≠ 0 := pow_ne_zero 2 ha
  simp only [condMean, hd, inv_scaled hA h2, Pi.add_apply, Matrix.transpose_smul, Matrix.smul_mulVec, Matrix.mulVec_smul, smul_smul,
    Pi.smul_apply, smul_eq_mul]
  field_simp
  ring

theorem condCov_scaled {A : Matrix n n ℝ} (hA : A.PosDef) {a : ℝ} (ha : a ≠ 0) (k : Matrix n p ℝ) (kk : Matrix p p ℝ) :
    condCov (a ^ 2 • A) (a ^ 2 • k) (a ^ 2 • kk) = a ^ 2 • condCov A k kk := by
  have h2 : a ^ 2 ≠ 0 := pow_ne_zero 2 ha
  simp only [condCov, inv_scaled hA h2, Matrix.transpose_smul, Matrix.smul_mul, Matrix.mul_smul, smul_smul, smul_sub]
  congr 2
  field_simp

theorem logNormal_scaled {A : Matrix n n ℝ} (hA : A.PosDef) {a : ℝ} (ha : a ≠ 0) (s : ℝ) (m y : n → ℝ) :
    logNormal (a ^ 2 • A) (fun i => a * m i + s) (fun i => a * y i + s) = logNormal A m y - Fintype.card n * Real.log |a| := by
  have hd : ((fun i => a * y i + s) - fun i => a * m i + s) = a • (y - m) := by
    funext i; simp only [Pi.sub_apply, Pi.smul_apply, smul_eq_mul]; ring
  have h2 : a ^ 2 ≠ 0 := pow_ne_zero 2 ha
  have hq : (a • (y - m)) ⬝ᵥ ((a ^ 2)⁻¹ • A⁻¹) *ᵥ (a • (y - m)) = (y - m) ⬝ᵥ A⁻¹ *ᵥ (y - m) := by
    simp only [Matrix.smul_mulVec, Matrix.mulVec_smul, smul_smul, dotProduct_smul, smul_dotProduct, smul_eq_mul]
    field_simp
  rw [logNormal, logNormal, hd, inv_scaled hA h2, hq, Matrix.det_smul, Real.log_mul (pow_ne_zero _ h2) hA.det_pos.ne', Real.log_pow,
    ← sq_abs a, Real.log_pow]
  push_cast
  ring

end Matrices

variable {α β H G : Type}

/-- `d'` with settings `c'`, `h'` is `d` with settings `c`, `h` in other units: points are renamed by `φ`, values become `a v + s`.
Kernel and mean have to agree on the points in `P`, which include the data. -/
structure Rescaled (c : Config α H) (c' : Config β G) (h : H) (h' : G) (d : Data α) (d' : Data β) (P : α → Prop) (φ : α → β)
    (a s : ℝ) : Prop where
  points : ∀ p ∈ d.x, P p
  ne : a ≠ 0
  x : d'.x = d.x.map φ
  cols : d'.cols = d.cols
  len : d.y.length = d.x.length
  len' : d'.y.length = d.x.length
  y : ∀ i < d.x.length, ∀ j < d.cols, d'.yMat i j = a * d.yMat i j + s
  kernel : ∀ p q, P p → P q → c'.kernel h' (φ p) (φ q) = a ^ 2 * c.kernel h p q
  mean : ∀ p, P p → meanFn c' d' h' (φ p) = a * meanFn c d h p + s
  fits : (calcV c' d' h' d'.x).Fits d'.x.length c'.sparseK
  noise : ∀ (i j : Fin d.x.length) (i' j' : Fin d'.x.length), (i' : ℕ) = i → (j' : ℕ) = j →
    (calcV c' d' h' d'.x).mat d'.x.length i' j' = a ^ 2 * (calcV c d h d.x).mat d.x.length i j

/-- **C153** (predictions and likelihood). In other units the mean is converted like the values, variances and covariances with the
square of the factor, and the log likelihood changes by `n log |a|`, whatever the hyperparameters. -/
theorem C153_rescaled (c : Config α H) (c' : Config β G) (h : H) (h' : G) (d : Data α) (d' : Data β) (P : α → Prop) (φ : α → β)
    (a s : ℝ) (he : SpluContract c.ext) (he' : SpluContract c'.ext) (hr : Rescaled c c' h h' d d' P φ a s) (ha : Admissible c d h) :
    ∃ gp gp', init c d h = .ok gp ∧ init c' d' h' = .ok gp' ∧
      (∀ (xs : List α) (chunk chunk' : ℕ) (junk junk' : NMat), (∀ p ∈ xs, P p) →
        (∀ i < xs.length, ∀ j < d.cols, posteriorMean gp' (xs.map φ) i j = a * posteriorMean gp xs i j + s) ∧
        ∃ v S v' S', posteriorCovariance gp xs false false chunk junk = .ok (v, some S) ∧
          posteriorCovariance gp' (xs.map φ) false false chunk' junk' = .ok (v', some S') ∧
          ∀ i < xs.length, ∀ j < xs.length, v' i = a ^ 2 * v i ∧ S' i j = a ^ 2 * S i j) ∧
      (c.mode ≠ .sparseSolve → c'.mode ≠ .sparseSolve → 1 ≤ d.cols →
        logLikelihood gp' = logLikelihood gp - d.x.length * Real.log |a|) := by
  obtain ⟨x', y', cols', nv'⟩ := d'
  obtain ⟨hP, hne, rfl, rfl, hlen, hlen', hy, hk, hm, hfit, hV⟩ := hr
  set d' : Data β := ⟨d.x.map φ, y', d.cols, nv'⟩ with hd'
  have hl : ∀ xs : List α, xs.length = (xs.map φ).length := fun xs => (List.length_map _).symm
  let e : ∀ xs : List α, Fin xs.length ≃ Fin (xs.map φ).length := fun xs => finCongr (hl xs)
  have hget : ∀ (xs : List α) (i : Fin xs.length), (xs.map φ)[e xs i] = φ xs[i] := fun xs i => by simp [e]
  have hKm : ∀ xs ys : List α, (∀ p ∈ xs, P p) → (∀ p ∈ ys, P p) →
      (Kmat (c'.kernel h') (xs.map φ) (ys.map φ)).submatrix (e xs) (e ys) = a ^ 2 • Kmat (c.kernel h) xs ys := fun xs ys hx hy => by
    ext i j
    simp only [Matrix.submatrix_apply, Kmat, Matrix.of_apply, hget, Matrix.smul_apply, smul_eq_mul]
    exact hk _ _ (hx _ (List.getElem_mem _)) (hy _ (List.getElem_mem _))
  have hKV : (KVmat c' d' h').submatrix (e d.x) (e d.x) = a ^ 2 • KVmat c d h := by
    ext i j
    have h1 := congrFun (congrFun (hKm d.x d.x hP hP) i) j
    have h2 := hV i j (e d.x i) (e d.x j) rfl rfl
    simp only [Matrix.submatrix_apply, Matrix.smul_apply, smul_eq_mul] at h1 ⊢
    simp only [KVmat, Matrix.add_apply, mul_add]
    rw [← h1, ← h2]
  have hmean : ∀ xs : List α, (∀ p ∈ xs, P p) →
      meanAt c' d' h' (xs.map φ) ∘ e xs = fun i => a * meanAt c d h xs i + s := fun xs hx => by
    funext i
    simp only [Function.comp, meanAt, hget]
    exact hm _ (hx _ (List.getElem_mem _))
  have hyc : ∀ j < d.cols, yCol d' j ∘ e d.x = fun i => a * yCol d j i + s := fun j hj => by
    funext i
    exact hy i i.2 j hj
  have hpd := ha.posDef
  have hpd' : (KVmat c' d' h').PosDef := by
    have h1 : (a ^ 2 • KVmat c d h).PosDef := hpd.smul (by positivity)
    rw [← hKV] at h1
    have h2 := h1.submatrix (e d.x).symm.injective
    rwa [Matrix.submatrix_submatrix, Equiv.self_comp_symm, Matrix.submatrix_id_id] at h2
  obtain ⟨gp, hgp, hc, e1, e2, e3⟩ := init_ok c d h he ha
  obtain ⟨gp', hgp', hc', f1, f2, f3⟩ := init_ok c' d' h' he' ⟨hfit, hpd'⟩
  have p : (KVmat gp.cfg gp.data gp.hps).PosDef := by rw [e1, e2, e3]; exact hpd
  have p' : (KVmat gp'.cfg gp'.data gp'.hps).PosDef := by rw [f1, f2, f3]; exact hpd'
  refine ⟨gp, gp', hgp, hgp', fun xs chunk chunk' junk junk' hx => ⟨fun i hi j hj => ?_, ?_⟩, fun hmo hmo' hcols => ?_⟩
  · have h1 := consistent_mean hc p xs ⟨i, hi⟩ j
    have h2 := consistent_mean hc' p' (xs.map φ) (e xs ⟨i, hi⟩) j
    change posteriorMean gp' (xs.map φ) i j = _ at h2
    rw [h2]
    change posteriorMean gp xs i j = _ at h1
    rw [h1, e1, e2, e3, f1, f2, f3, specMean, specMean, ← condMean_scaled hpd hne s, ← hKV, ← hKm _ _ hP hx, ← hmean _ hx, ← hmean _ hP, ← hyc j hj,
      ← condMean_perm (e d.x) (KVmat c' d' h')]
    rfl
  · obtain ⟨v, S, a1, a2, a3, -⟩ := posteriorCovariance_eq hc p xs false chunk junk
    obtain ⟨v', S', b1, b2, b3, -⟩ := posteriorCovariance_eq hc' p' (xs.map φ) false chunk' junk'
    obtain ⟨S, rfl, a4⟩ := a3 rfl
    obtain ⟨S', rfl, b4⟩ := b3 rfl
    have hcov : ∀ i j : Fin xs.length, specCov c' d' h' (xs.map φ) (e xs i) (e xs j) = a ^ 2 * specCov c d h xs i j := by
      intro i j
      have : (specCov c' d' h' (xs.map φ)).submatrix (e xs) (e xs) = a ^ 2 • specCov c d h xs := by
        rw [specCov, specCov, ← condCov_scaled hpd hne, ← hKV, ← hKm _ _ hP hx, ← hKm _ _ hx hx, ← condCov_perm (e d.x) (KVmat c' d' h')]
        rfl
      exact congrFun (congrFun this i) j
    refine ⟨v, S, v', S', a1, b1, fun i hi j hj => ?_⟩
    have A := a2 ⟨i, hi⟩
    have B := b2 (e xs ⟨i, hi⟩)
    have C := a4 ⟨i, hi⟩ ⟨j, hj⟩
    have E := b4 (e xs ⟨i, hi⟩) (e xs ⟨j, hj⟩)
    have hmax : ∀ r : ℝ, max 0 (a ^ 2 * r) = a ^ 2 * max 0 r := fun r => by
      rw [mul_max_of_nonneg _ _ (sq_nonneg a), mul_zero]
    rw [f1, f2, f3, hcov, hmax] at B
    rw [f1, f2, f3, hcov, hcov, hmax] at E
    rw [e1, e2, e3] at A C
    simp only [(e xs).injective.eq_iff] at E
    constructor
    · change v' i = _ at B
      change v i = _ at A
      rw [A, B]
    · change S' i j = _ at E
      change S i j = _ at C
      rw [C, E]
      split <;> rfl
  · rw [consistent_loglik hc p (by rw [e1]; exact hmo) (by rw [e2]; exact hlen) (by rw [e2]; exact hcols),
      consistent_loglik hc' p' (by rw [f1]; exact hmo') (by rw [f2]; exact hlen'.trans (hl d.x)) (by rw [f2]; exact hcols),
      e1, e2, e3, f1, f2, f3, specLogLik, specLogLik]
    change (∑ j ∈ range d.cols, _) / (d.cols : ℝ) = _
    have hc0 : (d.cols : ℝ) ≠ 0 := by positivity
    rw [div_eq_iff hc0, sub_mul, div_mul_cancel₀ _ hc0]
    have : (d.x.length : ℝ) * Real.log |a| * d.cols = ∑ _j ∈ range d.cols, (d.x.length : ℝ) * Real.log |a| := by
      rw [Finset.sum_const, Finset.card_range, nsmul_eq_mul]; ring
    rw [this, ← Finset.sum_sub_distrib]
    refine Finset.sum_congr rfl fun j hj => ?_
    rw [log_normalDensity hpd', log_normalDensity hpd, ← logNormal_perm (e d.x) (KVmat c' d' h'), hKV, hyc j (Finset.mem_range.1 hj)]
    have hmm : meanAt c' d' h' d'.x ∘ e d.x = fun i => a * meanAt c d h d.x i + s := hmean d.x hP
    rw [hmm, logNormal_scaled hpd hne, Fintype.card_fin]

/-! ## The model a user gets by default -/

open Verif.Kernels

/-- A data set in other units: values `a v + s`, coordinates `c i * x i + t i`, noise variances `a² v`. -/
noncomputable def inUnits {D : ℕ} (a s : ℝ) (c t : Fin D → ℝ) (d : Data (Fin D → ℝ)) : Data (Fin D → ℝ) :=
  ⟨d.x.map fun p i => c i * p i + t i, d.y.map fun r => r.map fun v => a * v + s, d.cols,
    d.noiseVar.map fun nv => nv.map fun v => a ^ 2 * v⟩

/-- The hyperparameters of the default kernel in other units: amplitude times `a²`, length scales times `|c i|`. -/
def hpsInUnits {D : ℕ} (a : ℝ) (c : Fin D → ℝ) (h : ℝ × (Fin D → ℝ)) : ℝ × (Fin D → ℝ) := (a ^ 2 * h.1, fun i => |c i| * h.2 i)

/-- Rectangular data with at least one entry. -/
structure Rect {α : Type} (d : Data α) : Prop where
  len : d.y.length = d.x.length
  rows : ∀ r ∈ d.y, r.length = d.cols
  points : d.x ≠ []
  cols : 1 ≤ d.cols

theorem row_sum (a s : ℝ) (r : List ℝ) : (r.map fun v => a * v + s).sum = a * r.sum + s * r.length := by
  induction r with
  | nil => simp
  | cons v r ih => simp only [List.map_cons, List.sum_cons, ih, List.length_cons]; push_cast; ring

theorem rows_sum (a s : ℝ) (k : ℕ) (y : List (List ℝ)) (hy : ∀ r ∈ y, r.length = k) :
    ((y.map fun r => r.map fun v => a * v + s).map List.sum).sum = a * (y.map List.sum).sum + s * (y.length * k) := by
  induction y with
  | nil => simp
  | cons r y ih =>
    have h1 := hy r List.mem_cons_self
    simp only [List.map_cons, List.sum_cons, ih fun r hr => hy r (List.mem_cons_of_mem _ hr), row_sum, h1, List.length_cons]
    push_cast
    ring

theorem inUnits_mean {D : ℕ} (a s : ℝ) (c t : Fin D → ℝ) {d : Data (Fin D → ℝ)} (hd : Rect d) :
    (inUnits a s c t d).yMean = a * d.yMean + s := by
  have h1 : (d.x.length : ℝ) ≠ 0 := by
    have := List.length_pos_of_ne_nil hd.points
    positivity
  have h2 : (d.cols : ℝ) ≠ 0 := by
    have := hd.cols
    positivity
  simp only [Data.yMean, inUnits, rows_sum a s d.cols d.y hd.rows, List.length_map, hd.len]
  field_simp

theorem inUnits_absMean {D : ℕ} (a : ℝ) (c t : Fin D → ℝ) (d : Data (Fin D → ℝ)) :
    (inUnits a 0 c t d).yAbsMean = |a| * d.yAbsMean := by
  have h1 : ∀ r : List ℝ, ((r.map fun v => a * v + 0).map fun v => |v|).sum = |a| * (r.map fun v => |v|).sum := by
    intro r
    induction r with
    | nil => simp
    | cons v r ih =>
      simp only [List.map_cons, List.sum_cons] at ih ⊢
      rw [ih, add_zero, abs_mul]; ring
  have h2 : ∀ y : List (List ℝ), ((y.map fun r => r.map fun v => a * v + 0).map fun r => (r.map fun v => |v|).sum).sum
      = |a| * (y.map fun r => (r.map fun v => |v|).sum).sum := by
    intro y
    induction y with
    | nil => simp
    | cons r y ih =>
      simp only [List.map_cons, List.sum_cons] at ih ⊢
      rw [ih, h1]; ring
  simp only [Data.yAbsMean, inUnits, h2, List.length_map]
  ring

theorem inUnits_entry {D : ℕ} (a s : ℝ) (c t : Fin D → ℝ) {d : Data (Fin D → ℝ)} (hd : Rect d) (i : ℕ) (hi : i < d.x.length) (j : ℕ)
    (hj : j < d.cols) : (inUnits a s c t d).yMat i j = a * d.yMat i j + s := by
  have hi' : i < d.y.length := by rw [hd.len]; exact hi
  have hj' : j < d.y[i].length := by rw [hd.rows _ (List.getElem_mem _)]; exact hj
  simp [Data.yMat, inUnits, List.getD_eq_getElem?_getD, hi', hj']

theorem inUnits_kernel {D : ℕ} (a : ℝ) (c t : Fin D → ℝ) (hc : ∀ i, c i ≠ 0) (h : ℝ × (Fin D → ℝ)) (p q : Fin D → ℝ) :
    defaultKernel (fun i => c i * p i + t i) (fun i => c i * q i + t i) (hpsInUnits a c h).1 (hpsInUnits a c h).2
      = a ^ 2 * defaultKernel p q h.1 h.2 := by
  have hdist : anisoDistance (fun i => c i * p i + t i) (fun i => c i * q i + t i) (fun i => |c i| * h.2 i)
      = anisoDistance p q h.2 := by
    unfold anisoDistance
    congr 1
    refine Finset.sum_congr rfl fun i _ => ?_
    have hci : |c i| ≠ 0 := abs_ne_zero.2 (hc i)
    have : (c i * p i + t i - (c i * q i + t i)) = c i * (p i - q i) := by ring
    rw [this, abs_div, abs_mul, abs_mul, abs_abs, mul_div_mul_left _ _ hci, ← abs_div]
  simp only [defaultKernel, hpsInUnits, hdist]
  ring

theorem rescaled_default {D : ℕ} (noise : NoiseSpec (Fin D → ℝ) (ℝ × (Fin D → ℝ))) (mode : Mode) (ext : Ext) {a : ℝ} (ha : a ≠ 0)
    (s : ℝ) (c t : Fin D → ℝ) (hc : ∀ i, c i ≠ 0) {d : Data (Fin D → ℝ)} (hd : Rect d) (h : ℝ × (Fin D → ℝ)) (w w' : ℕ → ℝ)
    (hw : calcV (defaultConfig D noise mode ext) d h d.x = .diag d.x.length w)
    (hw' : calcV (defaultConfig D noise mode ext) (inUnits a s c t d) (hpsInUnits a c h) (inUnits a s c t d).x = .diag d.x.length w')
    (hww : ∀ i < d.x.length, w' i = a ^ 2 * w i) :
    Rescaled (defaultConfig D noise mode ext) (defaultConfig D noise mode ext) h (hpsInUnits a c h) d (inUnits a s c t d)
      (fun _ => True) (fun p i => c i * p i + t i) a s where
  points _ _ := trivial
  ne := ha
  x := rfl
  cols := rfl
  len := hd.len
  len' := by simp [inUnits, hd.len]
  y := inUnits_entry a s c t hd
  kernel p q _ _ := inUnits_kernel a c t hc h p q
  mean _ _ := by simp only [meanFn, defaultConfig]; exact inUnits_mean a s c t hd
  fits := by rw [hw']; simp [Noise.Fits, inUnits]
  noise i j i' j' hi hj := by
    rw [hw, hw']
    simp only [Noise.mat, Matrix.diagonal_apply, Fin.ext_iff, hi, hj]
    split
    · exact hww i i.2
    · simp

/-- What changing units does to a GP with the default kernel and mean. -/
def UnitsDoNotMatter {D : ℕ} (cfg : Config (Fin D → ℝ) (ℝ × (Fin D → ℝ))) (d : Data (Fin D → ℝ)) (a s : ℝ) (c t : Fin D → ℝ)
    (h : ℝ × (Fin D → ℝ)) : Prop :=
  ∃ gp gp', init cfg d h = .ok gp ∧ init cfg (inUnits a s c t d) (hpsInUnits a c h) = .ok gp' ∧
    (∀ (xs : List (Fin D → ℝ)) (chunk chunk' : ℕ) (junk junk' : NMat),
      (∀ i < xs.length, ∀ j < d.cols,
        posteriorMean gp' (xs.map fun p i => c i * p i + t i) i j = a * posteriorMean gp xs i j + s) ∧
      ∃ v S v' S', posteriorCovariance gp xs false false chunk junk = .ok (v, some S) ∧
        posteriorCovariance gp' (xs.map fun p i => c i * p i + t i) false false chunk' junk' = .ok (v', some S') ∧
        ∀ i < xs.length, ∀ j < xs.length, v' i = a ^ 2 * v i ∧ S' i j = a ^ 2 * S i j) ∧
    (cfg.mode ≠ .sparseSolve → logLikelihood gp' = logLikelihood gp - d.x.length * Real.log |a|)

/-- **C153** (measured noise). With the default kernel and mean and given noise variances, the choice of units and of the origin
does not matter, for values and for every coordinate. -/
theorem C153_measured {D : ℕ} (mode : Mode) (ext : Ext) (he : SpluContract ext) {d : Data (Fin D → ℝ)} (hd : Rect d) (v : List ℝ)
    (hv : d.noiseVar = some v) (hl : v.length = d.x.length) (hpos : ∀ e ∈ v, 0 < e) {a : ℝ} (ha : a ≠ 0) (s : ℝ)
    (c t : Fin D → ℝ) (hc : ∀ i, c i ≠ 0) (h : ℝ × (Fin D → ℝ)) (h1 : 0 ≤ h.1) (h2 : ∀ i, h.2 i ≠ 0) :
    UnitsDoNotMatter (defaultConfig D .measured mode ext) d a s c t h := by
  have hr := rescaled_default .measured mode ext ha s c t hc hd h (fun i => v.getD i 0) (fun i => (v.map fun v => a ^ 2 * v).getD i 0)
    (by simp [calcV, defaultConfig, hv, hl]) (by simp [calcV, defaultConfig, inUnits, hv, hl])
    (fun i hi => by
      have : i < v.length := by rw [hl]; exact hi
      simp [List.getD_eq_getElem?_getD, this])
  obtain ⟨gp, gp', e1, e2, e3, e4⟩ := C153_rescaled _ _ _ _ _ _ _ _ _ _ he he hr
    (Verif.State.measured_admissible _ rfl d h (C84_default_kernel h.1 h1 h.2 h2) v hv hl hpos)
  exact ⟨gp, gp', e1, e2, fun xs ch ch' ju ju' => e3 xs ch ch' ju ju' fun _ _ => trivial, fun hm => e4 hm hm hd.cols⟩

/-- **C153** (default noise, partial). With the default noise the units of the values do not matter, nor do units and origin of the
coordinates. Missing: the origin of the values, see `C153_default_noise_violated`. -/
theorem C153_default_noise_partial {D : ℕ} (mode : Mode) (ext : Ext) (he : SpluContract ext) {d : Data (Fin D → ℝ)} (hd : Rect d)
    (hy : d.yAbsMean ≠ 0) {a : ℝ} (ha : a ≠ 0) (c t : Fin D → ℝ) (hc : ∀ i, c i ≠ 0) (h : ℝ × (Fin D → ℝ)) (h1 : 0 ≤ h.1)
    (h2 : ∀ i, h.2 i ≠ 0) : UnitsDoNotMatter (defaultConfig D .default mode ext) d a 0 c t h := by
  have e : calcV (defaultConfig D .default mode ext) d h d.x = .diag d.x.length fun _ => (d.yAbsMean / 100) ^ 2 := by
    simp [calcV, defaultConfig]
  have hr := rescaled_default .default mode ext ha 0 c t hc hd h (fun _ => (d.yAbsMean / 100) ^ 2)
    (fun _ => ((inUnits a 0 c t d).yAbsMean / 100) ^ 2) e
    (by simp [calcV, defaultConfig, inUnits]) (fun i _ => by rw [inUnits_absMean, mul_div_assoc, mul_pow, sq_abs])
  obtain ⟨gp, gp', e1, e2, e3, e4⟩ := C153_rescaled _ _ _ _ _ _ _ _ _ _ he he hr
    ⟨by rw [e]; rfl, KVmat_posDef (C84_default_kernel h.1 h1 h.2 h2) (by
      rw [e]
      exact Matrix.PosDef.diagonal fun _ => by positivity)⟩
  exact ⟨gp, gp', e1, e2, fun xs ch ch' ju ju' => e3 xs ch ch' ju ju' fun _ _ => trivial, fun hm => e4 hm hm hd.cols⟩

/-- **C153** (training). Which of two hyperparameter vectors has the larger likelihood does not depend on the units, so the best
vector of a set, converted, is the best of the converted set. -/
theorem C153_training {D : ℕ} (mode : Mode) (hm : mode ≠ .sparseSolve) (ext : Ext) (he : SpluContract ext) {d : Data (Fin D → ℝ)}
    (hd : Rect d) (v : List ℝ) (hv : d.noiseVar = some v) (hl : v.length = d.x.length) (hpos : ∀ e ∈ v, 0 < e) {a : ℝ} (ha : a ≠ 0)
    (s : ℝ) (c t : Fin D → ℝ) (hc : ∀ i, c i ≠ 0) (h k : ℝ × (Fin D → ℝ)) (h1 : 0 ≤ h.1) (h2 : ∀ i, h.2 i ≠ 0) (k1 : 0 ≤ k.1)
    (k2 : ∀ i, k.2 i ≠ 0) :
    ∃ gh gk gh' gk', init (defaultConfig D .measured mode ext) d h = .ok gh ∧ init (defaultConfig D .measured mode ext) d k = .ok gk ∧
      init (defaultConfig D .measured mode ext) (inUnits a s c t d) (hpsInUnits a c h) = .ok gh' ∧
      init (defaultConfig D .measured mode ext) (inUnits a s c t d) (hpsInUnits a c k) = .ok gk' ∧
      (logLikelihood gh ≤ logLikelihood gk ↔ logLikelihood gh' ≤ logLikelihood gk') := by
  obtain ⟨gh, gh', e1, e2, -, e3⟩ := C153_measured mode ext he hd v hv hl hpos ha s c t hc h h1 h2
  obtain ⟨gk, gk', f1, f2, -, f3⟩ := C153_measured mode ext he hd v hv hl hpos ha s c t hc k k1 k2
  refine ⟨gh, gk, gh', gk', e1, f1, e2, f2, ?_⟩
  rw [e3 hm, f3 hm]
  exact (sub_le_sub_iff_right _).symm

/-! ### Example and violation -/

/-- One value at the origin. -/
noncomputable def unitData (y : ℝ) (nv : Option (List ℝ)) : Data (Fin 1 → ℝ) := ⟨[fun _ => 0], [[y]], 1, nv⟩

theorem unitRect (y : ℝ) (nv : Option (List ℝ)) : Rect (unitData y nv) := ⟨rfl, by simp [unitData], by simp [unitData], le_rfl⟩

/-- Degrees Fahrenheit for degrees Celsius, centimetres for metres. -/
example (mode : Mode) : UnitsDoNotMatter (defaultConfig 1 .measured mode cholExt) (unitData 20 (some [1 / 4])) (9 / 5) 32
    (fun _ => 100) (fun _ => 0) (1, fun _ => 2) :=
  C153_measured mode cholExt cholExt_contract (unitRect _ _) [1 / 4] rfl rfl (by simp) (by norm_num) 32 _ _ (fun _ => by norm_num) _
    (by norm_num) fun _ => by norm_num

/-- **C153** is violated by the default noise: it is computed from the absolute values, so moving the origin of the values by 1 (the
value 1 becomes 2) changes the variance at the data point from 1/10001 to 4/10004. -/
theorem C153_default_noise_violated (mode : Mode) :
    ∃ gp gp', init (defaultConfig 1 .default mode cholExt) (unitData 1 none) (1, fun _ => 1) = .ok gp ∧
      init (defaultConfig 1 .default mode cholExt) (inUnits 1 1 (fun _ => 1) (fun _ => 0) (unitData 1 none))
        (hpsInUnits 1 (fun _ => 1) (1, fun _ => 1)) = .ok gp' ∧
      ∀ (chunk : ℕ) (junk : NMat), ∃ v S v' S',
        posteriorCovariance gp [fun _ => 0] false false chunk junk = .ok (v, S) ∧
        posteriorCovariance gp' [fun _ => 0] false false chunk junk = .ok (v', S') ∧ v 0 = 1 / 10001 ∧ v' 0 = 4 / 10004 := by
  have hh : hpsInUnits 1 (fun _ : Fin 1 => (1 : ℝ)) (1, fun _ => 1) = (1, fun _ => 1) := by simp [hpsInUnits]
  have hu : inUnits 1 1 (fun _ => 1) (fun _ => 0) (unitData 1 none) = unitData 2 none := by
    simp only [inUnits, unitData, List.map_cons, List.map_nil, Option.map_none]
    norm_num
  rw [hh, hu]
  set cfg := defaultConfig 1 .default mode cholExt with hcfg
  have hV : ∀ y : ℝ, calcV cfg (unitData y none) (1, fun _ => 1) (unitData y none).x = .diag 1 fun _ => (|y| / 100) ^ 2 := by
    intro y
    simp [calcV, hcfg, defaultConfig, unitData, Data.yAbsMean]
  have hk0 : cfg.kernel (1, fun _ => 1) (fun _ => 0) (fun _ => 0) = 1 := by
    simp [hcfg, defaultConfig, defaultKernel, anisoDistance, matern1]
  have key : ∀ y : ℝ, y ≠ 0 → ∃ g, init cfg (unitData y none) (1, fun _ => 1) = .ok g ∧ ∀ (chunk : ℕ) (junk : NMat),
      ∃ v S, posteriorCovariance g [fun _ => 0] false false chunk junk = .ok (v, S) ∧
        v 0 = max 0 (1 - 1 / (1 + (|y| / 100) ^ 2)) := by
    intro y hy
    have hadm : Admissible cfg (unitData y none) (1, fun _ => 1) :=
      ⟨by rw [hV]; rfl, KVmat_posDef (C84_default_kernel 1 zero_le_one _ fun _ => one_ne_zero) (by
        rw [hV]
        have : 0 < |y| := abs_pos.2 hy
        exact Matrix.PosDef.diagonal fun _ => by positivity)⟩
    obtain ⟨g, hg, hc, e1, e2, e3⟩ := init_ok cfg (unitData y none) (1, fun _ => 1) cholExt_contract hadm
    refine ⟨g, hg, fun chunk junk => ?_⟩
    obtain ⟨v, S, a1, a2, -⟩ := posteriorCovariance_eq hc (by rw [e1, e2, e3]; exact hadm.posDef) [fun _ => 0] false chunk junk
    refine ⟨v, S, a1, ?_⟩
    have h0 := a2 (0 : Fin 1)
    change v 0 = _ at h0
    rw [h0, e1, e2, e3]
    congr 1
    have hKV : KVmat cfg (unitData y none) (1, fun _ => 1) = Matrix.of fun _ _ : Fin 1 => 1 + (|y| / 100) ^ 2 := by
      ext i j
      have hi : i = (0 : Fin 1) := Subsingleton.elim (α := Fin 1) _ _
      have hj : j = (0 : Fin 1) := Subsingleton.elim (α := Fin 1) _ _
      subst hi hj
      have hn : (calcV cfg (unitData y none) (1, fun _ => 1) (unitData y none).x).mat 1 (0 : Fin 1) (0 : Fin 1)
          = (|y| / 100) ^ 2 := by
        rw [hV]
        simp [Noise.mat]
      change cfg.kernel (1, fun _ => 1) (fun _ => 0) (fun _ => 0)
        + (calcV cfg (unitData y none) (1, fun _ => 1) (unitData y none).x).mat 1 (0 : Fin 1) (0 : Fin 1) = 1 + (|y| / 100) ^ 2
      rw [hk0, hn]
    have hne : (1 + (|y| / 100) ^ 2) ≠ 0 := by positivity
    have hinv : (Matrix.of fun _ _ : Fin 1 => 1 + (|y| / 100) ^ 2)⁻¹ = Matrix.of fun _ _ : Fin 1 => 1 / (1 + (|y| / 100) ^ 2) := by
      apply Matrix.inv_eq_right_inv
      ext i j
      have hi : i = (0 : Fin 1) := Subsingleton.elim (α := Fin 1) _ _
      have hj : j = (0 : Fin 1) := Subsingleton.elim (α := Fin 1) _ _
      subst hi hj
      simp [Matrix.mul_apply, hne]
    rw [specCov, condCov, hKV]
    erw [hinv]
    change cfg.kernel _ _ _ - ∑ l : Fin 1, (∑ q : Fin 1, cfg.kernel _ _ _ * _) * cfg.kernel _ _ _ = _
    rw [Fin.sum_univ_one, Fin.sum_univ_one]
    erw [hk0]
    simp
  obtain ⟨g, hg, H⟩ := key 1 one_ne_zero
  obtain ⟨g', hg', H'⟩ := key 2 two_ne_zero
  refine ⟨g, g', hg, hg', fun chunk junk => ?_⟩
  obtain ⟨v, S, a1, a2⟩ := H chunk junk
  obtain ⟨v', S', b1, b2⟩ := H' chunk junk
  refine ⟨v, S, v', S', a1, b1, ?_, ?_⟩
  · rw [a2]; norm_num
  · rw [b2]; norm_num

end Verif.GP
