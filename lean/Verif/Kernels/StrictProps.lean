import Verif.Kernels.StrictWendland

/-!
C146: with a strictly positive definite kernel, data without noise are accepted exactly if the inputs are distinct, they are
interpolated, and the posterior variance vanishes nowhere but at the data.
-/

namespace Verif.Kernels

open Finset Real Matrix Verif.GP Verif.LinAlg Verif.State

/-! ## The kernels -/

/-- C146, squared exponential kernel. -/
theorem C146_squared_exponential {D : ℕ} (l : ℝ) (hl : l ≠ 0) :
    IsStrictKernel fun x y : Fin D → ℝ => squaredExponential (distance x y) l := by
  have := gauss_strict (D := D) (c := 1 / (2 * l ^ 2)) (by positivity)
  convert this using 3 with x y
  unfold squaredExponential
  rw [distance_sq]
  congr 1
  ring

/-- C146, robust squared exponential kernel. -/
theorem C146_squared_exponential_robust {D : ℕ} (φ : ℝ) (hφ : φ ≠ 0) :
    IsStrictKernel fun x y : Fin D → ℝ => squaredExponentialRobust (distance x y) φ := by
  have := gauss_strict (D := D) (c := φ ^ 2) (by positivity)
  convert this using 3 with x y
  unfold squaredExponentialRobust
  rw [distance_sq]
  congr 1
  ring

/-- C146, exponential kernel. -/
theorem C146_exponential {D : ℕ} (l : ℝ) (hl : 0 < l) :
    IsStrictKernel fun x y : Fin D → ℝ => exponential (distance x y) l := by
  have := IsStrictKernel.smul (mix_strict (D := D) 0 (s := 1 / (2 * l)) (by positivity)) (c := 2 / √π) (by positivity)
  convert this using 3 with x y
  exact exponential_eq_mix _ _ (distance_nonneg x y) hl

/-- C146, first-order Matérn kernel. -/
theorem C146_matern1 {D : ℕ} (l : ℝ) (hl : 0 < l) : IsStrictKernel fun x y : Fin D → ℝ => matern1 (distance x y) l := by
  have := IsStrictKernel.smul (mix_strict (D := D) 2 (s := √3 / (2 * l)) (by positivity)) (c := 4 / √π) (by positivity)
  convert this using 3 with x y
  exact matern1_eq_mix _ _ (distance_nonneg x y) hl

/-- C146, second-order Matérn kernel. -/
theorem C146_matern2 {D : ℕ} (l : ℝ) (hl : 0 < l) : IsStrictKernel fun x y : Fin D → ℝ => matern2 (distance x y) l := by
  have := IsStrictKernel.smul (mix_strict (D := D) 4 (s := √5 / (2 * l)) (by positivity)) (c := 8 / (3 * √π)) (by positivity)
  convert this using 3 with x y
  exact matern2_eq_mix _ _ (distance_nonneg x y) hl

/-- C146, robust exponential kernel. -/
theorem C146_exponential_robust {D : ℕ} (φ : ℝ) (hφ : φ ≠ 0) :
    IsStrictKernel fun x y : Fin D → ℝ => exponentialRobust (distance x y) φ := by
  have := C146_exponential (D := D) (1 / φ ^ 2) (by positivity)
  convert this using 3 with x y
  exact C65_exponential _ _ hφ

/-- C146, robust first-order Matérn kernel. -/
theorem C146_matern1_robust {D : ℕ} (φ : ℝ) (hφ : φ ≠ 0) :
    IsStrictKernel fun x y : Fin D → ℝ => matern1Robust (distance x y) φ := by
  have := C146_matern1 (D := D) (1 / φ ^ 2) (by positivity)
  convert this using 3 with x y
  exact C65_matern1 _ _ hφ

theorem scale_injective {D : ℕ} {l : Fin D → ℝ} (hl : ∀ i, l i ≠ 0) : Function.Injective fun (x : Fin D → ℝ) i => x i / l i := by
  intro a b h
  funext i
  have := congrFun h i
  simp only [div_left_inj' (hl i)] at this
  exact this

/-- C146, the default kernel, for a positive amplitude and length scales that are not zero. -/
theorem C146_default_kernel {D : ℕ} (a : ℝ) (ha : 0 < a) (l : Fin D → ℝ) (hl : ∀ i, l i ≠ 0) :
    IsStrictKernel fun x y : Fin D → ℝ => defaultKernel x y a l := by
  have h := IsStrictKernel.comp (C146_matern1 (D := D) 1 one_pos) (scale_injective hl)
  have := IsStrictKernel.smul h ha
  convert this using 3 with x y
  unfold defaultKernel
  rw [anisoDistance_eq]

/-- C146 (partial: up to three dimensions; for many dimensions the claim is false, C137), the default kernel of gp2Scale. -/
theorem C146_wendland_partial {D : ℕ} (hD : D ≤ 3) (a : ℝ) (ha : 0 < a) (l : Fin D → ℝ) (hl : ∀ i, l i ≠ 0) :
    IsStrictKernel fun x y : Fin D → ℝ => wendlandAniso x y a l := by
  have h := IsStrictKernel.comp (wendland_strict hD) (scale_injective hl)
  have := IsStrictKernel.smul h ha
  convert this using 3 with x y
  unfold wendlandAniso
  rw [anisoDistance_eq]

/-! ## The model -/

variable {α H : Type}

theorem Kmat_posDef {k : α → α → ℝ} (hk : IsStrictKernel k) (xs : List α) (hx : xs.Nodup) : (Kmat k xs xs).PosDef := by
  refine Matrix.PosDef.of_dotProduct_mulVec_pos ?_ fun w hw => ?_
  · ext i j
    simp only [Matrix.conjTranspose_apply, Kmat, Matrix.of_apply, star_trivial]
    exact hk.1 _ _
  · have h := hk.2 xs.length (fun i => xs[i]) w (fun i j hij => Fin.ext ((hx.getElem_inj_iff).1 hij)) hw
    have e : star w ⬝ᵥ Kmat k xs xs *ᵥ w = ∑ i, ∑ j, w i * w j * k xs[i] xs[j] := by
      simp only [_root_.dotProduct, mulVec, Kmat, Matrix.of_apply, Pi.star_apply, star_trivial, mul_sum]
      exact sum_congr rfl fun i _ => sum_congr rfl fun j _ => by ring
    rw [e]
    exact h

/-- Distinct points and a kernel that is strictly positive definite make every noise matrix that is positive semidefinite,
zero included, admissible. -/
theorem strict_admissible {c : Config α H} {d : Data α} {h : H} (hk : IsStrictKernel (c.kernel h)) (hx : d.x.Nodup)
    (hf : (calcV c d h d.x).Fits d.x.length c.sparseK) (hV : ((calcV c d h d.x).mat d.x.length).PosSemidef) :
    Admissible c d h := ⟨hf, (Kmat_posDef hk d.x hx).add_posSemidef hV⟩

/-- **C146** (acceptance). With a strictly positive definite kernel, distinct points and noise that is zero or larger, the
constructor succeeds in every direct mode. -/
theorem C146_accepted (c : Config α H) (d : Data α) (h : H) (he : SpluContract c.ext) (hk : IsStrictKernel (c.kernel h))
    (hx : d.x.Nodup) (hf : (calcV c d h d.x).Fits d.x.length c.sparseK)
    (hV : ((calcV c d h d.x).mat d.x.length).PosSemidef) : ∃ gp, init c d h = .ok gp := by
  obtain ⟨gp, hgp, -⟩ := init_ok c d h he (strict_admissible hk hx hf hV)
  exact ⟨gp, hgp⟩

theorem zero_noise {c : Config α H} (hn : c.noise = .measured) {d : Data α} (h : H) {v : List ℝ} (hv : d.noiseVar = some v)
    (hl : v.length = d.x.length) (h0 : ∀ e ∈ v, e = 0) :
    (calcV c d h d.x).Fits d.x.length c.sparseK ∧ (calcV c d h d.x).mat d.x.length = 0 := by
  have e : calcV c d h d.x = .diag v.length fun i => v.getD i 0 := by
    simp [calcV, hn, hv, hl]
  rw [e]
  refine ⟨hl, ?_⟩
  ext i j
  simp only [Noise.mat, Matrix.diagonal_apply, Matrix.zero_apply]
  split
  · rw [List.getD_eq_getElem _ _ (by rw [hl]; exact i.2)]
    exact h0 _ (List.getElem_mem _)
  · rfl

/-- A model accepted in Cholesky mode with zero noise variances has a positive definite prior covariance. -/
theorem accepted_zero_noise (c : Config α H) (hm : c.mode = .chol) (hn : c.noise = .measured) (d : Data α) (h : H)
    (hsym : ∀ x y, c.kernel h x y = c.kernel h y x) (v : List ℝ) (hv : d.noiseVar = some v) (hl : v.length = d.x.length)
    (h0 : ∀ e ∈ v, e = 0) (gp : Verif.GP.GP α H) (hok : init c d h = .ok gp) : (Kmat (c.kernel h) d.x d.x).PosDef := by
  have e : calcV c d h d.x = .diag d.x.length fun i => v.getD i 0 := by
    simp [calcV, hn, hv, hl]
  have := accepted_posDef c hm d h hsym _ e gp hok
  convert this using 1
  ext i j
  have hi : v.getD (i : ℕ) 0 = 0 := by
    rw [List.getD_eq_getElem _ _ (by rw [hl]; exact i.2)]
    exact h0 _ (List.getElem_mem _)
  simp only [toMat, Matrix.of_apply, Kmat, gram]
  by_cases hij : i = j
  · subst hij
    simpa using hi
  · have : (i : ℕ) ≠ j := fun hc => hij (Fin.ext hc)
    simp [this]

/-- Equal points make the prior covariance singular. -/
theorem nodup_of_posDef {k : α → α → ℝ} (xs : List α) (hpd : (Kmat k xs xs).PosDef) : xs.Nodup := by
  rw [List.nodup_iff_injective_get]
  intro i j hij
  by_contra hne
  have hw : (Pi.single i 1 - Pi.single j 1 : Fin xs.length → ℝ) ≠ 0 := by
    intro h0
    have := congrFun h0 i
    simp [hne] at this
  have hz : Kmat k xs xs *ᵥ (Pi.single i 1 - Pi.single j 1) = 0 := by
    rw [mulVec_sub, mulVec_single_one, mulVec_single_one]
    ext r
    simp only [List.get_eq_getElem] at hij
    simp [Kmat, hij]
  have := hpd.dotProduct_mulVec_pos hw
  rw [hz] at this
  simp at this

/-- **C146** (exactly). In Cholesky mode with noise variances all zero and a strictly positive definite kernel, the model is
accepted if and only if no input occurs twice. -/
theorem C146_accepted_iff (c : Config α H) (d : Data α) (h : H) (he : SpluContract c.ext) (hm : c.mode = .chol)
    (hn : c.noise = .measured) (hk : IsStrictKernel (c.kernel h)) (v : List ℝ) (hv : d.noiseVar = some v)
    (hl : v.length = d.x.length) (h0 : ∀ e ∈ v, e = 0) : (∃ gp, init c d h = .ok gp) ↔ d.x.Nodup := by
  obtain ⟨hf, hV⟩ := zero_noise (c := c) hn h hv hl h0
  constructor
  · rintro ⟨gp, hok⟩
    exact nodup_of_posDef d.x (accepted_zero_noise c hm hn d h hk.1 v hv hl h0 gp hok)
  · exact fun hx => C146_accepted c d h he hk hx hf (hV ▸ PosSemidef.zero)

/-- **C146** (interpolation). Data without noise at distinct points are reproduced exactly, in every direct mode. -/
theorem C146_interpolates (c : Config α H) (d : Data α) (h : H) (he : SpluContract c.ext) (hn : c.noise = .measured)
    (hk : IsStrictKernel (c.kernel h)) (v : List ℝ) (hv : d.noiseVar = some v)
    (hl : v.length = d.x.length) (h0 : ∀ e ∈ v, e = 0) (hx : d.x.Nodup) :
    ∃ gp, init c d h = .ok gp ∧ ∀ (xs : List α) (i : Fin xs.length) (l : Fin d.x.length), xs[i] = d.x[l] →
      ∀ j, posteriorMean gp xs i j = d.yMat l j := by
  obtain ⟨hf, hV⟩ := zero_noise (c := c) hn h hv hl h0
  obtain ⟨gp, hgp, hi⟩ := C31_interpolation c d h he (strict_admissible hk hx hf (hV ▸ PosSemidef.zero)) hV
  exact ⟨gp, hgp, fun xs i l e => (hi xs i l e).1⟩

/-- The conditional variance at a point that is not among the data, repeated data points included. -/
theorem cond_pos {c : Config α H} {d : Data α} {h : H} (hk : IsStrictKernel (c.kernel h))
    (hV : ((calcV c d h d.x).mat d.x.length).PosSemidef) (hpd : (KVmat c d h).PosDef) (xs : List α) (i : Fin xs.length)
    (hi : xs[i] ∉ d.x) : 0 < specCov c d h xs i i := by
  classical
  set n := d.x.length with hndef
  set p := xs[i] with hp
  set kc : Fin n → ℝ := fun l => Kmat (c.kernel h) d.x xs l i with hkc
  set u : Fin n → ℝ := (KVmat c d h)⁻¹ *ᵥ kc with hu
  have hAu : KVmat c d h *ᵥ u = kc := by
    rw [hu, mulVec_mulVec, mul_inv_of_posDef hpd, one_mulVec]
  have hform := hk.merge (n := n + 1) (Fin.cons p fun l : Fin n => d.x[l]) (Fin.cons 1 fun l => -u l) p (by
    have : (univ.filter fun s : Fin (n + 1) => (Fin.cons p (fun l : Fin n => d.x[l]) : Fin (n + 1) → α) s = p) = {0} := by
      ext s
      simp only [mem_filter, mem_univ, true_and, mem_singleton]
      refine Fin.cases ?_ (fun l => ?_) s
      · simp
      · simp only [Fin.cons_succ, Fin.succ_ne_zero, iff_false]
        intro hc
        exact hi (hc ▸ List.getElem_mem _)
    rw [this, sum_singleton, Fin.cons_zero]
    exact one_ne_zero)
  simp only [Fin.sum_univ_succ, Fin.cons_zero, Fin.cons_succ] at hform
  rw [sum_add_distrib] at hform
  have e1 : ∑ l, 1 * -u l * c.kernel h p d.x[l] = -(kc ⬝ᵥ u) := by
    simp only [_root_.dotProduct, ← sum_neg_distrib]
    refine sum_congr rfl fun l _ => ?_
    simp only [hkc, Kmat, Matrix.of_apply]
    rw [hk.1 p]
    ring
  have e2 : ∑ l, -u l * 1 * c.kernel h d.x[l] p = -(kc ⬝ᵥ u) := by
    simp only [_root_.dotProduct, ← sum_neg_distrib]
    refine sum_congr rfl fun l _ => ?_
    simp only [hkc, Kmat, Matrix.of_apply]
    ring
  have e3 : ∑ l : Fin n, ∑ m : Fin n, -u l * -u m * c.kernel h d.x[l] d.x[m] = u ⬝ᵥ Kmat (c.kernel h) d.x d.x *ᵥ u := by
    simp only [_root_.dotProduct, mulVec, Kmat, Matrix.of_apply, mul_sum]
    exact sum_congr rfl fun l _ => sum_congr rfl fun m _ => by ring
  have e4 : kc ⬝ᵥ u = u ⬝ᵥ Kmat (c.kernel h) d.x d.x *ᵥ u + u ⬝ᵥ (calcV c d h d.x).mat n *ᵥ u := by
    rw [← dotProduct_add, ← add_mulVec]
    change kc ⬝ᵥ u = u ⬝ᵥ KVmat c d h *ᵥ u
    rw [hAu, _root_.dotProduct_comm]
  have e5 : 0 ≤ u ⬝ᵥ (calcV c d h d.x).mat n *ᵥ u := by
    have := hV.dotProduct_mulVec_nonneg u
    simpa using this
  rw [e1, e2, e3] at hform
  rw [specCov, condCov_diag]
  change 0 < Kmat (c.kernel h) xs xs i i - kc ⬝ᵥ u
  have e6 : Kmat (c.kernel h) xs xs i i = c.kernel h p p := rfl
  rw [e6]
  linarith

/-- **C146** (variance). With a strictly positive definite kernel the posterior variance is positive at every point that is
not a data point, in every direct mode, whether or not data points are repeated. -/
theorem C146_variance_pos (c : Config α H) (d : Data α) (h : H) (he : SpluContract c.ext) (ha : Admissible c d h)
    (hk : IsStrictKernel (c.kernel h)) (hV : ((calcV c d h d.x).mat d.x.length).PosSemidef) :
    ∃ gp, init c d h = .ok gp ∧ ∀ (xs : List α) (i : Fin xs.length), xs[i] ∉ d.x → ∀ (vo : Bool) (chunk : ℕ) (junk : NMat),
      ∃ v S, posteriorCovariance gp xs vo false chunk junk = .ok (v, S) ∧ 0 < v i := by
  obtain ⟨gp, hgp, hc, rfl, rfl, rfl⟩ := init_ok c d h he ha
  refine ⟨gp, hgp, fun xs i hi vo chunk junk => ?_⟩
  obtain ⟨v, S, hcov, hv, -, -⟩ := posteriorCovariance_eq hc ha.posDef xs vo chunk junk
  refine ⟨v, S, hcov, ?_⟩
  rw [hv i]
  exact lt_max_of_lt_right (cond_pos hk hV ha.posDef xs i hi)

/-- **C146** (zero variance). For data without noise at distinct points the posterior variance is zero exactly at the data
points. -/
theorem C146_zero_variance_iff (c : Config α H) (d : Data α) (h : H) (he : SpluContract c.ext) (hn : c.noise = .measured)
    (hk : IsStrictKernel (c.kernel h)) (nv : List ℝ) (hv : d.noiseVar = some nv)
    (hl : nv.length = d.x.length) (h0 : ∀ e ∈ nv, e = 0) (hx : d.x.Nodup) :
    ∃ gp, init c d h = .ok gp ∧ ∀ (xs : List α) (i : Fin xs.length) (vo : Bool) (chunk : ℕ) (junk : NMat),
      ∃ v S, posteriorCovariance gp xs vo false chunk junk = .ok (v, S) ∧ (v i = 0 ↔ xs[i] ∈ d.x) := by
  obtain ⟨hf, hV⟩ := zero_noise (c := c) hn h hv hl h0
  have hVp : ((calcV c d h d.x).mat d.x.length).PosSemidef := hV ▸ PosSemidef.zero
  have ha := strict_admissible hk hx hf hVp
  obtain ⟨gp, hgp, hp⟩ := C146_variance_pos c d h he ha hk hVp
  obtain ⟨gp', hgp', hz⟩ := C31_interpolation c d h he ha hV
  rw [hgp] at hgp'
  cases hgp'
  refine ⟨gp, hgp, fun xs i vo chunk junk => ?_⟩
  by_cases hmem : xs[i] ∈ d.x
  · obtain ⟨l, hlt, hl⟩ := List.getElem_of_mem hmem
    obtain ⟨v, S, hcov, hvi⟩ := (hz xs i ⟨l, hlt⟩ hl.symm).2 vo chunk junk
    exact ⟨v, S, hcov, by simp only [hvi, hmem]⟩
  · obtain ⟨v, S, hcov, hvi⟩ := hp xs i hmem vo chunk junk
    exact ⟨v, S, hcov, by simp only [hvi.ne', hmem]⟩

/-- C146 for the model a user gets without writing a kernel. -/
theorem C146_default_model {D : ℕ} (ext : Ext) (he : SpluContract ext) (d : Data (Fin D → ℝ)) (v : List ℝ)
    (hv : d.noiseVar = some v) (hl : v.length = d.x.length) (h0 : ∀ e ∈ v, e = 0) (a : ℝ) (ha : 0 < a) (l : Fin D → ℝ)
    (hl0 : ∀ i, l i ≠ 0) :
    (∃ gp, init (defaultConfig D .measured .chol ext) d (a, l) = .ok gp) ↔ d.x.Nodup :=
  C146_accepted_iff _ d (a, l) he rfl rfl (C146_default_kernel a ha l hl0) v hv hl h0

/-- C146 for gp2Scale's default kernel (partial: up to three dimensions). -/
theorem C146_wendland_model_partial {D : ℕ} (hD : D ≤ 3) (sparse : Bool) (ext : Ext) (he : SpluContract ext)
    (d : Data (Fin D → ℝ)) (v : List ℝ) (hv : d.noiseVar = some v) (hl : v.length = d.x.length) (h0 : ∀ e ∈ v, e = 0)
    (a : ℝ) (ha : 0 < a) (l : Fin D → ℝ) (hl0 : ∀ i, l i ≠ 0) :
    (∃ gp, init (wendlandConfig D .measured .chol sparse ext) d (a, l) = .ok gp) ↔ d.x.Nodup :=
  C146_accepted_iff _ d (a, l) he rfl rfl (C146_wendland_partial hD a ha l hl0) v hv hl h0

/-- Three distinct points of the plane, and the same with a point repeated. -/
example : (∃ gp, init (defaultConfig 2 .measured .chol cholExt)
      ⟨[![0, 1], ![0, 2], ![2, 5]], [[1], [2], [3]], 1, some [0, 0, 0]⟩ (4, ![1, 2]) = .ok gp) ∧
    ¬ ∃ gp, init (defaultConfig 2 .measured .chol cholExt)
      ⟨[![0, 1], ![2, 5], ![0, 1]], [[1], [2], [1]], 1, some [0, 0, 0]⟩ (4, ![1, 2]) = .ok gp := by
  have hl : ∀ i, (![1, 2] : Fin 2 → ℝ) i ≠ 0 := by intro i; fin_cases i <;> norm_num
  constructor
  · refine (C146_default_model cholExt cholExt_contract _ _ rfl rfl (by simp) 4 (by norm_num) _ hl).2 ?_
    have h1 : (![0, 1] : Fin 2 → ℝ) ≠ ![0, 2] := fun h => by simpa using congrFun h 1
    have h2 : (![0, 1] : Fin 2 → ℝ) ≠ ![2, 5] := fun h => by simpa using congrFun h 0
    have h3 : (![0, 2] : Fin 2 → ℝ) ≠ ![2, 5] := fun h => by simpa using congrFun h 0
    simp [h1, h2, h3]
  · intro h
    have := (C146_default_model cholExt cholExt_contract _ _ rfl rfl (by simp) 4 (by norm_num) _ hl).1 h
    simp at this

/-! ## Kernels without the property -/

/-- A kernel of rank one, with two data points and no noise, is rejected whatever the points are. -/
theorem rank_one_rejected (c : Config α H) (hm : c.mode = .chol) (hn : c.noise = .measured) (h : H) (g : α → ℝ)
    (hg : ∀ x y, c.kernel h x y = g x * g y) (p q : α) (y : List (List ℝ)) (cols : ℕ) :
    ∃ e, init c ⟨[p, q], y, cols, some [0, 0]⟩ h = .error e := by
  cases hok : init c ⟨[p, q], y, cols, some [0, 0]⟩ h with
  | error e => exact ⟨e, rfl⟩
  | ok gp =>
    exfalso
    have hpd := accepted_zero_noise c hm hn _ h (fun x y => by rw [hg, hg, mul_comm]) [0, 0] rfl rfl (by simp) gp hok
    have hdet := hpd.det_pos
    have : (Kmat (c.kernel h) [p, q] [p, q]).det = 0 := by
      change Matrix.det (n := Fin 2) _ = 0
      rw [Matrix.det_fin_two]
      simp [Kmat, hg]
      ring
    exact absurd this hdet.ne'

/-- The property fails for `non_stat_kernel`: any two points, however far apart, are rejected without noise. -/
theorem C146_non_stat_violated {D m : ℕ} (x0 : Fin m → Fin D → ℝ) (l : ℝ) (ext : Ext) (w : Fin m → ℝ) (p q : Fin D → ℝ)
    (y : List (List ℝ)) (cols : ℕ) :
    ∃ e, init (H := Fin m → ℝ) ⟨fun w x y => nonStat x y x0 w l, none, .measured, .chol, false, ext⟩
      ⟨[p, q], y, cols, some [0, 0]⟩ w = .error e :=
  rank_one_rejected _ rfl rfl w (fun x => basis x x0 w l) (fun _ _ => rfl) p q y cols

/-- The property fails for `periodic_kernel`: two points one period apart are rejected without noise. -/
theorem C146_periodic_violated (ext : Ext) (l period : ℝ) (hp : period ≠ 0) (p : ℝ) (y : List (List ℝ)) (cols : ℕ) :
    p ≠ p + period ∧
    ∃ e, init (H := ℝ) ⟨fun l x y => periodic |x - y| l period, none, .measured, .chol, false, ext⟩
      ⟨[p, p + period], y, cols, some [0, 0]⟩ l = .error e := by
  refine ⟨fun h => hp (by linarith), ?_⟩
  set c : Config ℝ ℝ := ⟨fun l x y => periodic |x - y| l period, none, .measured, .chol, false, ext⟩ with hc
  have h1 : periodic |(p + period) - (p + period)| l period = 1 := by simp [periodic]
  have h0 : periodic |p - p| l period = 1 := by simp [periodic]
  have hs : Real.sin (π * |period| / period) = 0 := by
    rcases abs_choice period with h | h <;> rw [h]
    · rw [mul_div_assoc, div_self hp, mul_one, sin_pi]
    · rw [mul_neg, neg_div, mul_div_assoc, div_self hp, mul_one, sin_neg, sin_pi, neg_zero]
  have h2 : periodic |p - (p + period)| l period = 1 := by
    have : |p - (p + period)| = |period| := by rw [sub_add_cancel_left, abs_neg]
    simp [periodic, this, hs]
  have h3 : periodic |(p + period) - p| l period = 1 := by
    rw [add_sub_cancel_left]
    simp [periodic, hs]
  cases hok : init c ⟨[p, p + period], y, cols, some [0, 0]⟩ l with
  | error e => exact ⟨e, rfl⟩
  | ok gp =>
    exfalso
    have hpd := accepted_zero_noise c rfl rfl _ l (fun x y => by simp only [hc, abs_sub_comm]) [0, 0] rfl rfl (by simp) gp hok
    have : (Kmat (c.kernel l) [p, p + period] [p, p + period]).det = 0 := by
      change Matrix.det (n := Fin 2) _ = 0
      rw [Matrix.det_fin_two]
      simp only [Kmat, Matrix.of_apply, hc]
      change periodic |p - p| l period * periodic |(p + period) - (p + period)| l period -
        periodic |p - (p + period)| l period * periodic |(p + period) - p| l period = 0
      rw [h0, h1, h2, h3]
      ring
    exact absurd this hpd.det_pos.ne'

end Verif.Kernels
