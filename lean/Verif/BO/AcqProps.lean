import Verif.BO.FitProps
import Verif.Metrics.Crps

/-!
C106: the acquisition value is the expected improvement and its gradient is exact.
-/

namespace Verif.BO

open Finset Real Verif.Kernels Verif.GP Verif.Metrics Filter Topology MeasureTheory ProbabilityTheory Set

/-! ## The function `z Φ(z) + φ(z)` -/

/-- `z Φ(z) + φ(z)`. -/
noncomputable def eiStd (z : ℝ) : ℝ := z * stdCdf z + stdPdf z

theorem eiStd_hasDerivAt (z : ℝ) : HasDerivAt eiStd (stdCdf z) z := by
  have := ((hasDerivAt_id z).fun_mul (stdCdf_hasDerivAt z)).fun_add (stdPdf_hasDerivAt z)
  refine this.congr_deriv ?_
  simp

theorem stdCdf_pos (z : ℝ) : 0 < stdCdf z := lt_of_le_of_lt (stdCdf_nonneg (z - 1)) (stdCdf_strictMono (by linarith))

theorem eiStd_strictMono : StrictMono eiStd :=
  strictMono_of_deriv_pos fun z => by rw [(eiStd_hasDerivAt z).deriv]; exact stdCdf_pos z

theorem stdPdf_tendsto : Tendsto stdPdf atTop (𝓝 0) := by
  have h1 : Tendsto (fun s : ℝ => -s ^ 2 / 2) atTop atBot := by
    have : Tendsto (fun s : ℝ => s ^ 2 / 2) atTop atTop := (tendsto_pow_atTop two_ne_zero).atTop_div_const two_pos
    refine (tendsto_neg_atTop_atBot.comp this).congr fun s => ?_
    simp only [Function.comp]
    ring
  have := (tendsto_exp_atBot.comp h1).const_mul (√(2 * π))⁻¹
  rw [mul_zero] at this
  exact this.congr fun s => (stdPdf_eq s).symm

theorem eiStd_tendsto : Tendsto (fun s => eiStd (-s)) atTop (𝓝 0) := by
  have h1 : Tendsto (fun s : ℝ => -s * stdCdf (-s)) atTop (𝓝 0) := by
    have hb : Tendsto (fun s : ℝ => 1 / s) atTop (𝓝 0) := by simpa using tendsto_inv_atTop_zero (𝕜 := ℝ)
    refine squeeze_zero_norm' ?_ hb
    filter_upwards [eventually_ge_atTop 1] with s hs
    have hs0 : 0 < s := by linarith
    have a := stdCdf_tail hs0
    have b := stdCdf_nonneg (-s)
    rw [Real.norm_eq_abs, abs_mul, abs_neg, abs_of_pos hs0, abs_of_nonneg b]
    calc s * stdCdf (-s) ≤ s * (1 / s ^ 2) := mul_le_mul_of_nonneg_left a hs0.le
      _ = 1 / s := by field_simp
  have := h1.add stdPdf_tendsto
  rw [add_zero] at this
  refine this.congr fun s => ?_
  simp only [eiStd, stdPdf_neg]

theorem eiStd_pos (z : ℝ) : 0 < eiStd z := by
  have h0 : 0 ≤ eiStd (z - 1) := by
    refine le_of_tendsto eiStd_tendsto ?_
    filter_upwards [eventually_ge_atTop (-(z - 1))] with s hs
    exact eiStd_strictMono.monotone (by linarith)
  exact lt_of_le_of_lt h0 (eiStd_strictMono (by linarith))

theorem eiTerm_eq (m std y : ℝ) (hs : 0 < std) : eiTerm stdPdf stdCdf m std y = std * eiStd ((m - y) / std) := by
  unfold eiTerm eiStd
  field_simp

/-! ## C106 -/

/-- The expected improvement over the incumbent `y` of a normally distributed value. -/
noncomputable def eiSpec (m var y : ℝ) : ℝ := ∫ t, max (t - y) 0 ∂gaussianReal m var.toNNReal

/-- C106: the closed form is the expected improvement. -/
theorem C106_expected_improvement (m var y : ℝ) (hv : 0 < var) : eiTerm stdPdf stdCdf m √var y = eiSpec m var y := by
  have hs : 0 < √var := Real.sqrt_pos.2 hv
  set s := √var with hsdef
  have hmap : gaussianReal m var.toNNReal = (gaussianReal 0 1).map fun x => m + s * x := by
    have e : (fun x => m + s * x) = (fun x => m + x) ∘ fun x => s * x := rfl
    rw [e, ← Measure.map_map (by fun_prop) (by fun_prop), gaussianReal_map_const_mul, gaussianReal_map_const_add]
    congr 1
    · simp
    · ext
      simp [hsdef, Real.sq_sqrt hv.le, hv.le]
  unfold eiSpec
  rw [hmap, integral_map (by fun_prop) (by fun_prop), integral_gaussianReal_eq_integral_smul one_ne_zero]
  set b := -((m - y) / s) with hb
  have hsplit : ∀ x, gaussianPDFReal 0 1 x • max (m + s * x - y) 0 = (Ioi b).indicator (fun x => (m - y + s * x) * stdPdf x) x := by
    intro x
    have hx : x ∈ Ioi b ↔ 0 < m + s * x - y := by
      rw [Set.mem_Ioi, hb, neg_lt, ← sub_pos]
      rw [show (m - y) / s - -x = (m + s * x - y) / s by field_simp; ring]
      exact ⟨fun h => by have := mul_pos h hs; rwa [div_mul_cancel₀ _ hs.ne'] at this, fun h => div_pos h hs⟩
    by_cases h : x ∈ Ioi b
    · rw [indicator_of_mem h, max_eq_left (hx.1 h).le]
      simp only [stdPdf, smul_eq_mul]
      ring
    · rw [indicator_of_notMem h, max_eq_right (not_lt.1 fun h' => h (hx.2 h')), smul_zero]
  simp only [hsplit]
  rw [integral_indicator measurableSet_Ioi]
  have hd : ∀ x ∈ Ici b, HasDerivAt (fun x => (m - y) * stdCdf x - s * stdPdf x) ((m - y + s * x) * stdPdf x) x := by
    intro x _
    refine (((stdCdf_hasDerivAt x).const_mul (m - y)).fun_sub ((stdPdf_hasDerivAt x).const_mul s)).congr_deriv ?_
    ring
  have hpos : ∀ x ∈ Ioi b, 0 ≤ (m - y + s * x) * stdPdf x := by
    intro x hx
    refine mul_nonneg ?_ (stdPdf_pos x).le
    have hx' : -((m - y) / s) < x := hx
    have := mul_lt_mul_of_pos_left hx' hs
    rw [mul_neg, mul_div_cancel₀ _ hs.ne'] at this
    linarith
  have ht : Tendsto (fun x => (m - y) * stdCdf x - s * stdPdf x) atTop (𝓝 (m - y)) := by
    have := ((tendsto_cdf_atTop (gaussianReal 0 1)).const_mul (m - y)).sub (stdPdf_tendsto.const_mul s)
    rw [mul_one, mul_zero, sub_zero] at this
    exact this
  rw [integral_Ioi_of_hasDerivAt_of_nonneg' hd hpos ht, hb, stdCdf_neg, stdPdf_neg, eiTerm]
  ring

/-- C106: the expected improvement is positive, so the clipping at zero never acts. -/
theorem C106_positive (m std y : ℝ) (hs : 0 < std) : 0 < eiTerm stdPdf stdCdf m std y := by
  rw [eiTerm_eq _ _ _ hs]
  exact mul_pos hs (eiStd_pos _)

theorem lmean_pos {ys : List ℝ} (h : ys ≠ []) {f : ℝ → ℝ} (hf : ∀ y ∈ ys, 0 < f y) : 0 < lmean (ys.map f) := by
  unfold lmean
  have hl : 0 < ys.length := List.length_pos_iff.2 h
  rw [List.length_map]
  refine div_pos ?_ (by exact_mod_cast hl)
  refine List.sum_pos _ ?_ (by simpa using h)
  intro x hx
  obtain ⟨y, hy, rfl⟩ := List.mem_map.1 hx
  exact hf y hy

theorem lmean_lt {ys : List ℝ} (h : ys ≠ []) {f g : ℝ → ℝ} (hf : ∀ y ∈ ys, f y < g y) :
    lmean (ys.map f) < lmean (ys.map g) := by
  unfold lmean
  have hl : 0 < ys.length := List.length_pos_iff.2 h
  rw [List.length_map, List.length_map]
  exact div_lt_div_of_pos_right (List.sum_lt_sum_of_ne_nil h _ _ hf) (by exact_mod_cast hl)

theorem neiGrad_eq {D : ℕ} {ys : List ℝ} (h : ys ≠ []) (p : Predict D) (hv : 0 < p.var) :
    neiGrad stdPdf stdCdf ys p = (lmean (ys.map fun y => eiTerm stdPdf stdCdf p.mean √p.var y), fun i =>
      lmean (ys.map fun y => stdCdf ((p.mean - y) / √p.var)) * p.dMean i
      + lmean (ys.map fun y => stdPdf ((p.mean - y) / √p.var)) * (p.dVar i / (2 * √p.var))) := by
  have := lmean_pos h (f := fun y => eiTerm stdPdf stdCdf p.mean √p.var y) fun y _ => C106_positive _ _ y (sqrt_pos.2 hv)
  simp only [neiGrad, if_neg (not_le.2 this)]

/-- C106: the value of `_nei_value_and_grad` is the expected improvement averaged over the sampled incumbents. -/
theorem C106_value {D : ℕ} (ys : List ℝ) (h : ys ≠ []) (p : Predict D) (hv : 0 < p.var) :
    (neiGrad stdPdf stdCdf ys p).1 = lmean (ys.map fun y => eiSpec p.mean p.var y) := by
  rw [neiGrad_eq h p hv]
  simp only [C106_expected_improvement p.mean p.var _ hv]

theorem eiTerm_deriv {m v : ℝ → ℝ} {m' v' t : ℝ} (hm : HasDerivAt m m' t) (hv : HasDerivAt v v' t) (hpos : 0 < v t) (y : ℝ) :
    HasDerivAt (fun s => eiTerm stdPdf stdCdf (m s) √(v s) y)
      (stdCdf ((m t - y) / √(v t)) * m' + stdPdf ((m t - y) / √(v t)) * (v' / (2 * √(v t)))) t := by
  have hs : 0 < √(v t) := sqrt_pos.2 hpos
  have h1 : HasDerivAt (fun s => √(v s)) (v' / (2 * √(v t))) t := hv.sqrt hpos.ne'
  have h2 := (hm.sub_const y).fun_div h1 hs.ne'
  have h3 := (stdCdf_hasDerivAt ((m t - y) / √(v t))).comp t h2
  have h4 := (stdPdf_hasDerivAt ((m t - y) / √(v t))).comp t h2
  have h := ((hm.sub_const y).fun_mul h3).fun_add (h1.fun_mul h4)
  refine h.congr_deriv ?_
  simp only [Function.comp]
  generalize stdPdf ((m t - y) / √(v t)) = a
  generalize stdCdf ((m t - y) / √(v t)) = c
  field_simp
  ring

theorem lmean_deriv {ys : List ℝ} {f : ℝ → ℝ → ℝ} {f' : ℝ → ℝ} {t : ℝ} (h : ∀ y, HasDerivAt (fun s => f s y) (f' y) t) :
    HasDerivAt (fun s => lmean (ys.map fun y => f s y)) (lmean (ys.map f')) t := by
  unfold lmean
  simp only [List.length_map]
  refine HasDerivAt.div_const ?_ _
  induction ys with
  | nil => simpa using hasDerivAt_const t (0 : ℝ)
  | cons a l ih =>
    simp only [List.map_cons, List.sum_cons]
    exact (h a).fun_add ih

theorem lmean_linear (ys : List ℝ) (f g : ℝ → ℝ) (a b : ℝ) :
    lmean (ys.map fun y => f y * a + g y * b) = lmean (ys.map f) * a + lmean (ys.map g) * b := by
  unfold lmean
  simp only [List.length_map]
  have : (ys.map fun y => f y * a + g y * b).sum = (ys.map f).sum * a + (ys.map g).sum * b := by
    induction ys with
    | nil => simp
    | cons c l ih => simp only [List.map_cons, List.sum_cons, ih]; ring
  rw [this]
  ring

theorem varFloor_pos (s : ℝ) : 0 < varFloor s := by
  unfold varFloor
  have : 0 < tiny := by unfold tiny; positivity
  have : 0 < max s tiny := lt_max_of_lt_right this
  positivity

/-- C106: the returned gradient is the derivative of the returned acquisition value, for every fitted surrogate and every point
at which the posterior variance does not equal the floor exactly. -/
theorem C106_gradient {D : ℕ} (ext : Ext) (he : SpluContract ext) (u : List (Pos D)) (y : List ℝ)
    (v : Option (List ℝ)) (hv : ∀ l, v = some l → l.length = u.length) (fit : Option (Quad D)) (h : SHps D) (hs : 0 ≤ h.signal) (hl : ∀ j, h.len j ≠ 0)
    (gp : GP (Pos D) (SHps D)) (hgp : fitSurrogate ext u y v fit h = .ok gp) (ys : List ℝ) (hy : ys ≠ []) (p : Pos D) (i : Fin D)
    (hne : specVar gp p ≠ smallestVariance h.signal) :
    HasDerivAt (fun t => (neiGrad stdPdf stdCdf ys (predictAt gp (polynomialMean u.length fit) (Function.update p i t))).1)
      ((neiGrad stdPdf stdCdf ys (predictAt gp (polynomialMean u.length fit) p)).2 i) (p i) := by
  obtain ⟨hf, hh, -⟩ := fitted_of_ok he hv hs hgp
  have hpos : ∀ q, 0 < (predictAt gp (polynomialMean u.length fit) q).var := by
    intro q
    rw [predict_var hf]
    exact lt_max_of_lt_left (varFloor_pos _)
  have hm : HasDerivAt (fun t => (predictAt gp (polynomialMean u.length fit) (Function.update p i t)).mean)
      ((predictAt gp (polynomialMean u.length fit) p).dMean i) (p i) := by
    simp only [predict_mean]
    exact mean_deriv gp _ _ p i
  have hvd := C105_variance_gradient ext he u y v hv fit h hs hl gp hgp p i hne
  have e : ∀ q, (neiGrad stdPdf stdCdf ys (predictAt gp (polynomialMean u.length fit) q)).1 =
      lmean (ys.map fun y => eiTerm stdPdf stdCdf (predictAt gp (polynomialMean u.length fit) q).mean
        √(predictAt gp (polynomialMean u.length fit) q).var y) := fun q => by rw [neiGrad_eq hy _ (hpos q)]
  simp only [e]
  have hp0 : 0 < (predictAt gp (polynomialMean u.length fit) (Function.update p i (p i))).var := hpos _
  have := lmean_deriv (ys := ys) fun y => eiTerm_deriv hm hvd hp0 y
  refine this.congr_deriv ?_
  rw [neiGrad_eq hy _ (hpos p)]
  simp only [Function.update_eq_self]
  exact lmean_linear ys _ _ _ _

/-- C106: with a polynomial mean and a posterior variance above both floors, the gradient search maximises the same function
the random candidates are screened with. -/
theorem C106_agree_partial {D : ℕ} (ext : Ext) (he : SpluContract ext) (u : List (Pos D)) (y : List ℝ) (v : Option (List ℝ))
    (hv : ∀ l, v = some l → l.length = u.length) (fit : Option (Quad D)) (h : SHps D) (hs : 0 ≤ h.signal) (hl : ∀ j, h.len j ≠ 0)
    (gp : GP (Pos D) (SHps D)) (hgp : fitSurrogate ext u y v fit h = .ok gp) (c : Quad D)
    (hc : polynomialMean u.length fit = some c) (ys : List ℝ) (hy : ys ≠ []) (p : Pos D) (chunk : ℕ) (junk : NMat) :
    ∃ w S, posteriorCovariance gp [p] true false chunk junk = .ok (w, S) ∧
      (max (smallestVariance h.signal) (1 / 10 ^ 12) ≤ w 0 →
        (neiGrad stdPdf stdCdf ys (predictAt gp (polynomialMean u.length fit) p)).1
          = neiVector stdPdf stdCdf ys (posteriorMean gp [p] 0 0) (w 0)) := by
  obtain ⟨w, S, hw, h1, h2⟩ := C105_value_partial ext he u y v hv fit h hs hl gp hgp c hc p chunk junk
  refine ⟨w, S, hw, fun hfl => ?_⟩
  have a := (le_max_left _ _).trans hfl
  have b := (le_max_right _ _).trans hfl
  have hvar : (predictAt gp (polynomialMean u.length fit) p).var = w 0 := by rw [h2, max_eq_right a]
  have hw0 : 0 < w 0 := lt_of_lt_of_le (by norm_num) b
  have hpos := lmean_pos hy (f := fun y => eiTerm stdPdf stdCdf (posteriorMean gp [p] 0 0) √(w 0) y)
    fun y _ => C106_positive _ _ y (sqrt_pos.2 hw0)
  rw [neiGrad_eq hy _ (by rw [hvar]; exact hw0), h1, hvar]
  simp only [neiVector, max_eq_left b, max_eq_left hpos.le]

theorem eiTerm_mono_mean {std y m m' : ℝ} (hs : 0 < std) (h : m < m') : eiTerm stdPdf stdCdf m std y < eiTerm stdPdf stdCdf m' std y := by
  rw [eiTerm_eq _ _ _ hs, eiTerm_eq _ _ _ hs]
  exact mul_lt_mul_of_pos_left (eiStd_strictMono (div_lt_div_of_pos_right (by linarith) hs)) hs

/-- C106 is violated without the polynomial mean: the value the gradient search reports is strictly larger than the screened
acquisition wherever the observed values average below zero (and strictly smaller if above). -/
theorem C106_agree_violated {D : ℕ} (ext : Ext) (he : SpluContract ext) (u : List (Pos D)) (y : List ℝ)
    (v : Option (List ℝ)) (hv : ∀ l, v = some l → l.length = u.length) (hyl : y.length = u.length) (fit : Option (Quad D))
    (h : SHps D) (hs : 0 ≤ h.signal) (hl : ∀ j, h.len j ≠ 0) (hn : u.length < 2 * (1 + 2 * D)) (gp : GP (Pos D) (SHps D))
    (hgp : fitSurrogate ext u y v fit h = .ok gp) (ys : List ℝ) (hy : ys ≠ []) (p : Pos D)
    (hfl : max (smallestVariance h.signal) (1 / 10 ^ 12) ≤ specVar gp p) :
    (lmean y < 0 → neiVector stdPdf stdCdf ys (posteriorMean gp [p] 0 0) (specVar gp p)
      < (neiGrad stdPdf stdCdf ys (predictAt gp (polynomialMean u.length fit) p)).1) ∧
    (0 < lmean y → (neiGrad stdPdf stdCdf ys (predictAt gp (polynomialMean u.length fit) p)).1
      < neiVector stdPdf stdCdf ys (posteriorMean gp [p] 0 0) (specVar gp p)) := by
  rw [varFloor_eq] at hfl
  obtain ⟨hf, hh, -⟩ := fitted_of_ok he hv hs hgp
  have hm := C105_default_mean_violated ext he u y v hv hyl fit h hs hl hn gp hgp p
  have a := (le_max_left _ _).trans hfl
  have b := (le_max_right _ _).trans hfl
  have hvar : (predictAt gp (polynomialMean u.length fit) p).var = specVar gp p := by
    rw [predict_var hf, hh, max_eq_right a]
  have hw0 : 0 < specVar gp p := lt_of_lt_of_le (by norm_num) b
  have hpos := lmean_pos hy (f := fun y => eiTerm stdPdf stdCdf (posteriorMean gp [p] 0 0) √(specVar gp p) y)
    fun y _ => C106_positive _ _ y (sqrt_pos.2 hw0)
  have e1 : neiVector stdPdf stdCdf ys (posteriorMean gp [p] 0 0) (specVar gp p)
      = lmean (ys.map fun y => eiTerm stdPdf stdCdf (posteriorMean gp [p] 0 0) √(specVar gp p) y) := by
    simp only [neiVector, max_eq_left b, max_eq_left hpos.le]
  rw [e1, neiGrad_eq hy _ (by rw [hvar]; exact hw0), hvar]
  exact ⟨fun hl => lmean_lt hy fun y _ => eiTerm_mono_mean (sqrt_pos.2 hw0) (by linarith),
    fun hl => lmean_lt hy fun y _ => eiTerm_mono_mean (sqrt_pos.2 hw0) (by linarith)⟩

/-! A surrogate of one point with the value `-1`. -/

theorem exFit_kv (ext : Ext) (s : ℝ) : KVmat (surrogateConfig (D := 1) none false ext) (surrogateData [![0]] [-1] none s)
    ⟨1, fun _ => 1, 1 / 10⟩ = (11 / 10 : ℝ) • (1 : Matrix (Fin 1) (Fin 1) ℝ) := by
  ext i j
  have hi : i = (0 : Fin 1) := Subsingleton.elim (α := Fin 1) _ _
  have hj : j = (0 : Fin 1) := Subsingleton.elim (α := Fin 1) _ _
  subst hi hj
  show surrogateKernel _ ![0] ![0] + (Matrix.diagonal fun _ : Fin 1 => homoNoise ⟨1, fun _ => 1, 1 / 10⟩) (0 : Fin 1) (0 : Fin 1) = _
  rw [surrogateKernel_self, Matrix.diagonal_apply_eq, homoNoise, max_eq_left (by norm_num)]
  simp
  norm_num

theorem exFit_var (ext : Ext) (s : ℝ) : specCov (surrogateConfig (D := 1) none false ext) (surrogateData [![0]] [-1] none s)
    ⟨1, fun _ => 1, 1 / 10⟩ [![0]] 0 0 = 1 / 11 := by
  have hinv : (KVmat (surrogateConfig (D := 1) none false ext) (surrogateData [![0]] [-1] none s)
      ⟨1, fun _ => 1, 1 / 10⟩)⁻¹ = (10 / 11 : ℝ) • (1 : Matrix (Fin 1) (Fin 1) ℝ) := by
    rw [exFit_kv]
    refine Matrix.inv_eq_right_inv ?_
    show ((11 / 10 : ℝ) • (1 : Matrix (Fin 1) (Fin 1) ℝ)) * ((10 / 11 : ℝ) • (1 : Matrix (Fin 1) (Fin 1) ℝ)) = 1
    rw [Matrix.smul_mul, Matrix.one_mul, smul_smul]
    norm_num
  rw [specCov, condCov, hinv, Matrix.sub_apply]
  have e : Kmat ((surrogateConfig (D := 1) none false ext).kernel ⟨1, fun _ => 1, 1 / 10⟩) [![0]] [![0]]
      = (1 : Matrix (Fin 1) (Fin 1) ℝ) := by
    ext i j
    have hi : i = (0 : Fin 1) := Subsingleton.elim (α := Fin 1) _ _
    have hj : j = (0 : Fin 1) := Subsingleton.elim (α := Fin 1) _ _
    subst hi hj
    show surrogateKernel _ ![0] ![0] = _
    rw [surrogateKernel_self]
    rfl
  have e' : Kmat ((surrogateConfig (D := 1) none false ext).kernel ⟨1, fun _ => 1, 1 / 10⟩)
      (surrogateData (D := 1) [![0]] [-1] none s).x [![0]] = (1 : Matrix (Fin 1) (Fin 1) ℝ) := e
  rw [e, e']
  show (1 : Matrix (Fin 1) (Fin 1) ℝ) 0 0 - ((1 : Matrix (Fin 1) (Fin 1) ℝ).transpose * ((10 / 11 : ℝ) • (1 : Matrix (Fin 1) (Fin 1) ℝ))
    * (1 : Matrix (Fin 1) (Fin 1) ℝ)) 0 0 = 1 / 11
  simp
  norm_num

/-- The two acquisition functions differ at the observed point. -/
example (ext : Ext) (he : SpluContract ext) (ys : List ℝ) (hy : ys ≠ []) : ∃ gp,
    fitSurrogate (D := 1) ext [![0]] [-1] none none ⟨1, fun _ => 1, 1 / 10⟩ = .ok gp ∧
    neiVector stdPdf stdCdf ys (posteriorMean gp [![0]] 0 0) (specVar gp ![0])
      < (neiGrad stdPdf stdCdf ys (predictAt gp none ![0])).1 := by
  have ha := surrogate_admissible (D := 1) ext [![0]] [-1] none (fun l h => by cases h) none
    (fitScale [![0]] [-1] none) ⟨1, fun _ => 1, 1 / 10⟩ (by norm_num)
  obtain ⟨gp, hgp, -, h1, h2, h3⟩ := init_ok _ _ _ (by exact he) ha
  have hv : specVar gp ![0] = 1 / 11 := by
    rw [specVar, h1, h2, h3]
    exact exFit_var ext _
  refine ⟨gp, hgp, ?_⟩
  refine (C106_agree_violated ext he [![0]] [-1] none (fun l h => by cases h) rfl none ⟨1, fun _ => 1, 1 / 10⟩ (by norm_num) (fun _ => one_ne_zero)
    (by norm_num) gp hgp ys hy ![0] ?_).1 (by simp [lmean])
  rw [hv, varFloor_eq]
  refine max_le ?_ (by norm_num)
  unfold varFloor
  rw [max_eq_left]
  · norm_num
  · unfold tiny
    rw [div_le_one (by positivity)]
    exact one_le_pow₀ (by norm_num)

/-- The gradient of the acquisition of the same surrogate. -/
example (ext : Ext) (he : SpluContract ext) (ys : List ℝ) (hy : ys ≠ []) : ∃ gp,
    fitSurrogate (D := 1) ext [![0]] [-1] none none ⟨1, fun _ => 1, 1 / 10⟩ = .ok gp ∧
    HasDerivAt (fun t => (neiGrad stdPdf stdCdf ys (predictAt gp none (Function.update ![0] 0 t))).1)
      ((neiGrad stdPdf stdCdf ys (predictAt gp none ![0])).2 0) 0 := by
  have ha := surrogate_admissible (D := 1) ext [![0]] [-1] none (fun l h => by cases h) none
    (fitScale [![0]] [-1] none) ⟨1, fun _ => 1, 1 / 10⟩ (by norm_num)
  obtain ⟨gp, hgp, -, h1, h2, h3⟩ := init_ok _ _ _ (by exact he) ha
  have hv : specVar gp ![0] = 1 / 11 := by
    rw [specVar, h1, h2, h3]
    exact exFit_var ext _
  refine ⟨gp, hgp, C106_gradient ext he [![0]] [-1] none (fun l h => by cases h) none ⟨1, fun _ => 1, 1 / 10⟩ (by norm_num) (fun _ => one_ne_zero) gp hgp
    ys hy ![0] 0 ?_⟩
  rw [hv, varFloor_eq]
  unfold varFloor
  rw [max_eq_left]
  · norm_num
  · unfold tiny
    rw [div_le_one (by positivity)]
    exact one_le_pow₀ (by norm_num)

end Verif.BO
