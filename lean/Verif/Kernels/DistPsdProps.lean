import Verif.Kernels.Accept

/-!
C140: whether the periodic and the sparse kernel of the Euclidean distance are covariance functions.
-/

namespace Verif.Kernels

open Finset Real Verif.GP Verif.LinAlg Verif.State

/-- A model with a kernel of the distance. -/
noncomputable def distanceConfig {H : Type} (D : ℕ) (k : ℝ → H → ℝ) (mode : Mode) (sparse : Bool) (ext : Ext) :
    Config (Fin D → ℝ) H where
  kernel h x y := k (distance x y) h
  mean := none
  noise := .measured
  mode := mode
  sparseK := sparse
  ext := ext

theorem dist_symm {D : ℕ} (x y : Fin D → ℝ) : distance x y = distance y x := by
  unfold distance
  congr 1
  exact sum_congr rfl fun i _ => by ring

theorem dist_self {D : ℕ} (x : Fin D → ℝ) : distance x x = 0 := by simp [distance]

/-! ## Periodic kernel -/

/-- C140, periodic kernel (partial): on the line it is positive semidefinite. -/
theorem C140_periodic_line_partial (l p : ℝ) (hl : l ≠ 0) (hp : p ≠ 0) :
    IsPSDKernel fun x y : Fin 1 → ℝ => periodic (distance x y) l p := by
  have h := IsPSDKernel.comp (C66_periodic l p hl hp) fun x : Fin 1 → ℝ => x 0
  convert h using 3 with x y
  simp [distance, sqrt_sq_eq_abs]

/-- C140, periodic kernel (partial): so with one coordinate and positive noise variances the model is accepted whatever the
points are, in every direct linear-algebra mode. -/
theorem C140_periodic_model_partial (mode : Mode) (sparse : Bool) (ext : Ext) (he : SpluContract ext)
    (d : Data (Fin 1 → ℝ)) (v : List ℝ) (hv : d.noiseVar = some v) (hlen : v.length = d.x.length) (hpos : ∀ e ∈ v, 0 < e)
    (l p : ℝ) (hl : l ≠ 0) (hp : p ≠ 0) :
    ∃ gp, init (distanceConfig 1 (fun r (h : ℝ × ℝ) => periodic r h.1 h.2) mode sparse ext) d (l, p) = .ok gp := by
  obtain ⟨gp, h, -⟩ := init_ok (distanceConfig 1 (fun r (h : ℝ × ℝ) => periodic r h.1 h.2) mode sparse ext) d (l, p) he
    (measured_admissible _ rfl d (l, p) (C140_periodic_line_partial l p hl hp) v hv hlen hpos)
  exact ⟨gp, h⟩

theorem periodic_zero (l p : ℝ) : periodic 0 l p = 1 := by simp [periodic]

theorem periodic_period (l p : ℝ) (hp : p ≠ 0) : periodic p l p = 1 := by
  unfold periodic
  rw [mul_div_assoc, div_self hp]
  simp

theorem periodic_half (l p : ℝ) (hl : l ≠ 0) (hp : p ≠ 0) : periodic (p / 2) l p < 1 := by
  unfold periodic
  have e : π * (p / 2) / p = π / 2 := by field_simp
  rw [e, sin_pi_div_two, exp_lt_one_iff]
  have : 0 < 2 / l ^ 2 := by positivity
  linarith

/-- In the plane: two points one period apart, and a third one period from one of them and half a period from the other. -/
theorem periodic_plane (l p : ℝ) (hl : l ≠ 0) (hp : 0 < p) :
    ¬ IsPSDKernel fun x y : Fin 2 → ℝ => periodic (distance x y) l p := by
  intro h
  have hAO : distance ![p, 0] ![0, 0] = p := by
    simp [distance, Fin.sum_univ_two, sqrt_sq hp.le]
  have h15 : √15 ^ 2 = (15 : ℝ) := sq_sqrt (by norm_num)
  have hBO : distance ![p / 8, p * √15 / 8] ![0, 0] = p / 2 := by
    rw [distance, Fin.sum_univ_two, sqrt_eq_iff_mul_self_eq (by positivity) (by positivity)]
    simp
    linear_combination (p ^ 2 / 64) * h15
  have hBA : distance ![p / 8, p * √15 / 8] ![p, 0] = p := by
    rw [distance, Fin.sum_univ_two, sqrt_eq_iff_mul_self_eq (by positivity) (by positivity)]
    simp
    linear_combination (p ^ 2 / 64) * h15
  have hq := h.2 3 ![![0, 0], ![p, 0], ![p / 8, p * √15 / 8]] ![1, -1, 1 - periodic (p / 2) l p]
  simp only [Fin.sum_univ_three, Matrix.cons_val] at hq
  rw [dist_symm ![0, 0] ![p, 0], dist_symm ![0, 0] ![p / 8, p * √15 / 8], dist_symm ![p, 0] ![p / 8, p * √15 / 8], hAO, hBO,
    hBA, dist_self, dist_self, dist_self, periodic_zero, periodic_period l p hp.ne'] at hq
  have := periodic_half l p hl hp.ne'
  nlinarith [sq_pos_of_pos (sub_pos.2 this)]

/-- C140 is violated by the periodic kernel: for points with two or more coordinates it is not positive semidefinite,
whatever the length scale and the period. -/
theorem C140_periodic_violated {D : ℕ} (hD : 2 ≤ D) (l p : ℝ) (hl : l ≠ 0) (hp : 0 < p) :
    ¬ IsPSDKernel fun x y : Fin D → ℝ => periodic (distance x y) l p := by
  intro h
  obtain ⟨k, rfl⟩ := Nat.exists_eq_add_of_le hD
  have := IsPSDKernel.comp h (pad (D := 2) k)
  simp only [pad_distance] at this
  exact periodic_plane l p hl hp this

/-- C140 is violated for models with the periodic kernel: for points with two or more coordinates there are data with
positive noise variances that the constructor rejects. -/
theorem C140_periodic_rejected_violated {D : ℕ} (hD : 2 ≤ D) (sparse : Bool) (ext : Ext) (l p : ℝ) (hl : l ≠ 0)
    (hp : 0 < p) :
    ∃ (d : Data (Fin D → ℝ)) (v : List ℝ), d.noiseVar = some v ∧ v.length = d.x.length ∧ (∀ e ∈ v, 0 < e) ∧
      ∃ e, init (distanceConfig D (fun r (h : ℝ × ℝ) => periodic r h.1 h.2) .chol sparse ext) d (l, p) = .error e :=
  rejected_of_not_psd _ rfl rfl (l, p) (fun x y => by simp only [distanceConfig, dist_symm x y])
    (C140_periodic_violated hD l p hl hp)

/-! ## Sparse kernel -/

theorem skAux_neg {t : ℝ} (h0 : 0 < t) (h1 : t < 1) : skAux t < 0 := by
  have hmono : StrictMonoOn skAux (Set.Ioc 0 1) := by
    apply strictMonoOn_of_deriv_pos (convex_Ioc 0 1)
    · have hc : ContinuousOn (fun y : ℝ => √(1 - y ^ 2)) (Set.Ioc 0 1) := by fun_prop
      refine ContinuousOn.add (ContinuousOn.log ?_ ?_) hc
      · refine ContinuousOn.div continuousOn_id (continuousOn_const.add hc) fun x _ => by positivity
      · intro x hx
        have := hx.1
        positivity
    · intro x hx
      rw [interior_Ioc] at hx
      have hd : HasDerivAt skAux _ x := (skLog_deriv hx.1 hx.2).add (sk_sqrt hx.1 hx.2).2.2
      rw [hd.deriv]
      obtain ⟨hs, hs2, -⟩ := sk_sqrt hx.1 hx.2
      have hx0 := hx.1
      have : 1 / (x * √(1 - x ^ 2)) + -x / √(1 - x ^ 2) = √(1 - x ^ 2) / x := by
        field_simp
        rw [hs2]; ring
      rw [this]
      positivity
  have h := hmono ⟨h0, h1.le⟩ ⟨one_pos, le_rfl⟩ h1
  have e : skAux 1 = 0 := by simp [skAux]
  rwa [e] at h

theorem sk_strict {s t : ℝ} (h0 : 0 < s) (hst : s < t) (h1 : t ≤ 1) : sk t < sk s := by
  have hanti : StrictAntiOn sk (Set.Ioc 0 1) := by
    apply strictAntiOn_of_deriv_neg (convex_Ioc 0 1)
    · have hc : ContinuousOn (fun y : ℝ => √(1 - y ^ 2)) (Set.Ioc 0 1) := by fun_prop
      have hl : ContinuousOn (fun y : ℝ => log (y / (1 + √(1 - y ^ 2)))) (Set.Ioc 0 1) := by
        refine ContinuousOn.log (ContinuousOn.div continuousOn_id (continuousOn_const.add hc) fun x _ => by positivity) ?_
        intro x hx
        have := hx.1
        positivity
      exact ((by fun_prop : ContinuousOn (fun y : ℝ => 3 * y ^ 2) (Set.Ioc 0 1)).mul hl).add
        ((by fun_prop : ContinuousOn (fun y : ℝ => 2 * y ^ 2 + 1) (Set.Ioc 0 1)).mul hc)
    · intro x hx
      rw [interior_Ioc] at hx
      have hx0 := hx.1
      obtain ⟨hs, hs2, hsd⟩ := sk_sqrt hx.1 hx.2
      have ha : HasDerivAt (fun y : ℝ => 3 * y ^ 2) (3 * (2 * x)) x := by
        simpa using ((hasDerivAt_id x).pow 2).const_mul 3
      have hb : HasDerivAt (fun y : ℝ => 2 * y ^ 2 + 1) (2 * (2 * x)) x := by
        simpa using (((hasDerivAt_id x).pow 2).const_mul 2).add_const 1
      have hd : HasDerivAt sk _ x := (ha.mul (skLog_deriv hx.1 hx.2)).add (hb.mul hsd)
      rw [hd.deriv]
      have key : 3 * (2 * x) * log (x / (1 + √(1 - x ^ 2))) + 3 * x ^ 2 * (1 / (x * √(1 - x ^ 2))) +
          (2 * (2 * x) * √(1 - x ^ 2) + (2 * x ^ 2 + 1) * (-x / √(1 - x ^ 2))) = 6 * x * skAux x := by
        unfold skAux
        generalize log (x / (1 + √(1 - x ^ 2))) = L
        set s := √(1 - x ^ 2) with hsdef
        have hx2 : x ^ 2 = 1 - s ^ 2 := by rw [hs2]; ring
        field_simp
        rw [hx2]
        ring
      rw [key]
      have := skAux_neg hx.1 hx.2
      exact mul_neg_of_pos_of_neg (by positivity) this
  exact hanti ⟨h0, hst.le.trans h1⟩ ⟨h0.trans hst, h1⟩ hst

/-- C140 is violated by the sparse kernel: any two different points closer than `1e-5` and than the radius are given a
covariance larger than the variance of either, so that their Gram matrix has a negative eigenvalue. -/
theorem C140_sparse_close_violated {D : ℕ} (x y : Fin D → ℝ) (r : ℝ) (hne : 0 < distance x y)
    (hd : distance x y < 1 / 100000) (hr : distance x y < r) :
    sparseKernel (distance x x) r < sparseKernel (distance x y) r ∧
      sparseKernel (distance x x) r = sparseKernel (distance y y) r := by
  rw [dist_self, dist_self]
  refine ⟨?_, rfl⟩
  have hr0 : 0 < r := hne.trans hr
  have e1 : sparseKernel (distance x y) r = √2 / (3 * √π) * sk (distance x y / r) := by
    unfold sparseKernel sk
    simp only [if_neg hne.ne', if_neg (not_lt.2 hr.le)]
  have e0 : sparseKernel 0 r = √2 / (3 * √π) * sk (min (1 / 100000) r / r) := by
    unfold sparseKernel sk
    simp only [if_true]
    split_ifs with h
    · rw [min_eq_right h.le]
    · rw [min_eq_left (not_lt.1 h)]
  rw [e0, e1]
  apply mul_lt_mul_of_pos_left _ sparse_const.1
  apply sk_strict (by positivity)
  · exact div_lt_div_of_pos_right (lt_min hd hr) hr0
  · exact (div_le_one hr0).2 (min_le_right _ _)

/-- C140 is violated by the sparse kernel in every dimension and for every radius: it is not positive semidefinite. -/
theorem C140_sparse_violated {D : ℕ} (hD : 1 ≤ D) (r : ℝ) (hr : 0 < r) :
    ¬ IsPSDKernel fun x y : Fin D → ℝ => sparseKernel (distance x y) r := by
  intro h
  obtain ⟨k, rfl⟩ := Nat.exists_eq_add_of_le hD
  have h1 := IsPSDKernel.comp h (pad (D := 1) k)
  simp only [pad_distance] at h1
  set e := min (1 / 100000) r / 2 with he
  have hm : 0 < min (1 / 100000) r := lt_min (by norm_num) hr
  have he0 : 0 < e := by positivity
  have he1 : e < min (1 / 100000) r := by rw [he]; linarith
  have hdist : distance (fun _ : Fin 1 => (0 : ℝ)) (fun _ => e) = e := by
    simp [distance, sqrt_sq he0.le]
  obtain ⟨h2, h3⟩ := C140_sparse_close_violated (fun _ : Fin 1 => (0 : ℝ)) (fun _ => e) r (by rw [hdist]; exact he0)
    (by rw [hdist]; exact he1.trans_le (min_le_left _ _)) (by rw [hdist]; exact he1.trans_le (min_le_right _ _))
  have hq := h1.2 2 ![fun _ => 0, fun _ => e] ![1, -1]
  simp only [Fin.sum_univ_two, Matrix.cons_val_zero, Matrix.cons_val_one] at hq
  rw [dist_symm (fun _ => e) (fun _ => 0)] at hq
  linarith

/-- C140 is violated for models with the sparse kernel: there are data with positive noise variances that the constructor
rejects. -/
theorem C140_sparse_rejected_violated {D : ℕ} (hD : 1 ≤ D) (sparse : Bool) (ext : Ext) (r : ℝ) (hr : 0 < r) :
    ∃ (d : Data (Fin D → ℝ)) (v : List ℝ), d.noiseVar = some v ∧ v.length = d.x.length ∧ (∀ e ∈ v, 0 < e) ∧
      ∃ e, init (distanceConfig D sparseKernel .chol sparse ext) d r = .error e :=
  rejected_of_not_psd _ rfl rfl r (fun x y => by simp only [distanceConfig, dist_symm x y]) (C140_sparse_violated hD r hr)

/-! ## Cases -/

/-- Points one and a half periods apart, and a repeated point. -/
example (mode : Mode) : ∃ gp, init (distanceConfig 1 (fun r (h : ℝ × ℝ) => periodic r h.1 h.2) mode false cholExt)
    ⟨[![0], ![3], ![0]], [[1], [2], [3]], 1, some [1, 1 / 2, 3]⟩ (1, 2) = .ok gp :=
  C140_periodic_model_partial mode false cholExt cholExt_contract _ _ rfl rfl (by simp) 1 2 one_ne_zero two_ne_zero

example : ¬ IsPSDKernel fun x y : Fin 3 → ℝ => periodic (distance x y) (1 / 2) 4 :=
  C140_periodic_violated (by norm_num) _ _ (by norm_num) (by norm_num)

/-- Two points a micrometre apart, in metres, with a radius of one metre. -/
example : sparseKernel (distance ![0, 0] ![0, 0]) 1 < sparseKernel (distance ![0, 0] ![1 / 1000000, 0]) 1 := by
  have e : distance ![0, 0] ![(1 / 1000000 : ℝ), 0] = 1 / 1000000 := by
    simp [distance, Fin.sum_univ_two, sqrt_sq]
  exact (C140_sparse_close_violated _ _ 1 (by rw [e]; norm_num) (by rw [e]; norm_num) (by rw [e]; norm_num)).1

end Verif.Kernels
