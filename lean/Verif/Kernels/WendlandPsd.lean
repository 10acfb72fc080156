import Verif.Kernels.WendlandMix
import Verif.Kernels.Accept
import Mathlib.Data.Finset.SymmDiff
import Mathlib.Data.Nat.Choose.Sum

/-!
C137: the Wendland kernel, the default kernel of gp2Scale, is positive semidefinite for inputs with up to three coordinates,
and is not for inputs with many.
-/

namespace Verif.Kernels

open Finset Real MeasureTheory Verif.GP Verif.LinAlg Verif.State

/-! ## Up to three dimensions -/

/-- Three coordinates as a point of the line times the plane. -/
noncomputable def point3 (x : Fin 3 → ℝ) : V3 := WithLp.toLp 2 (x 0, WithLp.toLp 2 ![x 1, x 2])

theorem point3_distance (x y : Fin 3 → ℝ) : ‖point3 x - point3 y‖ = distance x y := by
  have h : ‖point3 x - point3 y‖ ^ 2 = ∑ i, (x i - y i) ^ 2 := by
    rw [WithLp.prod_norm_sq_eq_of_L2, Fin.sum_univ_three]
    have e : (point3 x - point3 y).snd = WithLp.toLp 2 ![x 1 - y 1, x 2 - y 2] := by
      ext i
      fin_cases i <;> simp [point3]
    rw [e, EuclideanSpace.real_norm_sq_eq, Fin.sum_univ_two]
    simp [point3]
    ring
  rw [distance, ← h, sqrt_sq (norm_nonneg _)]

/-- The form of the Wendland kernel is a multiple of that of the overlaps of balls of diameter one, plus more such forms. -/
theorem wendland_form {n : ℕ} (x : Fin n → Fin 3 → ℝ) (w : Fin n → ℝ) :
    ∃ R, 0 ≤ R ∧ ∑ i, ∑ j, w i * w j * wendland (distance (x i) (x j)) =
      295680 * ∑ i, ∑ j, w i * w j * hatClip 1 (distance (x i) (x j)) + R := by
  have hm := fun i j => wendland_mix (distance_nonneg (x i) (x j))
  have hint : ∀ i j, IntegrableOn (fun t => w i * w j * (ballWeight t * hatClip t (distance (x i) (x j)))) (Set.Ioc 0 1) :=
    fun i j => (hm i j).1.const_mul _
  have e : ∑ i, ∑ j, w i * w j * wendland (distance (x i) (x j)) =
      295680 * ∑ i, ∑ j, w i * w j * hatClip 1 (distance (x i) (x j)) +
      739200 * ∫ t in Set.Ioc (0 : ℝ) 1, ∑ i, ∑ j, w i * w j * (ballWeight t * hatClip t (distance (x i) (x j))) := by
    rw [integral_finsetSum _ fun i _ => integrable_finsetSum _ fun j _ => hint i j, mul_sum, mul_sum, ← sum_add_distrib]
    refine sum_congr rfl fun i _ => ?_
    rw [integral_finsetSum _ fun j _ => hint i j, mul_sum, mul_sum, ← sum_add_distrib]
    refine sum_congr rfl fun j _ => ?_
    rw [integral_const_mul, (hm i j).2]
    ring
  have hp : ∀ t, 0 ≤ t → 0 ≤ ∑ i, ∑ j, w i * w j * hatClip t (distance (x i) (x j)) := by
    intro t ht
    have := hatClip_psd t ht n (fun i => point3 (x i)) w
    simpa only [point3_distance] using this
  refine ⟨_, mul_nonneg (by norm_num) ?_, e⟩
  refine setIntegral_nonneg measurableSet_Ioc fun t ht => ?_
  have e2 : ∑ i, ∑ j, w i * w j * (ballWeight t * hatClip t (distance (x i) (x j))) =
      ballWeight t * ∑ i, ∑ j, w i * w j * hatClip t (distance (x i) (x j)) := by
    simp only [mul_sum]
    exact sum_congr rfl fun i _ => sum_congr rfl fun j _ => by ring
  rw [e2]
  exact mul_nonneg (ballWeight_nonneg ht.2 ht.1) (hp t ht.1.le)

theorem wendland_psd3 : IsPSDKernel fun x y : Fin 3 → ℝ => wendland (distance x y) := by
  have hsym : ∀ x y : Fin 3 → ℝ, distance x y = distance y x := by
    intro x y
    unfold distance
    congr 1
    exact sum_congr rfl fun i _ => by ring
  refine ⟨fun x y => by simp only [hsym x y], fun n x w => ?_⟩
  obtain ⟨R, hR, e⟩ := wendland_form x w
  have := hatClip_psd 1 zero_le_one n (fun i => point3 (x i)) w
  simp only [point3_distance] at this
  rw [e]
  positivity

theorem wendland_restrict {D : ℕ} (k : ℕ) (h : IsPSDKernel fun x y : Fin (D + k) → ℝ => wendland (distance x y)) :
    IsPSDKernel fun x y : Fin D → ℝ => wendland (distance x y) := by
  have := IsPSDKernel.comp h (pad (D := D) k)
  simpa only [pad_distance] using this

/-- C137 (partial): for points with up to three coordinates the Wendland kernel of the distance is positive semidefinite. -/
theorem C137_distance_partial {D : ℕ} (hD : D ≤ 3) : IsPSDKernel fun x y : Fin D → ℝ => wendland (distance x y) := by
  obtain ⟨k, hk⟩ := Nat.exists_eq_add_of_le hD
  refine wendland_restrict k ?_
  rw [← hk]
  exact wendland_psd3

/-- C137 (partial): the same for the anisotropic kernel that gp2Scale uses by default, for every amplitude that is not
negative and all length scales that are not zero. -/
theorem C137_psd_partial {D : ℕ} (hD : D ≤ 3) (a : ℝ) (ha : 0 ≤ a) (l : Fin D → ℝ) (_hl : ∀ i, l i ≠ 0) :
    IsPSDKernel fun x y : Fin D → ℝ => wendlandAniso x y a l := by
  have h := IsPSDKernel.comp (C137_distance_partial hD) fun (x : Fin D → ℝ) i => x i / l i
  have := IsPSDKernel.smul h ha
  convert this using 3 with x y
  unfold wendlandAniso
  rw [anisoDistance_eq]

/-- A model with the default kernel of gp2Scale (gp_prior.py:44-52). The hyperparameters are the amplitude and the length
scales; `sparse` tells whether the covariance is a sparse matrix, as it is with gp2Scale. -/
noncomputable def wendlandConfig (D : ℕ) (noise : NoiseSpec (Fin D → ℝ) (ℝ × (Fin D → ℝ))) (mode : Mode) (sparse : Bool)
    (ext : Ext) : Config (Fin D → ℝ) (ℝ × (Fin D → ℝ)) where
  kernel h x y := wendlandAniso x y h.1 h.2
  mean := none
  noise := noise
  mode := mode
  sparseK := sparse
  ext := ext

/-- C137 (partial): hence, with up to three coordinates and positive noise variances, the model is accepted whatever the
points are, in every direct linear-algebra mode. -/
theorem C137_model_partial {D : ℕ} (hD : D ≤ 3) (mode : Mode) (sparse : Bool) (ext : Ext) (he : SpluContract ext)
    (d : Data (Fin D → ℝ)) (v : List ℝ) (hv : d.noiseVar = some v) (hl : v.length = d.x.length) (hpos : ∀ e ∈ v, 0 < e)
    (a : ℝ) (ha : 0 ≤ a) (l : Fin D → ℝ) (hl0 : ∀ i, l i ≠ 0) :
    ∃ gp, init (wendlandConfig D .measured mode sparse ext) d (a, l) = .ok gp := by
  obtain ⟨gp, h, -⟩ := init_ok (wendlandConfig D .measured mode sparse ext) d (a, l) he
    (measured_admissible _ rfl d (a, l) (C137_psd_partial hD a ha l hl0) v hv hl hpos)
  exact ⟨gp, h⟩

/-! ## Many dimensions -/

/-- Corner of the cube with edge 1/2. -/
noncomputable def corner {D : ℕ} (s : Finset (Fin D)) : Fin D → ℝ := fun i => if i ∈ s then 1 / 2 else 0

theorem corner_distance {D : ℕ} (s u : Finset (Fin D)) : distance (corner s) (corner u) = √(#(symmDiff s u)) / 2 := by
  have h : ∑ i, (corner s i - corner u i) ^ 2 = (#(symmDiff s u) : ℝ) / 4 := by
    have : ∀ i, (corner s i - corner u i) ^ 2 = if i ∈ symmDiff s u then 1 / 4 else 0 := by
      intro i
      unfold corner
      by_cases h1 : i ∈ s <;> by_cases h2 : i ∈ u <;> simp [h1, h2, mem_symmDiff] <;> norm_num
    simp only [this]
    rw [← sum_filter]
    simp
    ring
  rw [distance, h, sqrt_div (by positivity)]
  congr 1
  rw [show (4 : ℝ) = 2 ^ 2 by norm_num, sqrt_sq (by norm_num)]

theorem parity_symmDiff {D : ℕ} (s u : Finset (Fin D)) : (-1 : ℝ) ^ #s * (-1) ^ #(symmDiff s u) = (-1) ^ #u := by
  have h : ∀ s : Finset (Fin D), (-1 : ℝ) ^ #s = ∏ i, if i ∈ s then -1 else 1 := by
    intro s
    rw [prod_ite]
    simp
  rw [h, h, h, ← prod_mul_distrib]
  refine prod_congr rfl fun i _ => ?_
  by_cases h1 : i ∈ s <;> by_cases h2 : i ∈ u <;> simp [h1, h2, mem_symmDiff]

/-- The quadratic form of the corners with alternating signs. -/
theorem corner_form (D : ℕ) (f : ℝ → ℝ) :
    ∑ s : Finset (Fin D), ∑ u : Finset (Fin D), (-1) ^ #s * (-1) ^ #u * f (distance (corner s) (corner u)) =
      2 ^ D * ∑ k ∈ range (D + 1), (D.choose k : ℝ) * ((-1) ^ k * f (√k / 2)) := by
  have h1 : ∀ s : Finset (Fin D), ∑ u : Finset (Fin D), (-1) ^ #s * (-1) ^ #u * f (distance (corner s) (corner u)) =
      ∑ c : Finset (Fin D), (-1) ^ #c * f (√(#c) / 2) := by
    intro s
    refine sum_bij (fun u _ => symmDiff s u) (fun _ _ => mem_univ _) (fun _ _ _ _ h => symmDiff_right_injective s h)
      (fun c _ => ⟨symmDiff s c, mem_univ _, symmDiff_symmDiff_cancel_left s c⟩) fun u _ => ?_
    rw [corner_distance, ← parity_symmDiff s u, ← mul_assoc, ← mul_pow]
    norm_num
  simp only [h1, sum_const, card_univ, Fintype.card_finset, Fintype.card_fin, nsmul_eq_mul]
  push_cast
  congr 1
  have h2 := sum_powerset_apply_card (x := (univ : Finset (Fin D))) (fun k => (-1 : ℝ) ^ k * f (√k / 2))
  rw [powerset_univ, card_univ, Fintype.card_fin] at h2
  rw [h2]
  simp only [nsmul_eq_mul]

theorem wendland_beyond {k : ℕ} (hk : 4 ≤ k) : wendland (√k / 2) = 0 := by
  have h : 2 ≤ √(k : ℝ) := by
    refine le_sqrt_of_sq_le ?_
    have : (4 : ℝ) ≤ k := by exact_mod_cast hk
    linarith
  have : (if √(k : ℝ) / 2 > 1 then 1 else √(k : ℝ) / 2) = 1 := by
    split_ifs with h1
    · rfl
    · linarith
  rw [wendland, this]
  unfold wendlandPoly
  norm_num

theorem wendlandPoly_expand (s : ℝ) : wendlandPoly (s / 2) = 1 - 11 * s ^ 2 / 4 + 66 * (s ^ 2) ^ 2 / 16 - 462 * (s ^ 2) ^ 3 / 64
    + 1056 * (s ^ 2) ^ 3 * s / 128 - 1155 * (s ^ 2) ^ 4 / 256 + 704 * (s ^ 2) ^ 4 * s / 512 - 231 * (s ^ 2) ^ 5 / 1024
    + 32 * (s ^ 2) ^ 5 * s / 2048 := by
  unfold wendlandPoly
  ring

theorem corner_sum_neg : ∑ k ∈ range 26, (Nat.choose 25 k : ℝ) * ((-1) ^ k * wendland (√k / 2)) < 0 := by
  have hs : ∑ k ∈ range 26, (Nat.choose 25 k : ℝ) * ((-1) ^ k * wendland (√k / 2)) =
      ∑ k ∈ range 4, (Nat.choose 25 k : ℝ) * ((-1) ^ k * wendland (√k / 2)) := by
    symm
    refine sum_subset (by intro k; simp only [mem_range]; omega) fun k _ hk => ?_
    rw [wendland_beyond (by simpa using hk)]
    simp
  rw [hs, sum_range_succ, sum_range_succ, sum_range_succ, sum_range_one]
  have c2 : Nat.choose 25 2 = 300 := by decide
  have c3 : Nat.choose 25 3 = 2300 := by decide
  have w0 : wendland (√((0 : ℕ) : ℝ) / 2) = 1 := by
    rw [Nat.cast_zero, sqrt_zero, wendland, if_neg (by norm_num)]
    unfold wendlandPoly
    norm_num
  have w1 : wendland (√((1 : ℕ) : ℝ) / 2) = 61 / 1024 := by
    rw [Nat.cast_one, sqrt_one, wendland, if_neg (by norm_num)]
    unfold wendlandPoly
    norm_num
  have s2 : (√(2 : ℝ)) ^ 2 = 2 := sq_sqrt (by norm_num)
  have s3 : (√(3 : ℝ)) ^ 2 = 3 := sq_sqrt (by norm_num)
  have b2 : √(2 : ℝ) < 1.4142136 := (sqrt_lt' (by norm_num)).2 (by norm_num)
  have b3 : 1.7320508075 < √(3 : ℝ) := lt_sqrt_of_sq_lt (by norm_num)
  have b3' : √(3 : ℝ) < 2 := (sqrt_lt' (by norm_num)).2 (by norm_num)
  have w2 : wendland (√((2 : ℕ) : ℝ) / 2) = wendlandPoly (√2 / 2) := by
    rw [Nat.cast_ofNat, wendland, if_neg (by linarith)]
  have w3 : wendland (√((3 : ℕ) : ℝ) / 2) = wendlandPoly (√3 / 2) := by
    rw [Nat.cast_ofNat, wendland, if_neg (by linarith)]
  have p2 : wendlandPoly (√2 / 2) = -4005 / 32 + 177 / 2 * √2 := by
    rw [wendlandPoly_expand, s2]
    ring
  have p3 : wendlandPoly (√3 / 2) = -599345 / 1024 + 21627 / 64 * √3 := by
    rw [wendlandPoly_expand, s3]
    ring
  rw [w0, w1, w2, w3, c2, c3, p2, p3]
  norm_num
  linarith

theorem wendland25 : ¬ IsPSDKernel fun x y : Fin 25 → ℝ => wendland (distance x y) := by
  intro h
  have hc := IsPSDKernel.comp h (corner (D := 25))
  have e := Fintype.equivFin (Finset (Fin 25))
  have := hc.2 _ e.symm fun i => (-1) ^ #(e.symm i)
  rw [e.symm.sum_comp fun s => ∑ j, (-1) ^ #s * (-1) ^ #(e.symm j) * wendland (distance (corner s) (corner (e.symm j)))] at this
  have e2 : ∀ s : Finset (Fin 25), ∑ j, (-1) ^ #s * (-1) ^ #(e.symm j) * wendland (distance (corner s) (corner (e.symm j))) =
      ∑ u, (-1) ^ #s * (-1) ^ #u * wendland (distance (corner s) (corner u)) :=
    fun s => e.symm.sum_comp fun u => (-1 : ℝ) ^ #s * (-1) ^ #u * wendland (distance (corner s) (corner u))
  simp only [e2] at this
  rw [corner_form] at this
  have hn := corner_sum_neg
  have h2 : (0 : ℝ) < 2 ^ 25 := by positivity
  exact absurd this (not_le.2 (mul_neg_of_pos_of_neg h2 hn))

/-- C137 is violated in high dimensions: for points with 25 or more coordinates the kernel is not positive semidefinite,
whatever the positive amplitude and the length scales. -/
theorem C137_dimension_violated {D : ℕ} (hD : 25 ≤ D) (a : ℝ) (ha : 0 < a) (l : Fin D → ℝ) (hl : ∀ i, l i ≠ 0) :
    ¬ IsPSDKernel fun x y : Fin D → ℝ => wendlandAniso x y a l := by
  intro h
  have h1 := IsPSDKernel.comp h fun (x : Fin D → ℝ) i => x i * l i
  have h2 := IsPSDKernel.smul h1 (c := 1 / a) (by positivity)
  have h3 : IsPSDKernel fun x y : Fin D → ℝ => wendland (distance x y) := by
    convert h2 using 3 with x y
    unfold wendlandAniso
    rw [anisoDistance_eq]
    have e : ∀ x : Fin D → ℝ, (fun i => x i * l i / l i) = x := fun x => funext fun i => mul_div_cancel_right₀ _ (hl i)
    rw [e, e]
    field_simp
  obtain ⟨k, rfl⟩ := Nat.exists_eq_add_of_le hD
  exact wendland25 (wendland_restrict k h3)

/-- C137 is violated for models: for points with 25 or more coordinates there are data with positive noise variances that
the constructor rejects in Cholesky mode, because the covariance matrix is not positive definite. -/
theorem C137_rejected_violated {D : ℕ} (hD : 25 ≤ D) (sparse : Bool) (ext : Ext) (a : ℝ) (ha : 0 < a) (l : Fin D → ℝ)
    (hl : ∀ i, l i ≠ 0) :
    ∃ (d : Data (Fin D → ℝ)) (v : List ℝ), d.noiseVar = some v ∧ v.length = d.x.length ∧ (∀ e ∈ v, 0 < e) ∧
      ∃ e, init (wendlandConfig D .measured .chol sparse ext) d (a, l) = .error e := by
  have hsym : ∀ x y : Fin D → ℝ, wendlandAniso x y a l = wendlandAniso y x a l := by
    intro x y
    unfold wendlandAniso anisoDistance
    congr 3
    refine sum_congr rfl fun i _ => ?_
    rw [← abs_neg, ← neg_div, neg_sub]
  exact rejected_of_not_psd _ rfl rfl _ hsym (C137_dimension_violated hD a ha l hl)

/-- Overlapping supports and a repeated point in the plane, with gp2Scale's sparse covariance. -/
example (mode : Mode) : ∃ gp, init (wendlandConfig 2 .measured mode true cholExt)
    ⟨[![0, 1], ![0, 1], ![1 / 2, 5 / 4]], [[1], [2], [3]], 1, some [1, 1 / 2, 3]⟩ (4, ![1, 2]) = .ok gp :=
  C137_model_partial (by norm_num) mode true cholExt cholExt_contract _ _ rfl rfl (by simp) 4 (by norm_num) _
    (by intro i; fin_cases i <;> norm_num)

/-- The kernel does not vanish between these points, so the matrix is not diagonal. -/
example : wendlandAniso ![0, 0, 0] ![1 / 2, 0, 0] 1 1 = 61 / 1024 := by
  have e : anisoDistance ![0, 0, 0] ![1 / 2, 0, 0] (1 : Fin 3 → ℝ) = 1 / 2 := by
    unfold anisoDistance
    rw [Fin.sum_univ_three]
    simp
  rw [wendlandAniso, e, wendland, if_neg (by norm_num)]
  unfold wendlandPoly
  norm_num

/-- Length scales of different sizes in 30 dimensions. -/
example (sparse : Bool) (ext : Ext) : ∃ (d : Data (Fin 30 → ℝ)) (v : List ℝ), d.noiseVar = some v ∧ v.length = d.x.length ∧
    (∀ e ∈ v, 0 < e) ∧ ∃ e, init (wendlandConfig 30 .measured .chol sparse ext) d (2, fun i => i + 1) = .error e :=
  C137_rejected_violated (by norm_num) sparse ext 2 (by norm_num) _ fun i => by positivity

end Verif.Kernels
