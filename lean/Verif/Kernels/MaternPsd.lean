import Verif.Kernels.Mixture
import Verif.Kernels.PsdProps
import Verif.State.UpdateProps
import Verif.LinAlg.PrecondLemmas

/-!
C84: the exponential and the Matérn kernels, hence the default kernel, are positive semidefinite in every dimension, and a
model with the default kernel is accepted by the constructor.
-/

namespace Verif.Kernels

open Finset Real MeasureTheory Verif.GP Verif.LinAlg Verif.State

/-- A mixture of Gaussian kernels is positive semidefinite. -/
theorem mix_psd {D : ℕ} (m : ℕ) (s : ℝ) :
    IsPSDKernel fun x y : Fin D → ℝ => ∫ v in Set.Ioi 0, mix m (s * distance x y) v := by
  have hsym : ∀ x y : Fin D → ℝ, distance x y = distance y x := by
    intro x y
    unfold distance
    congr 1
    exact sum_congr rfl fun i _ => by ring
  refine ⟨fun x y => by simp only [hsym x y], fun n x w => ?_⟩
  have hint : ∀ i j, IntegrableOn (fun v => w i * w j * mix m (s * distance (x i) (x j)) v) (Set.Ioi 0) :=
    fun i j => (mix_integrable m _).const_mul _
  have e : ∑ i, ∑ j, w i * w j * ∫ v in Set.Ioi 0, mix m (s * distance (x i) (x j)) v
      = ∫ v in Set.Ioi 0, ∑ i, ∑ j, w i * w j * mix m (s * distance (x i) (x j)) v := by
    rw [integral_finsetSum _ fun i _ => integrable_finsetSum _ fun j _ => hint i j]
    refine sum_congr rfl fun i _ => ?_
    rw [integral_finsetSum _ fun j _ => hint i j]
    exact sum_congr rfl fun j _ => (integral_const_mul _ _).symm
  rw [e]
  refine setIntegral_nonneg measurableSet_Ioi fun v hv => ?_
  have hv' : 0 < v := hv
  have h := (gauss_psd (D := D) (c := s ^ 2 / v ^ 2) (by positivity)).2 n x w
  have e2 : ∑ i, ∑ j, w i * w j * mix m (s * distance (x i) (x j)) v = v ^ m * exp (-v ^ 2) *
      ∑ i, ∑ j, w i * w j * exp (-(s ^ 2 / v ^ 2) * ∑ k, (x i k - x j k) ^ 2) := by
    simp only [mul_sum]
    refine sum_congr rfl fun i _ => sum_congr rfl fun j _ => ?_
    unfold mix
    rw [← mul_sum, ← distance_sq, neg_add, exp_add]
    have : -((s * distance (x i) (x j)) ^ 2 / v ^ 2) = -(s ^ 2 / v ^ 2) * distance (x i) (x j) ^ 2 := by ring
    rw [this]
    ring
  rw [e2]
  exact mul_nonneg (by positivity) h

theorem exponential_eq_mix (d l : ℝ) (hd : 0 ≤ d) (hl : 0 < l) :
    exponential d l = 2 / √π * ∫ v in Set.Ioi 0, mix 0 (1 / (2 * l) * d) v := by
  rw [mix_zero (by positivity)]
  have : √π ≠ 0 := (sqrt_pos.2 pi_pos).ne'
  have e : -(2 * (1 / (2 * l) * d)) = -d / l := by field_simp
  rw [e]
  unfold exponential
  field_simp

theorem matern1_eq_mix (d l : ℝ) (hd : 0 ≤ d) (hl : 0 < l) :
    matern1 d l = 4 / √π * ∫ v in Set.Ioi 0, mix 2 (√3 / (2 * l) * d) v := by
  rw [mix_two (by positivity)]
  have : √π ≠ 0 := (sqrt_pos.2 pi_pos).ne'
  have e : 2 * (√3 / (2 * l) * d) = √3 * d / l := by field_simp
  rw [e]
  unfold matern1
  rw [neg_div]
  field_simp

theorem matern2_eq_mix (d l : ℝ) (hd : 0 ≤ d) (hl : 0 < l) :
    matern2 d l = 8 / (3 * √π) * ∫ v in Set.Ioi 0, mix 4 (√5 / (2 * l) * d) v := by
  rw [mix_four (by positivity)]
  have : √π ≠ 0 := (sqrt_pos.2 pi_pos).ne'
  have e : 2 * (√5 / (2 * l) * d) = √5 * d / l := by field_simp
  have h5 : (√5) ^ 2 = 5 := sq_sqrt (by norm_num)
  have e2 : (√5 * d / l) ^ 2 / 3 = 5 * d ^ 2 / (3 * l ^ 2) := by
    rw [div_pow, mul_pow, h5]
    field_simp
  rw [e, e2]
  unfold matern2
  rw [neg_div]
  field_simp

theorem distance_nonneg {D : ℕ} (x y : Fin D → ℝ) : 0 ≤ distance x y := sqrt_nonneg _

/-- C84, exponential kernel. -/
theorem C84_exponential {D : ℕ} (l : ℝ) (hl : 0 < l) : IsPSDKernel fun x y : Fin D → ℝ => exponential (distance x y) l := by
  have := IsPSDKernel.smul (mix_psd (D := D) 0 (1 / (2 * l))) (c := 2 / √π) (by positivity)
  convert this using 3 with x y
  exact exponential_eq_mix _ _ (distance_nonneg x y) hl

/-- C84, first-order Matérn kernel. -/
theorem C84_matern1 {D : ℕ} (l : ℝ) (hl : 0 < l) : IsPSDKernel fun x y : Fin D → ℝ => matern1 (distance x y) l := by
  have := IsPSDKernel.smul (mix_psd (D := D) 2 (√3 / (2 * l))) (c := 4 / √π) (by positivity)
  convert this using 3 with x y
  exact matern1_eq_mix _ _ (distance_nonneg x y) hl

/-- C84, second-order Matérn kernel. -/
theorem C84_matern2 {D : ℕ} (l : ℝ) (hl : 0 < l) : IsPSDKernel fun x y : Fin D → ℝ => matern2 (distance x y) l := by
  have := IsPSDKernel.smul (mix_psd (D := D) 4 (√5 / (2 * l))) (c := 8 / (3 * √π)) (by positivity)
  convert this using 3 with x y
  exact matern2_eq_mix _ _ (distance_nonneg x y) hl

/-- C84, robust exponential kernel. -/
theorem C84_exponential_robust {D : ℕ} (φ : ℝ) (hφ : φ ≠ 0) :
    IsPSDKernel fun x y : Fin D → ℝ => exponentialRobust (distance x y) φ := by
  have := C84_exponential (D := D) (1 / φ ^ 2) (by positivity)
  convert this using 3 with x y
  exact C65_exponential _ _ hφ

/-- C84, robust first-order Matérn kernel. -/
theorem C84_matern1_robust {D : ℕ} (φ : ℝ) (hφ : φ ≠ 0) :
    IsPSDKernel fun x y : Fin D → ℝ => matern1Robust (distance x y) φ := by
  have := C84_matern1 (D := D) (1 / φ ^ 2) (by positivity)
  convert this using 3 with x y
  exact C65_matern1 _ _ hφ

/-- C84, the default kernel, for every amplitude that is not negative and all length scales that are not zero. -/
theorem C84_default_kernel {D : ℕ} (a : ℝ) (ha : 0 ≤ a) (l : Fin D → ℝ) (_hl : ∀ i, l i ≠ 0) :
    IsPSDKernel fun x y : Fin D → ℝ => defaultKernel x y a l := by
  have h := IsPSDKernel.comp (C84_matern1 (D := D) 1 one_pos) fun (x : Fin D → ℝ) i => x i / l i
  have := IsPSDKernel.smul h ha
  convert this using 3 with x y
  unfold defaultKernel
  rw [anisoDistance_eq]

/-- A model with the default kernel. The hyperparameters are the amplitude and the length scales. -/
noncomputable def defaultConfig (D : ℕ) (noise : NoiseSpec (Fin D → ℝ) (ℝ × (Fin D → ℝ))) (mode : Mode) (ext : Ext) :
    Config (Fin D → ℝ) (ℝ × (Fin D → ℝ)) where
  kernel h x y := defaultKernel x y h.1 h.2
  mean := none
  noise := noise
  mode := mode
  sparseK := false
  ext := ext

/-- C84, the model a user gets without writing a kernel: with positive noise variances it is accepted whatever the points
are (repeated points included), in every linear-algebra mode. -/
theorem C84_default_model {D : ℕ} (mode : Mode) (ext : Ext) (he : SpluContract ext) (d : Data (Fin D → ℝ)) (v : List ℝ)
    (hv : d.noiseVar = some v) (hl : v.length = d.x.length) (hpos : ∀ e ∈ v, 0 < e) (a : ℝ) (ha : 0 ≤ a) (l : Fin D → ℝ)
    (hl0 : ∀ i, l i ≠ 0) :
    ∃ gp, init (defaultConfig D .measured mode ext) d (a, l) = .ok gp := by
  obtain ⟨gp, h, -⟩ := init_ok (defaultConfig D .measured mode ext) d (a, l) he
    (measured_admissible _ rfl d (a, l) (C84_default_kernel a ha l hl0) v hv hl hpos)
  exact ⟨gp, h⟩

/-- C84, the same with the default noise, if some value is nonzero. -/
theorem C84_default_noise {D : ℕ} (mode : Mode) (ext : Ext) (he : SpluContract ext) (d : Data (Fin D → ℝ))
    (hy : d.yAbsMean ≠ 0) (a : ℝ) (ha : 0 ≤ a) (l : Fin D → ℝ) (hl0 : ∀ i, l i ≠ 0) :
    ∃ gp, init (defaultConfig D .default mode ext) d (a, l) = .ok gp := by
  have e : calcV (defaultConfig D .default mode ext) d (a, l) d.x = .diag d.x.length fun _ => (d.yAbsMean / 100) ^ 2 := by
    simp [calcV, defaultConfig]
  obtain ⟨gp, h, -⟩ := init_ok (defaultConfig D .default mode ext) d (a, l) he ⟨by rw [e]; rfl, by
    refine KVmat_posDef (C84_default_kernel a ha l hl0) ?_
    rw [e]
    refine Matrix.PosDef.diagonal fun i => ?_
    positivity⟩
  exact ⟨gp, h⟩

/-- C84 needs the nonzero value: if all values are zero the default noise is zero as well, and the default model of a
repeated point is rejected (whatever the repeated point, the length scales and the positive amplitude). -/
theorem C84_zero_values_rejected {D : ℕ} (ext : Ext) (p : Fin D → ℝ) (a : ℝ) (l : Fin D → ℝ)
    (_hl : ∀ i, l i ≠ 0) : ∃ e, init (defaultConfig D .default .chol ext) ⟨[p, p], [[0], [0]], 1, none⟩ (a, l) = .error e := by
  cases h : init (defaultConfig D .default .chol ext) ⟨[p, p], [[0], [0]], 1, none⟩ (a, l) with
  | error e => exact ⟨e, rfl⟩
  | ok gp =>
    exfalso
    have e0 : calcV (defaultConfig D .default .chol ext) ⟨[p, p], [[0], [0]], 1, none⟩ (a, l) [p, p] = .diag 2 fun _ => 0 := by
      simp [calcV, defaultConfig, Data.yAbsMean]
    have ek : addKV false 2 2 (gram (fun x y => defaultKernel x y a l) [p, p] [p, p]) (.diag 2 fun _ => 0)
        = .ok fun i j => if i = j then gram (fun x y => defaultKernel x y a l) [p, p] [p, p] i i + 0
            else gram (fun x y => defaultKernel x y a l) [p, p] [p, p] i j := by
      simp [addKV]
    have hpp : defaultKernel p p a l = a := by
      simp [defaultKernel, anisoDistance, matern1]
    set KV : NMat := fun i j => if i = j then gram (fun x y => defaultKernel x y a l) [p, p] [p, p] i i + 0
            else gram (fun x y => defaultKernel x y a l) [p, p] [p, p] i j with hKV
    have hkv : ∀ i < 2, ∀ j < 2, KV i j = a := by
      intro i hi j hj
      interval_cases i <;> interval_cases j <;> simp [hKV, gram, hpp]
    have hr : refreshFull ext .chol false 2 (gram (fun x y => defaultKernel x y a l) [p, p] [p, p]) (.diag 2 fun _ => 0)
        (Data.yMat (α := Fin D → ℝ) ⟨[p, p], [[0], [0]], 1, none⟩)
        (evalAt (meanFn (defaultConfig D .default .chol ext) ⟨[p, p], [[0], [0]], 1, none⟩ (a, l)) [p, p]) = .ok gp.kv := by
      simp only [init, e0, bind, Except.bind] at h
      split at h
      · cases h
      · rename_i v hv
        injection h with h
        rw [← h]
        exact hv
    rw [refreshFull, ek] at hr
    cases hF : cholFactor ext.junk 2 KV with
    | error e => simp [setKV, hF, bind, Except.bind] at hr
    | ok F =>
      have hf := cholFactor_factor (fun i hi j hj => by rw [hkv i hi j hj, hkv j hj i hi]) hF
      have f0 := hf.1 0 (by norm_num)
      have f1 := hf.1 1 (by norm_num)
      have g00 := hf.2 0 (by norm_num) 0 (by norm_num)
      have g10 := hf.2 1 (by norm_num) 0 (by norm_num)
      have g11 := hf.2 1 (by norm_num) 1 (by norm_num)
      rw [hkv _ (by norm_num) _ (by norm_num)] at g00 g10 g11
      simp [sum_range_succ, low] at g00 g10 g11
      have : F 1 0 = F 0 0 := mul_right_cancel₀ f0.ne' (g10.trans g00.symm)
      rw [this] at g11
      nlinarith

/-- Repeated points in the plane. -/
example (mode : Mode) : ∃ gp, init (defaultConfig 2 .measured mode cholExt)
    ⟨[![0, 1], ![0, 1], ![2, 5]], [[1], [2], [3]], 1, some [1, 1 / 2, 3]⟩ (4, ![1, 2]) = .ok gp :=
  C84_default_model mode cholExt cholExt_contract _ _ rfl rfl (by simp) 4 (by norm_num) _
    (by intro i; fin_cases i <;> norm_num)

end Verif.Kernels
