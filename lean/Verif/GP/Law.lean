import Verif.GP.LikProps
import Mathlib.Probability.Distributions.Gaussian.Multivariate
import Mathlib.Probability.Distributions.Gaussian.HasGaussianLaw.Independence
import Mathlib.Probability.HasCondDistrib
import Mathlib.MeasureTheory.Integral.Pi

/-! Gaussian random vectors: density and conditional distribution. The specifications `normalDensity`, `condMean` and `condCov`
of the other files are the density and the conditional distribution of Mathlib's Gaussian measures. -/

namespace Verif.GP

open Matrix MeasureTheory ProbabilityTheory WithLp
open scoped MatrixOrder Matrix.Norms.L2Operator

variable {n p Ω : Type*} [Fintype n] [DecidableEq n] [Fintype p] [DecidableEq p]

/-- The Gaussian measure with mean `m` and covariance `S` on vectors. -/
noncomputable def gaussLaw (m : n → ℝ) (S : Matrix n n ℝ) : Measure (n → ℝ) :=
  (multivariateGaussian (toLp 2 m) S).map ofLp

instance (m : n → ℝ) (S : Matrix n n ℝ) : IsProbabilityMeasure (gaussLaw m S) :=
  Measure.isProbabilityMeasure_map (by fun_prop)

theorem gaussLaw_eq_map (m : n → ℝ) (S : Matrix n n ℝ) :
    gaussLaw m S = (Measure.pi fun _ : n => gaussianReal 0 1).map fun x => m + CFC.sqrt S *ᵥ x := by
  rw [gaussLaw, multivariateGaussian, ← map_pi_eq_stdGaussian, Measure.map_map (by fun_prop) (by fun_prop),
    Measure.map_map (by fun_prop) (by fun_prop)]
  congr 1

/-- The standard Gaussian measure has the product density. -/
theorem pi_gaussian_density : (Measure.pi fun _ : n => gaussianReal 0 1)
    = volume.withDensity fun x : n → ℝ => ENNReal.ofReal (∏ i, gaussianPDFReal 0 1 (x i)) := by
  refine Measure.pi_eq fun s hs => ?_
  rw [withDensity_apply _ (MeasurableSet.univ_pi hs), volume_pi, Measure.restrict_pi_pi]
  rw [← ofReal_integral_eq_lintegral_ofReal]
  · rw [integral_fintype_prod_eq_prod, ENNReal.ofReal_prod_of_nonneg]
    · refine Finset.prod_congr rfl fun i _ => ?_
      rw [gaussianReal_apply_eq_integral 0 one_ne_zero]
    · exact fun i _ => integral_nonneg fun x => gaussianPDFReal_nonneg _ _ _
  · exact Integrable.fintype_prod fun i => (integrable_gaussianPDFReal 0 1).restrict
  · exact Filter.Eventually.of_forall fun x => Finset.prod_nonneg fun i _ => gaussianPDFReal_nonneg _ _ _

/-- The Gaussian measure with mean `m` and covariance `S` has the density `normalDensity S m`. -/
theorem gaussLaw_density (m : n → ℝ) {S : Matrix n n ℝ} (hS : S.PosDef) :
    gaussLaw m S = volume.withDensity fun y => ENNReal.ofReal (normalDensity S m y) := by
  set L := CFC.sqrt S with hL
  have hLL : L * L = S := CFC.sqrt_mul_sqrt_self _ hS.posSemidef.nonneg
  have hLs : Lᵀ = L := transpose_of_posSemidef (CFC.sqrt_nonneg S).posSemidef
  have hdet : L.det * L.det = S.det := by rw [← det_mul, hLL]
  have hd0 : L.det ≠ 0 := fun h => hS.det_pos.ne' (by rw [← hdet, h, zero_mul])
  have habs : |L.det| = √S.det := by rw [← hdet, Real.sqrt_mul_self_eq_abs]
  have hdens : ∀ x : n → ℝ, ∏ i, gaussianPDFReal 0 1 (x i) = |L.det| * normalDensity S m (m + L *ᵥ x) := by
    intro x
    have hq : (L *ᵥ x) ⬝ᵥ S⁻¹ *ᵥ (L *ᵥ x) = ∑ i, x i ^ 2 := by
      rw [← hLL, Matrix.mul_inv_rev, mulVec_mulVec, Matrix.mul_assoc, Matrix.nonsing_inv_mul _ hd0.isUnit, Matrix.mul_one,
        dotProduct_mulVec, ← mulVec_transpose, transpose_nonsing_inv, hLs, mulVec_mulVec, Matrix.nonsing_inv_mul _ hd0.isUnit,
        one_mulVec, dotProduct]
      exact Finset.sum_congr rfl fun i _ => by ring
    rw [normalDensity, add_sub_cancel_left, hq, habs]
    have h1 : ∀ i, gaussianPDFReal 0 1 (x i) = (√(2 * Real.pi))⁻¹ * Real.exp (-(1 / 2) * x i ^ 2) := by
      intro i
      rw [gaussianPDFReal]
      congr 2
      · simp
      · simp; ring
    rw [Finset.prod_congr rfl fun i _ => h1 i, Finset.prod_mul_distrib, ← Real.exp_sum, ← Finset.mul_sum, Finset.prod_const,
      Finset.card_univ, Real.sqrt_mul (x := (2 * Real.pi) ^ Fintype.card n) (by positivity), ← mul_assoc]
    have h2 : √S.det ≠ 0 := (Real.sqrt_pos.2 hS.det_pos).ne'
    congr 1
    rw [mul_inv, mul_left_comm, mul_inv_cancel₀ h2, mul_one, inv_pow]
    congr 1
    rw [Real.sqrt_eq_rpow, Real.sqrt_eq_rpow, ← Real.rpow_natCast, ← Real.rpow_natCast, ← Real.rpow_mul (by positivity),
      ← Real.rpow_mul (by positivity), mul_comm (1 / 2 : ℝ)]
  rw [gaussLaw_eq_map, pi_gaussian_density]
  have hT : Measurable fun x : n → ℝ => m + L *ᵥ x := by fun_prop
  have hvol : (volume : Measure (n → ℝ)).map (fun x => m + L *ᵥ x) = ENNReal.ofReal |(L.det)⁻¹| • volume := by
    have h1 := Real.map_matrix_volume_pi_eq_smul_volume_pi hd0
    have h2 : (fun x : n → ℝ => m + L *ᵥ x) = (fun y => m + y) ∘ (toLin' L) := by ext x; simp
    rw [h2, ← Measure.map_map (by fun_prop) (by fun_prop), h1, Measure.map_smul, map_add_left_eq_self]
  ext s hs
  rw [Measure.map_apply hT hs, withDensity_apply _ (hT hs), withDensity_apply _ hs]
  have hmeas : Measurable fun y : n → ℝ => ENNReal.ofReal (normalDensity S m y) := by
    unfold normalDensity
    fun_prop
  rw [← lintegral_indicator (hT hs), ← lintegral_indicator hs]
  have h3 : ∀ x : n → ℝ, ((fun x => m + L *ᵥ x) ⁻¹' s).indicator (fun x => ENNReal.ofReal (∏ i, gaussianPDFReal 0 1 (x i))) x
      = (fun y => ENNReal.ofReal |L.det| * s.indicator (fun y => ENNReal.ofReal (normalDensity S m y)) y) (m + L *ᵥ x) := by
    intro x
    by_cases hx : m + L *ᵥ x ∈ s
    · rw [Set.indicator_of_mem (by exact hx)]
      simp only
      rw [Set.indicator_of_mem hx, hdens, ENNReal.ofReal_mul (abs_nonneg _)]
    · rw [Set.indicator_of_notMem (by exact hx)]
      simp only
      rw [Set.indicator_of_notMem hx, mul_zero]
  rw [lintegral_congr h3, ← lintegral_map (μ := volume) ((hmeas.indicator hs).const_mul _) hT, hvol, lintegral_smul_measure,
    lintegral_const_mul _ (hmeas.indicator hs), smul_eq_mul, ← mul_assoc, ← ENNReal.ofReal_mul (abs_nonneg _), ← abs_mul,
    inv_mul_cancel₀ hd0, abs_one, ENNReal.ofReal_one, one_mul]

theorem covariance_posSemidef {mΩ : MeasurableSpace Ω} {P : Measure Ω} [IsProbabilityMeasure P] (X : n → Ω → ℝ) (hX : ∀ i, MemLp (X i) 2 P)
    (S : Matrix n n ℝ) (hS : ∀ i j, cov[X i, X j; P] = S i j) : S.PosSemidef := by
  refine posSemidef_of_quad ?_ fun w => ?_
  · ext i j
    rw [transpose_apply, ← hS, ← hS, covariance_comm]
  · have h : Var[fun ω => ∑ i, w i * X i ω; P] = w ⬝ᵥ S *ᵥ w := by
      rw [← covariance_self (Finset.aemeasurable_fun_sum _ fun i _ => (hX i).aestronglyMeasurable.aemeasurable.const_mul _),
        covariance_fun_sum_fun_sum (fun i => (hX i).const_mul _) fun i => (hX i).const_mul _]
      simp only [covariance_const_mul_left, covariance_const_mul_right, hS, dotProduct, mulVec, Finset.mul_sum]
      exact Finset.sum_congr rfl fun i _ => Finset.sum_congr rfl fun j _ => by ring
    rw [← h]
    exact variance_nonneg _ _

/-- A Gaussian random vector has the Gaussian law of its means and covariances. -/
theorem gauss_unique {mΩ : MeasurableSpace Ω} {P : Measure Ω} {X : n → Ω → ℝ} (hX : HasGaussianLaw (fun ω i => X i ω) P)
    (m : n → ℝ) (hm : ∀ i, ∫ ω, X i ω ∂P = m i) (S : Matrix n n ℝ) (hS : ∀ i j, cov[X i, X j; P] = S i j) :
    P.map (fun ω i => X i ω) = gaussLaw m S := by
  have := hX.isProbabilityMeasure
  have hL2 : ∀ i, MemLp (X i) 2 P := fun i => (hX.eval i).memLp_two
  have hpsd := covariance_posSemidef X hL2 S hS
  have hE : HasGaussianLaw (fun ω => toLp 2 fun i => X i ω) P := hX.toLp_pi 2
  have key : P.map (fun ω => toLp 2 fun i => X i ω) = multivariateGaussian (toLp 2 m) S := by
    have := hE.isGaussian_map
    apply IsGaussian.ext
    · rw [integral_id_multivariateGaussian', integral_map hE.aemeasurable (by fun_prop)]
      ext i
      have h := (EuclideanSpace.proj (𝕜 := ℝ) i).integral_comp_comm hE.integrable
      simp only [EuclideanSpace.coe_proj] at h
      simpa [hm] using h.symm
    · rw [← ContinuousLinearMap.toBilinForm_inj]
      refine LinearMap.BilinForm.ext_basis (EuclideanSpace.basisFun n ℝ).toBasis fun i j => ?_
      rw [ContinuousLinearMap.toBilinForm_apply, ContinuousLinearMap.toBilinForm_apply,
        covarianceBilin_multivariateGaussian hpsd, covarianceBilin_apply_eq_cov IsGaussian.memLp_two_id,
        covariance_map (by fun_prop) (by fun_prop) hE.aemeasurable]
      have h1 : ∀ i : n, (fun u : EuclideanSpace ℝ n => inner ℝ ((EuclideanSpace.basisFun n ℝ).toBasis i) u) ∘
          (fun ω => toLp 2 fun i => X i ω) = X i := by
        intro i
        ext ω
        simp [PiLp.inner_apply]
      rw [h1, h1, hS]
      simp
  rw [gaussLaw, ← key, AEMeasurable.map_map_of_aemeasurable (by fun_prop) hE.aemeasurable]
  rfl

theorem gaussLaw_shift (m c : n → ℝ) (S : Matrix n n ℝ) : (gaussLaw m S).map (fun z => c + z) = gaussLaw (c + m) S := by
  rw [gaussLaw_eq_map, gaussLaw_eq_map, Measure.map_map (by fun_prop) (by fun_prop)]
  congr 1
  ext x i
  simp [add_assoc]

theorem measurable_gaussLaw {α : Type*} [MeasurableSpace α] {c : α → n → ℝ} (hc : Measurable c) (S : Matrix n n ℝ) :
    Measurable fun y => gaussLaw (c y) S := by
  have h : (fun y => gaussLaw (c y) S) = fun y =>
      ((Kernel.deterministic c hc ×ₖ Kernel.const α (gaussLaw 0 S)).map fun z => z.1 + z.2) y := by
    funext y
    rw [Kernel.map_apply _ (by fun_prop), Kernel.prod_apply, Kernel.deterministic_apply, Kernel.const_apply, Measure.dirac_prod,
      Measure.map_map (by fun_prop) (by fun_prop)]
    have := gaussLaw_shift 0 (c y) S
    rw [add_zero] at this
    rw [← this]
    rfl
  rw [h]
  exact Kernel.measurable _

theorem measurable_condMean (A : Matrix n n ℝ) (k : Matrix n p ℝ) (mx : p → ℝ) (m : n → ℝ) : Measurable (condMean A k mx m) := by
  unfold condMean
  fun_prop

/-- The Gaussian law with mean `condMean` and covariance `condCov`, as a function of the observed vector. -/
noncomputable def condGauss (A : Matrix n n ℝ) (k : Matrix n p ℝ) (kk : Matrix p p ℝ) (mx : p → ℝ) (m : n → ℝ) :
    Kernel (n → ℝ) (p → ℝ) :=
  ⟨fun y => gaussLaw (condMean A k mx m y) (condCov A k kk), measurable_gaussLaw (measurable_condMean A k mx m) _⟩

instance (A : Matrix n n ℝ) (k : Matrix n p ℝ) (kk : Matrix p p ℝ) (mx : p → ℝ) (m : n → ℝ) : IsMarkovKernel (condGauss A k kk mx m) :=
  ⟨fun y => inferInstanceAs (IsProbabilityMeasure (gaussLaw _ _))⟩

/-- For jointly Gaussian vectors the conditional distribution of `F` given `Y` is Gaussian with mean `condMean` and covariance
`condCov`; in particular `condCov` is a covariance matrix. -/
theorem gauss_conditional {mΩ : MeasurableSpace Ω} {P : Measure Ω} {Y : n → Ω → ℝ} {F : p → Ω → ℝ}
    (hG : HasGaussianLaw (fun ω => ((fun i => Y i ω), fun j => F j ω)) P) (m : n → ℝ) (hm : ∀ i, ∫ ω, Y i ω ∂P = m i)
    (mx : p → ℝ) (hmx : ∀ j, ∫ ω, F j ω ∂P = mx j) {A : Matrix n n ℝ} (hA : A.PosDef) (hY : ∀ i j, cov[Y i, Y j; P] = A i j)
    (k : Matrix n p ℝ) (hk : ∀ i j, cov[Y i, F j; P] = k i j) (kk : Matrix p p ℝ) (hF : ∀ i j, cov[F i, F j; P] = kk i j) :
    HasCondDistrib (fun ω j => F j ω) (fun ω i => Y i ω) (condGauss A k kk mx m) P ∧ (condCov A k kk).PosSemidef := by
  have := hG.isProbabilityMeasure
  have hYg : HasGaussianLaw (fun ω i => Y i ω) P := hG.fst
  have hFg : HasGaussianLaw (fun ω j => F j ω) P := hG.snd
  have hY2 : ∀ i, MemLp (Y i) 2 P := fun i => (hYg.eval i).memLp_two
  have hF2 : ∀ j, MemLp (F j) 2 P := fun j => (hFg.eval j).memLp_two
  set B : Matrix p n ℝ := kᵀ * A⁻¹ with hB
  -- the residual
  set R : p → Ω → ℝ := fun j ω => F j ω - ∑ l, B j l * Y l ω with hR
  have hBY2 : ∀ j, MemLp (fun ω => ∑ l, B j l * Y l ω) 2 P := fun j => memLp_finsetSum _ fun l _ => (hY2 l).const_mul _
  have hpair : HasGaussianLaw (fun ω => ((fun i => Y i ω), fun j => R j ω)) P := by
    have := hG.map_fun (ContinuousLinearMap.prod (.fst ℝ (n → ℝ) (p → ℝ))
      (.snd ℝ (n → ℝ) (p → ℝ) - (LinearMap.toContinuousLinearMap (toLin' B)).comp (.fst ℝ (n → ℝ) (p → ℝ))))
    exact this
  have hRg : HasGaussianLaw (fun ω j => R j ω) P := hpair.snd
  have hAA := inv_mul_of_posDef hA
  have hcov0 : ∀ i j, cov[Y i, R j; P] = 0 := by
    intro i j
    rw [hR]
    simp only
    rw [covariance_fun_sub_right (hY2 i) (hF2 j) (hBY2 j), covariance_fun_sum_right (fun l => (hY2 l).const_mul _) (hY2 i), hk]
    simp only [covariance_const_mul_right, hY]
    have : ∑ l, B j l * A i l = (B * A) j i := by
      rw [Matrix.mul_apply]
      refine Finset.sum_congr rfl fun l _ => ?_
      have := congrFun (congrFun (transpose_of_posDef hA) l) i
      rw [← this, transpose_apply]
    rw [this, hB, Matrix.mul_assoc, hAA, Matrix.mul_one, transpose_apply, sub_self]
  have hind := hpair.indepFun_of_covariance_eval hcov0
  have hRm : ∀ j, ∫ ω, R j ω ∂P = (mx - B *ᵥ m) j := by
    intro j
    rw [hR]
    simp only
    rw [integral_sub ((hF2 j).integrable (by norm_num)) ((hBY2 j).integrable (by norm_num)), hmx,
      integral_finset_sum _ fun l _ => ((hY2 l).integrable (by norm_num)).const_mul _]
    simp only [integral_const_mul, hm]
    rfl
  have hRc : ∀ i j, cov[R i, R j; P] = condCov A k kk i j := by
    intro i j
    have h1 : cov[R i, R j; P] = cov[F i, R j; P] := by
      conv_lhs => rw [hR]
      simp only
      rw [covariance_fun_sub_left (hF2 i) (hBY2 i) ((hRg.eval j).memLp_two),
        covariance_fun_sum_left (fun l => (hY2 l).const_mul _) ((hRg.eval j).memLp_two)]
      simp only [covariance_const_mul_left, hcov0, mul_zero, Finset.sum_const_zero, sub_zero]
    rw [h1, hR]
    simp only
    rw [covariance_fun_sub_right (hF2 i) (hF2 j) (hBY2 j), covariance_fun_sum_right (fun l => (hY2 l).const_mul _) (hF2 i), hF]
    simp only [covariance_const_mul_right]
    rw [condCov, Matrix.sub_apply]
    congr 1
    have hs : kᵀ * A⁻¹ * k = (kᵀ * A⁻¹ * k)ᵀ := by
      rw [transpose_mul, transpose_mul, transpose_transpose, transpose_nonsing_inv, transpose_of_posDef hA, Matrix.mul_assoc]
    rw [hs, transpose_apply, ← hB, Matrix.mul_apply]
    refine Finset.sum_congr rfl fun l _ => ?_
    rw [covariance_comm, hk]
  have hlaw := gauss_unique hRg _ hRm _ hRc
  have hYm : AEMeasurable (fun ω i => Y i ω) P := hYg.aemeasurable
  have hRm' : AEMeasurable (fun ω j => R j ω) P := hRg.aemeasurable
  have hjoint := (indepFun_iff_map_prod_eq_prod_map_map hYm hRm').1 hind
  rw [hlaw] at hjoint
  refine ⟨⟨hYm.prodMk hFg.aemeasurable, ?_⟩, covariance_posSemidef R (fun j => (hRg.eval j).memLp_two) _ hRc⟩
  have hfun : (fun ω => ((fun i => Y i ω), fun j => F j ω))
      = (fun z : (n → ℝ) × (p → ℝ) => (z.1, B *ᵥ z.1 + z.2)) ∘ fun ω => ((fun i => Y i ω), fun j => R j ω) := by
    funext ω
    refine Prod.ext rfl ?_
    funext j
    simp only [Function.comp, hR, Pi.add_apply, mulVec, dotProduct]
    ring
  have hTm : Measurable fun z : (n → ℝ) × (p → ℝ) => (z.1, B *ᵥ z.1 + z.2) := by fun_prop
  rw [hfun, ← AEMeasurable.map_map_of_aemeasurable hTm.aemeasurable (hYm.prodMk hRm'), hjoint]
  ext s hs
  have : IsProbabilityMeasure (P.map fun ω i => Y i ω) := hYg.isGaussian_map.toIsProbabilityMeasure
  rw [Measure.map_apply hTm hs, Measure.prod_apply (hTm hs), Measure.compProd_apply hs]
  refine lintegral_congr fun y => ?_
  have hκ : condGauss A k kk mx m y = (gaussLaw (mx - B *ᵥ m) (condCov A k kk)).map fun z => B *ᵥ y + z := by
    rw [gaussLaw_shift]
    change gaussLaw _ _ = _
    congr 1
    rw [condMean, mulVec_sub, mulVec_sub, hB, ← mulVec_mulVec, ← mulVec_mulVec]
    abel
  rw [hκ, Measure.map_apply (by fun_prop) (measurable_prodMk_left hs)]
  rfl

end Verif.GP
