import Verif.Ggmp.MvModel
import Verif.GP.Law
import Mathlib.Probability.Independence.InfinitePi

/-!
C116: multivariate Gaussian mixtures — the likelihood is a probability density, the sampler samples from it, and the fit is
a mixture on the simplex.
-/

namespace Verif.Ggmp

open Matrix MeasureTheory ProbabilityTheory Verif.GP

variable {d K n : ℕ}

/-! ### Likelihood -/

theorem exp_logsumexp (a : Fin (K + 1) → ℝ) : Real.exp (logsumexp a) = ∑ k, Real.exp (a k) := by
  unfold logsumexp
  simp only
  set m := Finset.univ.sup' Finset.univ_nonempty a
  have h : 0 < ∑ k, Real.exp (a k - m) := Finset.sum_pos (fun k _ => Real.exp_pos _) Finset.univ_nonempty
  rw [Real.exp_add, Real.exp_log h, Finset.mul_sum]
  exact Finset.sum_congr rfl fun k _ => by rw [← Real.exp_add]; congr 1; ring

theorem mvDensity_pos {A : Matrix (Fin d) (Fin d) ℝ} (hA : A.PosDef) (m y : Fin d → ℝ) : 0 < normalDensity A m y := by
  have h2 : 0 < (2 * Real.pi) ^ Fintype.card (Fin d) := pow_pos Real.two_pi_pos _
  exact mul_pos (inv_pos.2 (Real.sqrt_pos.2 (mul_pos h2 hA.det_pos))) (Real.exp_pos _)

theorem tinyFloor_pos (w : ℝ) : 0 < tinyFloor w := lt_max_of_lt_right (by positivity)

/-- The symmetrised covariance with the ridge. -/
def Regular (reg : ℝ) (cov : Matrix (Fin d) (Fin d) ℝ) : Prop :=
  ((1 / 2 : ℝ) • (cov + covᵀ) + diagonal fun _ => reg).PosDef

theorem drawCov_eq (reg : ℝ) (cov : Matrix (Fin d) (Fin d) ℝ) :
    drawCov reg cov = (1 / 2 : ℝ) • (cov + covᵀ) + diagonal fun _ => reg := by
  unfold drawCov symPsd
  rw [smul_one_eq_diagonal]

/-- A positive semidefinite covariance and a positive ridge. -/
theorem regular_of_posSemidef {reg : ℝ} (hr : 0 < reg) {cov : Matrix (Fin d) (Fin d) ℝ} (hc : cov.PosSemidef) : Regular reg cov := by
  have h1 : covᵀ = cov := transpose_of_posSemidef hc
  unfold Regular
  have h2 : (1 / 2 : ℝ) • (cov + covᵀ) = cov := by
    rw [h1, ← two_smul ℝ cov, smul_smul]; norm_num
  rw [h2]
  rw [add_comm]
  exact (PosDef.diagonal fun _ => hr).add_posSemidef hc

theorem mapM_ok_of_forall {α β : Type} (g : β → Except String α) (f : β → α) (l : List β) (h : ∀ k ∈ l, g k = .ok (f k)) :
    l.mapM g = .ok (l.map f) := by
  induction l with
  | nil => rfl
  | cons a l ih =>
      rw [List.mapM_cons, h a List.mem_cons_self, ih fun k hk => h k (List.mem_cons_of_mem _ hk)]
      rfl

/-- **C116** (likelihood). For covariances that are positive definite after symmetrisation and ridge, the value at `y` is the
logarithm of the mixture density `∑ max(w_k, 1e-300) N(y; μ_k, (Σ_k + Σ_kᵀ)/2 + reg I)`. -/
theorem C116_density (reg : ℝ) (w : Fin (K + 1) → ℝ) (means : Fin (K + 1) → Fin d → ℝ)
    (covs : Fin (K + 1) → Matrix (Fin d) (Fin d) ℝ) (hc : ∀ k, Regular reg (covs k)) (y : Fin d → ℝ) :
    ∃ ℓ, loglikMixture reg w means covs y = .ok ℓ ∧ Real.exp ℓ = ∑ k, max (w k) (1 / 10 ^ 300) *
      normalDensity ((1 / 2 : ℝ) • (covs k + (covs k)ᵀ) + diagonal fun _ => reg) (means k) y := by
  have h1 : ∀ k, logMvnDensity reg (means k) (covs k) y
      = .ok (logNormal ((1 / 2 : ℝ) • (covs k + (covs k)ᵀ) + diagonal fun _ => reg) (means k) y) := by
    intro k
    unfold logMvnDensity
    have := drawCov_eq reg (covs k)
    unfold drawCov at this
    simp only [this]
    rw [if_pos (by rw [this]; exact hc k)]
  unfold loglikMixture
  rw [mapM_ok_of_forall _ _ _ fun k _ => h1 k]
  refine ⟨_, rfl, ?_⟩
  rw [exp_logsumexp]
  refine Finset.sum_congr rfl fun k _ => ?_
  have hk : ((List.finRange (K + 1)).map fun k =>
      logNormal ((1 / 2 : ℝ) • (covs k + (covs k)ᵀ) + diagonal fun _ => reg) (means k) y).getD k 0
      = logNormal ((1 / 2 : ℝ) • (covs k + (covs k)ᵀ) + diagonal fun _ => reg) (means k) y := by
    rw [List.getD_eq_getElem?_getD, List.getElem?_eq_getElem (by simpa using Nat.lt_succ_iff.1 k.2)]
    simp
  rw [hk, Real.exp_add, Real.exp_log (tinyFloor_pos _), ← log_normalDensity (hc k), Real.exp_log (mvDensity_pos (hc k) _ _),
    mul_comm]
  rfl

/-- **C116** (failure). The evaluation fails exactly when one of the covariances is not positive definite. -/
theorem C116_singular (reg : ℝ) (w : Fin (K + 1) → ℝ) (means : Fin (K + 1) → Fin d → ℝ)
    (covs : Fin (K + 1) → Matrix (Fin d) (Fin d) ℝ) (y : Fin d → ℝ) :
    (∃ e, loglikMixture reg w means covs y = .error e) ↔ ∃ k, ¬ Regular reg (covs k) := by
  constructor
  · rintro ⟨e, he⟩
    by_contra hk
    push Not at hk
    obtain ⟨ℓ, h, -⟩ := C116_density reg w means covs hk y
    rw [h] at he
    cases he
  · rintro ⟨k, hk⟩
    have h1 : ∃ e, logMvnDensity reg (means k) (covs k) y = .error e := by
      unfold logMvnDensity
      have := drawCov_eq reg (covs k)
      unfold drawCov at this
      simp only [this]
      rw [if_neg (by rw [this]; exact hk)]
      exact ⟨_, rfl⟩
    obtain ⟨e, h1⟩ := h1
    have h2 : ∀ l : List (Fin (K + 1)), k ∈ l → ∃ e, l.mapM (fun k => logMvnDensity reg (means k) (covs k) y) = .error e := by
      intro l
      induction l with
      | nil => intro h; cases h
      | cons a l ih =>
          intro hm
          rw [List.mapM_cons]
          cases ha : logMvnDensity reg (means a) (covs a) y with
          | error e => exact ⟨e, rfl⟩
          | ok v =>
              rcases List.mem_cons.1 hm with rfl | hm
              · rw [h1] at ha; cases ha
              · obtain ⟨e, he⟩ := ih hm
                rw [he]
                exact ⟨e, rfl⟩
    obtain ⟨e, he⟩ := h2 _ (List.mem_finRange k)
    unfold loglikMixture
    rw [he]
    exact ⟨e, rfl⟩

/-- **C116** (relabelling). The likelihood does not depend on the order of the components. -/
theorem C116_relabel (reg : ℝ) (w : Fin (K + 1) → ℝ) (means : Fin (K + 1) → Fin d → ℝ)
    (covs : Fin (K + 1) → Matrix (Fin d) (Fin d) ℝ) (hc : ∀ k, Regular reg (covs k)) (σ : Equiv.Perm (Fin (K + 1))) (y : Fin d → ℝ) :
    loglikMixture reg (w ∘ σ) (means ∘ σ) (covs ∘ σ) y = loglikMixture reg w means covs y := by
  obtain ⟨ℓ, h1, h2⟩ := C116_density reg w means covs hc y
  obtain ⟨ℓ', h1', h2'⟩ := C116_density reg (w ∘ σ) (means ∘ σ) (covs ∘ σ) (fun k => hc (σ k)) y
  rw [h1, h1']
  congr 1
  apply Real.exp_injective
  rw [h2, h2']
  exact Equiv.sum_comp σ fun k => max (w k) (1 / 10 ^ 300) *
      normalDensity ((1 / 2 : ℝ) • (covs k + (covs k)ᵀ) + diagonal fun _ => reg) (means k) y

/-- The mixture of Gaussian measures. -/
noncomputable def mixLaw (reg : ℝ) (p : Fin K → ℝ) (means : Fin K → Fin d → ℝ) (covs : Fin K → Matrix (Fin d) (Fin d) ℝ) :
    Measure (Fin d → ℝ) :=
  Measure.sum fun k => ENNReal.ofReal (p k) • gaussLaw (means k) ((1 / 2 : ℝ) • (covs k + (covs k)ᵀ) + diagonal fun _ => reg)

theorem measurable_normalDensity (A : Matrix (Fin d) (Fin d) ℝ) (m : Fin d → ℝ) : Measurable (normalDensity A m) := by
  unfold normalDensity
  fun_prop

/-- For weights of at least `1e-300`: the exponential of the log-likelihood, divided by the total weight, is the density of the
mixture with the normalised weights. -/
theorem mixLaw_density (reg : ℝ) (w : Fin (K + 1) → ℝ) (hw : ∀ k, 1 / 10 ^ 300 ≤ w k) (means : Fin (K + 1) → Fin d → ℝ)
    (covs : Fin (K + 1) → Matrix (Fin d) (Fin d) ℝ) (hc : ∀ k, Regular reg (covs k)) (ℓ : (Fin d → ℝ) → ℝ)
    (hℓ : ∀ y, loglikMixture reg w means covs y = .ok (ℓ y)) :
    mixLaw reg (fun k => w k / ∑ j, w j) means covs = volume.withDensity fun y => ENNReal.ofReal (Real.exp (ℓ y) / ∑ j, w j) := by
  have hw0 : ∀ k, 0 ≤ w k := fun k => le_trans (by positivity) (hw k)
  have hs : 0 ≤ ∑ j, w j := Finset.sum_nonneg fun j _ => hw0 j
  have h1 : (fun y => ENNReal.ofReal (Real.exp (ℓ y) / ∑ j, w j)) = fun y => ∑ k, ENNReal.ofReal (w k / ∑ j, w j) *
      ENNReal.ofReal (normalDensity ((1 / 2 : ℝ) • (covs k + (covs k)ᵀ) + diagonal fun _ => reg) (means k) y) := by
    funext y
    obtain ⟨ℓ', e1, e2⟩ := C116_density reg w means covs hc y
    rw [hℓ y] at e1
    cases e1
    rw [e2, Finset.sum_div, ENNReal.ofReal_sum_of_nonneg]
    · refine Finset.sum_congr rfl fun k _ => ?_
      rw [← ENNReal.ofReal_mul (div_nonneg (hw0 k) hs), max_eq_left (hw k)]
      congr 1
      ring
    · exact fun k _ => div_nonneg (mul_nonneg (le_max_of_le_left (hw0 k)) (mvDensity_pos (hc k) _ _).le) hs
  rw [h1]
  ext s hs'
  rw [mixLaw, Measure.sum_apply _ hs', tsum_fintype, withDensity_apply _ hs', lintegral_finset_sum]
  · refine Finset.sum_congr rfl fun k _ => ?_
    rw [lintegral_const_mul _ (measurable_normalDensity _ _).ennreal_ofReal, Measure.smul_apply, gaussLaw_density _ (hc k),
      withDensity_apply _ hs', smul_eq_mul]
  · exact fun k _ => (measurable_normalDensity _ _).ennreal_ofReal.const_mul _

/-- **C116** (normalisation). The density integrates to the total weight: to one for weights on the simplex. -/
theorem C116_normalised (reg : ℝ) (w : Fin (K + 1) → ℝ) (hw : ∀ k, 1 / 10 ^ 300 ≤ w k) (means : Fin (K + 1) → Fin d → ℝ)
    (covs : Fin (K + 1) → Matrix (Fin d) (Fin d) ℝ) (hc : ∀ k, Regular reg (covs k)) (ℓ : (Fin d → ℝ) → ℝ)
    (hℓ : ∀ y, loglikMixture reg w means covs y = .ok (ℓ y)) :
    ∫⁻ y, ENNReal.ofReal (Real.exp (ℓ y)) = ENNReal.ofReal (∑ k, w k) := by
  have hw0 : ∀ k, 0 ≤ w k := fun k => le_trans (by positivity) (hw k)
  have h1 : (fun y => ENNReal.ofReal (Real.exp (ℓ y))) = fun y => ∑ k, ENNReal.ofReal (w k) *
      ENNReal.ofReal (normalDensity ((1 / 2 : ℝ) • (covs k + (covs k)ᵀ) + diagonal fun _ => reg) (means k) y) := by
    funext y
    obtain ⟨ℓ', e1, e2⟩ := C116_density reg w means covs hc y
    rw [hℓ y] at e1
    cases e1
    rw [e2, ENNReal.ofReal_sum_of_nonneg]
    · refine Finset.sum_congr rfl fun k _ => ?_
      rw [← ENNReal.ofReal_mul (hw0 k), max_eq_left (hw k)]
    · exact fun k _ => mul_nonneg (le_max_of_le_left (hw0 k)) (mvDensity_pos (hc k) _ _).le
  rw [h1, lintegral_finset_sum _ fun k _ => (measurable_normalDensity _ _).ennreal_ofReal.const_mul _,
    ENNReal.ofReal_sum_of_nonneg fun k _ => hw0 k]
  refine Finset.sum_congr rfl fun k _ => ?_
  rw [lintegral_const_mul _ (measurable_normalDensity _ _).ennreal_ofReal]
  have h2 : (gaussLaw (means k) ((1 / 2 : ℝ) • (covs k + (covs k)ᵀ) + diagonal fun _ => reg)) Set.univ = 1 := measure_univ
  rw [gaussLaw_density _ (hc k), withDensity_apply _ MeasurableSet.univ, Measure.restrict_univ] at h2
  rw [h2, mul_one]

/-! ### Sampling -/

/-- What the generator provides: component numbers drawn independently with probabilities `p`; for every component a sequence of
independent normal vectors, independent of the component numbers. -/
structure RngContract {Ω : Type} {mΩ : MeasurableSpace Ω} (P : Measure Ω) (p : Fin K → ℝ) (ν : Fin K → Measure (Fin d → ℝ))
    (comp : Fin n → Ω → Fin K) (draws : Fin K → ℕ → Ω → Fin d → ℝ) : Prop where
  measComp : ∀ i, Measurable (comp i)
  measDraws : ∀ k r, Measurable (draws k r)
  compIndep : iIndepFun comp P
  compLaw : ∀ i k, P {ω | comp i ω = k} = ENNReal.ofReal (p k)
  drawsIndep : iIndepFun (fun kr : Fin K × ℕ => draws kr.1 kr.2) P
  drawsLaw : ∀ k r, P.map (draws k r) = ν k
  indep : IndepFun (fun ω i => comp i ω) (fun ω (kr : Fin K × ℕ) => draws kr.1 kr.2 ω) P

/-- Every row is the draw of its component with its number among the rows of that component. -/
theorem sampleRows_eq (comp : Fin n → Fin K) (draws : Fin K → ℕ → Fin d → ℝ) (i : Fin n) :
    sampleRows comp draws i = draws (comp i) ((rowsOf comp (comp i)).idxOf i) := by
  have hmem : ∀ k, i ∈ rowsOf comp k ↔ comp i = k := by
    intro k
    simp [rowsOf]
  have gen : ∀ (l : List (Fin K)) (out : Fin n → Fin d → ℝ), (l.foldl (fun out k =>
      let idx := rowsOf comp k
      if idx.length = 0 then out else fun i => if i ∈ idx then draws k (idx.idxOf i) else out i) out) i
      = if comp i ∈ l then draws (comp i) ((rowsOf comp (comp i)).idxOf i) else out i := by
    intro l
    induction l using List.reverseRecOn with
    | nil => intro out; simp
    | append_singleton l a ih =>
        intro out
        rw [List.foldl_append]
        simp only [List.foldl_cons, List.foldl_nil]
        by_cases ha : comp i = a
        · have hne : (rowsOf comp a).length ≠ 0 := by
            intro h0
            have := (hmem a).2 ha
            rw [List.length_eq_zero_iff.1 h0] at this
            cases this
          rw [if_neg hne, if_pos ((hmem a).2 ha), if_pos (by simp [ha])]
          rw [ha]
        · have h2 : (comp i ∈ l ++ [a]) ↔ comp i ∈ l := by simp [ha]
          have h3 : i ∉ rowsOf comp a := fun h => ha ((hmem a).1 h)
          simp only [h2, ← ih out]
          split_ifs with h0
          · rfl
          · simp only [if_neg h3]
  unfold sampleRows
  rw [gen, if_pos (List.mem_finRange _)]

theorem rank_injective (comp : Fin n → Fin K) : Function.Injective fun i => (comp i, (rowsOf comp (comp i)).idxOf i) := by
  intro i j hij
  simp only [Prod.mk.injEq] at hij
  obtain ⟨h1, h2⟩ := hij
  rw [← h1] at h2
  have hi : i ∈ rowsOf comp (comp i) := by simp [rowsOf]
  exact (List.idxOf_inj hi).1 h2

/-- The joint law of the sampled rows: independent, each with the mixture of the laws of the draws. -/
theorem sampleRows_law {Ω : Type} {mΩ : MeasurableSpace Ω} {P : Measure Ω} {p : Fin K → ℝ} {ν : Fin K → Measure (Fin d → ℝ)}
    [∀ k, IsProbabilityMeasure (ν k)] {comp : Fin n → Ω → Fin K} {draws : Fin K → ℕ → Ω → Fin d → ℝ}
    (hr : RngContract P p ν comp draws) :
    P.map (fun ω => sampleRows (fun i => comp i ω) fun k r => draws k r ω)
      = Measure.pi fun _ : Fin n => Measure.sum fun k => ENNReal.ofReal (p k) • ν k := by
  have hm : Measurable fun ω => sampleRows (fun i => comp i ω) fun k r => draws k r ω := by
    refine measurable_pi_lambda _ fun i => ?_
    simp only [sampleRows_eq]
    have h1 : Measurable fun q : (Fin n → Fin K) × (Fin K × ℕ → Fin d → ℝ) => q.2 (q.1 i, (rowsOf q.1 (q.1 i)).idxOf i) :=
      measurable_from_prod_countable_right fun c => measurable_pi_apply (c i, (rowsOf c (c i)).idxOf i)
    exact h1.comp ((measurable_pi_lambda _ fun i => hr.measComp i).prodMk
      (measurable_pi_lambda _ fun kr : Fin K × ℕ => hr.measDraws kr.1 kr.2))
  have hfin : ∀ k, IsFiniteMeasure (ENNReal.ofReal (p k) • ν k) := fun k => Measure.smul_finite _ ENNReal.ofReal_ne_top
  have : SigmaFinite (Measure.sum fun k => ENNReal.ofReal (p k) • ν k) := inferInstance
  refine (Measure.pi_eq fun s hs => ?_).symm
  rw [Measure.map_apply hm (MeasurableSet.univ_pi hs)]
  -- split by the component numbers
  have hsplit : (fun ω => sampleRows (fun i => comp i ω) fun k r => draws k r ω) ⁻¹' (Set.univ.pi s)
      = ⋃ c : Fin n → Fin K, ((fun ω i => comp i ω) ⁻¹' {c}) ∩
        ((fun ω (kr : Fin K × ℕ) => draws kr.1 kr.2 ω) ⁻¹' {z | ∀ i, z (c i, (rowsOf c (c i)).idxOf i) ∈ s i}) := by
    ext ω
    simp only [Set.mem_preimage, Set.mem_univ_pi, Set.mem_iUnion, Set.mem_inter_iff, Set.mem_singleton_iff, Set.mem_setOf_eq,
      sampleRows_eq]
    constructor
    · exact fun h => ⟨_, rfl, h⟩
    · rintro ⟨c, rfl, h⟩
      exact h
  have hms : ∀ c : Fin n → Fin K, MeasurableSet {z : Fin K × ℕ → Fin d → ℝ | ∀ i, z (c i, (rowsOf c (c i)).idxOf i) ∈ s i} := by
    intro c
    rw [Set.setOf_forall]
    exact MeasurableSet.iInter fun i => (measurable_pi_apply _) (hs i)
  rw [hsplit, measure_iUnion, tsum_fintype]
  · have hterm : ∀ c : Fin n → Fin K, P (((fun ω i => comp i ω) ⁻¹' {c}) ∩
        ((fun ω (kr : Fin K × ℕ) => draws kr.1 kr.2 ω) ⁻¹' {z | ∀ i, z (c i, (rowsOf c (c i)).idxOf i) ∈ s i}))
        = ∏ i, ENNReal.ofReal (p (c i)) * ν (c i) (s i) := by
      intro c
      rw [hr.indep.measure_inter_preimage_eq_mul _ _ (measurableSet_singleton c) (hms c), Finset.prod_mul_distrib]
      congr 1
      · have h1 : (fun ω i => comp i ω) ⁻¹' {c} = ⋂ i ∈ Finset.univ, comp i ⁻¹' {c i} := by
          ext ω
          simp [funext_iff]
        rw [h1, hr.compIndep.measure_inter_preimage_eq_mul _ fun i _ => measurableSet_singleton _]
        exact Finset.prod_congr rfl fun i _ => hr.compLaw i (c i)
      · have h1 : (fun ω (kr : Fin K × ℕ) => draws kr.1 kr.2 ω) ⁻¹' {z | ∀ i, z (c i, (rowsOf c (c i)).idxOf i) ∈ s i}
            = ⋂ i ∈ Finset.univ, draws (c i) ((rowsOf c (c i)).idxOf i) ⁻¹' (s i) := by
          ext ω
          simp
        have h2 := hr.drawsIndep.precomp (rank_injective c)
        rw [h1, h2.measure_inter_preimage_eq_mul _ fun i _ => hs i]
        refine Finset.prod_congr rfl fun i _ => ?_
        rw [← hr.drawsLaw (c i) ((rowsOf c (c i)).idxOf i), Measure.map_apply (hr.measDraws _ _) (hs i)]
    rw [Finset.sum_congr rfl fun c _ => hterm c]
    have h3 : ∀ i, (Measure.sum fun k => ENNReal.ofReal (p k) • ν k) (s i) = ∑ k, ENNReal.ofReal (p k) * ν k (s i) := by
      intro i
      rw [Measure.sum_apply _ (hs i), tsum_fintype]
      rfl
    rw [Finset.prod_congr rfl fun i _ => h3 i, Finset.prod_univ_sum, Fintype.piFinset_univ]
  · intro c c' hcc
    refine Set.disjoint_left.2 fun ω h1 h2 => hcc ?_
    exact h1.1.symm.trans h2.1
  · exact fun c => (((measurable_pi_lambda _ fun i => hr.measComp i) (measurableSet_singleton c))).inter
      ((measurable_pi_lambda _ fun kr : Fin K × ℕ => hr.measDraws kr.1 kr.2) (hms c))

/-- **C116** (sampling). The rows of the sample are independent, and each has as density the exponential of the mixture
log-likelihood of the same arguments, divided by the total weight. -/
theorem C116_sample {Ω : Type} {mΩ : MeasurableSpace Ω} (P : Measure Ω) (reg : ℝ) (w : Fin (K + 1) → ℝ)
    (hw : ∀ k, 1 / 10 ^ 300 ≤ w k) (means : Fin (K + 1) → Fin d → ℝ) (covs : Fin (K + 1) → Matrix (Fin d) (Fin d) ℝ)
    (hc : ∀ k, Regular reg (covs k)) :
    choiceProb w = .ok (fun k => w k / ∑ j, w j) ∧
      ∀ (comp : Fin n → Ω → Fin (K + 1)) (draws : Fin (K + 1) → ℕ → Ω → Fin d → ℝ),
      RngContract P (fun k => w k / ∑ j, w j) (fun k => gaussLaw (means k) (drawCov reg (covs k))) comp draws →
      ∃ ℓ : (Fin d → ℝ) → ℝ, (∀ y, loglikMixture reg w means covs y = .ok (ℓ y)) ∧
        P.map (fun ω => sampleRows (fun i => comp i ω) fun k r => draws k r ω)
          = Measure.pi fun _ : Fin n => volume.withDensity fun y => ENNReal.ofReal (Real.exp (ℓ y) / ∑ j, w j) := by
  have hw0 : ∀ k, 0 < w k := fun k => lt_of_lt_of_le (by positivity) (hw k)
  have hs : 0 < ∑ j, w j := Finset.sum_pos (fun j _ => hw0 j) Finset.univ_nonempty
  refine ⟨?_, fun comp draws hr => ?_⟩
  · unfold choiceProb
    rw [if_neg hs.ne', if_pos fun k => div_nonneg (hw0 k).le hs.le]
  · choose ℓ hℓ _ using fun y => C116_density reg w means covs hc y
    refine ⟨ℓ, hℓ, ?_⟩
    rw [sampleRows_law hr]
    congr 1
    funext _
    rw [← mixLaw_density reg w hw means covs hc ℓ hℓ]
    simp only [drawCov_eq]
    rfl

/-- **C116** (degenerate weights). Weights whose sum is not zero and which all have the sign of the sum are accepted, all others are
rejected. -/
theorem C116_weights (w : Fin K → ℝ) :
    (∃ p, choiceProb w = .ok p) ↔ ((∑ j, w j) ≠ 0 ∧ ∀ k, 0 ≤ w k * ∑ j, w j) := by
  have key : ∀ k, (∑ j, w j) ≠ 0 → (0 ≤ w k / ∑ j, w j ↔ 0 ≤ w k * ∑ j, w j) := by
    intro k h
    have h2 : 0 < (∑ j, w j) ^ 2 := by positivity
    have : w k * ∑ j, w j = w k / (∑ j, w j) * (∑ j, w j) ^ 2 := by field_simp
    rw [this]
    exact (mul_nonneg_iff_of_pos_right h2).symm
  unfold choiceProb
  split_ifs with h1 h2
  · simp [h1]
  · refine ⟨fun _ => ⟨h1, fun k => (key k h1).1 (h2 k)⟩, fun _ => ⟨_, rfl⟩⟩
  · constructor
    · rintro ⟨p, hp⟩; cases hp
    · rintro ⟨-, h⟩
      exact absurd (fun k => (key k h1).2 (h k)) h2

/-! ### Fit -/

/-- The one-dimensional normal density. -/
noncomputable def normal1 (m v y : ℝ) : ℝ := (√(2 * Real.pi * v))⁻¹ * Real.exp (-(y - m) ^ 2 / (2 * v))

/-- With a diagonal covariance the density is the product of one-dimensional densities. -/
theorem mvDensity_diagonal (v : Fin d → ℝ) (hv : ∀ i, 0 < v i) (m y : Fin d → ℝ) :
    normalDensity (diagonal v) m y = ∏ i, normal1 (m i) (v i) (y i) := by
  unfold normalDensity normal1
  rw [Finset.prod_mul_distrib, ← Real.exp_sum]
  congr 1
  · rw [det_diagonal, Fintype.card_fin, Finset.prod_inv_distrib]
    congr 1
    rw [← Real.sqrt_prod _ fun i _ => by have := hv i; positivity]
    congr 1
    rw [Finset.prod_mul_distrib, Finset.prod_const, Finset.card_univ, Fintype.card_fin]
  · congr 1
    have : (diagonal v)⁻¹ = diagonal fun i => (v i)⁻¹ := by
      refine Matrix.inv_eq_right_inv ?_
      rw [diagonal_mul_diagonal, ← diagonal_one]
      congr 1
      funext i
      exact mul_inv_cancel₀ (hv i).ne'
    rw [this]
    simp only [mulVec_diagonal, dotProduct, Pi.sub_apply, Finset.mul_sum]
    refine Finset.sum_congr rfl fun i _ => ?_
    have := (hv i).ne'
    field_simp

/-- **C116** (covariance types). With the stored variances (`diag`, `spherical`) the likelihood is the mixture of products of
one-dimensional normal densities with the stored variances plus the ridge; with `tied` all components have the same covariance;
with `full` the stored ones. -/
theorem C116_types (reg : ℝ) (hr : 0 < reg) (w : Fin (K + 1) → ℝ) (means : Fin (K + 1) → Fin d → ℝ) (y : Fin d → ℝ) :
    (∀ c : Fin (K + 1) → Fin d → ℝ, (∀ k i, 0 ≤ c k i) → ∃ ℓ, loglikMixture reg w means (covToFull (.diag c)) y = .ok ℓ ∧
      Real.exp ℓ = ∑ k, max (w k) (1 / 10 ^ 300) * ∏ i, normal1 (means k i) (c k i + reg) (y i)) ∧
    (∀ c : Fin (K + 1) → ℝ, (∀ k, 0 ≤ c k) → ∃ ℓ, loglikMixture reg w means (covToFull (.spherical c)) y = .ok ℓ ∧
      Real.exp ℓ = ∑ k, max (w k) (1 / 10 ^ 300) * ∏ i, normal1 (means k i) (c k + reg) (y i)) ∧
    (∀ c : Matrix (Fin d) (Fin d) ℝ, c.PosSemidef → ∃ ℓ, loglikMixture reg w means (covToFull (.tied c)) y = .ok ℓ ∧
      Real.exp ℓ = ∑ k, max (w k) (1 / 10 ^ 300) * normalDensity (c + diagonal fun _ => reg) (means k) y) ∧
    (∀ c : Fin (K + 1) → Matrix (Fin d) (Fin d) ℝ, (∀ k, (c k).PosSemidef) →
      ∃ ℓ, loglikMixture reg w means (covToFull (.full c)) y = .ok ℓ ∧
      Real.exp ℓ = ∑ k, max (w k) (1 / 10 ^ 300) * normalDensity (c k + diagonal fun _ => reg) (means k) y) := by
  have hsym : ∀ {c : Matrix (Fin d) (Fin d) ℝ}, c.PosSemidef → (1 / 2 : ℝ) • (c + cᵀ) = c := by
    intro c hc
    rw [transpose_of_posSemidef hc, ← two_smul ℝ c, smul_smul]; norm_num
  have full : ∀ c : Fin (K + 1) → Matrix (Fin d) (Fin d) ℝ, (∀ k, (c k).PosSemidef) →
      ∃ ℓ, loglikMixture reg w means c y = .ok ℓ ∧
      Real.exp ℓ = ∑ k, max (w k) (1 / 10 ^ 300) * normalDensity (c k + diagonal fun _ => reg) (means k) y := by
    intro c hc
    obtain ⟨ℓ, h1, h2⟩ := C116_density reg w means c (fun k => regular_of_posSemidef hr (hc k)) y
    refine ⟨ℓ, h1, ?_⟩
    rw [h2]
    exact Finset.sum_congr rfl fun k _ => by rw [hsym (hc k)]
  refine ⟨fun c hc => ?_, fun c hc => ?_, fun c hc => full _ fun _ => hc, full⟩
  · obtain ⟨ℓ, h1, h2⟩ := full (covToFull (.diag c)) fun k => PosSemidef.diagonal fun i => hc k i
    refine ⟨ℓ, h1, ?_⟩
    rw [h2]
    refine Finset.sum_congr rfl fun k _ => ?_
    simp only [covToFull]
    rw [diagonal_add, mvDensity_diagonal _ fun i => add_pos_of_nonneg_of_pos (hc k i) hr]
  · have e : ∀ k, covToFull (.spherical c : CovStore (K + 1) d) k = diagonal fun _ => c k := fun k => by
      simp only [covToFull]; rw [smul_one_eq_diagonal]
    obtain ⟨ℓ, h1, h2⟩ := full (covToFull (.spherical c)) fun k => by rw [e]; exact PosSemidef.diagonal fun i => hc k
    refine ⟨ℓ, h1, ?_⟩
    rw [h2]
    refine Finset.sum_congr rfl fun k _ => ?_
    rw [e, diagonal_add, mvDensity_diagonal _ fun i => add_pos_of_nonneg_of_pos (hc k) hr]

/-- **C116** (fit). The fit fails exactly when there are fewer samples than components. Otherwise, for weights of the mixture model
on the simplex and a positive floor, the returned weights are on the simplex and at least `floor / (1 + K floor)`, weights, means and
covariances are permuted together — so the likelihood is that of the fitted components — in one dimension the means are
sorted on request, and otherwise the order is that of the mixture model. -/
theorem C116_fit (n : ℕ) (w : Fin (K + 1) → ℝ) (hw : ∀ k, 0 ≤ w k) (hs : ∑ k, w k = 1) (means : Fin (K + 1) → Fin d → ℝ)
    (store : CovStore (K + 1) d) (floor : ℝ) (hf : 0 < floor) (sortIf1d : Bool) (order : Equiv.Perm (Fin (K + 1)))
    (ho : d = 1 → ∀ i : Fin d, Monotone fun k => means (order k) i) :
    ((∃ e, fitFreeMixture n w means store floor sortIf1d order = .error e) ↔ n < K + 1) ∧
    ∀ r, fitFreeMixture n w means store floor sortIf1d order = .ok r →
      ∑ k, r.w k = 1 ∧ (∀ k, floor / (1 + (K + 1) * floor) ≤ r.w k) ∧
      (∃ σ : Equiv.Perm (Fin (K + 1)), ∀ k, r.mean k = means (σ k) ∧ r.cov k = covToFull store (σ k) ∧
        r.w k * (∑ j, max (w j) floor) = max (w (σ k)) floor ∧ (¬ (sortIf1d = true ∧ d = 1) → σ = 1)) ∧
      (sortIf1d = true → d = 1 → ∀ i, Monotone fun k => r.mean k i) := by
  have hpos : ∀ k, 0 < max (w k) floor := fun k => lt_max_of_lt_right hf
  have hS : 0 < ∑ j, max (w j) floor := Finset.sum_pos (fun j _ => hpos j) Finset.univ_nonempty
  have hSle : ∑ j, max (w j) floor ≤ 1 + (K + 1) * floor := by
    calc ∑ j, max (w j) floor ≤ ∑ j, (w j + floor) := Finset.sum_le_sum fun j _ =>
          max_le (le_add_of_nonneg_right hf.le) (le_add_of_nonneg_left (hw j))
      _ = 1 + (K + 1) * floor := by
          rw [Finset.sum_add_distrib, hs, Finset.sum_const, Finset.card_univ, Fintype.card_fin, nsmul_eq_mul]
          push_cast
          ring
  have hsum : ∑ k, max (w k) floor / ∑ j, max (w j) floor = 1 := by rw [← Finset.sum_div, div_self hS.ne']
  have hlow : ∀ k, floor / (1 + (K + 1) * floor) ≤ max (w k) floor / ∑ j, max (w j) floor := fun k =>
    div_le_div₀ (hpos k).le (le_max_right _ _) hS hSle
  unfold fitFreeMixture
  by_cases hn : n < K + 1
  · rw [if_pos hn]
    exact ⟨⟨fun _ => hn, fun _ => ⟨_, rfl⟩⟩, fun r hr => by cases hr⟩
  · rw [if_neg hn]
    simp only
    split_ifs with h1
    · refine ⟨⟨fun ⟨e, he⟩ => (by cases he), fun h => absurd h hn⟩, fun r hr => ?_⟩
      cases hr
      refine ⟨?_, fun k => hlow (order k), ⟨order, fun k => ⟨rfl, rfl, ?_, fun h => absurd (by simpa using h1) h⟩⟩, fun _ h => ho h⟩
      · exact (Equiv.sum_comp order fun k => max (w k) floor / ∑ j, max (w j) floor).trans hsum
      · simp only [Function.comp]
        rw [div_mul_cancel₀ _ hS.ne']
    · refine ⟨⟨fun ⟨e, he⟩ => (by cases he), fun h => absurd h hn⟩, fun r hr => ?_⟩
      cases hr
      refine ⟨hsum, hlow, ⟨Equiv.refl _, fun k => ⟨rfl, rfl, ?_, fun _ => rfl⟩⟩, fun h2 h3 => ?_⟩
      · simp only [Equiv.refl_apply]
        rw [div_mul_cancel₀ _ hS.ne']
      · subst h3
        simp [h2] at h1

theorem iIndepFun_of_map {Ω Ω' ι : Type} {E : ι → Type} [∀ i, MeasurableSpace (E i)] {mΩ : MeasurableSpace Ω}
    {mΩ' : MeasurableSpace Ω'} {P : Measure Ω} {g : Ω → Ω'} (hg : Measurable g) {X : ∀ i, Ω' → E i} (hX : ∀ i, Measurable (X i))
    (h : iIndepFun X (P.map g)) : iIndepFun (fun i ω => X i (g ω)) P := by
  rw [iIndepFun_iff_measure_inter_preimage_eq_mul] at h ⊢
  intro S sets hs
  have h1 := h S hs
  rw [Measure.map_apply hg (S.measurableSet_biInter fun i hi => hX i (hs i hi))] at h1
  refine Eq.trans ?_ (h1.trans (Finset.prod_congr rfl fun i hi => Measure.map_apply hg (hX i (hs i hi))))
  congr 1
  ext ω
  simp

/-- Generators as in the contract exist. -/
theorem rngContract_exists (p : Fin K → ℝ) (hp : ∀ k, 0 ≤ p k) (hs : ∑ k, p k = 1) (ν : Fin K → Measure (Fin d → ℝ))
    [∀ k, IsProbabilityMeasure (ν k)] :
    ∃ (P : Measure ((Fin n → Fin K) × (Fin K × ℕ → Fin d → ℝ))) , RngContract P p ν (fun i ω => ω.1 i) fun k r ω => ω.2 (k, r) := by
  set c : Measure (Fin K) := Measure.sum fun k => ENNReal.ofReal (p k) • Measure.dirac k with hc
  have hck : ∀ k, c {k} = ENNReal.ofReal (p k) := by
    intro k
    rw [hc, Measure.sum_apply _ (measurableSet_singleton k), tsum_fintype, Finset.sum_eq_single k]
    · simp
    · intro j _ hj
      simp [hj]
    · simp
  have : IsProbabilityMeasure c := by
    refine ⟨?_⟩
    rw [hc, Measure.sum_apply _ MeasurableSet.univ, tsum_fintype]
    simp only [Measure.smul_apply, measure_univ, smul_eq_mul, mul_one]
    rw [← ENNReal.ofReal_sum_of_nonneg fun k _ => hp k, hs, ENNReal.ofReal_one]
  set A : Measure (Fin n → Fin K) := Measure.pi fun _ => c with hA
  set B : Measure (Fin K × ℕ → Fin d → ℝ) := Measure.infinitePi fun kr : Fin K × ℕ => ν kr.1 with hB
  have hfst : (A.prod B).map Prod.fst = A := Measure.fst_prod
  have hsnd : (A.prod B).map Prod.snd = B := Measure.snd_prod
  have hAi : iIndepFun (fun (i : Fin n) (ω : Fin n → Fin K) => ω i) A := iIndepFun_pi (X := fun _ => id) fun i => by fun_prop
  have hBi : iIndepFun (fun (kr : Fin K × ℕ) (ω : Fin K × ℕ → Fin d → ℝ) => ω kr) B :=
    iIndepFun_infinitePi (X := fun _ => id) fun i => by fun_prop
  refine ⟨A.prod B, fun i => by fun_prop, fun k r => by fun_prop, ?_, fun i k => ?_, ?_, fun k r => ?_, ?_⟩
  · rw [← hfst] at hAi
    exact iIndepFun_of_map measurable_fst (fun i => measurable_pi_apply i) hAi
  · have h1 : A {ω | ω i = k} = ENNReal.ofReal (p k) := by
      have := (measurePreserving_eval (fun _ : Fin n => c) i).map_eq
      rw [← hck k, ← this, Measure.map_apply (measurable_pi_apply i) (measurableSet_singleton k)]
      rfl
    have hms : MeasurableSet ((fun ω : Fin n → Fin K => ω i) ⁻¹' {k}) := (measurable_pi_apply i) (measurableSet_singleton k)
    change MeasurableSet {ω : Fin n → Fin K | ω i = k} at hms
    rw [← h1]
    conv_rhs => rw [← hfst]
    rw [Measure.map_apply measurable_fst hms]
    rfl
  · rw [← hsnd] at hBi
    exact iIndepFun_of_map measurable_snd (fun i => measurable_pi_apply i) hBi
  · have h1 : B.map (fun ω => ω (k, r)) = ν k := Measure.infinitePi_map_eval _ (k, r)
    rw [← h1]
    conv_rhs => rw [← hsnd]
    rw [Measure.map_map (by fun_prop) (by fun_prop)]
    rfl
  · exact indepFun_prod (X := fun ω : Fin n → Fin K => fun i => ω i) (Y := fun ω : Fin K × ℕ → Fin d → ℝ => fun kr => ω kr)
      (by fun_prop) (by fun_prop)

/-! ### Examples -/

/-- Two components in the plane; the second covariance is given in a form that is not symmetric. -/
noncomputable def exCovs : Fin 2 → Matrix (Fin 2) (Fin 2) ℝ := ![0, !![1, 1; 0, 1]]

theorem exCovs_regular (k : Fin 2) : Regular (1 / 10 ^ 9) (exCovs k) := by
  fin_cases k
  · exact regular_of_posSemidef (by norm_num) PosSemidef.zero
  · have hp : (!![1, 1 / 2; 1 / 2, 1] : Matrix (Fin 2) (Fin 2) ℝ).PosSemidef := by
      refine posSemidef_of_quad (by ext i j; fin_cases i <;> fin_cases j <;> rfl) fun v => ?_
      simp [dotProduct, mulVec, Fin.sum_univ_two]
      nlinarith [sq_nonneg (v 0 + v 1), sq_nonneg (v 0), sq_nonneg (v 1)]
    have := regular_of_posSemidef (reg := 1 / 10 ^ 9) (by norm_num) hp
    unfold Regular at this ⊢
    convert this using 2
    ext i j
    fin_cases i <;> fin_cases j <;> norm_num [exCovs]

example (y : Fin 2 → ℝ) : ∃ ℓ, loglikMixture (1 / 10 ^ 9) ![1 / 3, 2 / 3] ![0, 1] exCovs y = .ok ℓ := by
  obtain ⟨ℓ, h, -⟩ := C116_density (K := 1) (1 / 10 ^ 9) ![1 / 3, 2 / 3] ![0, 1] exCovs exCovs_regular y
  exact ⟨ℓ, h⟩

/-- Singular covariances without a ridge raise. -/
example (y : Fin 2 → ℝ) : ∃ e, loglikMixture 0 ![1 / 3, 2 / 3] ![0, 1] exCovs y = .error e := by
  refine (C116_singular (K := 1) 0 ![1 / 3, 2 / 3] ![0, 1] exCovs y).2 ⟨0, fun h => ?_⟩
  unfold Regular at h
  have := h.det_pos
  simp [exCovs] at this

/-- Negative weights pass the generator's check. -/
example : ∃ p, choiceProb (![-1, -1] : Fin 2 → ℝ) = .ok p := by
  refine (C116_weights _).2 ⟨by norm_num [Fin.sum_univ_two], fun k => ?_⟩
  fin_cases k <;> norm_num [Fin.sum_univ_two]

/-- Sampling seven rows from the two components. -/
example : ∃ (P : Measure ((Fin 7 → Fin 2) × (Fin 2 × ℕ → Fin 2 → ℝ))) (ℓ : (Fin 2 → ℝ) → ℝ),
    (∀ y, loglikMixture (1 / 10 ^ 9) ![1 / 3, 2 / 3] ![0, 1] exCovs y = .ok (ℓ y)) ∧
    P.map (fun ω => sampleRows (fun i => ω.1 i) fun k r => ω.2 (k, r))
      = Measure.pi fun _ : Fin 7 => volume.withDensity fun y => ENNReal.ofReal (Real.exp (ℓ y) / ∑ j, (![1 / 3, 2 / 3] : Fin 2 → ℝ) j) := by
  obtain ⟨P, hP⟩ := rngContract_exists (n := 7) (K := 2) (d := 2) (fun k => (![1 / 3, 2 / 3] : Fin 2 → ℝ) k / ∑ j, (![1 / 3, 2 / 3] : Fin 2 → ℝ) j)
    (fun k => by fin_cases k <;> norm_num [Fin.sum_univ_two]) (by norm_num [Fin.sum_univ_two])
    (fun k => gaussLaw ((![0, 1] : Fin 2 → Fin 2 → ℝ) k) (drawCov (1 / 10 ^ 9) (exCovs k)))
  have ht : (1 / 10 ^ 300 : ℝ) ≤ 1 / 10 ^ 1 :=
    one_div_le_one_div_of_le (by norm_num) (pow_le_pow_right₀ (by norm_num) (by norm_num))
  obtain ⟨-, h⟩ := C116_sample (n := 7) (K := 1) P (1 / 10 ^ 9) ![1 / 3, 2 / 3]
    (fun k => ht.trans (by fin_cases k <;> norm_num)) ![0, 1] exCovs exCovs_regular
  obtain ⟨ℓ, h1, h2⟩ := h (fun i ω => ω.1 i) (fun k r ω => ω.2 (k, r)) hP
  exact ⟨P, ℓ, h1, h2⟩

/-- Three one-dimensional components, sorted on request. -/
example (r : Mixture 3 1) (hr : fitFreeMixture 10 ![1 / 2, 1 / 2, 0] ![![3], ![1], ![2]] (.diag ![![1], ![2], ![3]]) (1 / 10 ^ 9) true
    (Tuple.sort fun k => (![![3], ![1], ![2]] : Fin 3 → Fin 1 → ℝ) k 0) = .ok r) : r.mean 0 0 ≤ r.mean 1 0 := by
  have h := (C116_fit (K := 2) (d := 1) 10 ![1 / 2, 1 / 2, 0] (fun k => by fin_cases k <;> norm_num)
    ((Fin.sum_univ_three _).trans (show (1 / 2 : ℝ) + 1 / 2 + 0 = 1 by norm_num)) _ _ _ (by norm_num) true _ (fun _ i => ?_)).2 r hr
  · exact h.2.2.2 rfl rfl 0 (by decide)
  · rw [Subsingleton.elim i 0]
    exact Tuple.monotone_sort fun k => (![![3], ![1], ![2]] : Fin 3 → Fin 1 → ℝ) k 0

end Verif.Ggmp
