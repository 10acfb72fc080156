import Verif.GP.Law
import Verif.GP.DefaultProps
import Mathlib.Probability.Distributions.Gaussian.IsGaussianProcess.Basic

/-!
Properties C25 and C37 in terms of probability: the posterior of a constructed GP is the conditional distribution of a Gaussian
process given its noisy observations, and the likelihood is the density of the observations.
-/

namespace Verif.GP

open Matrix MeasureTheory ProbabilityTheory Verif.LinAlg

variable {α H Ω : Type}

/-- The statistical model a `GP` object stands for: a Gaussian process `f` with the configured mean and kernel and a Gaussian
noise vector `e` with mean zero and the configured covariance, independent of the process. -/
structure Describes {mΩ : MeasurableSpace Ω} (P : Measure Ω) (μ : α → ℝ) (k : α → α → ℝ) (x : List α)
    (V : Matrix (Fin x.length) (Fin x.length) ℝ) (f : α → Ω → ℝ) (e : Fin x.length → Ω → ℝ) : Prop where
  process : IsGaussianProcess f P
  mean : ∀ a, ∫ ω, f a ω ∂P = μ a
  cov : ∀ a b, cov[f a, f b; P] = k a b
  noise : HasGaussianLaw (fun ω i => e i ω) P
  noiseMean : ∀ i, ∫ ω, e i ω ∂P = 0
  noiseCov : ∀ i j, cov[e i, e j; P] = V i j
  indep : IndepFun (fun ω a => f a ω) (fun ω i => e i ω) P

/-- The data set with the one column of values `y`. -/
def Data.observed (d : Data α) (y : Fin d.x.length → ℝ) : Data α :=
  { d with y := List.ofFn fun i => [y i], cols := 1 }

theorem observed_yMat (d : Data α) (y : Fin d.x.length → ℝ) (i : Fin d.x.length) : (d.observed y).yMat i 0 = y i := by
  have h : (List.ofFn fun i => [y i])[(i : ℕ)]? = some [y i] := by
    rw [List.getElem?_ofFn]; simp
  simp [Data.observed, Data.yMat, h]

theorem observed_calcV (c : Config α H) (hc : c.noise ≠ .default) (d : Data α) (y : Fin d.x.length → ℝ) (h : H) (xs : List α) :
    calcV c (d.observed y) h xs = calcV c d h xs := by
  unfold calcV
  cases hn : c.noise with
  | default => exact absurd hn hc
  | user f => rfl
  | measured => rfl

theorem observed_KVmat (c : Config α H) (hc : c.noise ≠ .default) (d : Data α) (y : Fin d.x.length → ℝ) (h : H) :
    KVmat c (d.observed y) h = KVmat c d h := by
  unfold KVmat
  exact congrArg (fun V : Noise => Kmat (c.kernel h) d.x d.x + V.mat d.x.length) (observed_calcV c hc d y h d.x)

theorem observed_admissible {c : Config α H} (hc : c.noise ≠ .default) {d : Data α} {h : H} (ha : Admissible c d h)
    (y : Fin d.x.length → ℝ) : Admissible c (d.observed y) h := by
  refine ⟨?_, ?_⟩
  · have := ha.fits
    rw [← observed_calcV c hc d y h] at this
    exact this
  · have := ha.posDef
    rw [← observed_KVmat c hc d y h] at this
    exact this

section vectors

variable {mΩ : MeasurableSpace Ω} {P : Measure Ω} {μ : α → ℝ} {k : α → α → ℝ} {x : List α}
  {V : Matrix (Fin x.length) (Fin x.length) ℝ} {f : α → Ω → ℝ} {e : Fin x.length → Ω → ℝ}

theorem process_vector {p : Type} [Fintype p] (hf : IsGaussianProcess f P) (z : p → α) :
    HasGaussianLaw (fun ω i => f (z i) ω) P := by
  classical
  let L : ((Finset.univ.image z) → ℝ) →L[ℝ] p → ℝ :=
    { toFun w i := w ⟨z i, by simp⟩
      map_add' w v := by ext; simp
      map_smul' m w := by ext; simp }
  exact (hf.hasGaussianLaw _).map L

theorem process_memLp (hf : IsGaussianProcess f P) (a : α) : MemLp (f a) 2 P := (hf.hasGaussianLaw_eval a).memLp_two

/-- Observations and noisy process values at other points are jointly Gaussian. -/
theorem Describes.joint (hd : Describes P μ k x V f e) (xs : List α) {e' : Fin xs.length → Ω → ℝ}
    (hg : HasGaussianLaw (fun ω j => e' j ω) P) (hi : IndepFun (fun ω => ((fun a => f a ω), fun i => e i ω)) (fun ω j => e' j ω) P) :
    HasGaussianLaw (fun ω => ((fun i : Fin x.length => (f x[i] + e i) ω), fun j : Fin xs.length => (f xs[j] + e' j) ω)) P := by
  set z : Fin x.length ⊕ Fin xs.length → α := Sum.elim (fun i => x[i]) fun j => xs[j] with hz
  have h1 := process_vector hd.process z
  have hind : IndepFun (fun ω i => f (z i) ω) (fun ω i => e i ω) P :=
    hd.indep.comp (φ := fun (g : α → ℝ) i => g (z i)) (ψ := id) (by fun_prop) measurable_id
  have h2 := hind.hasGaussianLaw h1 hd.noise
  have hind2 : IndepFun (fun ω => ((fun i => f (z i) ω), fun i => e i ω)) (fun ω j => e' j ω) P :=
    hi.comp (φ := fun (g : (α → ℝ) × (Fin x.length → ℝ)) => ((fun i => g.1 (z i)), g.2)) (ψ := id) (by fun_prop) measurable_id
  have h3 := hind2.hasGaussianLaw h2 hg
  let L : (((Fin x.length ⊕ Fin xs.length → ℝ) × (Fin x.length → ℝ)) × (Fin xs.length → ℝ)) →L[ℝ]
      (Fin x.length → ℝ) × (Fin xs.length → ℝ) :=
    { toFun w := ((fun i => w.1.1 (.inl i) + w.1.2 i), fun j => w.1.1 (.inr j) + w.2 j)
      map_add' w v := by ext <;> simp <;> ring
      map_smul' m w := by ext <;> simp <;> ring }
  exact h3.map_fun L

/-- The conditional distribution of noisy process values given the observations. -/
theorem Describes.conditional (hd : Describes P μ k x V f e) (hA : (Kmat k x x + V).PosDef) (xs : List α)
    {e' : Fin xs.length → Ω → ℝ} (hg : HasGaussianLaw (fun ω j => e' j ω) P) (h0 : ∀ j, ∫ ω, e' j ω ∂P = 0)
    {W : Matrix (Fin xs.length) (Fin xs.length) ℝ} (hW : ∀ i j, cov[e' i, e' j; P] = W i j)
    (hi : IndepFun (fun ω => ((fun a => f a ω), fun i => e i ω)) (fun ω j => e' j ω) P) :
    HasCondDistrib (fun ω (j : Fin xs.length) => f xs[j] ω + e' j ω) (fun ω (i : Fin x.length) => f x[i] ω + e i ω)
      (condGauss (Kmat k x x + V) (Kmat k x xs) (Kmat k xs xs + W) (fun j => μ xs[j]) fun i => μ x[i]) P ∧
      (condCov (Kmat k x x + V) (Kmat k x xs) (Kmat k xs xs + W)).PosSemidef := by
  have := hd.process.isProbabilityMeasure
  have hf2 : ∀ a, MemLp (f a) 2 P := process_memLp hd.process
  have he2 : ∀ i, MemLp (e i) 2 P := fun i => (hd.noise.eval i).memLp_two
  have hg2 : ∀ j, MemLp (e' j) 2 P := fun j => (hg.eval j).memLp_two
  have hfe : ∀ a i, cov[f a, e i; P] = 0 := fun a i =>
    (hd.indep.comp (φ := fun g : α → ℝ => g a) (ψ := fun g : Fin x.length → ℝ => g i) (by fun_prop) (by fun_prop)).covariance_eq_zero (hf2 a) (he2 i)
  have hef : ∀ i a, cov[e i, f a; P] = 0 := fun i a => by rw [covariance_comm, hfe]
  have hfg : ∀ a j, cov[f a, e' j; P] = 0 := fun a j =>
    (hi.comp (φ := fun g : (α → ℝ) × (Fin x.length → ℝ) => g.1 a) (ψ := fun g : Fin xs.length → ℝ => g j) (by fun_prop)
      (by fun_prop)).covariance_eq_zero (hf2 a) (hg2 j)
  have hgf : ∀ j a, cov[e' j, f a; P] = 0 := fun i a => by rw [covariance_comm, hfg]
  have heg : ∀ i j, cov[e i, e' j; P] = 0 := fun i j =>
    (hi.comp (φ := fun g : (α → ℝ) × (Fin x.length → ℝ) => g.2 i) (ψ := fun g : Fin xs.length → ℝ => g j) (by fun_prop)
      (by fun_prop)).covariance_eq_zero (he2 i) (hg2 j)
  refine gauss_conditional (Y := fun i => f x[i] + e i) (F := fun j => f xs[j] + e' j) (hd.joint xs hg hi) _ (fun i => ?_) _
    (fun j => ?_) hA (fun i j => ?_) _ (fun i j => ?_) _ fun i j => ?_
  · simp only [Pi.add_apply]
    rw [integral_add ((hf2 _).integrable (by norm_num)) ((he2 i).integrable (by norm_num)), hd.mean, hd.noiseMean, add_zero]
  · simp only [Pi.add_apply]
    rw [integral_add ((hf2 _).integrable (by norm_num)) ((hg2 j).integrable (by norm_num)), hd.mean, h0, add_zero]
  · rw [covariance_add_left (hf2 _) (he2 i) ((hf2 _).add (he2 j)), covariance_add_right (hf2 _) (hf2 _) (he2 j),
      covariance_add_right (he2 i) (hf2 _) (he2 j), hfe, hef, hd.cov, hd.noiseCov]
    simp [Kmat]
  · rw [covariance_add_left (hf2 _) (he2 i) ((hf2 _).add (hg2 j)), covariance_add_right (hf2 _) (hf2 _) (hg2 j),
      covariance_add_right (he2 i) (hf2 _) (hg2 j), hfg, hef, heg, hd.cov]
    simp [Kmat]
  · rw [covariance_add_left (hf2 _) (hg2 i) ((hf2 _).add (hg2 j)), covariance_add_right (hf2 _) (hf2 _) (hg2 j),
      covariance_add_right (hg2 i) (hf2 _) (hg2 j), hfg, hgf, hd.cov, hW]
    simp [Kmat]

/-- The conditional distribution of process values given the observations. -/
theorem Describes.latent (hd : Describes P μ k x V f e) (hA : (Kmat k x x + V).PosDef) (xs : List α) :
    HasCondDistrib (fun ω (j : Fin xs.length) => f xs[j] ω) (fun ω (i : Fin x.length) => f x[i] ω + e i ω)
      (condGauss (Kmat k x x + V) (Kmat k x xs) (Kmat k xs xs) (fun j => μ xs[j]) fun i => μ x[i]) P ∧
      (condCov (Kmat k x x + V) (Kmat k x xs) (Kmat k xs xs)).PosSemidef := by
  have := hd.process.isProbabilityMeasure
  obtain ⟨h1, h2⟩ := hd.conditional hA xs (e' := fun _ _ => 0) (W := 0)
    (by have : (fun (ω : Ω) (j : Fin xs.length) => (0 : ℝ)) = fun _ => 0 := rfl
        rw [this]; exact ⟨by rw [Measure.map_const]; simp; infer_instance⟩) (fun j => by simp) (fun i j => by simp)
    (indepFun_const_right _ _)
  simp only [add_zero] at h1 h2
  exact ⟨h1, h2⟩

/-- The law of the observations. -/
theorem Describes.marginal (hd : Describes P μ k x V f e) :
    P.map (fun ω (i : Fin x.length) => f x[i] ω + e i ω) = gaussLaw (fun i => μ x[i]) (Kmat k x x + V) := by
  have := hd.process.isProbabilityMeasure
  have hf2 : ∀ a, MemLp (f a) 2 P := process_memLp hd.process
  have he2 : ∀ i, MemLp (e i) 2 P := fun i => (hd.noise.eval i).memLp_two
  have hfe : ∀ a i, cov[f a, e i; P] = 0 := fun a i =>
    (hd.indep.comp (φ := fun g : α → ℝ => g a) (ψ := fun g : Fin x.length → ℝ => g i) (by fun_prop)
      (by fun_prop)).covariance_eq_zero (hf2 a) (he2 i)
  have hef : ∀ i a, cov[e i, f a; P] = 0 := fun i a => by rw [covariance_comm, hfe]
  have hind : IndepFun (fun ω (i : Fin x.length) => f x[i] ω) (fun ω i => e i ω) P :=
    hd.indep.comp (φ := fun (g : α → ℝ) (i : Fin x.length) => g x[i]) (ψ := id) (by fun_prop) measurable_id
  have hg := (hind.hasGaussianLaw (process_vector hd.process fun i : Fin x.length => x[i]) hd.noise).fun_add
  refine gauss_unique (X := fun i => f x[i] + e i) hg _ (fun i => ?_) _ fun i j => ?_
  · simp only [Pi.add_apply]
    rw [integral_add ((hf2 _).integrable (by norm_num)) ((he2 i).integrable (by norm_num)), hd.mean, hd.noiseMean, add_zero]
  · rw [covariance_add_left (hf2 _) (he2 i) ((hf2 _).add (he2 j)), covariance_add_right (hf2 _) (hf2 _) (he2 j),
      covariance_add_right (he2 i) (hf2 _) (he2 j), hfe, hef, hd.cov, hd.noiseCov]
    simp [Kmat]

end vectors

/-! ## C25 -/

theorem observed_specMean (c : Config α H) (hc : c.noise ≠ .default) {g : H → α → ℝ} (hg : c.mean = some g) (d : Data α)
    (y : Fin d.x.length → ℝ) (h : H) (xs : List α) : specMean c (d.observed y) h xs 0
      = condMean (KVmat c d h) (Kmat (c.kernel h) d.x xs) (fun j => g h xs[j]) (fun i => g h d.x[i]) y := by
  have h1 : ∀ zs : List α, meanAt c (d.observed y) h zs = fun i => g h zs[i] := by
    intro zs
    funext i
    simp [meanAt, meanFn, hg]
  have h2 : yCol (d.observed y) 0 = y := funext fun i => observed_yMat d y i
  unfold specMean
  rw [observed_KVmat c hc d y h, h1, h1, h2]
  rfl

/-- **C25** (conditional law). Let `f` be a Gaussian process with the configured mean function and kernel, observed at the data
points with the configured Gaussian noise. The conditional distribution of the values of `f` at any prediction points, given that
the observations are `y`, is the Gaussian with the posterior mean and the posterior covariance that the GP constructed from the
values `y` returns. (The mean and the noise must be given by the user: the defaults are computed from `y` itself.) -/
theorem C25_conditional_law (c : Config α H) (d : Data α) (h : H) (he : SpluContract c.ext) (ha : Admissible c d h)
    (hn : c.noise ≠ .default) {g : H → α → ℝ} (hm : c.mean = some g) {mΩ : MeasurableSpace Ω} (P : Measure Ω) (f : α → Ω → ℝ)
    (e : Fin d.x.length → Ω → ℝ)
    (hd : Describes P (g h) (c.kernel h) d.x ((calcV c d h d.x).mat d.x.length) f e) (xs : List α) :
    ∃ κ : Kernel (Fin d.x.length → ℝ) (Fin xs.length → ℝ),
      HasCondDistrib (fun ω j => f xs[j] ω) (fun ω i => f d.x[i] ω + e i ω) κ P ∧
      ∀ y : Fin d.x.length → ℝ, ∃ gp, init c (d.observed y) h = .ok gp ∧ ∀ (chunk : ℕ) (junk : NMat),
        ∃ v S, posteriorCovariance gp xs false false chunk junk = .ok (v, some S) ∧
          κ y = gaussLaw (fun j : Fin xs.length => posteriorMean gp xs j 0) (Matrix.of fun i j : Fin xs.length => S i j) := by
  obtain ⟨h1, h2⟩ := hd.latent ha.posDef xs
  refine ⟨_, h1, fun y => ?_⟩
  have hay := observed_admissible hn ha y
  obtain ⟨gp, hgp, hmean⟩ := C25_posterior_mean c (d.observed y) h he hay
  obtain ⟨gp', hgp', hcov⟩ := C25_posterior_covariance c (d.observed y) h he hay
  obtain rfl : gp = gp' := by rw [hgp] at hgp'; exact Except.ok.inj hgp'
  refine ⟨gp, hgp, fun chunk junk => ?_⟩
  obtain ⟨v, S, hS, hvS⟩ := hcov xs chunk junk
  refine ⟨v, S, hS, ?_⟩
  have hspec : specCov c (d.observed y) h xs = condCov (KVmat c d h) (Kmat (c.kernel h) d.x xs) (Kmat (c.kernel h) xs xs) := by
    unfold specCov
    rw [observed_KVmat c hn d y h]
    rfl
  change gaussLaw _ _ = _
  congr 1
  · funext j
    rw [hmean xs j 0, observed_specMean c hn hm]
    rfl
  · ext i j
    rw [of_apply]
    by_cases hij : i = j
    · subst hij
      rw [(hvS i).2.1, (hvS i).1, hspec, max_eq_right]
      · rfl
      · exact h2.diag_nonneg
    · rw [(hvS i).2.2 j hij, hspec]
      rfl

/-- **C25** (predictive law). With `add_noise=True` and noise given by a vector or a dense matrix of the right size, the result is
the conditional distribution of new noisy observations at the prediction points, whose noise has the configured covariance there
and is independent of the process and of the noise of the data. -/
theorem C25_predictive_law (c : Config α H) (d : Data α) (h : H) (he : SpluContract c.ext) (ha : Admissible c d h)
    (hn : c.noise ≠ .default) {g : H → α → ℝ} (hm : c.mean = some g) {mΩ : MeasurableSpace Ω} (P : Measure Ω) (f : α → Ω → ℝ)
    (e : Fin d.x.length → Ω → ℝ)
    (hd : Describes P (g h) (c.kernel h) d.x ((calcV c d h d.x).mat d.x.length) f e) (xs : List α)
    (hfit : (calcV c d h xs).Fits xs.length false) (hsp : ∀ r q W, calcV c d h xs ≠ .sparse r q W)
    (e' : Fin xs.length → Ω → ℝ) (hg : HasGaussianLaw (fun ω j => e' j ω) P) (h0 : ∀ j, ∫ ω, e' j ω ∂P = 0)
    (hW : ∀ i j, cov[e' i, e' j; P] = (calcV c d h xs).mat xs.length i j)
    (hi : IndepFun (fun ω => ((fun a => f a ω), fun i => e i ω)) (fun ω j => e' j ω) P) :
    ∃ κ : Kernel (Fin d.x.length → ℝ) (Fin xs.length → ℝ),
      HasCondDistrib (fun ω j => f xs[j] ω + e' j ω) (fun ω i => f d.x[i] ω + e i ω) κ P ∧
      ∀ y : Fin d.x.length → ℝ, ∃ gp, init c (d.observed y) h = .ok gp ∧ ∀ (chunk : ℕ) (junk : NMat),
        ∃ v S, posteriorCovariance gp xs false true chunk junk = .ok (v, some S) ∧
          κ y = gaussLaw (fun j : Fin xs.length => posteriorMean gp xs j 0) (Matrix.of fun i j : Fin xs.length => S i j) := by
  obtain ⟨h1, -⟩ := hd.conditional ha.posDef xs hg h0 hW hi
  refine ⟨_, h1, fun y => ?_⟩
  have hps := (hd.latent ha.posDef xs).2
  have hay := observed_admissible hn ha y
  obtain ⟨gp, hgp, hmean⟩ := C25_posterior_mean c (d.observed y) h he hay
  obtain ⟨gp', hgp', hcov⟩ := C25_posterior_covariance c (d.observed y) h he hay
  obtain rfl : gp = gp' := by rw [hgp] at hgp'; exact Except.ok.inj hgp'
  obtain ⟨gp', hgp', -, hcfg, hdata, hhps⟩ := init_ok c (d.observed y) h he hay
  obtain rfl : gp = gp' := by rw [hgp] at hgp'; exact Except.ok.inj hgp'
  refine ⟨gp, hgp, fun chunk junk => ?_⟩
  obtain ⟨v, S, hS, hvS⟩ := hcov xs chunk junk
  have hspec : specCov c (d.observed y) h xs = condCov (KVmat c d h) (Kmat (c.kernel h) d.x xs) (Kmat (c.kernel h) xs xs) := by
    unfold specCov
    rw [observed_KVmat c hn d y h]
    rfl
  have hSe : ∀ i j : Fin xs.length, S i j = condCov (KVmat c d h) (Kmat (c.kernel h) d.x xs) (Kmat (c.kernel h) xs xs) i j := by
    intro i j
    by_cases hij : i = j
    · subst hij
      rw [(hvS i).2.1, (hvS i).1, hspec]
      exact max_eq_right hps.diag_nonneg
    · rw [(hvS i).2.2 j hij, hspec]
  have hm' : (fun j : Fin xs.length => posteriorMean gp xs j 0)
      = condMean (KVmat c d h) (Kmat (c.kernel h) d.x xs) (fun j => g h xs[j]) (fun i => g h d.x[i]) y := by
    funext j
    rw [hmean xs j 0, observed_specMean c hn hm]
  have hV : calcV gp.cfg gp.data gp.hps xs = calcV c d h xs := by rw [hcfg, hdata, hhps, observed_calcV c hn d y h]
  have key : ∃ v' S', posteriorCovariance gp xs false true chunk junk = .ok (v', some S') ∧
      ∀ i j : Fin xs.length, S' i j = S i j + (calcV c d h xs).mat xs.length i j := by
    simp only [posteriorCovariance, Bool.false_eq_true, if_false, Except.ok.injEq] at hS
    simp only [posteriorCovariance, if_true, hS, addNoise, hV]
    cases hc : calcV c d h xs with
    | diag len w =>
      rw [hc] at hfit
      dsimp only
      rw [if_pos (show len = xs.length from hfit)]
      refine ⟨_, _, rfl, fun i j => ?_⟩
      simp [Noise.mat, diagonal_apply, Fin.ext_iff]
    | dense r q W =>
      rw [hc] at hfit
      dsimp only
      rw [if_pos (show r = xs.length ∧ q = xs.length from ⟨hfit.1, hfit.2.1⟩)]
      exact ⟨_, _, rfl, fun i j => rfl⟩
    | sparse r q W => exact absurd hc (hsp r q W)
  obtain ⟨v', S', hS', hSV⟩ := key
  refine ⟨v', S', hS', ?_⟩
  change gaussLaw _ _ = _
  rw [hm']
  congr 1
  ext i j
  rw [of_apply, hSV, hSe, condCov, condCov, Matrix.sub_apply, Matrix.sub_apply, Matrix.add_apply]
  exact add_sub_right_comm _ _ _

/-! ## C37 -/

/-- **C37** (density of the observations). The law of the noisy observations of the process has a density, and its value at `y` is
the exponential of the log marginal likelihood of the GP constructed from the values `y`. In particular that function of `y`
integrates to one. -/
theorem C37_observation_density (c : Config α H) (d : Data α) (h : H) (he : SpluContract c.ext) (hmode : c.mode ≠ .sparseSolve)
    (ha : Admissible c d h) (hn : c.noise ≠ .default) {g : H → α → ℝ} (hm : c.mean = some g) {mΩ : MeasurableSpace Ω}
    (P : Measure Ω) (f : α → Ω → ℝ) (e : Fin d.x.length → Ω → ℝ)
    (hd : Describes P (g h) (c.kernel h) d.x ((calcV c d h d.x).mat d.x.length) f e) :
    ∃ ℓ : (Fin d.x.length → ℝ) → ℝ, (∀ y, ∃ gp, init c (d.observed y) h = .ok gp ∧ logLikelihood gp = ℓ y) ∧
      P.map (fun ω i => f d.x[i] ω + e i ω) = volume.withDensity (fun y => ENNReal.ofReal (Real.exp (ℓ y))) ∧
      ∫⁻ y, ENNReal.ofReal (Real.exp (ℓ y)) = 1 := by
  have hex : ∀ y, ∃ gp, init c (d.observed y) h = .ok gp ∧
      Real.exp (logLikelihood gp) = normalDensity (KVmat c d h) (fun i => g h d.x[i]) y := by
    intro y
    obtain ⟨gp, hgp, hL⟩ := C37_one_column c (d.observed y) h he hmode (observed_admissible hn ha y)
      (by simp [Data.observed]) rfl
    refine ⟨gp, hgp, ?_⟩
    rw [hL, observed_KVmat c hn d y h]
    congr 1
    · funext i
      simp only [meanAt, meanFn, hm]
      rfl
    · exact funext fun i => observed_yMat d y i
  choose gp hgp hL using hex
  refine ⟨fun y => logLikelihood (gp y), fun y => ⟨gp y, hgp y, rfl⟩, ?_⟩
  have h1 : P.map (fun ω i => f d.x[i] ω + e i ω)
      = volume.withDensity (fun y => ENNReal.ofReal (Real.exp (logLikelihood (gp y)))) := by
    rw [hd.marginal]
    refine (gaussLaw_density _ ha.posDef).trans ?_
    simp only [hL]
  refine ⟨h1, ?_⟩
  have := hd.process.isProbabilityMeasure
  have hmeas : AEMeasurable (fun ω (i : Fin d.x.length) => f d.x[i] ω + e i ω) P :=
    aemeasurable_pi_lambda _ fun i => (process_memLp hd.process _).aestronglyMeasurable.aemeasurable.add
      (hd.noise.eval i).aemeasurable
  have h2 : (P.map fun ω i => f d.x[i] ω + e i ω) Set.univ = 1 := by
    rw [Measure.map_apply_of_aemeasurable hmeas MeasurableSet.univ]; simp
  rw [h1, withDensity_apply _ MeasurableSet.univ] at h2
  simpa using h2

/-! ## A concrete process

The example configuration of `PostProps.lean` (kernel `h² (1 + a b)`, mean `a`, noise variances `1, 1/2, 1`) is described by
`f a = a + h (ω₀ + a ω₁)`, `e = (ω₂, √(1/2) ω₃, ω₄)`, and at a new point `e' = √(5/6) ω₅` for six independent standard normal variables. -/

/-- Six independent standard normal variables. -/
noncomputable def exP : Measure (Fin 6 → ℝ) := Measure.pi fun _ => gaussianReal 0 1

/-- The process. -/
def exProcess (h : ℝ) (a : ℝ) (ω : Fin 6 → ℝ) : ℝ := a + h * (ω 0 + a * ω 1)

/-- The noise. -/
noncomputable def exError (i : Fin 3) (ω : Fin 6 → ℝ) : ℝ := √(([1, 1 / 2, 1] : List ℝ).getD i 0) * ω ⟨i + 2, by omega⟩

instance : IsProbabilityMeasure exP := by unfold exP; infer_instance

theorem exP_gauss : HasGaussianLaw (fun ω : Fin 6 → ℝ => ω) exP := by
  have := iIndepFun.hasGaussianLaw (P := exP) (X := fun (i : Fin 6) (ω : Fin 6 → ℝ) => ω i) (fun i => ?_) ?_
  · exact this
  · refine ⟨?_⟩
    have : exP.map (fun ω => ω i) = gaussianReal 0 1 := (measurePreserving_eval (fun _ : Fin 6 => gaussianReal 0 1) i).map_eq
    rw [this]
    infer_instance
  · exact iIndepFun_pi (X := fun _ => id) fun i => by fun_prop

theorem exP_map (i : Fin 6) : exP.map (fun ω => ω i) = gaussianReal 0 1 :=
  (measurePreserving_eval (fun _ : Fin 6 => gaussianReal 0 1) i).map_eq

theorem exP_mean (i : Fin 6) : ∫ ω, ω i ∂exP = 0 := by
  have hm : Measurable fun ω : Fin 6 → ℝ => ω i := measurable_pi_apply i
  have h := integral_map (μ := exP) (φ := fun ω => ω i) (f := fun z : ℝ => z) hm.aemeasurable (by fun_prop)
  rw [← h, exP_map]
  exact integral_id_gaussianReal

theorem exP_indep : iIndepFun (fun (i : Fin 6) (ω : Fin 6 → ℝ) => ω i) exP :=
  iIndepFun_pi (X := fun _ => id) fun i => by fun_prop

theorem exP_cov (i j : Fin 6) : cov[fun ω => ω i, fun ω => ω j; exP] = if i = j then 1 else 0 := by
  have h2 : ∀ i : Fin 6, MemLp (fun ω : Fin 6 → ℝ => ω i) 2 exP := fun i => (exP_gauss.eval i).memLp_two
  split_ifs with hij
  · subst hij
    have hm : Measurable fun ω : Fin 6 → ℝ => ω i := measurable_pi_apply i
    rw [covariance_self hm.aemeasurable]
    have := variance_map (μ := exP) (X := fun z : ℝ => z) (Y := fun ω : Fin 6 → ℝ => ω i) (by fun_prop) hm.aemeasurable
    rw [exP_map] at this
    have h1 : Var[fun z : ℝ => z; gaussianReal 0 1] = 1 := by simpa using variance_fun_id_gaussianReal (μ := 0) (v := 1)
    rw [h1] at this
    exact this.symm
  · exact (exP_indep.indepFun hij).covariance_eq_zero (h2 i) (h2 j)

theorem exP_cov_linear (a b : Fin 6 → ℝ) : cov[fun ω => ∑ l, a l * ω l, fun ω => ∑ l, b l * ω l; exP] = ∑ l, a l * b l := by
  have h2 : ∀ i : Fin 6, MemLp (fun ω : Fin 6 → ℝ => ω i) 2 exP := fun i => (exP_gauss.eval i).memLp_two
  rw [covariance_fun_sum_fun_sum (fun i => (h2 i).const_mul _) fun i => (h2 i).const_mul _]
  refine Finset.sum_congr rfl fun l _ => ?_
  simp only [covariance_const_mul_left, covariance_const_mul_right, exP_cov]
  simp [mul_comm]

theorem exP_linear_integrable (a : Fin 6 → ℝ) : Integrable (fun ω => ∑ l, a l * ω l) exP :=
  integrable_finset_sum _ fun l _ => ((exP_gauss.eval l).integrable).const_mul _

theorem exP_linear_mean (a : Fin 6 → ℝ) : ∫ ω, ∑ l, a l * ω l ∂exP = 0 := by
  rw [integral_finset_sum _ fun l _ => ((exP_gauss.eval l).integrable).const_mul _]
  simp [integral_const_mul, exP_mean]

theorem exProcess_eq (h a : ℝ) : exProcess h a = fun ω => a + ∑ l, ![h, h * a, 0, 0, 0, 0] l * ω l := by
  funext ω
  simp [exProcess, Fin.sum_univ_six]
  ring

theorem exError_eq (i : Fin 3) : exError i = fun ω => ∑ l : Fin 6,
    (if (l : ℕ) = i + 2 then √(([1, 1 / 2, 1] : List ℝ).getD i 0) else 0) * ω l := by
  funext ω
  rw [Finset.sum_eq_single ⟨i + 2, by omega⟩]
  · simp [exError]
  · intro l _ hl
    rw [if_neg fun h => hl (Fin.ext h), zero_mul]
  · simp

theorem exError_mean (i : Fin 3) : ∫ ω, exError i ω ∂exP = 0 := by
  rw [exError_eq]
  exact exP_linear_mean _

theorem exError_cov (i j : Fin 3) :
    cov[exError i, exError j; exP] = (Matrix.diagonal fun i : Fin 3 => ([1, 1 / 2, 1] : List ℝ).getD i 0) i j := by
  rw [exError_eq, exError_eq, exP_cov_linear]
  have hs' : √(2 : ℝ) * √2 = 2 := Real.mul_self_sqrt (by norm_num)
  fin_cases i <;> fin_cases j <;> simp [Fin.sum_univ_six, ← mul_inv, hs']

theorem exDescribes (mode : Mode) (h : ℝ) : Describes exP (fun a => a) ((exCfg mode).kernel h) exData.x
    ((calcV (exCfg mode) exData h exData.x).mat exData.x.length) (exProcess h) exError where
  process := by
    refine ⟨fun I => ?_⟩
    let L : (Fin 6 → ℝ) →L[ℝ] (I → ℝ) :=
      { toFun w a := h * (w 0 + a * w 1)
        map_add' w v := by ext; simp; ring
        map_smul' m w := by ext; simp; ring }
    have h1 : HasGaussianLaw (fun _ : Fin 6 → ℝ => fun a : I => (a : ℝ)) exP :=
      ⟨by rw [Measure.map_const]; simp; infer_instance⟩
    have h2 := (indepFun_const_left (fun a : I => (a : ℝ)) fun ω => L ω).hasGaussianLaw h1 (exP_gauss.map_fun L)
    exact h2.fun_add
  mean a := by
    rw [exProcess_eq, integral_add (integrable_const _) (exP_linear_integrable _), exP_linear_mean]
    simp
  cov a b := by
    rw [exProcess_eq, exProcess_eq, covariance_const_add_left (exP_linear_integrable _),
      covariance_const_add_right (exP_linear_integrable _), exP_cov_linear]
    simp [exCfg, Fin.sum_univ_six]
    ring
  noise := by
    let L : (Fin 6 → ℝ) →L[ℝ] (Fin 3 → ℝ) :=
      { toFun w i := √(([1, 1 / 2, 1] : List ℝ).getD i 0) * w ⟨i + 2, by omega⟩
        map_add' w v := by ext; simp; ring
        map_smul' m w := by ext; simp; ring }
    exact exP_gauss.map_fun L
  noiseMean := exError_mean
  noiseCov := by
    have hV : calcV (exCfg mode) exData h exData.x = .diag 3 fun i => ([1, 1 / 2, 1] : List ℝ).getD i 0 := by
      simp [calcV, exCfg, exData]
    rw [hV]
    exact exError_cov
  indep := by
    have h1 := exP_indep.indepFun_finset {0, 1} {2, 3, 4} (by decide) fun i => measurable_pi_apply i
    exact h1.comp (φ := fun (w : ({0, 1} : Finset (Fin 6)) → ℝ) (a : ℝ) => a + h * (w ⟨0, by simp⟩ + a * w ⟨1, by simp⟩))
      (ψ := fun (w : ({2, 3, 4} : Finset (Fin 6)) → ℝ) (i : Fin 3) => √(([1, 1 / 2, 1] : List ℝ).getD i 0) *
        w ⟨⟨i + 2, by omega⟩, by fin_cases i <;> simp⟩) (by fun_prop) (by fun_prop)

example (mode : Mode) (xs : List ℝ) : ∃ κ : Kernel (Fin 3 → ℝ) (Fin xs.length → ℝ),
    HasCondDistrib (fun ω j => exProcess 2 xs[j] ω) (fun ω (i : Fin 3) => exProcess 2 exData.x[i] ω + exError i ω) κ exP ∧
      ∀ y : Fin 3 → ℝ, ∃ gp, init (exCfg mode) (exData.observed y) 2 = .ok gp ∧ ∀ (chunk : ℕ) (junk : NMat),
        ∃ v S, posteriorCovariance gp xs false false chunk junk = .ok (v, some S) ∧
          κ y = gaussLaw (fun j : Fin xs.length => posteriorMean gp xs j 0) (Matrix.of fun i j : Fin xs.length => S i j) :=
  C25_conditional_law (exCfg mode) exData 2 cholExt_contract (exAdmissible mode 2) (by simp [exCfg]) rfl exP _ _
    (exDescribes mode 2) xs

example : ∃ ℓ : (Fin 3 → ℝ) → ℝ, (∀ y, ∃ gp, init (exCfg .cholInv) (exData.observed y) 2 = .ok gp ∧ logLikelihood gp = ℓ y) ∧
      exP.map (fun ω (i : Fin 3) => exProcess 2 exData.x[i] ω + exError i ω)
        = volume.withDensity (fun y => ENNReal.ofReal (Real.exp (ℓ y))) ∧
      ∫⁻ y, ENNReal.ofReal (Real.exp (ℓ y)) = 1 :=
  C37_observation_density (exCfg .cholInv) exData 2 cholExt_contract (by simp [exCfg]) (exAdmissible _ 2) (by simp [exCfg]) rfl
    exP _ _ (exDescribes _ 2)

/-- Noise of a new observation at the point `3`. -/
noncomputable def exNewError (_ : Fin 1) (ω : Fin 6 → ℝ) : ℝ := √(5 / 6) * ω 5

theorem exNewError_eq (i : Fin 1) : exNewError i = fun ω => ∑ l : Fin 6, ![0, 0, 0, 0, 0, √(5 / 6)] l * ω l := by
  funext ω
  simp [exNewError, Fin.sum_univ_six]

theorem exNew_noise (mode : Mode) (h : ℝ) : calcV (exCfg mode) exData h [3] = .diag 1 fun _ => 5 / 6 := by
  simp [calcV, exCfg, exData]
  norm_num

theorem exNew_mean (i : Fin 1) : ∫ ω, exNewError i ω ∂exP = 0 := by
  rw [exNewError_eq]
  exact exP_linear_mean _

theorem exNew_cov (i j : Fin 1) : cov[exNewError i, exNewError j; exP] = (Matrix.diagonal fun _ : Fin 1 => (5 / 6 : ℝ)) i j := by
  rw [exNewError_eq, exNewError_eq, exP_cov_linear, Subsingleton.elim i j, diagonal_apply_eq]
  have : √(5 / 6 : ℝ) * √(5 / 6) = 5 / 6 := Real.mul_self_sqrt (by norm_num)
  simpa [Fin.sum_univ_six, -Real.sqrt_div'] using this

theorem exNew_gauss : HasGaussianLaw (fun ω j => exNewError j ω) exP := by
  let L : (Fin 6 → ℝ) →L[ℝ] (Fin 1 → ℝ) :=
    { toFun w i := √(5 / 6) * w 5
      map_add' w v := by ext; simp; ring
      map_smul' m w := by ext; simp; ring }
  exact exP_gauss.map_fun L

theorem exNew_indep (h : ℝ) :
    IndepFun (fun ω => ((fun a => exProcess h a ω), fun i => exError i ω)) (fun ω j => exNewError j ω) exP := by
  have h1 := exP_indep.indepFun_finset {0, 1, 2, 3, 4} {5} (by decide) fun i => measurable_pi_apply i
  exact h1.comp (φ := fun (w : ({0, 1, 2, 3, 4} : Finset (Fin 6)) → ℝ) =>
      ((fun a : ℝ => a + h * (w ⟨0, by simp⟩ + a * w ⟨1, by simp⟩)), fun i : Fin 3 => √(([1, 1 / 2, 1] : List ℝ).getD i 0) *
        w ⟨⟨i + 2, by omega⟩, by fin_cases i <;> simp⟩))
    (ψ := fun (w : ({5} : Finset (Fin 6)) → ℝ) (_ : Fin 1) => √(5 / 6) * w ⟨5, by simp⟩) (by fun_prop) (by fun_prop)

example (mode : Mode) : ∃ κ : Kernel (Fin 3 → ℝ) (Fin 1 → ℝ),
    HasCondDistrib (fun ω j => exProcess 2 ([3] : List ℝ)[j] ω + exNewError j ω)
      (fun ω (i : Fin 3) => exProcess 2 exData.x[i] ω + exError i ω) κ exP ∧
      ∀ y : Fin 3 → ℝ, ∃ gp, init (exCfg mode) (exData.observed y) 2 = .ok gp ∧ ∀ (chunk : ℕ) (junk : NMat),
        ∃ v S, posteriorCovariance gp [3] false true chunk junk = .ok (v, some S) ∧
          κ y = gaussLaw (fun j : Fin 1 => posteriorMean gp [3] j 0) (Matrix.of fun i j : Fin 1 => S i j) :=
  C25_predictive_law (exCfg mode) exData 2 cholExt_contract (exAdmissible mode 2) (by simp [exCfg]) rfl exP _ _
    (exDescribes mode 2) [3] (by rw [exNew_noise]; rfl) (fun r q W => by rw [exNew_noise]; simp) exNewError exNew_gauss exNew_mean
    (by rw [exNew_noise]; exact exNew_cov) (exNew_indep 2)

end Verif.GP
