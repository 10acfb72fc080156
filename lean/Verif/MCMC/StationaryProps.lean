import Verif.MCMC.AdaptProps
import Verif.MCMC.Props
import Verif.MCMC.StationaryLemmas
import Mathlib.Probability.Distributions.Gaussian.Real
import Mathlib.MeasureTheory.Function.Floor

/-!
C144: the sampler leaves prior times likelihood invariant.
-/

namespace Verif.MCMC

open MeasureTheory Set ProbabilityTheory
open scoped ENNReal

variable {d : ℕ} {prior : Pos d → WithBot ℝ}

/-- Prior times likelihood. -/
noncomputable def joint (prior : Pos d → WithBot ℝ) (F : Pos d → ℝ) (x : Pos d) : ℝ := target (prior x) (F x)

theorem joint_nonneg (F : Pos d → ℝ) (x : Pos d) : 0 ≤ joint prior F x := by
  unfold joint target
  split
  · exact le_rfl
  · exact (Real.exp_pos _).le

/-- The chain at a position. -/
noncomputable def stateAt (prior : Pos d → WithBot ℝ) (F : Pos d → ℝ) (x : Pos d) : Chain d := ⟨x, prior x, some (F x)⟩

/-- A proposal with increment `e` is accepted exactly when the uniform draw times the old density is below the new density. -/
theorem jump_stateAt (F : Pos d → ℝ) (x e : Pos d) (u : ℝ) (h0 : 0 ≤ u) (h1 : u < 1) :
    ∃ jt, jump (fun x => some (F x)) prior false (stateAt prior F x) (x + e) u
      = .ok (stateAt prior F (mstep (joint prior F) x e u), jt) := by
  unfold jump mstep
  cases hy : prior (x + e) with
  | bot =>
    have hj : joint prior F (x + e) = 0 := by simp only [joint, hy]; rfl
    have : ¬ u * joint prior F x < joint prior F (x + e) := by
      rw [hj, not_lt]; exact mul_nonneg h0 (joint_nonneg F x)
    rw [if_neg this]
    exact ⟨0, rfl⟩
  | coe ps =>
    have hj : joint prior F (x + e) = Real.exp (ps + F (x + e)) := by simp only [joint, hy]; rfl
    have key : metrRatio ps (F (x + e)) (stateAt prior F x).prior (stateAt prior F x).lik > u ↔
        u * joint prior F x < joint prior F (x + e) := by
      rw [hj]
      simp only [stateAt, joint]
      cases hx : prior x with
      | bot =>
        have : metrRatio ps (F (x + e)) (⊥ : WithBot ℝ) (some (F x)) = 1.1 := rfl
        rw [this]
        have e0 : target (⊥ : WithBot ℝ) (F x) = 0 := rfl
        rw [e0, mul_zero]
        exact ⟨fun _ => Real.exp_pos _, fun _ => by norm_num; linarith⟩
      | coe p =>
        have e0 : target ((p : ℝ) : WithBot ℝ) (F x) = Real.exp (p + F x) := rfl
        have e1 : metrRatio ps (F (x + e)) ((p : ℝ) : WithBot ℝ) (some (F x)) =
            if ps + F (x + e) - p - F x < 50 then Real.exp (ps + F (x + e) - p - F x) else 1.1 := rfl
        have e2 : Real.exp (ps + F (x + e)) = Real.exp (ps + F (x + e) - p - F x) * Real.exp (p + F x) := by
          rw [← Real.exp_add]; congr 1; ring
        rw [e0, e1, e2, mul_lt_mul_iff_left₀ (Real.exp_pos _)]
        split
        · exact Iff.rfl
        · rename_i hc
          have : 1 ≤ Real.exp (ps + F (x + e) - p - F x) := Real.one_le_exp (by linarith)
          exact ⟨fun _ => by linarith, fun _ => by norm_num; linarith⟩
    have hc := (WithBot.some_eq_coe ps)
    by_cases h : u * joint prior F x < joint prior F (x + e)
    · rw [if_pos h]
      refine ⟨1, ?_⟩
      change (if _ then _ else _) = _
      rw [if_pos (Or.inl (key.2 h))]
      simp only [stateAt, hy]
      rfl
    · rw [if_neg h]
      refine ⟨0, ?_⟩
      change (if _ then _ else _) = _
      rw [if_neg (by rintro (h' | h'); exacts [h (key.1 h'), by simp at h'])]

/-- Specification of the draws of a run with `M` proposal objects: in every iteration each object proposes the old position plus an
increment, on its own coordinates; step `s = (i - 1) * M + j` uses the increment and the uniform draw `z s`. This is the normal
proposal (gp_mcmc.py:338-341) and any other random walk. -/
structure Walks (w : Draws d) (M : ℕ) (z : ℕ → Pos d × ℝ) : Prop where
  normal : ∀ i j S x k, 1 ≤ i → j < M → w.normal i j S x k = x k + (z ((i - 1) * M + j)).1 k
  user : ∀ i j o x k, 1 ≤ i → j < M → w.user i j o x k = x k + (z ((i - 1) * M + j)).1 k
  u : ∀ i j, 1 ≤ i → j < M → w.u i j = (z ((i - 1) * M + j)).2

/-- The coordinates moved in step `s`. -/
def coordsOf (objs : List (Proposal d)) (s : ℕ) : List (Fin d) := (objs.map (·.idx)).getD (s % objs.length) []

/-- What does not change in an object without adaptation. -/
def core (o : Proposal d) : List (Fin d) × Bool × Bool := (o.idx, o.adaptive, o.autoAccept)

theorem propose_walk {w : Draws d} {M : ℕ} {z : ℕ → Pos d × ℝ} (hw : Walks w M z) {i j : ℕ} (hi : 1 ≤ i) (hj : j < M)
    {o : Proposal d} {x y : Pos d} (h : propose w i j o x = .ok y) : y = x + maskTo o.idx (z ((i - 1) * M + j)).1 := by
  unfold propose at h
  split at h
  · split at h
    · simp at h
    · simp only [Except.ok.injEq] at h
      rw [← h]
      funext k
      simp only [maskTo, Pi.add_apply, hw.normal i j _ x k hi hj]
      split <;> simp
  · simp only [Except.ok.injEq] at h
    rw [← h]
    funext k
    simp only [maskTo, Pi.add_apply, hw.user i j _ x k hi hj]
    split <;> simp

theorem sweep_walk {w : Draws d} {M : ℕ} {z : ℕ → Pos d × ℝ} (hw : Walks w M z) (hz : ∀ s, 0 ≤ (z s).2 ∧ (z s).2 < 1)
    (F : Pos d → ℝ) (m : ℕ → List (Fin d)) (x0 : Pos d) {i : ℕ} (hi : 1 ≤ i) (xs : List (Pos d)) :
    ∀ (os : List (Proposal d)) (j : ℕ) (s s' : Chain d) (os' : List (Proposal d)),
      sweep (fun x => some (F x)) prior w i xs j s os = .ok (s', os') → j + os.length = M →
      (∀ o ∈ os, o.adaptive = false ∧ o.autoAccept = false) →
      (∀ l (hl : l < os.length), m ((i - 1) * M + (j + l)) = os[l].idx) →
      s = stateAt prior F (chainPos (joint prior F) m x0 z ((i - 1) * M + j)) →
      s' = stateAt prior F (chainPos (joint prior F) m x0 z ((i - 1) * M + M)) ∧ os'.map core = os.map core := by
  intro os
  induction os with
  | nil =>
    intro j s s' os' h hj _ _ hs
    simp only [sweep, Except.ok.injEq, Prod.mk.injEq] at h
    simp only [List.length_nil, add_zero] at hj
    rw [← h.1, ← h.2, hs, hj]
    exact ⟨rfl, rfl⟩
  | cons o os ih =>
    intro j s s' os' h hj hn hm hs
    obtain ⟨xStar, s1, jt, o1, os1, h1, h2, h3, h4, rfl⟩ := sweep_cons h
    simp only [List.length_cons] at hj
    obtain ⟨ha, hc⟩ := hn o (by simp)
    have hp := propose_walk hw hi (by omega) h1
    rw [hs] at hp
    set t := (i - 1) * M + j with ht
    obtain ⟨jt', hjump⟩ := jump_stateAt (prior := prior) F (chainPos (joint prior F) m x0 z t) (maskTo o.idx (z t).1) (z t).2
      (hz t).1 (hz t).2
    rw [hc, hs, hp, hw.u i j hi (by omega), ← ht] at h2
    have hx : (stateAt prior F (chainPos (joint prior F) m x0 z t)).x = chainPos (joint prior F) m x0 z t := rfl
    rw [hx, hjump] at h2
    simp only [Except.ok.injEq, Prod.mk.injEq] at h2
    have hm0 := hm 0 (by simp)
    simp only [add_zero, List.getElem_cons_zero] at hm0
    rw [← ht] at hm0
    have hs1 : s1 = stateAt prior F (chainPos (joint prior F) m x0 z ((i - 1) * M + (j + 1))) := by
      rw [← h2.1, ← add_assoc, ← ht]
      simp only [chainPos, hm0]
    obtain ⟨r1, r2⟩ := ih (j + 1) s1 s' os1 h4 (by omega) (fun o' ho' => hn o' (by simp [ho']))
      (fun l hl => by
        have := hm (l + 1) (by simp; omega)
        rw [List.getElem_cons_succ] at this
        rw [← this]
        congr 2
        omega) hs1
    refine ⟨r1, ?_⟩
    have hcore : core o1 = core o := by
      unfold adapt at h3
      rw [if_pos (by exact ha)] at h3
      simp only [Except.ok.injEq] at h3
      rw [← h3]
      rfl
    simp only [List.map_cons, hcore, r2]

theorem run_walk {w : Draws d} {z : ℕ → Pos d × ℝ} (F : Pos d → ℝ) (objs : List (Proposal d)) (hw : Walks w objs.length z)
    (hz : ∀ s, 0 ≤ (z s).2 ∧ (z s).2 < 1) (hobjs : ∀ o ∈ objs, o.adaptive = false ∧ o.autoAccept = false)
    (x0 : Pos d) (nUpdates : ℕ) (r : Run d) (h : runMCMC (fun x => some (F x)) prior w (fun _ => false) objs x0 nUpdates = .ok r) :
    r.trace.xs.length = max nUpdates 2 ∧
      ∀ k < max nUpdates 2, r.trace.xs.getD k x0 = chainPos (joint prior F) (coordsOf objs) x0 z (k * objs.length) := by
  set M := objs.length with hM
  have key := loop_invariant (f := fun x => some (F x)) (prior := prior) (w := w) (brk := fun _ => false)
    (fun i r => 1 ≤ i ∧ r.chain = stateAt prior F (chainPos (joint prior F) (coordsOf objs) x0 z ((i - 1) * M)) ∧
      r.objs.map core = objs.map core ∧ r.trace.xs.length = i ∧
      ∀ k < i, r.trace.xs.getD k x0 = chainPos (joint prior F) (coordsOf objs) x0 z (k * M))
    (by
      rintro i r r' ⟨hi, hch, hco, hlen, hval⟩ he
      obtain ⟨s, os, hs, rfl⟩ := iteration_ok he
      have hl : r.objs.length = M := by
        have := congrArg List.length hco
        simpa using this
      have hn : ∀ o ∈ r.objs, o.adaptive = false ∧ o.autoAccept = false := by
        intro o ho
        have : core o ∈ objs.map core := hco ▸ List.mem_map_of_mem ho
        obtain ⟨o2, ho2, he2⟩ := List.mem_map.1 this
        have h2 := hobjs o2 ho2
        simp only [core, Prod.mk.injEq] at he2
        exact ⟨he2.2.1 ▸ h2.1, he2.2.2 ▸ h2.2⟩
      have hidx : ∀ l (hl : l < r.objs.length), coordsOf objs ((i - 1) * M + (0 + l)) = r.objs[l].idx := by
        intro l hl'
        have hlM : l < M := hl ▸ hl'
        have e1 : ((i - 1) * M + (0 + l)) % objs.length = l := by
          rw [zero_add, ← hM, Nat.mul_add_mod_self_right, Nat.mod_eq_of_lt hlM]
        rw [coordsOf, e1]
        have hg : (r.objs.map core)[l]'(by simpa using hl') = (objs.map core)[l]'(by simpa using hlM) := by
          simp only [hco]
        simp only [List.getElem_map, core, Prod.mk.injEq] at hg
        rw [List.getD_eq_getElem _ _ (by simpa using hlM), List.getElem_map, hg.1]
      obtain ⟨a, b⟩ := sweep_walk hw hz F (coordsOf objs) x0 hi _ _ 0 _ _ _ hs (by omega) hn hidx (by rw [hch, add_zero])
      have hiM : (i - 1) * M + M = i * M := by
        obtain ⟨q, rfl⟩ := Nat.exists_eq_add_of_le hi
        rw [Nat.add_sub_cancel_left, Nat.add_mul, Nat.one_mul, Nat.add_comm]
      rw [hiM] at a
      refine ⟨by omega, by rw [Nat.add_sub_cancel]; exact a, b.trans hco, by simp [hlen], fun k hk => ?_⟩
      rcases Nat.lt_or_eq_of_le (Nat.le_of_lt_succ hk) with hk' | rfl
      · rw [List.getD_append _ _ _ _ (by omega)]
        exact hval k hk'
      · rw [List.getD_append_right _ _ _ _ (by omega), hlen, Nat.sub_self, List.getD_cons_zero, a]
        rfl)
    (by
      rintro i r0 r _ hp
      exact hp)
  obtain ⟨j, h1, h2, ⟨-, -, -, hlen, hval⟩, -, h5⟩ := key _ _ _ _ h
    ⟨le_rfl, by simp [start, stateAt, chainPos], rfl, rfl, fun k hk => by
      obtain rfl : k = 0 := by omega
      simp [start, chainPos]⟩
  have hj : j = max nUpdates 2 := by
    by_contra hc
    exact absurd (h5 (by omega)) (by simp)
  rw [hj] at hlen hval
  exact ⟨hlen, hval⟩

/-- C144. Without adaptation, if the start is distributed as prior times likelihood, so is every recorded position: for all
likelihoods and priors, any number of objects that propose symmetric increments on their coordinates (normal with any
covariance among them), and independent draws. Missing: adaptation, and proposals that are not symmetric
(`C144_asymmetric_violated`). -/
theorem C144_invariant_partial {Ω : Type*} [MeasurableSpace Ω] {P : Measure Ω} [IsProbabilityMeasure P] (F : Pos d → ℝ)
    (hF : Measurable (joint prior F)) (objs : List (Proposal d))
    (hobjs : ∀ o ∈ objs, o.adaptive = false ∧ o.autoAccept = false)
    (nUpdates : ℕ) (X0 : Ω → Pos d) (hX : Measurable X0) (hX0 : P.map X0 = posterior (joint prior F))
    (Z : ℕ → Ω → Pos d × ℝ) (hZ : ∀ s, Measurable (Z s)) (hu : ∀ s ω, 0 ≤ (Z s ω).2 ∧ (Z s ω).2 < 1)
    (ν : ℕ → Measure (Pos d))
    (hν : ∀ s < (max nUpdates 2 - 1) * objs.length, IsProbabilityMeasure (ν s) ∧ (ν s).map (fun e => -e) = ν s ∧
      P.map (Z s) = (ν s).prod unif)
    (hind : ∀ s < (max nUpdates 2 - 1) * objs.length, IndepFun (fun ω => (X0 ω, fun r : Fin s => Z r ω)) (Z s) P)
    (w : Ω → Draws d) (hw : ∀ ω, Walks (w ω) objs.length fun s => Z s ω)
    (r : Ω → Run d) (hr : ∀ ω, runMCMC (fun x => some (F x)) prior (w ω) (fun _ => false) objs (X0 ω) nUpdates = .ok (r ω)) :
    ∀ k < max nUpdates 2, (∀ ω, k < (r ω).trace.xs.length) ∧
      P.map (fun ω => (r ω).trace.xs.getD k (X0 ω)) = posterior (joint prior F) := by
  intro k hk
  have hb := fun ω => run_walk F objs (hw ω) (fun s => hu s ω) hobjs (X0 ω) nUpdates (r ω) (hr ω)
  refine ⟨fun ω => by rw [(hb ω).1]; exact hk, ?_⟩
  have e : (fun ω => (r ω).trace.xs.getD k (X0 ω)) =
      fun ω => chainPos (joint prior F) (coordsOf objs) (X0 ω) (fun s => Z s ω) (k * objs.length) :=
    funext fun ω => (hb ω).2 k hk
  rw [e]
  exact law_chain hF (joint_nonneg F) (coordsOf objs) hX hX0 hZ ν _ hν hind _ (Nat.mul_le_mul_right _ (by omega))

/-- The increment of the normal proposal is symmetric: a linear image of independent standard normal numbers, as
`np.random.multivariate_normal` computes it from a factor of the covariance, singular or not. -/
theorem C144_normal_increment {m : ℕ} (A : Matrix (Fin d) (Fin m) ℝ) :
    let ν := (Measure.pi fun _ : Fin m => gaussianReal 0 1).map A.mulVec
    IsProbabilityMeasure ν ∧ ν.map (fun e => -e) = ν := by
  intro ν
  have hA : Measurable A.mulVec := by
    refine measurable_pi_lambda _ fun k => ?_
    simp only [Matrix.mulVec, dotProduct]
    fun_prop
  have hsym : (Measure.pi fun _ : Fin m => gaussianReal 0 1).map (fun e => -e) = Measure.pi fun _ : Fin m => gaussianReal 0 1 := by
    have := Measure.pi_map_pi (μ := fun _ : Fin m => gaussianReal 0 1) (f := fun _ x => -x) (fun _ => measurable_neg.aemeasurable)
    simp only [gaussianReal_map_neg, neg_zero] at this
    exact this
  refine ⟨Measure.isProbabilityMeasure_map hA.aemeasurable, ?_⟩
  have e : (fun e : Pos d => -e) ∘ A.mulVec = A.mulVec ∘ fun e => -e := by
    funext x
    simp [Matrix.mulVec_neg]
  simp only [ν]
  rw [Measure.map_map measurable_neg hA, e, ← Measure.map_map hA measurable_neg, hsym]

/-! ### A run with one object and one step -/

/-- One object with a proposal of the user, without adaptation. -/
noncomputable def walkObj : Proposal 1 := ⟨[0], false, false, 3, 1, 0, 0.234, false, true, [], some fun _ _ => 0, some 1⟩

/-- The sample space: start, increment, uniform draw. -/
abbrev Sample := Pos 1 × (Pos 1 × ℝ)

/-- The draw of a sample; the fractional part does not change a number in `[0, 1)`. -/
noncomputable def drawOf (ω : Sample) : Pos 1 × ℝ := (ω.2.1, Int.fract ω.2.2)

noncomputable def walkDraws (ω : Sample) : Draws 1 :=
  ⟨fun _ _ _ x => x + ω.2.1, fun _ _ _ x => x + ω.2.1, fun _ _ => Int.fract ω.2.2, fun _ => 0⟩

/-- The uniform prior on the interval from 0 to 2. -/
noncomputable def prior02 : Pos 1 → WithBot ℝ := boxPrior (fun _ => 0) fun _ => 2

theorem exists_run (ω : Sample) : ∃ r, runMCMC (fun _ => some 0) prior02 (walkDraws ω) (fun _ => false) [walkObj] ω.1 2 = .ok r := by
  refine C53_completes (fun _ => 0) [walkObj] ω.1 2 ?_
  intro o ho
  rw [List.mem_singleton] at ho
  subst ho
  refine ⟨le_rfl, le_rfl, ⟨_, rfl, ?_⟩, 1, rfl, one_pos⟩
  have : Verif.LinAlg.toMat walkObj.idx.length (fun _ _ => 0) = 0 := by ext i j; rfl
  rw [this]
  exact Matrix.PosSemidef.zero

noncomputable def walkRun (ω : Sample) : Run 1 := (exists_run ω).choose

theorem walks_sample (ω : Sample) : Walks (walkDraws ω) [walkObj].length fun _ => drawOf ω :=
  ⟨fun _ _ _ _ _ _ _ => rfl, fun _ _ _ _ _ _ _ => rfl, fun _ _ _ _ => rfl⟩

theorem measurable_drawOf : Measurable drawOf := by
  exact (measurable_fst.comp measurable_snd).prodMk (measurable_fract.comp (measurable_snd.comp measurable_snd))

theorem map_drawOf (ν μ : Measure (Pos 1)) [IsProbabilityMeasure ν] [IsProbabilityMeasure μ] :
    (μ.prod (ν.prod unif)).map drawOf = ν.prod unif := by
  have e : drawOf = (Prod.map id Int.fract) ∘ (Prod.snd : Sample → Pos 1 × ℝ) := rfl
  have hf : unif.map Int.fract = unif := by
    have : (Int.fract : ℝ → ℝ) =ᵐ[unif] id := by
      rw [unif]
      filter_upwards [ae_restrict_mem measurableSet_Ico] with u hu
      exact Int.fract_eq_self.2 ⟨hu.1, hu.2⟩
    rw [Measure.map_congr this, Measure.map_id]
  rw [e, ← Measure.map_map (measurable_id.prodMap measurable_fract) measurable_snd, Measure.map_snd_prod, measure_univ, one_smul,
    ← Measure.map_prod_map _ _ measurable_id measurable_fract, hf, Measure.map_id]

theorem joint02 (x : Pos 1) : joint prior02 (fun _ => 0) x = (Icc (0 : Pos 1) fun _ => 2).indicator (fun _ => (1 : ℝ)) x := by
  classical
  unfold joint prior02 boxPrior
  by_cases h : ∀ k, (0 : ℝ) ≤ x k ∧ x k ≤ 2
  · rw [if_pos h, indicator_of_mem (show x ∈ Icc (0 : Pos 1) fun _ => 2 from ⟨fun k => (h k).1, fun k => (h k).2⟩)]
    simp [target]
  · rw [if_neg h, indicator_of_notMem]
    · rfl
    · exact fun hc => h fun k => ⟨hc.1 k, hc.2 k⟩

theorem measurable_joint02 : Measurable (joint prior02 fun _ => 0) := by
  have : (joint prior02 fun _ => 0) = (Icc (0 : Pos 1) fun _ => 2).indicator fun _ => (1 : ℝ) := funext joint02
  rw [this]
  exact measurable_const.indicator measurableSet_Icc

theorem posterior02_apply (A : Set (Pos 1)) (hA : MeasurableSet A) :
    posterior (joint prior02 fun _ => 0) A = 2⁻¹ * volume (A ∩ Icc (0 : Pos 1) fun _ => 2) := by
  have hof : (fun x => ENNReal.ofReal (joint prior02 (fun _ => 0) x)) = (Icc (0 : Pos 1) fun _ => 2).indicator 1 := by
    funext x
    rw [joint02]
    by_cases h : x ∈ Icc (0 : Pos 1) fun _ => 2
    · rw [indicator_of_mem h, indicator_of_mem h]; simp
    · rw [indicator_of_notMem h, indicator_of_notMem h]; simp
  have hvol : volume (Icc (0 : Pos 1) fun _ => 2) = 2 := by rw [Real.volume_Icc_pi]; simp
  rw [posterior, Measure.smul_apply, hof, withDensity_indicator_one measurableSet_Icc, lintegral_indicator_one measurableSet_Icc,
    hvol, smul_eq_mul, Measure.restrict_apply hA]

instance : IsProbabilityMeasure (posterior (joint prior02 fun _ => 0)) := by
  constructor
  rw [posterior02_apply _ MeasurableSet.univ, univ_inter, Real.volume_Icc_pi]
  simp [ENNReal.inv_mul_cancel]

theorem indep_sample (μ ν : Measure (Pos 1)) [IsProbabilityMeasure ν] [IsProbabilityMeasure μ] :
    ∀ s < 1, IndepFun (fun ω : Sample => (ω.1, fun _ : Fin s => drawOf ω)) drawOf (μ.prod (ν.prod unif)) := by
  intro s hs
  obtain rfl : s = 0 := by omega
  have h := indepFun_prod (μ := μ) (ν := ν.prod unif) (X := fun x : Pos 1 => (x, fun r : Fin 0 => r.elim0 (α := Pos 1 × ℝ)))
    (Y := fun q : Pos 1 × ℝ => (q.1, Int.fract q.2)) (by fun_prop)
    (measurable_fst.prodMk (measurable_fract.comp measurable_snd))
  have e : (fun ω : Sample => (ω.1, fun _ : Fin 0 => drawOf ω)) =
      fun ω => (ω.1, fun r : Fin 0 => r.elim0 (α := Pos 1 × ℝ)) := by
    funext ω
    exact Prod.ext rfl (Subsingleton.elim _ _)
  rw [e]
  exact h

/-- The hypotheses of `C144_invariant_partial` are met by a run with normal increments. -/
example (A : Matrix (Fin 1) (Fin 1) ℝ) :
    let ν := (Measure.pi fun _ : Fin 1 => gaussianReal 0 1).map A.mulVec
    ∀ k < 2, ((posterior (joint prior02 fun _ => 0)).prod (ν.prod unif)).map (fun ω => (walkRun ω).trace.xs.getD k ω.1)
      = posterior (joint prior02 fun _ => 0) := by
  intro ν k hk
  obtain ⟨h1, h2⟩ := C144_normal_increment A
  haveI : IsProbabilityMeasure ν := h1
  exact (C144_invariant_partial (fun _ => 0) measurable_joint02 [walkObj] (by simp [walkObj]) 2 Prod.fst measurable_fst
    (by rw [Measure.map_fst_prod, measure_univ, one_smul]) (fun _ => drawOf) (fun _ => measurable_drawOf)
    (fun _ ω => ⟨Int.fract_nonneg _, Int.fract_lt_one _⟩) (fun _ => ν) (fun s _ => ⟨h1, h2, map_drawOf ν _⟩)
    (fun s hs => indep_sample _ ν s (by simpa using hs)) walkDraws walks_sample walkRun
    (fun ω => (exists_run ω).choose_spec) k hk).2

/-- The rule has no correction for proposals that are not symmetric: with the uniform prior on `[0, 2]`, a constant likelihood and
the increment 1, all other hypotheses of `C144_invariant_partial` hold, and the start has probability one half of being
below 1, but the next position is below 1 with probability zero. -/
theorem C144_asymmetric_violated : ∃ (P : Measure Sample) (ν : Measure (Pos 1)), IsProbabilityMeasure P ∧ IsProbabilityMeasure ν ∧
    P.map Prod.fst = posterior (joint prior02 fun _ => 0) ∧ P.map drawOf = ν.prod unif ∧ IndepFun Prod.fst drawOf P ∧
    (∀ ω, runMCMC (fun _ => some 0) prior02 (walkDraws ω) (fun _ => false) [walkObj] ω.1 2 = .ok (walkRun ω)) ∧
    P {ω | ω.1 0 < 1} = 1 / 2 ∧ P {ω | (walkRun ω).trace.xs.getD 1 ω.1 0 < 1} = 0 := by
  set t := joint prior02 fun _ => 0 with ht
  let ν : Measure (Pos 1) := Measure.dirac fun _ => 1
  let P : Measure Sample := (posterior t).prod (ν.prod unif)
  have hfst : P.map Prod.fst = posterior t := by simp only [P]; rw [Measure.map_fst_prod, measure_univ, one_smul]
  have hB : MeasurableSet {x : Pos 1 | x 0 < 1} := measurableSet_lt (measurable_pi_apply 0) measurable_const
  refine ⟨P, ν, inferInstance, inferInstance, hfst, map_drawOf ν _, ?_, fun ω => (exists_run ω).choose_spec, ?_, ?_⟩
  · exact indepFun_prod (μ := posterior t) (ν := ν.prod unif) (X := id) (Y := fun q : Pos 1 × ℝ => (q.1, Int.fract q.2))
      measurable_id (measurable_fst.prodMk (measurable_fract.comp measurable_snd))
  · have e : {ω : Sample | ω.1 0 < 1} = Prod.fst ⁻¹' {x : Pos 1 | x 0 < 1} := rfl
    rw [e, ← Measure.map_apply measurable_fst hB, hfst, posterior02_apply _ hB]
    have : {x : Pos 1 | x 0 < 1} ∩ Icc (0 : Pos 1) (fun _ => 2) = univ.pi fun _ => Ico 0 1 := by
      ext x
      simp only [mem_inter_iff, mem_setOf_eq, mem_Icc, mem_univ_pi, mem_Ico, Pi.le_def, Pi.zero_apply, Fin.forall_fin_one]
      exact ⟨fun h => ⟨h.2.1, h.1⟩, fun h => ⟨h.2, h.1, by linarith⟩⟩
    rw [this, volume_pi_pi]
    simp
  · have hae : ∀ᵐ ω ∂P, (walkRun ω).trace.xs.getD 1 ω.1 0 = mstep t ω.1 (fun _ => 1) (Int.fract ω.2.2) 0 ∧
        ω.1 ∈ Icc (0 : Pos 1) fun _ => 2 := by
      have h1 : ∀ᵐ ω ∂P, ω.1 ∈ Icc (0 : Pos 1) fun _ => 2 := by
        have hm : ∀ᵐ x ∂posterior t, x ∈ Icc (0 : Pos 1) fun _ => 2 := by
          rw [ae_iff]
          have := posterior02_apply (Icc (0 : Pos 1) fun _ => 2)ᶜ measurableSet_Icc.compl
          rw [compl_inter_self, measure_empty, mul_zero] at this
          exact this
        rw [← hfst] at hm
        exact ae_of_ae_map measurable_fst.aemeasurable hm
      have h2 : ∀ᵐ ω ∂P, ω.2.1 = fun _ => 1 := by
        have hm : ∀ᵐ e ∂ν, e = fun _ => (1 : ℝ) := by
          exact (ae_dirac_iff (measurableSet_singleton fun _ => (1 : ℝ))).2 rfl
        have hs : P.map (fun ω => ω.2.1) = ν := by
          have : (fun ω : Sample => ω.2.1) = Prod.fst ∘ Prod.snd := rfl
          rw [this, ← Measure.map_map measurable_fst measurable_snd]
          simp only [P]
          rw [Measure.map_snd_prod, measure_univ, one_smul, Measure.map_fst_prod, measure_univ, one_smul]
        rw [← hs] at hm
        exact ae_of_ae_map (measurable_fst.comp measurable_snd).aemeasurable hm
      filter_upwards [h1, h2] with ω a b
      refine ⟨?_, a⟩
      have hr := (run_walk (prior := prior02) (fun _ => 0) [walkObj] (walks_sample ω)
        (fun _ => ⟨Int.fract_nonneg _, Int.fract_lt_one _⟩) (by simp [walkObj]) ω.1 2 (walkRun ω) (exists_run ω).choose_spec).2 1
        (by norm_num)
      rw [hr]
      simp only [List.length_singleton, mul_one, chainPos, drawOf, b]
      congr 2
      funext k
      fin_cases k
      simp [maskTo, coordsOf, walkObj]
    rw [← compl_compl {ω : Sample | (walkRun ω).trace.xs.getD 1 ω.1 0 < 1}]
    change ∀ᵐ ω ∂P, ω ∈ {ω : Sample | (walkRun ω).trace.xs.getD 1 ω.1 0 < 1}ᶜ
    filter_upwards [hae] with ω ⟨a, b⟩
    simp only [mem_compl_iff, mem_setOf_eq, not_lt]
    rw [a]
    have hx : t ω.1 = 1 := by rw [ht, joint02, indicator_of_mem b]
    have hu := Int.fract_lt_one ω.2.2
    unfold mstep
    rw [hx, mul_one]
    have h0 : 0 ≤ ω.1 0 := b.1 0
    by_cases hy : ω.1 0 ≤ 1
    · have hy' : t (ω.1 + fun _ => 1) = 1 := by
        rw [ht, joint02, indicator_of_mem]
        constructor
        · intro k
          fin_cases k
          simp; linarith
        · intro k
          fin_cases k
          simp; linarith
      rw [hy', if_pos hu]
      simp [h0]
    · have hy' : t (ω.1 + fun _ => 1) = 0 := by
        rw [ht, joint02, indicator_of_notMem]
        intro hc
        have := hc.2 0
        simp at this
        linarith
      rw [hy', if_neg (not_lt.2 (Int.fract_nonneg _))]
      linarith

end Verif.MCMC
