import Verif.MCMC.Lemmas
import Mathlib.MeasureTheory.Measure.Lebesgue.Basic
import Mathlib.MeasureTheory.Measure.Haar.OfBasis
import Mathlib.MeasureTheory.Group.LIntegral
import Mathlib.MeasureTheory.Measure.Prod
import Mathlib.Probability.Independence.Basic

/-!
One Metropolis step on a Euclidean space with a symmetric random-walk proposal leaves the target invariant.
-/

namespace Verif.MCMC

open MeasureTheory Set ProbabilityTheory
open scoped ENNReal

variable {d : ℕ}

/-- A step with density `t`, increment `e` and uniform draw `u`. -/
noncomputable def mstep (t : Pos d → ℝ) (x e : Pos d) (u : ℝ) : Pos d :=
  open Classical in if u * t x < t (x + e) then x + e else x

/-- The uniform distribution on `[0, 1)`. -/
noncomputable def unif : Measure ℝ := volume.restrict (Ico 0 1)

instance : IsProbabilityMeasure unif := ⟨by simp [unif]⟩

theorem measurable_mstep {t : Pos d → ℝ} (ht : Measurable t) : Measurable fun p : Pos d × Pos d × ℝ => mstep t p.1 p.2.1 p.2.2 := by
  unfold mstep
  refine Measurable.ite (measurableSet_lt ?_ ?_) ?_ ?_ <;> fun_prop

theorem unif_accept {a b : ℝ} (ha : 0 ≤ a) (hb : 0 ≤ b) : ENNReal.ofReal a * unif {u | u * a < b} = ENNReal.ofReal (min a b) := by
  rcases ha.eq_or_lt with rfl | ha
  · simp [hb]
  have hm : MeasurableSet {u : ℝ | u * a < b} := measurableSet_lt (by fun_prop) (by fun_prop)
  have e : {u : ℝ | u * a < b} ∩ Ico 0 1 = Ico 0 (min 1 (b / a)) := by
    ext u
    simp only [mem_inter_iff, mem_setOf_eq, mem_Ico, lt_min_iff, lt_div_iff₀ ha]
    tauto
  rw [unif, Measure.restrict_apply hm, e, Real.volume_Ico, sub_zero, ← ENNReal.ofReal_mul ha.le]
  congr 1
  rw [mul_min_of_nonneg _ _ ha.le, mul_one, mul_div_cancel₀ _ ha.ne']

/-- The expectation over the uniform draw. -/
theorem lintegral_unif_step (t : Pos d → ℝ) (x e : Pos d) (g : Pos d → ℝ≥0∞) :
    ∫⁻ u, g (mstep t x e u) ∂unif = unif {u | u * t x < t (x + e)} * g (x + e) + unif {u | ¬ u * t x < t (x + e)} * g x := by
  classical
  have hm : MeasurableSet {u : ℝ | u * t x < t (x + e)} := measurableSet_lt (by fun_prop) (by fun_prop)
  rw [← lintegral_add_compl _ hm]
  congr 1
  · rw [setLIntegral_congr_fun hm (g := fun _ => g (x + e)) (fun u hu => by change g (mstep t x e u) = _; rw [mstep, if_pos (show u * t x < t (x + e) from hu)])]
    rw [setLIntegral_const, mul_comm]
  · rw [setLIntegral_congr_fun hm.compl (g := fun _ => g x) (fun u hu => by change g (mstep t x e u) = _; rw [mstep, if_neg (show ¬ u * t x < t (x + e) from hu)])]
    rw [setLIntegral_const, mul_comm]
    rfl

theorem measurable_accept {t : Pos d → ℝ} (ht : Measurable t) :
    Measurable fun p : Pos d × Pos d => unif {u | u * t p.1 < t (p.1 + p.2)} := by
  have : MeasurableSet {q : (Pos d × Pos d) × ℝ | q.2 * t q.1.1 < t (q.1.1 + q.1.2)} :=
    measurableSet_lt (by fun_prop) (by fun_prop)
  exact measurable_measure_prodMk_left this

theorem measurable_reject {t : Pos d → ℝ} (ht : Measurable t) :
    Measurable fun p : Pos d × Pos d => unif {u | ¬ u * t p.1 < t (p.1 + p.2)} := by
  have : MeasurableSet {q : (Pos d × Pos d) × ℝ | ¬ q.2 * t q.1.1 < t (q.1.1 + q.1.2)} :=
    MeasurableSet.compl (s := {q : (Pos d × Pos d) × ℝ | q.2 * t q.1.1 < t (q.1.1 + q.1.2)})
      (measurableSet_lt (by fun_prop) (by fun_prop))
  exact measurable_measure_prodMk_left this

/-- Invariance of the target under one step. -/
theorem step_invariant {t : Pos d → ℝ} (ht : Measurable t) (h0 : ∀ x, 0 ≤ t x) (ν : Measure (Pos d)) [IsProbabilityMeasure ν]
    (hν : ν.map (fun e => -e) = ν) {g : Pos d → ℝ≥0∞} (hg : Measurable g) :
    ∫⁻ x, ENNReal.ofReal (t x) * ∫⁻ e, ∫⁻ u, g (mstep t x e u) ∂unif ∂ν = ∫⁻ x, ENNReal.ofReal (t x) * g x := by
  have hA := measurable_accept ht
  have hR := measurable_reject ht
  have hT : Measurable fun x => ENNReal.ofReal (t x) := ht.ennreal_ofReal
  -- the symmetric flux
  set S : Pos d → Pos d → ℝ≥0∞ := fun x y => ENNReal.ofReal (min (t x) (t y)) with hS
  have hSm : Measurable fun p : Pos d × Pos d => S p.1 p.2 := by
    simp only [hS]
    fun_prop
  have hflux : ∀ x e, ENNReal.ofReal (t x) * unif {u | u * t x < t (x + e)} = S x (x + e) := fun x e =>
    unif_accept (h0 x) (h0 _)
  have hswap : ∫⁻ x, ∫⁻ e, S x (x + e) * g (x + e) ∂ν = ∫⁻ x, ∫⁻ e, S x (x + e) * g x ∂ν := by
    have m1 : Measurable fun p : Pos d × Pos d => S p.1 (p.1 + p.2) * g (p.1 + p.2) :=
      (hSm.comp (measurable_fst.prodMk (measurable_fst.add measurable_snd))).mul (hg.comp (measurable_fst.add measurable_snd))
    have m2 : Measurable fun p : Pos d × Pos d => S p.1 (p.1 + p.2) * g p.1 :=
      (hSm.comp (measurable_fst.prodMk (measurable_fst.add measurable_snd))).mul (hg.comp measurable_fst)
    rw [lintegral_lintegral_swap (f := fun x e => S x (x + e) * g (x + e)) m1.aemeasurable,
      lintegral_lintegral_swap (f := fun x e => S x (x + e) * g x) m2.aemeasurable]
    have e1 : ∀ e, ∫⁻ x, S x (x + e) * g (x + e) = ∫⁻ x, S x (x + -e) * g x := by
      intro e
      have := lintegral_add_right_eq_self (μ := (volume : Measure (Pos d))) (fun x => S x (x + -e) * g x) e
      rw [← this]
      congr 1
      funext x
      simp only [hS, add_neg_cancel_right]
      rw [min_comm]
    simp only [e1]
    have m3 : Measurable fun e : Pos d => ∫⁻ x, S x (x + e) * g x := by
      have : Measurable fun p : Pos d × Pos d => S p.2 (p.2 + p.1) * g p.2 := m2.comp measurable_swap
      exact this.lintegral_prod_right'
    conv_rhs => rw [← hν]
    rw [lintegral_map m3 measurable_neg]
  have hexp : ∀ x, ENNReal.ofReal (t x) * ∫⁻ e, ∫⁻ u, g (mstep t x e u) ∂unif ∂ν
      = ∫⁻ e, S x (x + e) * g (x + e) ∂ν + ∫⁻ e, ENNReal.ofReal (t x) * unif {u | ¬ u * t x < t (x + e)} * g x ∂ν := by
    intro x
    have a1 : Measurable fun e => unif {u | u * t x < t (x + e)} := hA.comp measurable_prodMk_left
    have a2 : Measurable fun e => unif {u | ¬ u * t x < t (x + e)} := hR.comp measurable_prodMk_left
    have a3 : Measurable fun e => g (x + e) := hg.comp (measurable_const_add x)
    simp only [lintegral_unif_step]
    have a4 : Measurable fun e => unif {u | u * t x < t (x + e)} * g (x + e) + unif {u | ¬ u * t x < t (x + e)} * g x :=
      (a1.mul a3).add (a2.mul_const _)
    rw [← lintegral_const_mul _ a4, ← lintegral_add_left]
    · congr 1
      funext e
      rw [← hflux]
      ring
    · exact (hSm.comp (measurable_const.prodMk (measurable_const_add x))).mul a3
  simp only [hexp]
  have m4 : Measurable fun x => ∫⁻ e, S x (x + e) * g (x + e) ∂ν := by
    have m1 : Measurable fun p : Pos d × Pos d => S p.1 (p.1 + p.2) * g (p.1 + p.2) :=
      (hSm.comp (measurable_fst.prodMk (measurable_fst.add measurable_snd))).mul (hg.comp (measurable_fst.add measurable_snd))
    exact m1.lintegral_prod_right'
  have m5 : Measurable fun x => ∫⁻ e, S x (x + e) * g x ∂ν := by
    have m1 : Measurable fun p : Pos d × Pos d => S p.1 (p.1 + p.2) * g p.1 :=
      (hSm.comp (measurable_fst.prodMk (measurable_fst.add measurable_snd))).mul (hg.comp measurable_fst)
    exact m1.lintegral_prod_right'
  rw [lintegral_add_left m4, hswap, ← lintegral_add_left m5]
  congr 1
  funext x
  have a1 : Measurable fun e => unif {u | u * t x < t (x + e)} := hA.comp measurable_prodMk_left
  have m6 : Measurable fun e => S x (x + e) * g x := (hSm.comp (measurable_const.prodMk (measurable_const_add x))).mul_const _
  rw [← lintegral_add_left m6]
  have : ∀ e, S x (x + e) * g x + ENNReal.ofReal (t x) * unif {u | ¬ u * t x < t (x + e)} * g x = ENNReal.ofReal (t x) * g x := by
    intro e
    have hm : MeasurableSet {u : ℝ | u * t x < t (x + e)} := measurableSet_lt (by fun_prop) (by fun_prop)
    have h1 : unif {u | u * t x < t (x + e)} + unif {u | ¬ u * t x < t (x + e)} = 1 := by
      have := measure_add_measure_compl (μ := unif) hm
      rw [measure_univ] at this
      exact this
    rw [← hflux, ← add_mul, ← mul_add, h1, mul_one]
  simp only [this, lintegral_const, measure_univ, mul_one]


/-- The distribution with density proportional to `t`. -/
noncomputable def posterior (t : Pos d → ℝ) : Measure (Pos d) :=
  (∫⁻ x, ENNReal.ofReal (t x))⁻¹ • volume.withDensity fun x => ENNReal.ofReal (t x)

theorem lintegral_posterior {t : Pos d → ℝ} (ht : Measurable t) {g : Pos d → ℝ≥0∞} (hg : Measurable g) :
    ∫⁻ x, g x ∂posterior t = (∫⁻ x, ENNReal.ofReal (t x))⁻¹ * ∫⁻ x, ENNReal.ofReal (t x) * g x := by
  rw [posterior, lintegral_smul_measure, lintegral_withDensity_eq_lintegral_mul _ ht.ennreal_ofReal hg]
  rfl

/-- One step from a position distributed as the target, with an independent draw. -/
theorem law_step {Ω : Type*} [MeasurableSpace Ω] {P : Measure Ω} [IsProbabilityMeasure P] {t : Pos d → ℝ} (ht : Measurable t)
    (h0 : ∀ x, 0 ≤ t x) {Y : Ω → Pos d} {Z : Ω → Pos d × ℝ} (hY : Measurable Y) (hZ : Measurable Z) (hYl : P.map Y = posterior t)
    (hi : IndepFun Y Z P) (ν : Measure (Pos d)) [IsProbabilityMeasure ν] (hν : ν.map (fun e => -e) = ν)
    (hZl : P.map Z = ν.prod unif) : P.map (fun ω => mstep t (Y ω) (Z ω).1 (Z ω).2) = posterior t := by
  have hm := measurable_mstep ht
  have hYZ : Measurable fun ω => (Y ω, Z ω) := hY.prodMk hZ
  refine Measure.ext_of_lintegral _ fun g hg => ?_
  have hcomp : Measurable fun ω => mstep t (Y ω) (Z ω).1 (Z ω).2 := hm.comp hYZ
  have hjoint := (indepFun_iff_map_prod_eq_prod_map_map hY.aemeasurable hZ.aemeasurable).1 hi
  haveI : IsProbabilityMeasure (posterior t) := hYl ▸ Measure.isProbabilityMeasure_map hY.aemeasurable
  have hgm : Measurable fun p : Pos d × Pos d × ℝ => g (mstep t p.1 p.2.1 p.2.2) := hg.comp hm
  rw [lintegral_map hg hcomp, ← lintegral_map (f := fun p : Pos d × Pos d × ℝ => g (mstep t p.1 p.2.1 p.2.2)) (hg.comp hm) hYZ,
    hjoint, hYl, hZl, lintegral_prod _ hgm.aemeasurable]
  have inner : ∀ x, ∫⁻ q, g (mstep t x q.1 q.2) ∂ν.prod unif = ∫⁻ e, ∫⁻ u, g (mstep t x e u) ∂unif ∂ν := fun x =>
    lintegral_prod _ (hgm.comp measurable_prodMk_left).aemeasurable
  simp only [inner]
  have hin : Measurable fun x => ∫⁻ e, ∫⁻ u, g (mstep t x e u) ∂unif ∂ν := by
    have := (hg.comp hm).lintegral_prod_right' (ν := ν.prod unif)
    simpa only [Function.comp_def, inner] using this
  rw [lintegral_posterior ht hin, lintegral_posterior ht hg, step_invariant ht h0 ν hν hg]

/-- The increment of a proposal that moves only the coordinates `idx`. -/
def maskTo (idx : List (Fin d)) (e : Pos d) : Pos d := fun k => if k ∈ idx then e k else 0

theorem measurable_maskTo (idx : List (Fin d)) : Measurable (maskTo idx) := by
  refine measurable_pi_lambda _ fun k => ?_
  unfold maskTo
  split <;> fun_prop

theorem maskTo_symm (idx : List (Fin d)) (ν : Measure (Pos d)) (hν : ν.map (fun e => -e) = ν) :
    (ν.map (maskTo idx)).map (fun e => -e) = ν.map (maskTo idx) := by
  have hm := measurable_maskTo idx
  rw [Measure.map_map measurable_neg hm]
  conv_rhs => rw [← hν, Measure.map_map hm measurable_neg]
  congr 1
  funext e k
  simp only [Function.comp, maskTo, Pi.neg_apply]
  split <;> simp

/-- The positions after each step, for the coordinates `m`, start `x0` and draws `z`. -/
noncomputable def chainPos (t : Pos d → ℝ) (m : ℕ → List (Fin d)) (x0 : Pos d) (z : ℕ → Pos d × ℝ) : ℕ → Pos d
  | 0 => x0
  | n + 1 => mstep t (chainPos t m x0 z n) (maskTo (m n) (z n).1) (z n).2

theorem measurable_chainPos {α : Type*} [MeasurableSpace α] {t : Pos d → ℝ} (ht : Measurable t) (m : ℕ → List (Fin d))
    {X : α → Pos d} (hX : Measurable X) {Z : ℕ → α → Pos d × ℝ} (hZ : ∀ s, Measurable (Z s)) (n : ℕ) :
    Measurable fun a => chainPos t m (X a) (fun s => Z s a) n := by
  induction n with
  | zero => exact hX
  | succ n ih =>
    exact (measurable_mstep ht).comp (ih.prodMk (((measurable_maskTo (m n)).comp (measurable_fst.comp (hZ n))).prodMk
      (measurable_snd.comp (hZ n))))

theorem chainPos_congr {t : Pos d → ℝ} {m : ℕ → List (Fin d)} {x0 : Pos d} {z z' : ℕ → Pos d × ℝ} {n : ℕ}
    (h : ∀ s < n, z s = z' s) : chainPos t m x0 z n = chainPos t m x0 z' n := by
  induction n with
  | zero => rfl
  | succ n ih => simp only [chainPos, ih fun s hs => h s (by omega), h n (by omega)]

/-- Every position of the chain is distributed as the target. -/
theorem law_chain {Ω : Type*} [MeasurableSpace Ω] {P : Measure Ω} [IsProbabilityMeasure P] {t : Pos d → ℝ} (ht : Measurable t)
    (h0 : ∀ x, 0 ≤ t x) (m : ℕ → List (Fin d)) {X : Ω → Pos d} (hX : Measurable X) (hXl : P.map X = posterior t)
    {Z : ℕ → Ω → Pos d × ℝ} (hZ : ∀ s, Measurable (Z s)) (ν : ℕ → Measure (Pos d)) (N : ℕ)
    (hν : ∀ s < N, IsProbabilityMeasure (ν s) ∧ (ν s).map (fun e => -e) = ν s ∧ P.map (Z s) = (ν s).prod unif)
    (hi : ∀ s < N, IndepFun (fun ω => (X ω, fun r : Fin s => Z r ω)) (Z s) P) :
    ∀ n ≤ N, P.map (fun ω => chainPos t m (X ω) (fun s => Z s ω) n) = posterior t := by
  intro n
  induction n with
  | zero => intro _; exact hXl
  | succ n ih =>
    intro hn
    obtain ⟨h1, h2, h3⟩ := hν n hn
    have hY := measurable_chainPos ht m hX hZ n
    have hZ' : Measurable fun ω => (maskTo (m n) (Z n ω).1, (Z n ω).2) :=
      ((measurable_maskTo (m n)).comp (measurable_fst.comp (hZ n))).prodMk (measurable_snd.comp (hZ n))
    haveI : IsProbabilityMeasure ((ν n).map (maskTo (m n))) := Measure.isProbabilityMeasure_map (measurable_maskTo _).aemeasurable
    refine law_step ht h0 hY hZ' (ih (by omega)) ?_ ((ν n).map (maskTo (m n))) (maskTo_symm _ _ h2) ?_
    · let h : Pos d × (Fin n → Pos d × ℝ) → Pos d := fun p =>
        chainPos t m p.1 (fun s => if hs : s < n then p.2 ⟨s, hs⟩ else (0, 0)) n
      have hh : Measurable h := by
        refine measurable_chainPos (Z := fun s (p : Pos d × (Fin n → Pos d × ℝ)) => if hs : s < n then p.2 ⟨s, hs⟩ else (0, 0)) ht m measurable_fst (fun s => ?_) n
        by_cases hs : s < n
        · simp only [dif_pos hs]
          exact (measurable_pi_apply _).comp measurable_snd
        · simp only [dif_neg hs]
          exact measurable_const
      have hφ : Measurable fun q : Pos d × ℝ => (maskTo (m n) q.1, q.2) :=
        ((measurable_maskTo (m n)).comp measurable_fst).prodMk measurable_snd
      have := (hi n hn).comp hh hφ
      refine this.congr (Filter.Eventually.of_forall fun ω => ?_) (Filter.Eventually.of_forall fun ω => rfl)
      exact chainPos_congr fun s hs => by simp [hs]
    · have hφ : Measurable fun q : Pos d × ℝ => (maskTo (m n) q.1, q.2) :=
        ((measurable_maskTo (m n)).comp measurable_fst).prodMk measurable_snd
      have e : (fun ω => (maskTo (m n) (Z n ω).1, (Z n ω).2)) = (fun q : Pos d × ℝ => (maskTo (m n) q.1, q.2)) ∘ Z n := rfl
      rw [e, ← Measure.map_map hφ (hZ n), h3]
      have := Measure.map_prod_map (ν n) unif (measurable_maskTo (m n)) measurable_id
      rw [Measure.map_id] at this
      exact this.symm

end Verif.MCMC
