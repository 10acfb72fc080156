import Verif.GP.SlqModel
import Mathlib.Probability.Moments.Variance
import Mathlib.Probability.Distributions.Gaussian.Real
import Mathlib.Probability.Independence.Basic
import Mathlib.MeasureTheory.Constructions.Pi
import Mathlib.Algebra.BigOperators.Fin
import Mathlib.Tactic.Positivity
import Mathlib.Tactic.FieldSimp
import Mathlib.Tactic.Linarith

/-!
C131: the reported variance of the likelihood.
-/

namespace Verif.GP.Slq

open MeasureTheory ProbabilityTheory

/-! ### Which evaluation is described -/

/-- Specification: the variance of the log-determinant that a computation in mode `m` returns; exact modes have none. -/
noncomputable def Own (m : Mode) (j : Job) : Option ℝ := if m.random = true then j.probe.variance else none

theorem run_append (k : Kv) (l l' : List Ev) : k.run (l ++ l') = (k.run l).run l' := List.foldl_append

theorem step_const (k : Kv) (e : Ev) : (k.step e).mode = k.mode ∧ (k.step e).gp2Scale = k.gp2Scale ∧ (k.step e).linalg = k.linalg := by
  cases e <;> exact ⟨rfl, rfl, rfl⟩

theorem run_const (k : Kv) (l : List Ev) : (k.run l).mode = k.mode ∧ (k.run l).gp2Scale = k.gp2Scale ∧ (k.run l).linalg = k.linalg := by
  induction l generalizing k with
  | nil => exact ⟨rfl, rfl, rfl⟩
  | cons e l ih =>
    obtain ⟨a, b, c⟩ := ih (k.step e)
    obtain ⟨a', b', c'⟩ := step_const k e
    exact ⟨a.trans a', b.trans b', c.trans c'⟩

/-- Specification: an event computes only in exact modes. -/
def Exact (k : Kv) : Ev → Prop
  | .evaluate j => (k.evalMode j).random = false
  | .refresh _ => k.mode.random = false
  | .cached => True

theorem evalMode_run (k : Kv) (l : List Ev) (j : Job) : (k.run l).evalMode j = k.evalMode j := by
  obtain ⟨a, b, c⟩ := run_const k l
  simp only [Kv.evalMode, a, b, c]

/-- A likelihood evaluated in a stochastic mode: after any history, the variance reported next is a quarter of the variance of its log-determinant, and the value
is that of its estimate. If nothing was ever computed in a stochastic mode no variance is reported. -/
theorem C131_evaluate_partial (k : Kv) (l : List Ev) (j : Job) :
    ((k.evalMode j).random = true → (k.run (l ++ [.evaluate j])).likVariance = (Own (k.evalMode j) j).map (fun v => 1 / 4 * v) ∧
      ((k.run l).evaluate j).1 = -(1 / 2) * (j.l1 + j.probe.logdet + j.n * Real.log (2 * Real.pi))) ∧
    (k.last = none → (∀ e ∈ l, Exact k e) → (k.run l).likVariance = none) := by
  constructor
  · intro h
    rw [run_append]
    have := evalMode_run k l j
    constructor
    · simp [Kv.run, Kv.step, Kv.likVariance, Own, Kv.evaluate, logdetIn, h]
      rw [show List.foldl Kv.step k l = k.run l from rfl, this, h]
      simp
    · simp [Kv.evaluate, logdetIn, this, h, loglik]
  · intro hk hl
    have : (k.run l).last = none := by
      induction l generalizing k with
      | nil => exact hk
      | cons e l ih =>
        have he := hl e (by simp)
        obtain ⟨a, b, c⟩ := step_const k e
        refine ih (k.step e) ?_ fun e' h' => ?_
        · cases e with
          | evaluate j => simp only [Exact] at he; simp [Kv.step, Kv.evaluate, logdetIn, he, hk]
          | refresh j => simp only [Exact] at he; simp [Kv.step, Kv.refresh, logdetIn, he, hk]
          | cached => exact hk
        · have := hl e' (by simp [h'])
          cases e' with
          | evaluate j => simpa only [Exact, Kv.evalMode, a, b, c] using this
          | refresh j => simpa only [Exact, a] using this
          | cached => trivial
    simp [Kv.likVariance, this]

/-- The guard of training reads the variance of the new point directly after the object was refreshed with it: in a stochastic mode it is the one of the cached
value; in an exact mode without earlier stochastic evaluations the comparison is strict. -/
theorem C131_guard_partial (k : Kv) (l : List Ev) (j : Job) (incumbent : ℝ) :
    (k.mode.random = true → ((k.run (l ++ [.refresh j])).accepts incumbent ↔
      incumbent - ((Own k.mode j).map fun v => 3 * Real.sqrt (v / 2)).getD 0 ≤ -(1 / 2) * (j.l1 + j.probe.logdet + j.n * Real.log (2 * Real.pi)))) ∧
    (k.mode.random = false → k.last = none → (∀ e ∈ l, Exact k e) → ((k.run (l ++ [.refresh j])).accepts incumbent ↔
      incumbent ≤ -(1 / 2) * (j.l1 + j.exact + j.n * Real.log (2 * Real.pi)))) := by
  have hm := (run_const k l).1
  constructor
  · intro h
    rw [run_append]
    have e : (k.run l).run [.refresh j] = (k.run l).refresh j := rfl
    rw [e]
    have h' : (k.run l).mode.random = true := by rw [hm, h]
    simp only [Kv.accepts, Kv.refresh, Kv.cached, loglik, Kv.likVariance, tolerance, logdetIn, h', if_true, Own, h, ge_iff_le]
    cases j.probe.variance with
    | none => simp
    | some v =>
      simp only [Option.map_some, Option.getD_some]
      rw [show 2 * (1 / 4 * v) = v / 2 by ring]
  · intro h hk hl
    have hex : ∀ e ∈ l ++ [Ev.refresh j], Exact k e := by
      intro e he
      rcases List.mem_append.mp he with he | he
      · exact hl e he
      · simp only [List.mem_singleton] at he; subst he; exact h
    have hv := (C131_evaluate_partial k (l ++ [.refresh j]) j).2 hk hex
    rw [Kv.accepts, hv]
    rw [run_append]
    have e : (k.run l).run [.refresh j] = (k.run l).refresh j := rfl
    rw [e]
    simp [Kv.refresh, Kv.cached, loglik, tolerance, logdetIn, hm, h]

/-- Two finite probes with mean 1 and variance 4 / 2. -/
noncomputable def exampleProbe : Probe := ⟨1, [some (-1), none, some 3], true⟩

theorem exampleProbe_variance : exampleProbe.variance = some 4 := by
  simp [exampleProbe, Probe.variance, sampleVar]
  norm_num

/-- 20000 points, automatic mode: a diagonal matrix is factorised exactly, a matrix with 10^5 non-zeros is treated stochastically. After an exact evaluation
that follows a stochastic one, the reported variance is the one of the stochastic one (the exact likelihood has none). Then the guard of training keeps
hyperparameters with an exactly computed likelihood that is lower than the exactly computed one before training. -/
theorem C131_stale_violated : ∃ (k : Kv) (j j' : Job), k = Kv.new true none 20000 j ∧ k.likVariance = none ∧
    (k.evalMode j').random = true ∧ (k.evalMode j).random = false ∧ k.mode.random = false ∧
    (k.run [.evaluate j', .evaluate j]).likVariance = some 1 ∧
    ∃ worse : Job, (k.evalMode worse).random = false ∧ (k.run [.evaluate j', .refresh worse]).cached = k.cached - 1 ∧
      (k.run [.evaluate j', .refresh worse]).accepts k.cached := by
  let j : Job := ⟨0, 0, 20000, 20000, exampleProbe⟩
  let j' : Job := ⟨0, 0, 20000, 100000, exampleProbe⟩
  let w : Job := ⟨2, 0, 20000, 20000, exampleProbe⟩
  have m1 : pickMode none 20000 20000 = .sparseLU := by simp [pickMode]
  have m2 : pickMode none 20000 100000 = .minres := by simp [pickMode]
  have hk : Kv.new true none 20000 j = ⟨true, none, .sparseLU, j, 0, none⟩ := by
    simp [Kv.new, Kv.refresh, j, m1, logdetIn, Mode.random]
  have c : ((Kv.new true none 20000 j).run [.evaluate j', .refresh w]).cached = (Kv.new true none 20000 j).cached - 1 := by
    rw [hk]
    simp only [Kv.run, List.foldl, Kv.step, Kv.evaluate, Kv.refresh, Kv.cached, loglik, logdetIn, Mode.random, w, j]
    norm_num
    ring
  have v : ((Kv.new true none 20000 j).run [.evaluate j', .refresh w]).likVariance = some 1 := by
    rw [hk]
    simp [Kv.run, Kv.step, Kv.evaluate, Kv.refresh, Kv.likVariance, Kv.evalMode, logdetIn, Mode.random, j', m2, exampleProbe_variance]
  refine ⟨_, j, j', rfl, ?_, ?_, ?_, ?_, ?_, w, ?_, c, ?_⟩
  · rw [hk]; rfl
  · rw [hk]; simp [Kv.evalMode, j', m2, Mode.random]
  · rw [hk]; simp [Kv.evalMode, j, m1, Mode.random]
  · rw [hk]; rfl
  · rw [hk]
    simp [Kv.run, Kv.step, Kv.evaluate, Kv.likVariance, Kv.evalMode, logdetIn, Mode.random, j', j, m1, m2, exampleProbe_variance]
  · rw [hk]; simp [Kv.evalMode, w, m1, Mode.random]
  · rw [Kv.accepts, c, v]
    simp only [tolerance, Option.map_some, Option.getD_some]
    have : (1 : ℝ) ≤ Real.sqrt (2 * 1) := Real.one_le_sqrt.mpr (by norm_num)
    linarith

/-- `log_likelihood()` returns the value stored with the current hyperparameters, but the variance reported afterwards is the one of the last evaluation at any
hyperparameters. -/
theorem C131_cached_violated (j j' : Job) (a b : ℝ) (hj : j.probe.variance = some a) (hj' : j'.probe.variance = some b) (hab : a ≠ b) :
    ∃ k : Kv, k = Kv.new false (some .cg) 0 j ∧ (k.run [.evaluate j', .cached]).cached = k.cached ∧ k.likVariance = some (1 / 4 * a) ∧
      (k.run [.evaluate j', .cached]).likVariance = some (1 / 4 * b) ∧ k.likVariance ≠ (k.run [.evaluate j', .cached]).likVariance := by
  have h1 : (Kv.new false (some .cg) 0 j).likVariance = some (1 / 4 * a) := by
    simp [Kv.new, Kv.refresh, Kv.likVariance, logdetIn, Mode.random, hj]
  have h2 : ((Kv.new false (some .cg) 0 j).run [.evaluate j', .cached]).likVariance = some (1 / 4 * b) := by
    simp [Kv.new, Kv.refresh, Kv.run, Kv.step, Kv.evaluate, Kv.evalMode, Kv.likVariance, logdetIn, Mode.random, hj']
  refine ⟨_, rfl, ?_, h1, h2, ?_⟩
  · simp [Kv.run, Kv.step, Kv.evaluate, Kv.cached]
  · rw [h1, h2]
    simpa using hab

/-- Specification: the modes with a stochastic log-determinant (documentation of `linalg_mode`: iterative solvers and `sparseSolve`). -/
def Stochastic (m : Mode) : Prop := m = .minres ∨ m = .cg ∨ m = .minresPre ∨ m = .cgPre ∨ m = .sparseSolve

/-- The modes: a named mode is used always; without a name, small matrices and very sparse ones up to 50000 points are treated exactly. -/
theorem C131_modes (n nnz : ℕ) :
    (∀ m, pickMode (some m) n nnz = m) ∧ (∀ m : Mode, m.random = true ↔ Stochastic m) ∧
    ((pickMode none n nnz).random = true ↔ ¬ (n ≤ 2000 ∨ (n ≤ 50000 ∧ (nnz : ℝ) / (n : ℝ) ^ 2 < 1 / 10000))) := by
  refine ⟨fun _ => rfl, fun m => by cases m <;> simp [Mode.random, Stochastic], ?_⟩
  rcases Nat.eq_zero_or_pos n with rfl | hn
  · simp [pickMode, Mode.random]
  have hn' : (0 : ℝ) < (n : ℝ) ^ 2 := by positivity
  have key : (nnz : ℝ) / (n : ℝ) ^ 2 < 1 / 10000 ↔ 10000 * nnz < n ^ 2 := by
    rw [div_lt_div_iff₀ hn' (by norm_num)]
    constructor
    · intro h
      have : ((10000 * nnz : ℕ) : ℝ) < ((n ^ 2 : ℕ) : ℝ) := by push_cast; linarith
      exact_mod_cast this
    · intro h
      have : ((10000 * nnz : ℕ) : ℝ) < ((n ^ 2 : ℕ) : ℝ) := by exact_mod_cast h
      push_cast at this; linarith
  rw [key]
  simp only [pickMode]
  split_ifs with h1 h2
  · simp only [Mode.random, Bool.false_eq_true, false_iff, not_not]; exact .inr ⟨by omega, h1.2⟩
  · simp only [Mode.random, Bool.false_eq_true, false_iff, not_not]; exact .inl (by omega)
  · simp only [Mode.random, true_iff]; omega

/-! ### What the number is -/

variable {Ω : Type*} [MeasurableSpace Ω] {μ : Measure Ω} [IsProbabilityMeasure μ]

theorem sum_sq_dev {t : ℕ} (ht : 0 < t) (x : Fin t → ℝ) :
    ∑ i, (x i - (∑ j, x j) / t) ^ 2 = ∑ i, x i ^ 2 - (∑ j, x j) ^ 2 / t := by
  have ht' : (t : ℝ) ≠ 0 := by exact_mod_cast ht.ne'
  have : ∀ i, (x i - (∑ j, x j) / t) ^ 2 = x i ^ 2 - 2 * ((∑ j, x j) / t) * x i + ((∑ j, x j) / t) ^ 2 := fun i => by ring
  simp only [this, Finset.sum_add_distrib, Finset.sum_sub_distrib, ← Finset.mul_sum, Finset.sum_const, Finset.card_univ, Fintype.card_fin, nsmul_eq_mul]
  field_simp
  ring

/-- The reported variance is on average the variance of the returned mean: for a fixed number of at least two pairwise independent probes with the same mean and
variance. Partial: imate chooses the number of probes from the probes, which is not covered. -/
theorem C131_unbiased_partial {t : ℕ} (ht : 1 < t) (X : Fin t → Ω → ℝ) (hX : ∀ i, MemLp (X i) 2 μ)
    (hind : Pairwise fun i j => IndepFun (X i) (X j) μ) (m s : ℝ) (hm : ∀ i, μ[X i] = m) (hs : ∀ i, Var[X i; μ] = s) :
    (∀ ω, ∃ v, (Probe.mk ((∑ i, X i ω) / t) (List.ofFn fun i => some (X i ω)) true).variance = some v) ∧
    ∫ ω, ((Probe.mk ((∑ i, X i ω) / t) (List.ofFn fun i => some (X i ω)) true).variance.getD 0) ∂μ = Var[fun ω => (∑ i, X i ω) / t; μ] := by
  have ht0 : (0 : ℝ) < t := by exact_mod_cast (by omega : 0 < t)
  have ht1 : (0 : ℝ) < t - 1 := by
    have : (1 : ℝ) < t := by exact_mod_cast ht
    linarith
  have val : ∀ ω, (Probe.mk ((∑ i, X i ω) / t) (List.ofFn fun i => some (X i ω)) true).variance =
      some ((∑ i, X i ω ^ 2 - (∑ j, X j ω) ^ 2 / t) / (t - 1) / t) := fun ω => by
    have e : (List.ofFn fun i => some (X i ω)).filterMap id = List.ofFn fun i => X i ω := by
      rw [show (List.ofFn fun i => some (X i ω)) = (List.ofFn fun i => X i ω).map some by rw [List.map_ofFn]; rfl]
      simp [List.filterMap_map]
    simp only [Probe.variance, if_true, e, List.length_ofFn, if_pos ht, sampleVar, List.sum_ofFn, List.map_ofFn, Function.comp_def]
    rw [sum_sq_dev (by omega)]
  refine ⟨fun ω => ⟨_, val ω⟩, ?_⟩
  simp only [val, Option.getD_some]
  have hS : MemLp (∑ i, X i) 2 μ := memLp_finset_sum' _ fun i _ => hX i
  have vS : Var[∑ i, X i; μ] = t * s := by
    rw [IndepFun.variance_sum (fun i _ => hX i) fun i _ j _ hij => hind hij]
    simp [hs]
  have iX : ∀ i, Integrable (X i) μ := fun i => (hX i).integrable (by norm_num)
  have mS : μ[∑ i, X i] = t * m := by
    simp only [Finset.sum_apply]
    rw [integral_finset_sum _ fun i _ => iX i]
    simp [hm]
  have sq : ∀ i, ∫ ω, X i ω ^ 2 ∂μ = s + m ^ 2 := fun i => by
    have := variance_eq_sub (hX i)
    rw [hs, hm] at this
    simp only [Pi.pow_apply] at this
    linarith
  have sqS : ∫ ω, (∑ i, X i ω) ^ 2 ∂μ = t * s + (t * m) ^ 2 := by
    have := variance_eq_sub hS
    rw [vS, mS] at this
    simp only [Pi.pow_apply, Finset.sum_apply] at this
    linarith
  have i1 : Integrable (fun ω => ∑ i, X i ω ^ 2) μ := integrable_finset_sum _ fun i _ => (hX i).integrable_sq
  have i2 : Integrable (fun ω => (∑ i, X i ω) ^ 2 / t) μ := by
    have := hS.integrable_sq
    simp only [Finset.sum_apply] at this
    exact this.div_const _
  rw [integral_div, integral_div, integral_sub i1 i2, integral_finset_sum _ fun i _ => (hX i).integrable_sq, integral_div, sqS]
  simp only [sq, Finset.sum_const, Finset.card_univ, Fintype.card_fin, nsmul_eq_mul]
  have : Var[fun ω => (∑ i, X i ω) / t; μ] = (1 / t) ^ 2 * (t * s) := by
    rw [← vS, ← variance_const_mul]
    congr 1
    funext ω
    simp [Finset.sum_apply]
    ring
  rw [this]
  field_simp
  ring

/-- The likelihood has a quarter of the variance of the log-determinant, the same for the negative likelihood. -/
theorem C131_quarter (j : Job) (D : Ω → ℝ) (hD : AEStronglyMeasurable D μ) :
    Var[fun ω => loglik j (D ω); μ] = 1 / 4 * Var[D; μ] ∧ Var[fun ω => -loglik j (D ω); μ] = 1 / 4 * Var[D; μ] := by
  have h1 : Var[fun ω => loglik j (D ω); μ] = 1 / 4 * Var[D; μ] := by
    have e : (fun ω => loglik j (D ω)) = fun ω => -(1 / 2) * (D ω + (j.l1 + j.n * Real.log (2 * Real.pi))) := by
      funext ω; simp only [loglik]; ring
    rw [e, variance_const_mul, variance_add_const hD]
    norm_num
  refine ⟨h1, ?_⟩
  rw [← h1]
  have := variance_const_mul (-1) (fun ω => loglik j (D ω)) μ
  simpa using this

/-- The guard with the true variance `v` of both likelihoods: hyperparameters that are not worse are rejected with probability at most 1/9, however the noise is
distributed. -/
theorem C131_guard_error (A B : Ω → ℝ) (hA : MemLp A 2 μ) (hB : MemLp B 2 μ) (hind : IndepFun A B μ) (v : ℝ) (hv : 0 < v)
    (vA : Var[A; μ] ≤ v) (vB : Var[B; μ] ≤ v) (hbetter : μ[B] ≤ μ[A]) :
    μ {ω | ¬ A ω ≥ B ω - tolerance (some v)} ≤ ENNReal.ofReal (1 / 9) := by
  have hAB : MemLp (A - B) 2 μ := hA.sub hB
  have hc : 0 < 3 * Real.sqrt (2 * v) := by positivity
  have cheb := meas_ge_le_variance_div_sq hAB hc
  have var : Var[A - B; μ] ≤ 2 * v := by
    rw [variance_sub hA hB, hind.covariance_eq_zero hA hB]
    linarith
  have mean : μ[A - B] = μ[A] - μ[B] := by
    simp only [Pi.sub_apply]
    exact integral_sub (hA.integrable (by norm_num)) (hB.integrable (by norm_num))
  refine (measure_mono fun ω hω => ?_).trans (cheb.trans (ENNReal.ofReal_le_ofReal ?_))
  · simp only [Set.mem_setOf_eq, tolerance, Option.map_some, Option.getD_some, ge_iff_le, not_le] at hω ⊢
    rw [mean, le_abs]
    right
    simp only [Pi.sub_apply]
    linarith
  · rw [mul_pow, Real.sq_sqrt (by positivity), div_le_div_iff₀ (by positivity) (by norm_num)]
    linarith

example : (Kv.new false (some .cg) 0 ⟨0, 0, 1, 1, exampleProbe⟩).likVariance = some 1 := by
  simp [Kv.new, Kv.refresh, Kv.likVariance, logdetIn, Mode.random, exampleProbe_variance]

example : Exact (Kv.new false none 0 ⟨0, 0, 1, 1, exampleProbe⟩) (.evaluate ⟨0, 0, 1, 1, exampleProbe⟩) := by
  simp [Exact, Kv.evalMode, Kv.new, Kv.refresh, Mode.random]

/-- Three independent normal probes with mean 1 and variance 2 fulfil the hypotheses of `C131_unbiased_partial`; two of them those of `C131_guard_error`. -/
example : let ν : Measure (Fin 3 → ℝ) := Measure.pi fun _ => gaussianReal 1 2
    (∀ i, MemLp (fun ω : Fin 3 → ℝ => ω i) 2 ν) ∧ (Pairwise fun i j => IndepFun (fun ω : Fin 3 → ℝ => ω i) (fun ω => ω j) ν) ∧
    (∀ i : Fin 3, ∫ ω, ω i ∂ν = 1) ∧ ∀ i : Fin 3, Var[fun ω : Fin 3 → ℝ => ω i; ν] = 2 := by
  intro ν
  have mp : ∀ i, MeasurePreserving (fun ω : Fin 3 → ℝ => ω i) ν (gaussianReal 1 2) := fun i => measurePreserving_eval _ i
  refine ⟨fun i => (memLp_id_gaussianReal 2).comp_measurePreserving (mp i), fun i j hij => ?_, fun i => ?_, fun i => ?_⟩
  · exact (iIndepFun_pi (μ := fun _ : Fin 3 => gaussianReal 1 2) (X := fun _ => id) fun _ => aemeasurable_id).indepFun hij
  · have := (mp i).map_eq
    rw [← integral_map (f := fun x => x) (mp i).measurable.aemeasurable (by fun_prop), this]
    exact integral_id_gaussianReal
  · rw [← variance_id_map (mp i).measurable.aemeasurable, (mp i).map_eq]
    simp

end Verif.GP.Slq
