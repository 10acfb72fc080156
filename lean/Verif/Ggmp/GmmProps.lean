import Verif.Ggmp.GmmModel
import Mathlib.Analysis.SpecialFunctions.Log.Basic
import Mathlib.Analysis.SpecialFunctions.Exponential
import Mathlib.Analysis.Real.Pi.Bounds
import Mathlib.Algebra.BigOperators.Field
import Mathlib.Tactic.Linarith
import Mathlib.Tactic.Positivity

/-!
C113: the fit of a Gaussian mixture with fixed weights.
-/

namespace Verif.Ggmp

open Finset

variable {K n : ℕ}

theorem gaussianPdf_pos (x mu var : ℝ) : 0 < gaussianPdf x mu var := by
  unfold gaussianPdf
  have : 0 < max var (1 / 10 ^ 12 : ℝ) := lt_max_of_lt_right (by positivity)
  have := Real.pi_pos
  positivity

theorem fixedWeights_pos [NeZero K] (w : Fin K → ℝ) (k : Fin K) : 0 < fixedWeights w k := by
  have h : ∀ k, 0 < max (w k) (1 / 10 ^ 12 : ℝ) := fun k => lt_max_of_lt_right (by positivity)
  exact div_pos (h k) (sum_pos (fun k _ => h k) ⟨k, mem_univ _⟩)

theorem fixedResp_pos (w : Fin K → ℝ) (hw : ∀ k, 0 < w k) (s : Comps K) (y : ℝ) (k : Fin K) : 0 < fixedResp w s y k := by
  unfold fixedResp
  refine div_pos (mul_pos (hw k) (gaussianPdf_pos _ _ _)) (add_pos_of_nonneg_of_pos ?_ (by positivity))
  exact sum_nonneg fun j _ => (mul_pos (hw j) (gaussianPdf_pos _ _ _)).le

theorem fixedN_pos (y : Fin n → ℝ) (w : Fin K → ℝ) (hw : ∀ k, 0 < w k) (s : Comps K) (k : Fin K) : 0 < fixedN y w s k := by
  unfold fixedN
  exact add_pos_of_nonneg_of_pos (sum_nonneg fun i _ => (fixedResp_pos w hw s (y i) k).le) (by positivity)

/-! ### the course of the iterations -/

/-- The fit fails exactly for an empty series. -/
theorem C113_defined (y : Fin n → ℝ) (w init : Fin K → ℝ) (maxIter : ℕ) (tol : ℝ) :
    (∃ r, fitFixed y w init maxIter tol = .ok r) ↔ n ≠ 0 := by
  unfold fitFixed
  split_ifs with h <;> simp [h]

theorem fixedLoop_trace (y : Fin n → ℝ) (w : Fin K → ℝ) (tol : ℝ) (maxIter : ℕ) (s : Comps K) :
    ∃ t ≤ maxIter, (maxIter ≠ 0 → t ≠ 0) ∧ fixedLoop y w tol maxIter s = (fixedStep y w)^[t] s ∧
      (∀ j, j + 1 < t → ∃ k, tol ≤ |((fixedStep y w)^[j + 1] s).mean k - ((fixedStep y w)^[j] s).mean k|) ∧
      (t < maxIter → ∀ j, j + 1 = t → ∀ k, |((fixedStep y w)^[j + 1] s).mean k - ((fixedStep y w)^[j] s).mean k| < tol) := by
  induction maxIter generalizing s with
  | zero => exact ⟨0, le_rfl, by simp, rfl, by simp, by simp⟩
  | succ N ih =>
      simp only [fixedLoop]
      split_ifs with h
      · exact ⟨1, by omega, by simp, rfl, by omega, fun _ j hj k => by obtain rfl : j = 0 := by omega
                                                                       exact h k⟩
      · obtain ⟨t, ht, h0, he, h1, h2⟩ := ih (fixedStep y w s)
        refine ⟨t + 1, by omega, by simp, by rw [he, Function.iterate_succ_apply], ?_, ?_⟩
        · intro j hj
          cases j with
          | zero =>
              push Not at h
              exact h
          | succ j => exact h1 j (by omega)
        · intro htN j hj
          cases j with
          | zero => exfalso; exact h0 (by omega) (by omega)
          | succ j => exact h2 (by omega) j (by omega)

/-- `np.var` is the mean of the squares minus the square of the mean. -/
theorem sampleVar_eq (y : Fin n → ℝ) (hn : n ≠ 0) : sampleVar y = (∑ i, y i ^ 2) / n - ((∑ i, y i) / n) ^ 2 := by
  have h : (n : ℝ) ≠ 0 := by exact_mod_cast hn
  unfold sampleVar
  set m := (∑ j, y j) / n with hm
  have hs : ∑ j, y j = n * m := by rw [hm]; field_simp
  have : ∑ i, (y i - m) ^ 2 = ∑ i, y i ^ 2 - n * m ^ 2 := by
    simp only [sub_sq, Finset.sum_add_distrib, Finset.sum_sub_distrib]
    rw [← Finset.sum_mul, ← Finset.mul_sum, hs]
    simp
    ring
  rw [this]
  field_simp

/-- The result are the components after the first iteration in which no mean moves by `tol`, or after `max_iter` iterations,
listed by increasing mean. -/
theorem C113_stop (y : Fin n → ℝ) (w init : Fin K → ℝ) (maxIter : ℕ) (tol : ℝ) (r : FixedFit K)
    (h : fitFixed y w init maxIter tol = .ok r) :
    ∃ (it : ℕ → Comps K) (t : ℕ) (σ : Equiv.Perm (Fin K)),
      it 0 = ⟨init, fun _ => ((∑ i, y i ^ 2) / n - ((∑ i, y i) / n) ^ 2) / K⟩ ∧ (∀ j, it (j + 1) = fixedStep y (fixedWeights w) (it j)) ∧
      t ≤ maxIter ∧ (maxIter ≠ 0 → t ≠ 0) ∧
      (∀ j, j + 1 < t → ∃ k, tol ≤ |(it (j + 1)).mean k - (it j).mean k|) ∧
      (t < maxIter → ∀ j, j + 1 = t → ∀ k, |(it (j + 1)).mean k - (it j).mean k| < tol) ∧
      r.mean = (it t).mean ∘ σ ∧ r.var = (it t).var ∘ σ ∧ Monotone r.mean := by
  unfold fitFixed at h
  split_ifs at h with h0
  simp only [Except.ok.injEq] at h
  obtain ⟨t, ht, hz, he, h1, h2⟩ := fixedLoop_trace y (fixedWeights w) tol maxIter ⟨init, fun _ => sampleVar y / K⟩
  refine ⟨fun j => (fixedStep y (fixedWeights w))^[j] ⟨init, fun _ => sampleVar y / K⟩, t,
    Tuple.sort (fixedLoop y (fixedWeights w) tol maxIter ⟨init, fun _ => sampleVar y / K⟩).mean, by
      rw [← sampleVar_eq y h0]; rfl,
    fun j => Function.iterate_succ_apply' _ _ _, ht, hz, h1, h2, ?_, ?_, ?_⟩
  · rw [← h, he]
  · rw [← h, he]
  · rw [← h]
    exact Tuple.monotone_sort _

/-! ### the range of the result -/

theorem fixedMean_range (y : Fin n → ℝ) (w : Fin K → ℝ) (hw : ∀ k, 0 < w k) (s : Comps K) (k : Fin K) (lo hi : ℝ)
    (hl : lo ≤ 0) (hh : 0 ≤ hi) (hy : ∀ i, lo ≤ y i ∧ y i ≤ hi) : lo ≤ fixedMean y w s k ∧ fixedMean y w s k ≤ hi := by
  have hN := fixedN_pos y w hw s k
  have hr : ∀ i, 0 ≤ fixedResp w s (y i) k := fun i => (fixedResp_pos w hw s (y i) k).le
  unfold fixedMean
  have hs : ∀ c : ℝ, ∑ i, fixedResp w s (y i) k * c = (fixedN y w s k - 1 / 10 ^ 12) * c := by
    intro c
    rw [← sum_mul]
    unfold fixedN
    ring
  constructor
  · rw [le_div_iff₀ hN]
    have := sum_le_sum fun i (_ : i ∈ univ) => mul_le_mul_of_nonneg_left (hy i).1 (hr i)
    rw [hs] at this
    have : (1 / 10 ^ 12 : ℝ) * lo ≤ 0 := mul_nonpos_of_nonneg_of_nonpos (by positivity) hl
    linarith
  · rw [div_le_iff₀ hN]
    have := sum_le_sum fun i (_ : i ∈ univ) => mul_le_mul_of_nonneg_left (hy i).2 (hr i)
    rw [hs] at this
    have : (0 : ℝ) ≤ 1 / 10 ^ 12 * hi := mul_nonneg (by positivity) hh
    linarith

/-- Fitted variances are at least `1e-6`; fitted means and variances are limited by the range of the data extended to zero.
Partial: the range of the data itself may be left towards zero. -/
theorem C113_range_partial [NeZero K] (y : Fin n → ℝ) (w init : Fin K → ℝ) (maxIter : ℕ) (hm : maxIter ≠ 0) (tol : ℝ)
    (r : FixedFit K) (h : fitFixed y w init maxIter tol = .ok r) (lo hi : ℝ) (hl : lo ≤ 0) (hh : 0 ≤ hi)
    (hy : ∀ i, lo ≤ y i ∧ y i ≤ hi) (k : Fin K) :
    lo ≤ r.mean k ∧ r.mean k ≤ hi ∧ 1 / 10 ^ 6 ≤ r.var k ∧ r.var k ≤ (hi - lo) ^ 2 + 1 / 10 ^ 6 := by
  obtain ⟨it, t, σ, -, hs, -, hz, -, -, e1, e2, -⟩ := C113_stop y w init maxIter tol r h
  obtain ⟨j, rfl⟩ := Nat.exists_eq_succ_of_ne_zero (hz hm)
  have hw := fixedWeights_pos w
  rw [e1, e2, Nat.succ_eq_add_one, hs]
  set q := σ k
  have hM := fixedMean_range y (fixedWeights w) hw (it j) q lo hi hl hh hy
  have hN := fixedN_pos y (fixedWeights w) hw (it j) q
  have hr : ∀ i, 0 ≤ fixedResp (fixedWeights w) (it j) (y i) q := fun i => (fixedResp_pos _ hw (it j) (y i) q).le
  refine ⟨hM.1, hM.2, ?_, ?_⟩
  · show _ ≤ fixedVar y (fixedWeights w) (it j) q
    unfold fixedVar
    have := div_nonneg (sum_nonneg fun i (_ : i ∈ univ) => mul_nonneg (hr i) (sq_nonneg (y i - fixedMean y (fixedWeights w) (it j) q))) hN.le
    linarith
  · show fixedVar y (fixedWeights w) (it j) q ≤ _
    unfold fixedVar
    refine add_le_add (?_ : _ ≤ (hi - lo) ^ 2) le_rfl
    rw [div_le_iff₀ hN]
    have hb : ∀ i, (y i - fixedMean y (fixedWeights w) (it j) q) ^ 2 ≤ (hi - lo) ^ 2 := fun i => by
      exact sq_le_sq' (by linarith [(hy i).1, hM.2]) (by linarith [(hy i).2, hM.1])
    have := sum_le_sum fun i (_ : i ∈ univ) => mul_le_mul_of_nonneg_left (hb i) (hr i)
    rw [← sum_mul] at this
    have h2 : ∑ i, fixedResp (fixedWeights w) (it j) (y i) q = fixedN y (fixedWeights w) (it j) q - 1 / 10 ^ 12 := by
      unfold fixedN; ring
    rw [h2] at this
    nlinarith [sq_nonneg (hi - lo)]

/-! ### likelihood -/

/-- The density of the normal distribution with mean `m` and variance `v`. -/
noncomputable def normalDensity (x m v : ℝ) : ℝ := (√(2 * Real.pi * v))⁻¹ * Real.exp (-(x - m) ^ 2 / (2 * v))

/-- Log-likelihood of the data under the mixture with an additional background of constant density `1e-12`, and one more
observation at zero of weight `1e-12` for each component. -/
noncomputable def guardedLogLik (y : Fin n → ℝ) (w m v : Fin K → ℝ) : ℝ :=
  ∑ i, Real.log (1 / 10 ^ 12 + ∑ k, w k * normalDensity (y i) (m k) (v k))
    - ∑ k, 1 / 10 ^ 12 / 2 * (Real.log (v k) + m k ^ 2 / v k)

/-- Probability that the observation `x` belongs to component `k`, with the background. -/
noncomputable def membership (w m v : Fin K → ℝ) (x : ℝ) (k : Fin K) : ℝ :=
  w k * normalDensity x (m k) (v k) / (1 / 10 ^ 12 + ∑ j, w j * normalDensity x (m j) (v j))

/-- Number of observations in a component, with the one at zero. -/
noncomputable def members (y : Fin n → ℝ) (w m v : Fin K → ℝ) (k : Fin K) : ℝ := ∑ i, membership w m v (y i) k + 1 / 10 ^ 12

/-- The variance around `m'` of the observations of a component, with the one at zero. -/
noncomputable def spread (y : Fin n → ℝ) (w m v m' : Fin K → ℝ) (k : Fin K) : ℝ :=
  (∑ i, membership w m v (y i) k * (y i - m' k) ^ 2 + 1 / 10 ^ 12 * m' k ^ 2) / members y w m v k

theorem gaussianPdf_eq (x m v : ℝ) (hv : 1 / 10 ^ 12 ≤ v) : gaussianPdf x m v = normalDensity x m v := by
  unfold gaussianPdf normalDensity
  rw [max_eq_left hv, div_eq_inv_mul]
  congr 2
  have : v ≠ 0 := by
    rintro rfl
    norm_num at hv
  field_simp

theorem normalDensity_pos (x m v : ℝ) (hv : 0 < v) : 0 < normalDensity x m v := by
  unfold normalDensity
  have := Real.pi_pos
  positivity

theorem log_normalDensity (x m v : ℝ) (hv : 0 < v) :
    Real.log (normalDensity x m v) = -(1 / 2) * Real.log (2 * Real.pi) - 1 / 2 * Real.log v - (x - m) ^ 2 / (2 * v) := by
  have hpi := Real.pi_pos
  unfold normalDensity
  rw [Real.log_mul (by positivity) (by positivity), Real.log_exp, Real.log_inv, Real.log_sqrt (by positivity),
    Real.log_mul (by positivity) (by positivity)]
  ring

/-- Gibbs' inequality for one observation. -/
theorem gain_row (ε : ℝ) (hε : 0 < ε) (a a' : Fin K → ℝ) (ha : ∀ k, 0 < a k) (ha' : ∀ k, 0 < a' k) :
    ∑ k, a k / (ε + ∑ j, a j) * Real.log (a' k / a k) ≤ Real.log (ε + ∑ j, a' j) - Real.log (ε + ∑ j, a j) := by
  set T := ε + ∑ j, a j with hT
  set T' := ε + ∑ j, a' j with hT'
  have hTp : 0 < T := add_pos_of_pos_of_nonneg hε (sum_nonneg fun k _ => (ha k).le)
  have hTp' : 0 < T' := add_pos_of_pos_of_nonneg hε (sum_nonneg fun k _ => (ha' k).le)
  have key : ∀ k, a k / T * Real.log (a' k / a k) - a k / T * (Real.log T' - Real.log T) ≤ a' k / T' - a k / T := by
    intro k
    have h1 : Real.log (a' k / a k * (T / T')) = Real.log (a' k / a k) - (Real.log T' - Real.log T) := by
      rw [Real.log_mul (div_pos (ha' k) (ha k)).ne' (div_pos hTp hTp').ne', Real.log_div hTp.ne' hTp'.ne']
      ring
    have h2 := Real.log_le_sub_one_of_pos (mul_pos (div_pos (ha' k) (ha k)) (div_pos hTp hTp'))
    rw [h1] at h2
    have h3 := mul_le_mul_of_nonneg_left h2 (div_pos (ha k) hTp).le
    have h4 : a k / T * (a' k / a k * (T / T') - 1) = a' k / T' - a k / T := by
      have := (ha k).ne'
      field_simp
    rw [h4] at h3
    linarith
  have hs := sum_le_sum fun k (_ : k ∈ univ) => key k
  rw [sum_sub_distrib, sum_sub_distrib, ← sum_mul, ← sum_div, ← sum_div] at hs
  have e1 : (∑ k, a k) / T = 1 - ε / T := by rw [eq_sub_iff_add_eq, ← add_div, add_comm, ← hT, div_self hTp.ne']
  have e2 : (∑ k, a' k) / T' = 1 - ε / T' := by rw [eq_sub_iff_add_eq, ← add_div, add_comm, ← hT', div_self hTp'.ne']
  rw [e1, e2] at hs
  have hb : ε / T - ε / T' ≤ ε / T * (Real.log T' - Real.log T) := by
    have h2 := Real.log_le_sub_one_of_pos (div_pos hTp hTp')
    rw [Real.log_div hTp.ne' hTp'.ne'] at h2
    have h3 := mul_le_mul_of_nonneg_left h2 (div_pos hε hTp).le
    have h4 : ε / T * (T / T' - 1) = ε / T' - ε / T := by field_simp
    rw [h4] at h3
    linarith
  linarith

theorem membership_pos (w : Fin K → ℝ) (hw : ∀ k, 0 < w k) (m v : Fin K → ℝ) (hv : ∀ k, 0 < v k) (x : ℝ) (k : Fin K) :
    0 < membership w m v x k :=
  div_pos (mul_pos (hw k) (normalDensity_pos _ _ _ (hv k)))
    (add_pos_of_pos_of_nonneg (by positivity) (sum_nonneg fun j _ => (mul_pos (hw j) (normalDensity_pos _ _ _ (hv j))).le))

theorem spread_pos (y : Fin n → ℝ) (w : Fin K → ℝ) (hw : ∀ k, 0 < w k) (m v : Fin K → ℝ) (hv : ∀ k, 0 < v k) (m' : Fin K → ℝ)
    (hy : ∃ i, y i ≠ 0) (k : Fin K) : 0 < spread y w m v m' k := by
  obtain ⟨i, hi⟩ := hy
  have hr := membership_pos w hw m v hv
  have hsq : ∀ i, 0 ≤ membership w m v (y i) k * (y i - m' k) ^ 2 := fun i => mul_nonneg (hr _ _).le (sq_nonneg _)
  refine div_pos ?_ (add_pos_of_nonneg_of_pos (sum_nonneg fun i _ => (hr _ _).le) (by positivity))
  by_cases h0 : m' k = 0
  · refine add_pos_of_pos_of_nonneg (sum_pos' (fun i _ => hsq i) ⟨i, mem_univ _, ?_⟩) (by positivity)
    rw [h0, sub_zero]
    have := hr (y i) k
    positivity
  · exact add_pos_of_nonneg_of_pos (sum_nonneg fun i _ => hsq i) (by positivity)

/-- One iteration does not lower the guarded log-likelihood, except for what the constant `1e-6` added to each variance costs. -/
theorem C113_ascent_partial (y : Fin n → ℝ) (w : Fin K → ℝ) (hw : ∀ k, 0 < w k) (s : Comps K) (hv : ∀ k, 1 / 10 ^ 12 ≤ s.var k)
    (s' : Comps K) (hs' : s' = fixedStep y w s) (hy : ∃ i, y i ≠ 0) :
    guardedLogLik y w s.mean s.var
      - ∑ k, members y w s.mean s.var k / 2 * ((s'.var k - spread y w s.mean s.var s'.mean k) ^ 2
        / (s'.var k * spread y w s.mean s.var s'.mean k)) ≤ guardedLogLik y w s'.mean s'.var := by
  have hvp : ∀ k, 0 < s.var k := fun k => lt_of_lt_of_le (by positivity) (hv k)
  have hb : ∀ k, 0 < spread y w s.mean s.var s'.mean k := fun k => spread_pos y w hw _ _ hvp _ hy k
  have hres : ∀ i k, fixedResp w s (y i) k = membership w s.mean s.var (y i) k := by
    intro i k
    unfold fixedResp membership
    rw [add_comm]
    simp only [gaussianPdf_eq _ _ _ (hv _)]
  set r : Fin n → Fin K → ℝ := fun i k => membership w s.mean s.var (y i) k with hr
  have hrp : ∀ i k, 0 < r i k := fun i k => by rw [hr]; simp only; rw [← hres]; exact fixedResp_pos w hw s (y i) k
  set M : Fin K → ℝ := members y w s.mean s.var with hMdef
  have hM : ∀ k, M k = ∑ i, r i k + 1 / 10 ^ 12 := fun k => rfl
  have hMp : ∀ k, 0 < M k := fun k => by rw [hM]; exact add_pos_of_nonneg_of_pos (sum_nonneg fun i _ => (hrp i k).le) (by positivity)
  have hN : ∀ k, fixedN y w s k = M k := fun k => by
    rw [hM]; unfold fixedN; simp only [hres]; rfl
  have hm' : ∀ k, s'.mean k = (∑ i, r i k * y i) / M k := by
    intro k
    rw [hs']
    show fixedMean y w s k = _
    unfold fixedMean
    rw [hN]
    simp only [hres]
    rfl
  have hv'p : ∀ k, 0 < s'.var k := by
    intro k
    rw [hs']
    show 0 < fixedVar y w s k
    unfold fixedVar
    refine add_pos_of_nonneg_of_pos (div_nonneg (sum_nonneg fun i _ => mul_nonneg (fixedResp_pos w hw s _ _).le (sq_nonneg _)) ?_) (by positivity)
    exact (fixedN_pos y w hw s k).le
  set b : Fin K → ℝ := spread y w s.mean s.var s'.mean with hbdef
  -- the gain of the data part
  have hrow : ∀ i, ∑ k, r i k * (Real.log (normalDensity (y i) (s'.mean k) (s'.var k)) - Real.log (normalDensity (y i) (s.mean k) (s.var k)))
      ≤ Real.log (1 / 10 ^ 12 + ∑ k, w k * normalDensity (y i) (s'.mean k) (s'.var k))
        - Real.log (1 / 10 ^ 12 + ∑ k, w k * normalDensity (y i) (s.mean k) (s.var k)) := by
    intro i
    have h1 := gain_row (1 / 10 ^ 12) (by positivity) (fun k => w k * normalDensity (y i) (s.mean k) (s.var k))
      (fun k => w k * normalDensity (y i) (s'.mean k) (s'.var k)) (fun k => mul_pos (hw k) (normalDensity_pos _ _ _ (hvp k)))
      (fun k => mul_pos (hw k) (normalDensity_pos _ _ _ (hv'p k)))
    refine le_trans (le_of_eq (sum_congr rfl fun k _ => ?_)) h1
    rw [mul_div_mul_left _ _ (hw k).ne', Real.log_div (normalDensity_pos _ _ _ (hv'p k)).ne' (normalDensity_pos _ _ _ (hvp k)).ne']
    rfl
  have hdata := sum_le_sum fun i (_ : i ∈ univ) => hrow i
  rw [sum_sub_distrib, sum_comm] at hdata
  -- per component
  have hcomp : ∀ k, -(M k / 2 * ((s'.var k - b k) ^ 2 / (s'.var k * b k)))
      ≤ ∑ i, r i k * (Real.log (normalDensity (y i) (s'.mean k) (s'.var k)) - Real.log (normalDensity (y i) (s.mean k) (s.var k)))
        - 1 / 10 ^ 12 / 2 * (Real.log (s'.var k) + s'.mean k ^ 2 / s'.var k)
        + 1 / 10 ^ 12 / 2 * (Real.log (s.var k) + s.mean k ^ 2 / s.var k) := by
    intro k
    set A : ℝ → ℝ := fun m => ∑ i, r i k * (y i - m) ^ 2 + 1 / 10 ^ 12 * m ^ 2 with hA
    have hAb : A (s'.mean k) = M k * b k := by
      rw [hA, hbdef]
      simp only [spread]
      rw [mul_div_cancel₀ _ (hMp k).ne']
    have hquad : A (s'.mean k) ≤ A (s.mean k) := by
      have hexp : ∀ m, A m = ∑ i, r i k * y i ^ 2 - 2 * m * ∑ i, r i k * y i + M k * m ^ 2 := by
        intro m
        rw [hA, hM]
        simp only
        rw [mul_sum, add_mul, sum_mul, ← sum_sub_distrib, ← add_assoc, ← sum_add_distrib]
        congr 1
        exact sum_congr rfl fun i _ => by ring
      rw [hexp, hexp]
      have h1 : ∑ i, r i k * y i = M k * s'.mean k := by rw [hm', mul_div_cancel₀ _ (hMp k).ne']
      rw [h1]
      nlinarith [mul_nonneg (hMp k).le (sq_nonneg (s'.mean k - s.mean k))]
    have hsum : ∑ i, r i k * (Real.log (normalDensity (y i) (s'.mean k) (s'.var k)) - Real.log (normalDensity (y i) (s.mean k) (s.var k)))
        - 1 / 10 ^ 12 / 2 * (Real.log (s'.var k) + s'.mean k ^ 2 / s'.var k)
        + 1 / 10 ^ 12 / 2 * (Real.log (s.var k) + s.mean k ^ 2 / s.var k)
        = M k / 2 * (Real.log (s.var k) - Real.log (s'.var k)) - A (s'.mean k) / (2 * s'.var k) + A (s.mean k) / (2 * s.var k) := by
      have e : ∀ i, r i k * (Real.log (normalDensity (y i) (s'.mean k) (s'.var k)) - Real.log (normalDensity (y i) (s.mean k) (s.var k)))
          = r i k * ((Real.log (s.var k) - Real.log (s'.var k)) / 2) - r i k * (y i - s'.mean k) ^ 2 * (1 / (2 * s'.var k))
            + r i k * (y i - s.mean k) ^ 2 * (1 / (2 * s.var k)) := by
        intro i
        rw [log_normalDensity _ _ _ (hv'p k), log_normalDensity _ _ _ (hvp k)]
        ring
      rw [sum_congr rfl fun i _ => e i, sum_add_distrib, sum_sub_distrib, ← sum_mul, ← sum_mul, ← sum_mul, hM, hA]
      simp only
      ring
    rw [hsum, hAb]
    have h1 : M k * b k / (2 * s.var k) ≤ A (s.mean k) / (2 * s.var k) := by
      rw [hAb] at hquad
      exact div_le_div_of_nonneg_right hquad (by have := hvp k; positivity)
    have hbk := hb k
    have h2 : Real.log (b k) - Real.log (s.var k) ≤ b k / s.var k - 1 := by
      rw [← Real.log_div hbk.ne' (hvp k).ne']
      exact Real.log_le_sub_one_of_pos (div_pos hbk (hvp k))
    have h3 : Real.log (s'.var k) - Real.log (b k) ≤ s'.var k / b k - 1 := by
      rw [← Real.log_div (hv'p k).ne' hbk.ne']
      exact Real.log_le_sub_one_of_pos (div_pos (hv'p k) hbk)
    have h4 : (s'.var k - b k) ^ 2 / (s'.var k * b k) = s'.var k / b k - 2 + b k / s'.var k := by
      have := (hv'p k).ne'
      have := hbk.ne'
      field_simp
      ring
    have e1 : M k * b k / (2 * s.var k) = M k / 2 * (b k / s.var k) := by ring
    have e2 : M k * b k / (2 * s'.var k) = M k / 2 * (b k / s'.var k) := by ring
    rw [e1] at h1
    rw [e2, h4]
    have h5 : 0 ≤ M k / 2 * ((b k / s.var k - 1 - (Real.log (b k) - Real.log (s.var k)))
        + (s'.var k / b k - 1 - (Real.log (s'.var k) - Real.log (b k)))) :=
      mul_nonneg (by have := hMp k; positivity) (by linarith)
    linarith
  have hc := sum_le_sum fun k (_ : k ∈ univ) => hcomp k
  rw [sum_add_distrib, sum_sub_distrib, sum_neg_distrib] at hc
  unfold guardedLogLik
  linarith

/-- The constant does cost: one observation, one component; the log-likelihood of the data falls in the first iteration. -/
theorem C113_decrease_violated : ∃ (y : Fin 1 → ℝ) (s : Comps 1), fixedStep y (fixedWeights 1) ⟨y, fun _ => sampleVar y / (1 : ℕ)⟩ = s ∧
    Real.log (gaussianPdf (y 0) (s.mean 0) (s.var 0)) < Real.log (gaussianPdf (y 0) (y 0) (sampleVar y / (1 : ℕ))) := by
  have hs : sampleVar (0 : Fin 1 → ℝ) = 0 := by simp [sampleVar]
  refine ⟨0, ⟨0, fun _ => 1 / 10 ^ 6⟩, ?_, ?_⟩
  · simp only [fixedStep, Comps.mk.injEq]
    constructor
    · funext k
      simp [fixedMean]
    · funext k
      simp [fixedVar, fixedMean]
  rw [hs]
  refine Real.log_lt_log (gaussianPdf_pos _ _ _) ?_
  unfold gaussianPdf
  rw [max_eq_left (by norm_num), max_eq_right (by norm_num)]
  simp only [Pi.zero_apply, sub_self]
  have hpi := Real.pi_pos
  have e : ∀ v : ℝ, Real.exp (-(1 / 2) * 0 ^ 2 / v) = 1 := by intro v; simp
  rw [e, e]
  exact one_div_lt_one_div_of_lt (by positivity)
    (Real.sqrt_lt_sqrt (by positivity) (mul_lt_mul_of_pos_left (by norm_num) (by positivity)))

/-! ### the order of the components -/

theorem resp_relabel (w : Fin K → ℝ) (s : Comps K) (σ : Equiv.Perm (Fin K)) (y : ℝ) (k : Fin K) :
    fixedResp (w ∘ σ) ⟨s.mean ∘ σ, s.var ∘ σ⟩ y k = fixedResp w s y (σ k) := by
  unfold fixedResp
  have : ∑ j, (w ∘ σ) j * gaussianPdf y ((s.mean ∘ σ) j) ((s.var ∘ σ) j) = ∑ j, w j * gaussianPdf y (s.mean j) (s.var j) :=
    Equiv.sum_comp σ fun j => w j * gaussianPdf y (s.mean j) (s.var j)
  simp only
  rw [this]
  rfl

theorem step_relabel (y : Fin n → ℝ) (w : Fin K → ℝ) (s : Comps K) (σ : Equiv.Perm (Fin K)) :
    fixedStep y (w ∘ σ) ⟨s.mean ∘ σ, s.var ∘ σ⟩ = ⟨(fixedStep y w s).mean ∘ σ, (fixedStep y w s).var ∘ σ⟩ := by
  have h1 : ∀ k, fixedMean y (w ∘ σ) ⟨s.mean ∘ σ, s.var ∘ σ⟩ k = fixedMean y w s (σ k) := by
    intro k
    unfold fixedMean fixedN
    simp only [resp_relabel]
  unfold fixedStep
  simp only [Comps.mk.injEq]
  refine ⟨funext h1, funext fun k => ?_⟩
  show fixedVar _ _ _ _ = fixedVar y w s (σ k)
  unfold fixedVar
  rw [h1]
  unfold fixedN
  simp only [resp_relabel]

theorem loop_relabel (y : Fin n → ℝ) (w : Fin K → ℝ) (tol : ℝ) (σ : Equiv.Perm (Fin K)) (t : ℕ) (s : Comps K) :
    fixedLoop y (w ∘ σ) tol t ⟨s.mean ∘ σ, s.var ∘ σ⟩
      = ⟨(fixedLoop y w tol t s).mean ∘ σ, (fixedLoop y w tol t s).var ∘ σ⟩ := by
  induction t generalizing s with
  | zero => rfl
  | succ t ih =>
      simp only [fixedLoop, step_relabel]
      have hc : (∀ k, |((fixedStep y w s).mean ∘ σ) k - (s.mean ∘ σ) k| < tol) ↔ ∀ k, |(fixedStep y w s).mean k - s.mean k| < tol :=
        σ.forall_congr_left.trans (by simp)
      by_cases h : ∀ k, |(fixedStep y w s).mean k - s.mean k| < tol
      · rw [if_pos h, if_pos (hc.2 h)]
      · rw [if_neg h, if_neg (fun hh => h (hc.1 hh)), ih]

theorem weights_relabel (w : Fin K → ℝ) (σ : Equiv.Perm (Fin K)) : fixedWeights (w ∘ σ) = fixedWeights w ∘ σ := by
  funext k
  unfold fixedWeights
  have : ∑ j, max ((w ∘ σ) j) (1 / 10 ^ 12 : ℝ) = ∑ j, max (w j) (1 / 10 ^ 12 : ℝ) := Equiv.sum_comp σ fun j => max (w j) (1 / 10 ^ 12 : ℝ)
  rw [this]
  rfl

/-- Listing the components (weights and start means) in another order does not change the result, ties of the means aside. -/
theorem C113_relabel (y : Fin n → ℝ) (w init : Fin K → ℝ) (maxIter : ℕ) (tol : ℝ) (σ : Equiv.Perm (Fin K)) (r r' : FixedFit K)
    (h : fitFixed y w init maxIter tol = .ok r) (h' : fitFixed y (w ∘ σ) (init ∘ σ) maxIter tol = .ok r') :
    r'.mean = r.mean ∧ (Function.Injective r.mean → r'.var = r.var) := by
  unfold fitFixed at h h'
  split_ifs at h h' with h0
  simp only [Except.ok.injEq] at h h'
  set f := fixedLoop y (fixedWeights w) tol maxIter ⟨init, fun _ => sampleVar y / K⟩ with hf
  have hl : fixedLoop y (fixedWeights (w ∘ σ)) tol maxIter ⟨init ∘ σ, fun _ => sampleVar y / K⟩ = ⟨f.mean ∘ σ, f.var ∘ σ⟩ := by
    rw [weights_relabel, hf, ← loop_relabel]
    rfl
  rw [hl] at h'
  have hs : (f.mean ∘ σ) ∘ Tuple.sort (f.mean ∘ σ) = f.mean ∘ Tuple.sort f.mean := Tuple.comp_perm_comp_sort_eq_comp_sort
  refine ⟨by rw [← h, ← h']; exact hs, fun hi => ?_⟩
  rw [← h] at hi
  simp only at hi
  have hi' : Function.Injective f.mean := by
    intro a b hab
    have := @hi ((Tuple.sort f.mean).symm a) ((Tuple.sort f.mean).symm b) (by simpa using hab)
    simpa using this
  rw [← h, ← h']
  simp only
  funext k
  have := hi' (congrFun hs k)
  simp only [Function.comp] at this ⊢
  rw [this]

theorem witness_means : ∃ r, fitFixed ![1, -1] ![3 / 4, 1 / 4] ![1, -1] 1 0 = .ok r ∧ r.mean 0 ≠ r.mean 1 := by
  refine ⟨_, rfl, ?_⟩
  simp only [fixedLoop]
  have hw : fixedWeights ![(3 / 4 : ℝ), 1 / 4] = ![3 / 4, 1 / 4] := by
    funext k
    unfold fixedWeights
    fin_cases k <;> simp [Fin.sum_univ_two] <;> norm_num
  rw [ite_self, hw]
  set s : Comps 2 := ⟨![1, -1], fun _ => sampleVar ![1, -1] / ((2 : ℕ) : ℝ)⟩ with hs
  set f := (fixedStep ![1, -1] ![3 / 4, 1 / 4] s).mean with hf
  have hlt : f 1 < f 0 := by
    have hwp : ∀ k, 0 < (![3 / 4, 1 / 4] : Fin 2 → ℝ) k := by intro k; fin_cases k <;> norm_num
    set g0 := gaussianPdf 1 1 (sampleVar ![1, -1] / ((2 : ℕ) : ℝ)) with h0
    set g2 := gaussianPdf 1 (-1) (sampleVar ![1, -1] / ((2 : ℕ) : ℝ)) with h2
    have e0 : gaussianPdf (-1) (-1) (sampleVar ![1, -1] / ((2 : ℕ) : ℝ)) = g0 := by rw [h0]; unfold gaussianPdf; norm_num
    have e2 : gaussianPdf (-1) 1 (sampleVar ![1, -1] / ((2 : ℕ) : ℝ)) = g2 := by rw [h2]; unfold gaussianPdf; norm_num
    have hg2 : 0 < g2 := gaussianPdf_pos _ _ _
    have hg : g2 < g0 := by
      rw [h0, h2]
      unfold gaussianPdf
      have hv : 0 < max (sampleVar ![1, -1] / ((2 : ℕ) : ℝ)) (1 / 10 ^ 12 : ℝ) := lt_max_of_lt_right (by positivity)
      have hpi := Real.pi_pos
      refine div_lt_div_of_pos_right (Real.exp_lt_exp.2 ?_) (by positivity)
      refine div_lt_div_of_pos_right ?_ hv
      norm_num
    have hg0 : 0 < g0 := hg2.trans hg
    have hN := fixedN_pos ![1, -1] ![3 / 4, 1 / 4] hwp s
    have hpos : 0 < f 0 := by
      rw [hf]
      show 0 < fixedMean _ _ _ _
      refine div_pos ?_ (hN 0)
      rw [Fin.sum_univ_two]
      simp only [fixedResp, Fin.sum_univ_two, hs]
      simp only [Matrix.cons_val_zero, Matrix.cons_val_one, ← h0, ← h2, e0, e2]
      rw [mul_one, mul_neg_one, ← sub_eq_add_neg, sub_pos, div_lt_div_iff₀ (by positivity) (by positivity)]
      nlinarith [mul_pos hg2 (hg2.trans hg)]
    have hneg : f 1 < 0 := by
      rw [hf]
      show fixedMean _ _ _ _ < 0
      refine div_neg_of_neg_of_pos ?_ (hN 1)
      rw [Fin.sum_univ_two]
      simp only [fixedResp, Fin.sum_univ_two, hs]
      simp only [Matrix.cons_val_zero, Matrix.cons_val_one, ← h0, ← h2, e0, e2]
      rw [mul_one, mul_neg_one, ← sub_eq_add_neg, sub_neg, div_lt_div_iff₀ (by positivity) (by positivity)]
      nlinarith [mul_pos hg2 (hg2.trans hg)]
    linarith
  intro he
  simp only [Function.comp] at he
  have hinj : Function.Injective f := by
    intro a b hab
    fin_cases a <;> fin_cases b <;> simp_all
  have := (Tuple.sort f).injective (hinj he)
  simp at this

/-- The weights are not listed in the order of the result: the same start mixture, listed in two orders, gives two mixtures (of
the given weights and the returned means) with different means. -/
theorem C113_weights_violated : ∃ (y : Fin 2 → ℝ) (w init : Fin 2 → ℝ) (σ : Equiv.Perm (Fin 2)) (r r' : FixedFit 2),
    fitFixed y w init 1 0 = .ok r ∧ fitFixed y (w ∘ σ) (init ∘ σ) 1 0 = .ok r' ∧ ∑ k, w k = 1 ∧
      ∑ k, w k * r.mean k ≠ ∑ k, (w ∘ σ) k * r'.mean k := by
  obtain ⟨r, hr, hne⟩ := witness_means
  obtain ⟨r', hr'⟩ := (C113_defined ![1, -1] (![3 / 4, 1 / 4] ∘ Equiv.swap 0 1) (![1, -1] ∘ Equiv.swap 0 1) 1 0).2 (by norm_num)
  refine ⟨_, _, _, Equiv.swap 0 1, r, r', hr, hr', by rw [Fin.sum_univ_two]; norm_num, ?_⟩
  rw [(C113_relabel _ _ _ _ _ _ r r' hr hr').1, Fin.sum_univ_two, Fin.sum_univ_two]
  simp only [Function.comp, Equiv.swap_apply_left, Equiv.swap_apply_right, Matrix.cons_val_zero, Matrix.cons_val_one]
  intro h
  exact hne (by linarith)

/-! ### empty components, overwritten start values -/

/-- A component without observations is moved to (nearly) zero, far from all data; and the array of start means of the caller is
overwritten. -/
theorem C113_empty_component_violated : ∃ (y : Fin 1 → ℝ) (init : Fin 2 → ℝ) (r : FixedFit 2),
    fitFixed y (fun _ => 1 / 2) init 1 (1 / 10 ^ 4) = .ok r ∧ (∀ i, y i = 100) ∧ (∃ k, r.mean k < 1) ∧ r.buffer ≠ init := by
  refine ⟨fun _ => 100, ![100, 1000], _, rfl, fun _ => rfl, ?_⟩
  simp only [fixedLoop]
  rw [ite_self]
  have hw : fixedWeights (fun _ : Fin 2 => (1 / 2 : ℝ)) = fun _ => 1 / 2 := by
    funext k
    unfold fixedWeights
    simp [Fin.sum_univ_two]
    norm_num
  have hsv : sampleVar (fun _ : Fin 1 => (100 : ℝ)) = 0 := by simp [sampleVar]
  rw [hw, hsv]
  set s : Comps 2 := ⟨![100, 1000], fun _ => 0 / ((2 : ℕ) : ℝ)⟩ with hs
  set f := (fixedStep (fun _ : Fin 1 => (100 : ℝ)) (fun _ => 1 / 2) s).mean with hf
  have hsmall : f 1 < 1 := by
    show fixedMean _ _ _ _ < 1
    have hN := fixedN_pos (fun _ : Fin 1 => (100 : ℝ)) (fun _ : Fin 2 => (1 / 2 : ℝ)) (fun _ => by norm_num) s 1
    unfold fixedMean
    rw [div_lt_one hN]
    unfold fixedN
    simp only [univ_unique, sum_singleton]
    set ρ := fixedResp (fun _ : Fin 2 => (1 / 2 : ℝ)) s 100 1 with hρ
    have hb : ρ ≤ 1 / 10 ^ 15 := by
      have hg : gaussianPdf 100 1000 (0 / ((2 : ℕ) : ℝ)) ≤ 1 / 10 ^ 27 := by
        unfold gaussianPdf
        rw [zero_div, max_eq_right (by norm_num)]
        have hx : Real.exp (-(1 / 2) * (100 - 1000) ^ 2 / (1 / 10 ^ 12)) ≤ 1 / 10 ^ 34 := by
          have e : (-(1 / 2) * (100 - 1000) ^ 2 / (1 / 10 ^ 12) : ℝ) = -(405000 * 10 ^ 12) := by norm_num
          rw [e, Real.exp_neg, ← one_div]
          refine one_div_le_one_div_of_le (by positivity) ?_
          have := Real.quadratic_le_exp_of_nonneg (x := 405000 * 10 ^ 12) (by norm_num)
          refine le_trans ?_ this
          norm_num
        have hq : 1 / 10 ^ 6 ≤ √(2 * Real.pi * (1 / 10 ^ 12)) := by
          refine Real.le_sqrt_of_sq_le ?_
          have := Real.pi_gt_three
          norm_num
          linarith
        calc _ ≤ (1 / 10 ^ 34) / (1 / 10 ^ 6 : ℝ) := div_le_div₀ (by norm_num) hx (by norm_num) hq
          _ ≤ 1 / 10 ^ 27 := by norm_num
      rw [hρ]
      unfold fixedResp
      have hden : (1 / 10 ^ 12 : ℝ) ≤ ∑ j, 1 / 2 * gaussianPdf 100 (s.mean j) (s.var j) + 1 / 10 ^ 12 :=
        le_add_of_nonneg_left (sum_nonneg fun j _ => mul_nonneg (by norm_num) (gaussianPdf_pos _ _ _).le)
      have hnum : 1 / 2 * gaussianPdf 100 (s.mean 1) (s.var 1) ≤ 1 / 10 ^ 27 := by
        have : s.mean 1 = 1000 := rfl
        rw [this]
        have : s.var 1 = 0 / ((2 : ℕ) : ℝ) := rfl
        rw [this]
        linarith [gaussianPdf_pos 100 1000 (0 / ((2 : ℕ) : ℝ))]
      calc _ ≤ (1 / 10 ^ 27) / (1 / 10 ^ 12 : ℝ) := div_le_div₀ (by norm_num) hnum (by norm_num) hden
        _ ≤ 1 / 10 ^ 15 := by norm_num
    have : (1 / 10 ^ 15 : ℝ) * 99 < 1 / 10 ^ 12 := by norm_num
    linarith
  refine ⟨⟨(Tuple.sort f).symm 1, by simpa using hsmall⟩, ?_⟩
  intro he
  have : f 1 = 1000 := congrFun he 1
  linarith

/-- The ascent for three observations and two components. -/
example := C113_ascent_partial ![0, 1, 5] ![1 / 2, 1 / 2] (by intro k; fin_cases k <;> norm_num) ⟨![0, 5], ![1, 1]⟩
  (by intro k; fin_cases k <;> norm_num) _ rfl ⟨1, by norm_num⟩

/-- Three observations and two components. -/
example : ∃ r, fitFixed ![0, 1, 5] ![1 / 2, 1 / 2] ![0, 5] 100 (1 / 10 ^ 4) = .ok r ∧ ∀ k, 0 ≤ r.mean k ∧ r.mean k ≤ 5 := by
  obtain ⟨r, hr⟩ := (C113_defined ![0, 1, 5] ![1 / 2, 1 / 2] ![0, 5] 100 (1 / 10 ^ 4)).2 (by norm_num)
  refine ⟨r, hr, fun k => ?_⟩
  have := C113_range_partial _ _ _ _ (by norm_num) _ r hr 0 5 le_rfl (by norm_num) (by intro i; fin_cases i <;> norm_num) k
  exact ⟨this.1, this.2.1⟩

end Verif.Ggmp
