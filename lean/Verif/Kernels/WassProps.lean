import Verif.Kernels.WassModel
import Verif.Kernels.MaternPsd
import Mathlib.GroupTheory.Perm.Fin

/-!
C109: the Wasserstein distance of kernels.py.
-/

namespace Verif.Kernels

open Finset Verif.GP

variable {n : ℕ}

theorem sorted_mono (a : Fin n → ℝ) : Monotone (sorted a) := Tuple.monotone_sort a

/-- Crossing pairs cost more. -/
theorem abs_cross {a b c d : ℝ} (hab : a ≤ b) (hcd : c ≤ d) : |a - c| + |b - d| ≤ |a - d| + |b - c| := by
  rcases abs_cases (a - c) with h1 | h1 <;> rcases abs_cases (b - d) with h2 | h2 <;> rcases abs_cases (a - d) with h3 | h3 <;>
    rcases abs_cases (b - c) with h4 | h4 <;> linarith

theorem sum_le_perm : ∀ {n : ℕ} (u v : Fin n → ℝ), Monotone u → Monotone v → ∀ σ : Equiv.Perm (Fin n),
    ∑ i, |u i - v i| ≤ ∑ i, |u i - v (σ i)| := by
  intro n
  induction n with
  | zero => intro u v _ _ σ; simp
  | succ n ih =>
    have fix : ∀ (u v : Fin (n + 1) → ℝ), Monotone u → Monotone v → ∀ σ : Equiv.Perm (Fin (n + 1)), σ 0 = 0 →
        ∑ i, |u i - v i| ≤ ∑ i, |u i - v (σ i)| := by
      intro u v hu hv σ h0
      obtain ⟨⟨p, e⟩, rfl⟩ := Equiv.Perm.decomposeFin.symm.surjective σ
      rw [Equiv.Perm.decomposeFin_symm_apply_zero] at h0
      subst h0
      simp only [Fin.sum_univ_succ, Equiv.Perm.decomposeFin_symm_apply_zero, Equiv.Perm.decomposeFin_symm_apply_succ,
        Equiv.swap_self, Equiv.refl_apply]
      have := ih (fun i => u i.succ) (fun i => v i.succ) (hu.comp (Fin.strictMono_succ.monotone))
        (hv.comp (Fin.strictMono_succ.monotone)) e
      simpa using this
    intro u v hu hv σ
    by_cases h0 : σ 0 = 0
    · exact fix u v hu hv σ h0
    · obtain ⟨j, hj⟩ := σ.surjective 0
      have hj0 : (0 : Fin (n + 1)) ≠ j := by rintro rfl; exact h0 hj
      refine (fix u v hu hv (σ * Equiv.swap 0 j) (by simp [hj])).trans ?_
      have hs : ∀ f : Fin (n + 1) → ℝ, ∑ i, f i = f 0 + f j + ∑ i ∈ (univ.erase 0).erase j, f i := by
        intro f
        rw [← add_sum_erase univ f (mem_univ 0), ← add_sum_erase (univ.erase 0) f (mem_erase.2 ⟨hj0.symm, mem_univ _⟩), add_assoc]
      rw [hs, hs (fun i => |u i - v (σ i)|)]
      refine add_le_add ?_ (le_of_eq (sum_congr rfl fun i hi => ?_))
      · simp only [Equiv.Perm.mul_apply, Equiv.swap_apply_left, Equiv.swap_apply_right, hj]
        have := abs_cross (hu (Fin.zero_le j)) (hv (Fin.zero_le (σ 0)))
        linarith
      · simp only [mem_erase] at hi
        rw [Equiv.Perm.mul_apply, Equiv.swap_apply_of_ne_of_ne hi.2.1 hi.1]

theorem sum_sorted (u v : Fin n → ℝ) (σ : Equiv.Perm (Fin n)) :
    ∑ i, |sorted u i - sorted v i| ≤ ∑ i, |u i - v (σ i)| := by
  have := sum_le_perm _ _ (sorted_mono u) (sorted_mono v) ((Tuple.sort v)⁻¹ * σ * Tuple.sort u)
  refine this.trans (le_of_eq ?_)
  rw [← Equiv.sum_comp (Tuple.sort u) fun i => |u i - v (σ i)|]
  simp [sorted]

/-- Every value of the distance is the least mean displacement over the ways to match the entries of the two normalised arrays. -/
theorem C109_optimal (a b : Fin n → ℝ) {d : ℝ} (h : wasserstein1d a b = some d) :
    IsLeast (Set.range fun σ : Equiv.Perm (Fin n) => (∑ i, |a i / ∑ j, a j - b (σ i) / ∑ j, b j|) / n) d := by
  unfold wasserstein1d at h
  split_ifs at h with h0
  obtain rfl := Option.some.inj h
  refine ⟨⟨Tuple.sort (share b) * (Tuple.sort (share a))⁻¹, ?_⟩, ?_⟩
  · simp only
    rw [← Equiv.sum_comp (Tuple.sort (share a))]
    simp [sorted, share]
  · rintro _ ⟨σ, rfl⟩
    exact div_le_div_of_nonneg_right (sum_sorted (share a) (share b) σ) (Nat.cast_nonneg n)

/-- The distance is a number exactly if both sums differ from zero. -/
theorem C109_defined (a b : Fin n → ℝ) : (∃ d, wasserstein1d a b = some d) ↔ ∑ i, a i ≠ 0 ∧ ∑ i, b i ≠ 0 := by
  unfold wasserstein1d
  split_ifs with h
  · simp only [reduceCtorEq, exists_false, false_iff]; tauto
  · simp only [Option.some.injEq, exists_eq', true_iff]; tauto

/-- Symmetric, never negative, zero from an array to any multiple of it, and the triangle inequality. -/
theorem C109_pseudometric (a b c : Fin n → ℝ) (ha : ∑ i, a i ≠ 0) (hb : ∑ i, b i ≠ 0) (hc : ∑ i, c i ≠ 0) :
    ∃ ab bc ac, wasserstein1d a b = some ab ∧ wasserstein1d b a = some ab ∧ wasserstein1d b c = some bc ∧
      wasserstein1d a c = some ac ∧ 0 ≤ ab ∧ ac ≤ ab + bc ∧
      ∀ t : ℝ, t ≠ 0 → wasserstein1d (fun i => t * a i) a = some 0 := by
  refine ⟨(∑ i, |sorted (share a) i - sorted (share b) i|) / n, (∑ i, |sorted (share b) i - sorted (share c) i|) / n,
    (∑ i, |sorted (share a) i - sorted (share c) i|) / n, ?_, ?_, ?_, ?_, by positivity, ?_, ?_⟩
  · simp [wasserstein1d, ha, hb]
  · simp [wasserstein1d, ha, hb, abs_sub_comm]
  · simp [wasserstein1d, hb, hc]
  · simp [wasserstein1d, ha, hc]
  · rw [← add_div, ← sum_add_distrib]
    exact div_le_div_of_nonneg_right (sum_le_sum fun i _ => abs_sub_le _ _ _) (Nat.cast_nonneg n)
  · intro t ht
    have e : share (fun i => t * a i) = share a := by
      funext i
      unfold share
      rw [← mul_sum, mul_div_mul_left _ _ ht]
    simp [wasserstein1d, ← mul_sum, ha, ht, e]

/-- Zero exactly for arrays whose normalised entries are the same in some order. -/
theorem C109_zero_iff (a b : Fin n → ℝ) (ha : ∑ i, a i ≠ 0) (hb : ∑ i, b i ≠ 0) :
    wasserstein1d a b = some 0 ↔ ∃ σ : Equiv.Perm (Fin n), ∀ i, a i / ∑ j, a j = b (σ i) / ∑ j, b j := by
  obtain ⟨d, hd⟩ := (C109_defined a b).2 ⟨ha, hb⟩
  obtain ⟨⟨σ, hσ⟩, hle⟩ := C109_optimal a b hd
  have hn : (n : ℝ) ≠ 0 := by
    rintro h0
    obtain rfl : n = 0 := by exact_mod_cast h0
    simp at ha
  have key : ∀ σ : Equiv.Perm (Fin n), (∑ i, |a i / ∑ j, a j - b (σ i) / ∑ j, b j|) / n = 0 ↔
      ∀ i, a i / ∑ j, a j = b (σ i) / ∑ j, b j := by
    intro σ
    rw [div_eq_zero_iff, or_iff_left hn, sum_eq_zero_iff_of_nonneg fun _ _ => abs_nonneg _]
    simp [sub_eq_zero]
  rw [hd, Option.some.injEq]
  constructor
  · rintro rfl
    exact ⟨σ, (key σ).1 hσ⟩
  · rintro ⟨τ, hτ⟩
    have h1 : d ≤ 0 := (hle ⟨τ, rfl⟩).trans_eq ((key τ).2 hτ)
    have h2 : 0 ≤ d := by rw [← hσ]; positivity
    linarith

/-- The work to move the mass of one histogram into the other, bins at distance one: the Wasserstein distance of the measures. -/
noncomputable def moveCost (a b : Fin n → ℝ) : ℝ :=
  ∑ k, |∑ i ∈ univ.filter (· ≤ k), a i / ∑ j, a j - ∑ i ∈ univ.filter (· ≤ k), b i / ∑ j, b j|

/-- The documentation calls the arrays measures ("each row is an unnormalized 1-D measure"), but bins are not seen: two
measures with their mass in different places have distance zero. -/
theorem C109_measures_violated (hn : 2 ≤ n) : ∃ a b : Fin n → ℝ, wasserstein1d a b = some 0 ∧ 0 < moveCost a b := by
  obtain ⟨m, rfl⟩ : ∃ m, n = m + 2 := ⟨n - 2, by omega⟩
  have s0 : ∀ k : Fin (m + 2), ∑ i, Pi.single (M := fun _ => ℝ) k (1 : ℝ) i = 1 := fun k => by simp
  refine ⟨Pi.single 0 1, Pi.single 1 1, ?_, ?_⟩
  · rw [C109_zero_iff _ _ (by rw [s0]; exact one_ne_zero) (by rw [s0]; exact one_ne_zero)]
    refine ⟨Equiv.swap 0 1, fun i => ?_⟩
    rw [s0, s0, div_one, div_one]
    by_cases h0 : i = 0
    · subst h0; simp
    · by_cases h1 : i = 1
      · subst h1; simp
      · rw [Equiv.swap_apply_of_ne_of_ne h0 h1]
        simp [Pi.single_apply, h0, h1]
  · unfold moveCost
    refine sum_pos' (fun _ _ => abs_nonneg _) ⟨0, mem_univ _, ?_⟩
    rw [s0, s0]
    have e : (univ.filter fun i : Fin (m + 2) => i ≤ 0) = {0} := by
      ext i; simp [Fin.le_zero_iff]
    simp only [e, sum_singleton, div_one]
    simp

/-- `exponential_kernel(wasserstein_1d(a, b), l)` is a valid covariance on the arrays of sum not zero. -/
theorem C109_exponential_psd (l : ℝ) (hl : 0 < l) :
    IsPSDKernel fun a b : {a : Fin n → ℝ // ∑ i, a i ≠ 0} => (wasserstein1d a.1 b.1).elim 0 fun d => exponential d l := by
  have h1 : IsPSDKernel fun a b : Fin n → ℝ => ∏ i, exponential |a i - b i| (l * n) := by
    rcases Nat.eq_zero_or_pos n with rfl | hn
    · simpa using IsPSDKernel.feature fun _ : Fin 0 → ℝ => (1 : ℝ)
    have hc : IsPSDKernel fun a b : ℝ => exponential |a - b| (l * n) := by
      have := IsPSDKernel.comp (C84_exponential (D := 1) (l * n) (by positivity)) fun (x : ℝ) (_ : Fin 1) => x
      convert this using 4 with a b
      simp [distance, Real.sqrt_sq_eq_abs]
    suffices ∀ s : Finset (Fin n), IsPSDKernel fun a b : Fin n → ℝ => ∏ i ∈ s, exponential |a i - b i| (l * n) from this univ
    intro s
    induction s using Finset.induction_on with
    | empty => simpa using IsPSDKernel.feature fun _ : Fin n → ℝ => (1 : ℝ)
    | insert i s hi ih =>
      simp only [prod_insert hi]
      exact IsPSDKernel.mul (IsPSDKernel.comp hc fun a : Fin n → ℝ => a i) ih
  have h2 := IsPSDKernel.comp h1 fun a : {a : Fin n → ℝ // ∑ i, a i ≠ 0} => sorted (share a.1)
  convert h2 using 3 with a b
  simp only [wasserstein1d, a.2, b.2, or_self, if_false, Option.elim_some]
  unfold exponential
  rw [← Real.exp_sum]
  congr 1
  rw [← sum_div, sum_neg_distrib, neg_div, neg_div, div_div, mul_comm]

example : ∃ d, wasserstein1d ![1, 2, 5] ![0, 3, 1] = some d :=
  (C109_defined _ _).2 ⟨by norm_num [Fin.sum_univ_succ], by norm_num [Fin.sum_univ_succ]⟩

end Verif.Kernels
