import Verif.Ggmp.SampleModel
import Mathlib.Probability.Independence.Basic
import Mathlib.MeasureTheory.Integral.Pi
import Mathlib.MeasureTheory.Constructions.BorelSpace.Basic

/-!
C112: the maximum mean discrepancy of samples.
-/

namespace Verif.Ggmp

open Finset MeasureTheory ProbabilityTheory

variable {n m D : ℕ}

theorem sqDist_comm (x y : Fin D → ℝ) : sqDist x y = sqDist y x := by
  unfold sqDist
  exact sum_congr rfl fun i _ => by ring

theorem sqDist_self (x : Fin D → ℝ) : sqDist x x = 0 := by simp [sqDist]

theorem sqDist_nonneg (x y : Fin D → ℝ) : 0 ≤ sqDist x y := sum_nonneg fun _ _ => sq_nonneg _

theorem mergeSort_perm_eq {l l' : List ℝ} (h : l.Perm l') :
    (open Classical in l.mergeSort fun x y => decide (x ≤ y)) = open Classical in l'.mergeSort fun x y => decide (x ≤ y) := by
  classical
  have hs : ∀ l : List ℝ, (l.mergeSort fun x y => decide (x ≤ y)).Pairwise (· ≤ ·) := fun l =>
    (List.pairwise_mergeSort (fun a b c h1 h2 => by simp only [decide_eq_true_eq] at *; exact h1.trans h2)
      (fun a b => by simp only [Bool.or_eq_true, decide_eq_true_eq]; exact le_total a b) l).imp fun h => of_decide_eq_true h
  have hp : (l.mergeSort fun x y => decide (x ≤ y)).Perm (l'.mergeSort fun x y => decide (x ≤ y)) :=
    (List.mergeSort_perm _ _).trans (h.trans (List.mergeSort_perm _ _).symm)
  exact hp.eq_of_pairwise (fun a b _ _ h1 h2 => le_antisymm h1 h2) (hs l) (hs l')

theorem entries_perm (f : Fin n → Fin m → ℝ) :
    (((List.finRange n).flatMap fun i => (List.finRange m).map fun j => f i j)).Perm
      ((univ ×ˢ univ : Finset (Fin n × Fin m)).toList.map fun p => f p.1 p.2) := by
  have h1 : ((List.finRange n).flatMap fun i => (List.finRange m).map fun j => f i j)
      = (((List.finRange n) ×ˢ (List.finRange m)).map fun p => f p.1 p.2) := by
    simp [SProd.sprod, List.product, List.map_flatMap, Function.comp_def]
  rw [h1]
  refine List.Perm.map _ ?_
  refine (List.perm_ext_iff_of_nodup ((List.nodup_finRange n).product (List.nodup_finRange m)) (nodup_toList _)).2 fun p => ?_
  simp only [mem_toList, mem_product, mem_univ, and_self, iff_true]
  exact List.mem_product.2 ⟨List.mem_finRange _, List.mem_finRange _⟩

theorem median_perm (f : Fin n → Fin m → ℝ) (σ : Equiv.Perm (Fin n)) (τ : Equiv.Perm (Fin m)) :
    medianMatrix (fun i j => f (σ i) (τ j)) = medianMatrix f := by
  unfold medianMatrix
  rw [mergeSort_perm_eq (l' := (List.finRange n).flatMap fun i => (List.finRange m).map fun j => f i j)]
  refine (entries_perm _).trans (List.Perm.trans ?_ (entries_perm f).symm)
  rw [← Multiset.coe_eq_coe, ← Multiset.map_coe, ← Multiset.map_coe, coe_toList, univ_product_univ]
  have := congrArg Finset.val (Finset.map_univ_equiv (Equiv.prodCongr σ τ))
  conv_rhs => rw [← this]
  rw [Finset.map_val, Multiset.map_map]
  rfl

theorem median_swap (f : Fin n → Fin m → ℝ) : medianMatrix (fun i j => f j i) = medianMatrix f := by
  unfold medianMatrix
  rw [mergeSort_perm_eq (l' := (List.finRange n).flatMap fun i => (List.finRange m).map fun j => f i j), mul_comm m n]
  refine (entries_perm _).trans (List.Perm.trans ?_ (entries_perm f).symm)
  rw [← Multiset.coe_eq_coe, ← Multiset.map_coe, ← Multiset.map_coe, coe_toList, coe_toList, univ_product_univ, univ_product_univ]
  have := congrArg Finset.val (Finset.map_univ_equiv (Equiv.prodComm (Fin m) (Fin n)))
  conv_rhs => rw [← this]
  rw [Finset.map_val, Multiset.map_map]
  rfl

/-- The order of the arguments does not matter, also for the default `gamma`. -/
theorem C112_symmetric (gamma : Option ℝ) (a : Fin n → Fin D → ℝ) (b : Fin m → Fin D → ℝ) :
    mmdRbf gamma a b = mmdRbf gamma b a := by
  unfold mmdRbf
  have hg : rbfGamma gamma a b = rbfGamma gamma b a := by
    unfold rbfGamma
    congr 4
    rw [← median_swap]
    simp only [sqDist_comm]
  have hv : ∀ g, mmdValue g a b = mmdValue g b a := by
    intro g
    unfold mmdValue
    have : ∑ i, ∑ j, Real.exp (-g * sqDist (a i) (b j)) = ∑ i, ∑ j, Real.exp (-g * sqDist (b i) (a j)) := by
      rw [sum_comm]
      simp only [sqDist_comm]
    rw [this, mul_comm (n : ℝ) m]
    ring
  rw [hg, hv]
  simp only [or_comm]

/-- The order of the points does not matter. -/
theorem C112_permutation (gamma : Option ℝ) (a : Fin n → Fin D → ℝ) (b : Fin m → Fin D → ℝ) (σ : Equiv.Perm (Fin n))
    (τ : Equiv.Perm (Fin m)) : mmdRbf gamma (a ∘ σ) (b ∘ τ) = mmdRbf gamma a b := by
  have hg : rbfGamma gamma (a ∘ σ) (b ∘ τ) = rbfGamma gamma a b := by
    unfold rbfGamma
    congr 4
    exact median_perm (fun i j => sqDist (a i) (b j)) σ τ
  have h1 : ∀ {k : ℕ} (f : Fin k → Fin k → ℝ) (π : Equiv.Perm (Fin k)), sumOffDiag (fun i j => f (π i) (π j)) = sumOffDiag f := by
    intro k f π
    unfold sumOffDiag
    rw [← Equiv.sum_comp π fun i => ∑ j, if i = j then 0 else f i j]
    refine sum_congr rfl fun i _ => ?_
    rw [← Equiv.sum_comp π fun j => if π i = j then 0 else f (π i) j]
    simp
  have hv : ∀ g, mmdValue g (a ∘ σ) (b ∘ τ) = mmdValue g a b := by
    intro g
    unfold mmdValue
    have e1 := h1 (fun i j => Real.exp (-g * sqDist (a i) (a j))) σ
    have e2 := h1 (fun i j => Real.exp (-g * sqDist (b i) (b j))) τ
    have e3 : ∑ i, ∑ j, Real.exp (-g * sqDist ((a ∘ σ) i) ((b ∘ τ) j)) = ∑ i, ∑ j, Real.exp (-g * sqDist (a i) (b j)) := by
      rw [← Equiv.sum_comp σ fun i => ∑ j, Real.exp (-g * sqDist (a i) (b j))]
      exact sum_congr rfl fun i _ => Equiv.sum_comp τ fun j => Real.exp (-g * sqDist (a (σ i)) (b j))
    simp only [Function.comp] at e1 e2 e3 ⊢
    rw [e1, e2, e3]
  unfold mmdRbf
  rw [hg, hv]

/-- NaN exactly for a sample of one point, an exception exactly for an empty one. -/
theorem C112_defined (gamma : Option ℝ) (a : Fin n → Fin D → ℝ) (b : Fin m → Fin D → ℝ) :
    ((∃ v, mmdRbf gamma a b = .ok (some v)) ↔ 2 ≤ n ∧ 2 ≤ m) ∧
      (mmdRbf gamma a b = .ok none ↔ 1 ≤ n ∧ 1 ≤ m ∧ (n = 1 ∨ m = 1)) := by
  unfold mmdRbf
  split_ifs with h h'
  · refine ⟨?_, ?_⟩
    · simp only [reduceCtorEq, exists_false, false_iff]; omega
    · simp only [reduceCtorEq, false_iff]; omega
  · refine ⟨?_, ?_⟩
    · simp only [Except.ok.injEq, reduceCtorEq, exists_false, false_iff]; omega
    · simp only [true_iff]; omega
  · refine ⟨?_, ?_⟩
    · simp only [Except.ok.injEq, Option.some.injEq, exists_eq', true_iff]; omega
    · simp only [Except.ok.injEq, reduceCtorEq, false_iff]; omega

/-- A sample compared with itself: never positive, and below zero by the mean dissimilarity of its points. -/
theorem C112_identical (hn : 2 ≤ n) (g : ℝ) (hg : 0 ≤ g) (a : Fin n → Fin D → ℝ) :
    mmdRbf (some g) a a = .ok (some (-(2 / n) * ((∑ i, ∑ j, if i = j then 0 else 1 - Real.exp (-g * sqDist (a i) (a j)))
      / (n * (n - 1))))) ∧ ∃ v ≤ 0, mmdRbf (some g) a a = .ok (some v) := by
  have hn' : (2 : ℝ) ≤ n := by exact_mod_cast hn
  have h0 : (n : ℝ) ≠ 0 := by linarith
  have h1 : (n : ℝ) - 1 ≠ 0 := by linarith
  have key : mmdRbf (some g) a a = .ok (some (-(2 / n) * ((∑ i, ∑ j, if i = j then 0 else 1 - Real.exp (-g * sqDist (a i) (a j)))
      / (n * (n - 1))))) := by
    unfold mmdRbf
    rw [if_neg (by omega), if_neg (by omega)]
    congr 2
    unfold rbfGamma mmdValue
    simp only [Option.getD_some]
    have hoff : ∑ i, ∑ j, Real.exp (-g * sqDist (a i) (a j)) = n + sumOffDiag fun i j => Real.exp (-g * sqDist (a i) (a j)) := by
      unfold sumOffDiag
      have : ∀ i : Fin n, ∑ j, Real.exp (-g * sqDist (a i) (a j)) = 1 + ∑ j, if i = j then 0 else Real.exp (-g * sqDist (a i) (a j)) := by
        intro i
        have : ∀ j, Real.exp (-g * sqDist (a i) (a j)) = (if i = j then 1 else 0) + if i = j then 0 else Real.exp (-g * sqDist (a i) (a j)) := by
          intro j
          by_cases hij : i = j
          · subst hij; simp [sqDist_self]
          · simp [hij]
        rw [sum_congr rfl fun j _ => this j, sum_add_distrib]
        simp
      rw [sum_congr rfl fun i _ => this i, sum_add_distrib]
      simp
    have hone : ∑ i : Fin n, ∑ j : Fin n, (if i = j then 0 else 1 - Real.exp (-g * sqDist (a i) (a j)))
        = n * (n - 1) - sumOffDiag fun i j => Real.exp (-g * sqDist (a i) (a j)) := by
      unfold sumOffDiag
      have : ∀ i : Fin n, ∑ j : Fin n, (if i = j then 0 else 1 - Real.exp (-g * sqDist (a i) (a j)))
          = (n - 1) - ∑ j, if i = j then 0 else Real.exp (-g * sqDist (a i) (a j)) := by
        intro i
        have : ∀ j, (if i = j then 0 else 1 - Real.exp (-g * sqDist (a i) (a j)))
            = (1 - if i = j then 1 else 0) - if i = j then 0 else Real.exp (-g * sqDist (a i) (a j)) := by
          intro j
          by_cases hij : i = j <;> simp [hij]
        simp only [this, sum_sub_distrib]
        simp
      rw [sum_congr rfl fun i _ => this i, sum_sub_distrib]
      simp
      ring
    rw [hoff, hone]
    generalize (sumOffDiag fun i j => Real.exp (-g * sqDist (a i) (a j))) = S
    field_simp
    ring
  refine ⟨key, _, ?_, key⟩
  refine mul_nonpos_of_nonpos_of_nonneg (by rw [neg_nonpos]; positivity) (div_nonneg (sum_nonneg fun i _ => sum_nonneg fun j _ => ?_) ?_)
  · split_ifs
    · exact le_rfl
    · rw [sub_nonneg, Real.exp_le_one_iff, neg_mul, neg_nonpos]
      exact mul_nonneg hg (sqDist_nonneg _ _)
  · exact mul_nonneg (by positivity) (by linarith)

/-! ### the default bandwidth -/

/-- `med` is a median of the entries of `f`: at least half of them on either side. -/
def IsMedian (f : Fin n → Fin m → ℝ) (med : ℝ) : Prop :=
  n * m ≤ 2 * #{p : Fin n × Fin m | f p.1 p.2 ≤ med} ∧ n * m ≤ 2 * #{p : Fin n × Fin m | med ≤ f p.1 p.2}

theorem sort_pairwise (l : List ℝ) : (open Classical in l.mergeSort fun x y => decide (x ≤ y)).Pairwise (· ≤ ·) := by
  classical
  exact (List.pairwise_mergeSort (fun a b c h1 h2 => by simp only [decide_eq_true_eq] at *; exact h1.trans h2)
      (fun a b => by simp only [Bool.or_eq_true, decide_eq_true_eq]; exact le_total a b) l).imp fun h => of_decide_eq_true h

theorem median_isMedian (hn : 0 < n) (hm : 0 < m) (f : Fin n → Fin m → ℝ) : IsMedian f (medianMatrix f) := by
  classical
  have hN : 0 < n * m := Nat.mul_pos hn hm
  unfold IsMedian
  set med := medianMatrix f with hmed
  unfold medianMatrix at hmed
  simp only at hmed
  set l := ((List.finRange n).flatMap fun i => (List.finRange m).map fun j => f i j).mergeSort fun x y => decide (x ≤ y) with hl
  have hs : l.Pairwise (· ≤ ·) := by rw [hl]; convert sort_pairwise _
  have hlen : l.length = n * m := by
    rw [hl, List.length_mergeSort, (entries_perm f).length_eq, List.length_map, length_toList]
    simp
  have hmono : ∀ p q (hp : p < l.length) (hq : q < l.length), p ≤ q → l[p] ≤ l[q] := by
    intro p q hp hq hpq
    rcases hpq.eq_or_lt with rfl | h
    · exact le_rfl
    · exact List.pairwise_iff_getElem.1 hs p q hp hq h
  have hlo : (n * m - 1) / 2 < l.length := by omega
  have hhi : n * m / 2 < l.length := by omega
  rw [List.getD_eq_getElem?_getD, List.getD_eq_getElem?_getD, List.getElem?_eq_getElem hlo, List.getElem?_eq_getElem hhi,
    Option.getD_some, Option.getD_some] at hmed
  have hle := hmono _ _ hlo hhi (by omega)
  have hcount : ∀ q : ℝ → Prop, #{p : Fin n × Fin m | q (f p.1 p.2)} = l.countP fun x => decide (q x) := by
    intro q
    rw [hl, (List.mergeSort_perm _ _).countP_eq, (entries_perm f).countP_eq, List.countP_map, card_filter,
      ← univ_product_univ, List.countP_eq_length_filter]
    rw [← card_filter, ← length_toList]
    refine List.Perm.length_eq ?_
    refine (List.perm_ext_iff_of_nodup (nodup_toList _) ((nodup_toList _).filter _)).2 fun p => ?_
    simp
  rw [hcount fun x => x ≤ med, hcount fun x => med ≤ x]
  constructor
  · have h1 : (l.take ((n * m - 1) / 2 + 1)).countP (fun x => decide (x ≤ med)) = (n * m - 1) / 2 + 1 := by
      rw [List.countP_eq_length.2, List.length_take]
      · omega
      · intro x hx
        obtain ⟨p, hp, rfl⟩ := List.getElem_of_mem hx
        rw [List.length_take] at hp
        rw [List.getElem_take]
        simp only [decide_eq_true_eq]
        have := hmono p _ (by omega) hlo (by omega)
        linarith
    have h2 := (List.take_sublist ((n * m - 1) / 2 + 1) l).countP_le (p := fun x => decide (x ≤ med))
    omega
  · have h1 : (l.drop (n * m / 2)).countP (fun x => decide (med ≤ x)) = n * m - n * m / 2 := by
      rw [List.countP_eq_length.2, List.length_drop, hlen]
      intro x hx
      obtain ⟨p, hp, rfl⟩ := List.getElem_of_mem hx
      rw [List.length_drop] at hp
      rw [List.getElem_drop]
      simp only [decide_eq_true_eq]
      have := hmono _ (n * m / 2 + p) hhi (by omega) (by omega)
      linarith
    have h2 := (List.drop_sublist (n * m / 2) l).countP_le (p := fun x => decide (med ≤ x))
    omega

/-- Without `gamma` the bandwidth is `1 / (2 med)` for a median `med` of the squared distances between the samples. -/
theorem C112_default_bandwidth (a : Fin n → Fin D → ℝ) (b : Fin m → Fin D → ℝ) :
    ∃ med, (0 < n → 0 < m → IsMedian (fun i j => ∑ k, (a i k - b j k) ^ 2) med) ∧
      mmdRbf none a b = mmdRbf (some (1 / max (2 * med) (1 / 10 ^ 12))) a b :=
  ⟨medianMatrix fun i j => sqDist (a i) (b j), fun hn hm => median_isMedian hn hm _, rfl⟩

theorem median_mul (c : ℝ) (hc : 0 ≤ c) (f : Fin n → Fin m → ℝ) : medianMatrix (fun i j => c * f i j) = c * medianMatrix f := by
  classical
  unfold medianMatrix
  have h : (((List.finRange n).flatMap fun i => (List.finRange m).map fun j => c * f i j).mergeSort fun x y => decide (x ≤ y))
      = (((List.finRange n).flatMap fun i => (List.finRange m).map fun j => f i j).mergeSort fun x y => decide (x ≤ y)).map (c * ·) := by
    have hp : ((List.finRange n).flatMap fun i => (List.finRange m).map fun j => c * f i j)
        = ((List.finRange n).flatMap fun i => (List.finRange m).map fun j => f i j).map (c * ·) := by
      simp [List.map_flatMap, Function.comp_def]
    rw [hp]
    refine List.Perm.eq_of_pairwise (fun a b _ _ h1 h2 => le_antisymm h1 h2) ?_ ?_
      ((List.mergeSort_perm _ _).trans ((List.mergeSort_perm _ _).symm.map _))
    · convert sort_pairwise _
    · refine List.Pairwise.map _ (R := (· ≤ ·)) (fun x y hxy => mul_le_mul_of_nonneg_left hxy hc) ?_
      convert sort_pairwise _
  simp only
  have hd : ∀ (l : List ℝ) (p : ℕ), (l.map (c * ·)).getD p 0 = c * l.getD p 0 := by
    intro l p
    simp only [List.getD_eq_getElem?_getD, List.getElem?_map]
    cases l[p]? <;> simp
  have h' : (open Classical in ((List.finRange n).flatMap fun i => (List.finRange m).map fun j => c * f i j).mergeSort fun x y => decide (x ≤ y))
      = (open Classical in ((List.finRange n).flatMap fun i => (List.finRange m).map fun j => f i j).mergeSort fun x y => decide (x ≤ y)).map (c * ·) := by
    convert h
  rw [h', hd, hd]
  ring

/-- With the default bandwidth the unit of measurement does not matter, as long as half of the squared distances between the
samples stay above `1e-12 / 2`. -/
theorem C112_scale (a : Fin n → Fin D → ℝ) (b : Fin m → Fin D → ℝ) (c : ℝ)
    (h1 : ∀ med, IsMedian (fun i j => ∑ k, (a i k - b j k) ^ 2) med → 1 / 10 ^ 12 ≤ 2 * med ∧ 1 / 10 ^ 12 ≤ 2 * (c ^ 2 * med)) :
    mmdRbf none (fun i => c • a i) (fun i => c • b i) = mmdRbf none a b := by
  unfold mmdRbf
  split_ifs with h h'
  · rfl
  · rfl
  have hm := h1 _ (median_isMedian (n := n) (m := m) (by omega) (by omega) fun i j => sqDist (a i) (b j))
  have hs : ∀ x y : Fin D → ℝ, sqDist (c • x) (c • y) = c ^ 2 * sqDist x y := by
    intro x y
    unfold sqDist
    rw [mul_sum]
    exact sum_congr rfl fun i _ => by simp only [Pi.smul_apply, smul_eq_mul]; ring
  have hc : c ^ 2 ≠ 0 := by
    intro h0
    rw [h0] at hm
    norm_num at hm
  set med := medianMatrix fun i j => sqDist (a i) (b j) with hmed
  have hg : rbfGamma none (fun i => c • a i) (fun i => c • b i) = 1 / (2 * (c ^ 2 * med)) := by
    unfold rbfGamma
    simp only [hs, median_mul _ (sq_nonneg c), Option.getD_none]
    rw [max_eq_left hm.2]
  have hg2 : rbfGamma none a b = 1 / (2 * med) := by
    unfold rbfGamma
    simp only [Option.getD_none]
    rw [max_eq_left hm.1]
  have hk : ∀ d : ℝ, -(1 / (2 * (c ^ 2 * med))) * (c ^ 2 * d) = -(1 / (2 * med)) * d := by
    intro d
    have : med ≠ 0 := by
      rintro h0
      rw [h0] at hm
      norm_num at hm
    rw [one_div, one_div, mul_inv, mul_inv, mul_inv]
    calc -(2⁻¹ * ((c ^ 2)⁻¹ * med⁻¹)) * (c ^ 2 * d) = -(2⁻¹ * med⁻¹) * d * ((c ^ 2)⁻¹ * c ^ 2) := by ring
      _ = -(2⁻¹ * med⁻¹) * d := by rw [inv_mul_cancel₀ hc, mul_one]
  rw [hg, hg2]
  unfold mmdValue
  simp only [hs, hk]

/-! ### unbiasedness -/

/-- `E k(X, Y)` for independent `X` and `Y`. -/
noncomputable def expectKernel (g : ℝ) (μ ν : Measure (Fin D → ℝ)) : ℝ := ∫ p, Real.exp (-g * sqDist p.1 p.2) ∂μ.prod ν

theorem sqDist_measurable : Measurable fun p : (Fin D → ℝ) × (Fin D → ℝ) => sqDist p.1 p.2 := by
  unfold sqDist
  fun_prop

theorem pair_law (μ : Measure (Fin D → ℝ)) [IsProbabilityMeasure μ] {i j : Fin n} (hij : i ≠ j) :
    (Measure.pi fun _ : Fin n => μ).map (fun s => (s i, s j)) = μ.prod μ := by
  have h := (iIndepFun_pi (μ := fun _ : Fin n => μ) (X := fun _ x => x) fun _ => aemeasurable_id).indepFun hij
  have h2 := (indepFun_iff_map_prod_eq_prod_map_map (measurable_pi_apply i).aemeasurable (measurable_pi_apply j).aemeasurable).1 h
  rw [h2, (measurePreserving_eval (fun _ : Fin n => μ) i).map_eq, (measurePreserving_eval (fun _ : Fin n => μ) j).map_eq]

theorem kernel_integrable {Ω : Type} [MeasurableSpace Ω] {P : Measure Ω} [IsFiniteMeasure P] {g : ℝ} (hg : 0 ≤ g)
    {X Y : Ω → Fin D → ℝ} (hX : Measurable X) (hY : Measurable Y) :
    Integrable (fun ω => Real.exp (-g * sqDist (X ω) (Y ω))) P := by
  have hm : Measurable fun ω => Real.exp (-g * sqDist (X ω) (Y ω)) :=
    Real.measurable_exp.comp ((sqDist_measurable.comp (hX.prodMk hY)).const_mul _)
  refine (integrable_const (1 : ℝ)).mono' hm.aestronglyMeasurable (Filter.Eventually.of_forall fun ω => ?_)
  rw [Real.norm_eq_abs, Real.abs_exp, Real.exp_le_one_iff, neg_mul, neg_nonpos]
  exact mul_nonneg hg (sqDist_nonneg _ _)

/-- For independent samples from two distributions the expectation of the result is the squared discrepancy
`E k(X,X') + E k(Y,Y') - 2 E k(X,Y)`. Partial: `gamma` is given; the default depends on the samples. -/
theorem C112_unbiased_partial (hn : 2 ≤ n) (hm : 2 ≤ m) (g : ℝ) (hg : 0 ≤ g) (μ ν : Measure (Fin D → ℝ))
    [IsProbabilityMeasure μ] [IsProbabilityMeasure ν] :
    ∃ V : (Fin n → Fin D → ℝ) × (Fin m → Fin D → ℝ) → ℝ, (∀ s, mmdRbf (some g) s.1 s.2 = .ok (some (V s))) ∧
      ∫ s, V s ∂((Measure.pi fun _ => μ).prod (Measure.pi fun _ => ν))
        = expectKernel g μ μ + expectKernel g ν ν - 2 * expectKernel g μ ν := by
  refine ⟨fun s => mmdValue g s.1 s.2, fun s => ?_, ?_⟩
  · unfold mmdRbf
    rw [if_neg (by omega), if_neg (by omega)]
    rfl
  set P := (Measure.pi fun _ : Fin n => μ).prod (Measure.pi fun _ : Fin m => ν) with hP
  have hn' : (2 : ℝ) ≤ n := by exact_mod_cast hn
  have hm' : (2 : ℝ) ≤ m := by exact_mod_cast hm
  have hk : Measurable fun p : (Fin D → ℝ) × (Fin D → ℝ) => Real.exp (-g * sqDist p.1 p.2) :=
    Real.measurable_exp.comp (sqDist_measurable.const_mul _)
  have law : ∀ {Q : Measure ((Fin D → ℝ) × (Fin D → ℝ))} {X Y : (Fin n → Fin D → ℝ) × (Fin m → Fin D → ℝ) → Fin D → ℝ},
      Measurable X → Measurable Y → P.map (fun s => (X s, Y s)) = Q →
      ∫ s, Real.exp (-g * sqDist (X s) (Y s)) ∂P = ∫ p, Real.exp (-g * sqDist p.1 p.2) ∂Q := by
    rintro Q X Y hX hY rfl
    exact (integral_map (hX.prodMk hY).aemeasurable hk.aestronglyMeasurable).symm
  have laa : ∀ i j : Fin n, i ≠ j → ∫ s, Real.exp (-g * sqDist (s.1 i) (s.1 j)) ∂P = expectKernel g μ μ := by
    intro i j hij
    refine law (by fun_prop) (by fun_prop) ?_
    rw [← pair_law μ hij, ← (measurePreserving_fst (μ := Measure.pi fun _ : Fin n => μ) (ν := Measure.pi fun _ : Fin m => ν)).map_eq,
      Measure.map_map (by fun_prop) (by fun_prop)]
    rfl
  have lbb : ∀ i j : Fin m, i ≠ j → ∫ s, Real.exp (-g * sqDist (s.2 i) (s.2 j)) ∂P = expectKernel g ν ν := by
    intro i j hij
    refine law (by fun_prop) (by fun_prop) ?_
    rw [← pair_law ν hij, ← (measurePreserving_snd (μ := Measure.pi fun _ : Fin n => μ) (ν := Measure.pi fun _ : Fin m => ν)).map_eq,
      Measure.map_map (by fun_prop) (by fun_prop)]
    rfl
  have lab : ∀ (i : Fin n) (j : Fin m), ∫ s, Real.exp (-g * sqDist (s.1 i) (s.2 j)) ∂P = expectKernel g μ ν := by
    intro i j
    refine law (by fun_prop) (by fun_prop) ?_
    exact ((measurePreserving_eval (fun _ : Fin n => μ) i).prod (measurePreserving_eval (fun _ : Fin m => ν) j)).map_eq
  have iaa : ∀ i j : Fin n, Integrable (fun s : (Fin n → Fin D → ℝ) × (Fin m → Fin D → ℝ) =>
      if i = j then 0 else Real.exp (-g * sqDist (s.1 i) (s.1 j))) P := by
    intro i j
    split_ifs
    · exact integrable_zero _ _ _
    · exact kernel_integrable hg (by fun_prop) (by fun_prop)
  have ibb : ∀ i j : Fin m, Integrable (fun s : (Fin n → Fin D → ℝ) × (Fin m → Fin D → ℝ) =>
      if i = j then 0 else Real.exp (-g * sqDist (s.2 i) (s.2 j))) P := by
    intro i j
    split_ifs
    · exact integrable_zero _ _ _
    · exact kernel_integrable hg (by fun_prop) (by fun_prop)
  have iab : ∀ (i : Fin n) (j : Fin m), Integrable (fun s : (Fin n → Fin D → ℝ) × (Fin m → Fin D → ℝ) =>
      Real.exp (-g * sqDist (s.1 i) (s.2 j))) P := fun i j => kernel_integrable hg (by fun_prop) (by fun_prop)
  have cnt : ∀ {k : ℕ} (c : ℝ), ∑ i : Fin k, ∑ j : Fin k, (if i = j then 0 else c) = k * (k - 1) * c := by
    intro k c
    have : ∀ i : Fin k, ∑ j : Fin k, (if i = j then 0 else c) = (k - 1) * c := by
      intro i
      have : ∀ j, (if i = j then 0 else c) = c - if i = j then c else 0 := fun j => by split_ifs <;> ring
      simp only [this, sum_sub_distrib]
      simp
      ring
    simp only [this]
    simp
    ring
  have saa : ∫ s, sumOffDiag (fun i j => Real.exp (-g * sqDist (s.1 i) (s.1 j))) ∂P = n * (n - 1) * expectKernel g μ μ := by
    unfold sumOffDiag
    rw [integral_finset_sum _ fun i _ => integrable_finset_sum _ fun j _ => iaa i j, ← cnt]
    refine sum_congr rfl fun i _ => ?_
    rw [integral_finset_sum _ fun j _ => iaa i j]
    refine sum_congr rfl fun j _ => ?_
    by_cases hij : i = j
    · simp [hij]
    · simp only [hij, if_false]; exact laa i j hij
  have sbb : ∫ s, sumOffDiag (fun i j => Real.exp (-g * sqDist (s.2 i) (s.2 j))) ∂P = m * (m - 1) * expectKernel g ν ν := by
    unfold sumOffDiag
    rw [integral_finset_sum _ fun i _ => integrable_finset_sum _ fun j _ => ibb i j, ← cnt]
    refine sum_congr rfl fun i _ => ?_
    rw [integral_finset_sum _ fun j _ => ibb i j]
    refine sum_congr rfl fun j _ => ?_
    by_cases hij : i = j
    · simp [hij]
    · simp only [hij, if_false]; exact lbb i j hij
  have sab : ∫ s, ∑ i, ∑ j, Real.exp (-g * sqDist (s.1 i) (s.2 j)) ∂P = n * m * expectKernel g μ ν := by
    rw [integral_finset_sum _ fun i _ => integrable_finset_sum _ fun j _ => iab i j]
    have : ∀ i, ∫ s, ∑ j, Real.exp (-g * sqDist (s.1 i) (s.2 j)) ∂P = m * expectKernel g μ ν := by
      intro i
      rw [integral_finset_sum _ fun j _ => iab i j, sum_congr rfl fun j _ => lab i j]
      simp
    simp only [this]
    simp
    ring
  have Iaa : Integrable (fun s : (Fin n → Fin D → ℝ) × (Fin m → Fin D → ℝ) => sumOffDiag fun i j => Real.exp (-g * sqDist (s.1 i) (s.1 j))) P :=
    integrable_finset_sum _ fun i _ => integrable_finset_sum _ fun j _ => iaa i j
  have Ibb : Integrable (fun s : (Fin n → Fin D → ℝ) × (Fin m → Fin D → ℝ) => sumOffDiag fun i j => Real.exp (-g * sqDist (s.2 i) (s.2 j))) P :=
    integrable_finset_sum _ fun i _ => integrable_finset_sum _ fun j _ => ibb i j
  have Iab : Integrable (fun s : (Fin n → Fin D → ℝ) × (Fin m → Fin D → ℝ) => ∑ i, ∑ j, Real.exp (-g * sqDist (s.1 i) (s.2 j))) P :=
    integrable_finset_sum _ fun i _ => integrable_finset_sum _ fun j _ => iab i j
  unfold mmdValue
  have hadd := integral_sub ((Iaa.div_const (n * (n - 1))).add (Ibb.div_const (m * (m - 1)))) ((Iab.div_const (n * m)).const_mul 2)
  simp only [Pi.add_apply] at hadd
  refine hadd.trans ?_
  rw [integral_add (Iaa.div_const _) (Ibb.div_const _), integral_div, integral_div, integral_const_mul, integral_div, saa, sbb, sab]
  have h1 : (n : ℝ) * (n - 1) ≠ 0 := mul_ne_zero (by linarith) (by linarith)
  have h2 : (m : ℝ) * (m - 1) ≠ 0 := mul_ne_zero (by linarith) (by linarith)
  have h3 : (n : ℝ) * m ≠ 0 := mul_ne_zero (by linarith) (by linarith)
  rw [mul_div_cancel_left₀ _ h1, mul_div_cancel_left₀ _ h2, mul_div_cancel_left₀ _ h3]

/-- A sample of three points with itself. -/
example : ∃ v ≤ 0, mmdRbf (some 1) ![![0], ![1], ![2]] ![![0], ![1], ![2]] = .ok (some v) :=
  (C112_identical (by norm_num) 1 zero_le_one _).2

/-- Two points at distance one from two others: the default bandwidth does not see a rescaling by 3. -/
example : mmdRbf none (fun i : Fin 2 => (3 : ℝ) • (fun _ : Fin 1 => (0 : ℝ))) (fun i : Fin 2 => (3 : ℝ) • fun _ : Fin 1 => (1 : ℝ))
    = mmdRbf none (fun _ : Fin 2 => fun _ : Fin 1 => (0 : ℝ)) fun _ : Fin 2 => fun _ : Fin 1 => (1 : ℝ) := by
  refine C112_scale _ _ 3 fun med h => ?_
  have h1 : 1 ≤ med := by
    by_contra h0
    have := h.1
    simp [h0] at this
  constructor <;> norm_num <;> linarith

/-- Two points drawn from each of two distributions. -/
example (y : Fin 1 → ℝ) := C112_unbiased_partial (n := 2) (m := 3) le_rfl (by norm_num) 1 zero_le_one (Measure.dirac 0) (Measure.dirac y)

end Verif.Ggmp
