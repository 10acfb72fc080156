import Verif.Kernels.StatProps
import Verif.GP.Spec
import Mathlib.Analysis.SpecialFunctions.Exponential
import Mathlib.LinearAlgebra.Matrix.PosDef
import Mathlib.Analysis.Matrix.Order

/-!
C66: inner-product kernels, basis-function kernels and Gaussian-type kernels are positive semidefinite.
-/

namespace Verif.Kernels

open Real Verif.GP Finset

variable {α β : Type}

/-! ## Closure properties -/

theorem IsPSDKernel.feature (f : α → ℝ) : IsPSDKernel fun a b => f a * f b := by
  refine ⟨fun a b => mul_comm _ _, fun n x w => ?_⟩
  have : ∑ i, ∑ j, w i * w j * (f (x i) * f (x j)) = (∑ i, w i * f (x i)) * ∑ i, w i * f (x i) := by
    rw [sum_mul_sum]
    exact sum_congr rfl fun i _ => sum_congr rfl fun j _ => by ring
  rw [this]
  exact mul_self_nonneg _

theorem IsPSDKernel.add {k l : α → α → ℝ} (hk : IsPSDKernel k) (hl : IsPSDKernel l) : IsPSDKernel fun a b => k a b + l a b := by
  refine ⟨fun a b => by simp only [hk.1 a b, hl.1 a b], fun n x w => ?_⟩
  simp only [mul_add, sum_add_distrib]
  exact add_nonneg (hk.2 n x w) (hl.2 n x w)

theorem IsPSDKernel.smul {k : α → α → ℝ} (hk : IsPSDKernel k) {c : ℝ} (hc : 0 ≤ c) : IsPSDKernel fun a b => c * k a b := by
  refine ⟨fun a b => by simp only [hk.1 a b], fun n x w => ?_⟩
  have : ∑ i, ∑ j, w i * w j * (c * k (x i) (x j)) = c * ∑ i, ∑ j, w i * w j * k (x i) (x j) := by
    simp only [mul_sum]
    exact sum_congr rfl fun i _ => sum_congr rfl fun j _ => by ring
  rw [this]
  exact mul_nonneg hc (hk.2 n x w)

theorem IsPSDKernel.sum {ι : Type} (s : Finset ι) {k : ι → α → α → ℝ} (hk : ∀ i ∈ s, IsPSDKernel (k i)) :
    IsPSDKernel fun a b => ∑ i ∈ s, k i a b := by
  classical
  induction s using Finset.induction_on with
  | empty => simpa using IsPSDKernel.smul (IsPSDKernel.feature (fun _ : α => 0)) le_rfl
  | insert i s hi ih =>
    simp only [sum_insert hi]
    exact IsPSDKernel.add (hk i (mem_insert_self _ _)) (ih fun j hj => hk j (mem_insert_of_mem hj))

theorem IsPSDKernel.comp {k : β → β → ℝ} (hk : IsPSDKernel k) (f : α → β) : IsPSDKernel fun a b => k (f a) (f b) :=
  ⟨fun a b => hk.1 _ _, fun n x w => hk.2 n (fun i => f (x i)) w⟩

theorem IsPSDKernel.limit {k : ℕ → α → α → ℝ} {l : α → α → ℝ} (hk : ∀ n, IsPSDKernel (k n))
    (h : ∀ a b, Filter.Tendsto (fun n => k n a b) Filter.atTop (nhds (l a b))) : IsPSDKernel l := by
  refine ⟨fun a b => ?_, fun n x w => ?_⟩
  · have h1 := h a b
    have h2 := h b a
    have : (fun n => k n a b) = fun n => k n b a := funext fun n => (hk n).1 a b
    rw [this] at h1
    exact tendsto_nhds_unique h1 h2
  · refine ge_of_tendsto' (f := fun m => ∑ i, ∑ j, w i * w j * k m (x i) (x j)) (x := Filter.atTop) ?_ fun m => (hk m).2 n x w
    exact tendsto_finsetSum _ fun i _ => tendsto_finsetSum _ fun j _ => (h _ _).const_mul _

/-- Positive semidefinite kernels are those whose Gram matrices are. -/
theorem psd_gram {k : α → α → ℝ} (hk : IsPSDKernel k) {n : ℕ} (x : Fin n → α) :
    (Matrix.of fun i j => k (x i) (x j) : Matrix (Fin n) (Fin n) ℝ).PosSemidef := by
  refine Matrix.PosSemidef.of_dotProduct_mulVec_nonneg ?_ fun v => ?_
  · ext i j
    simp [hk.1 (x j) (x i)]
  · refine (hk.2 n x v).trans_eq ?_
    simp only [_root_.dotProduct, Matrix.mulVec, Matrix.of_apply, mul_sum]
    refine sum_congr rfl fun i _ => sum_congr rfl fun j _ => ?_
    simp
    ring

/-- Products of kernels (Schur). -/
theorem IsPSDKernel.mul {k l : α → α → ℝ} (hk : IsPSDKernel k) (hl : IsPSDKernel l) : IsPSDKernel fun a b => k a b * l a b := by
  refine ⟨fun a b => by simp only [hk.1 a b, hl.1 a b], fun n x w => ?_⟩
  have h := ((psd_gram hk x).hadamard (psd_gram hl x)).dotProduct_mulVec_nonneg w
  refine h.trans_eq ?_
  simp only [_root_.dotProduct, Matrix.mulVec, Matrix.hadamard_apply, Matrix.of_apply, mul_sum]
  refine sum_congr rfl fun i _ => sum_congr rfl fun j _ => ?_
  simp
  ring

theorem IsPSDKernel.pow {k : α → α → ℝ} (hk : IsPSDKernel k) (m : ℕ) : IsPSDKernel fun a b => k a b ^ m := by
  induction m with
  | zero => simpa using IsPSDKernel.feature (fun _ : α => (1 : ℝ))
  | succ m ih =>
    simp only [pow_succ]
    exact IsPSDKernel.mul ih hk

theorem IsPSDKernel.exp {k : α → α → ℝ} (hk : IsPSDKernel k) : IsPSDKernel fun a b => Real.exp (k a b) := by
  refine IsPSDKernel.limit (k := fun n a b => ∑ m ∈ range n, (m.factorial : ℝ)⁻¹ * k a b ^ m) (fun n => ?_) fun a b => ?_
  · exact IsPSDKernel.sum _ fun m _ => IsPSDKernel.smul (IsPSDKernel.pow hk m) (by positivity)
  · have h := NormedSpace.expSeries_div_hasSum_exp (k a b)
    rw [← Real.exp_eq_exp_ℝ] at h
    refine h.tendsto_sum_nat.congr fun n => sum_congr rfl fun m _ => ?_
    rw [div_eq_inv_mul]

/-! ## C66 -/

/-- C66, linear kernel: nonnegative offset and slope variance, any centre. -/
theorem C66_linear (hp1 hp2 hp3 : ℝ) (h1 : 0 ≤ hp1) (h2 : 0 ≤ hp2) : IsPSDKernel fun x y => linear x y hp1 hp2 hp3 := by
  have := IsPSDKernel.add (IsPSDKernel.smul (IsPSDKernel.feature fun _ : ℝ => 1) h1)
    (IsPSDKernel.smul (IsPSDKernel.feature fun x : ℝ => x - hp3) h2)
  convert this using 3
  unfold linear
  ring

/-- The Euclidean inner product. -/
theorem inner_psd {D : ℕ} : IsPSDKernel fun x y : Fin D → ℝ => ∑ a, x a * y a :=
  IsPSDKernel.sum _ fun a _ => IsPSDKernel.feature fun x : Fin D → ℝ => x a

/-- C66, polynomial kernel of any degree. -/
theorem C66_polynomial {D : ℕ} (p : ℕ) : IsPSDKernel fun x y : Fin D → ℝ => polynomial x y p := by
  refine IsPSDKernel.pow ?_ p
  have := IsPSDKernel.add (IsPSDKernel.feature fun _ : Fin D → ℝ => 1) inner_psd
  simpa using this

/-- C66, dot-product kernel: nonnegative offset, symmetric positive semidefinite matrix. -/
theorem C66_dot_product {D : ℕ} (hp : ℝ) (h : 0 ≤ hp) (M : Matrix (Fin D) (Fin D) ℝ) (hM : M.PosSemidef) :
    IsPSDKernel fun x y : Fin D → ℝ => dotProduct x y hp M := by
  have hsym : ∀ a b, M a b = M b a := fun a b => by
    have := congrFun (congrFun hM.1 b) a
    simpa using this
  have hq : IsPSDKernel fun x y : Fin D → ℝ => ∑ a, x a * ∑ b, M a b * y b := by
    refine ⟨fun x y => ?_, fun n x w => ?_⟩
    · simp only [mul_sum]
      rw [sum_comm]
      exact sum_congr rfl fun b _ => sum_congr rfl fun a _ => by rw [hsym a b]; ring
    · have := hM.dotProduct_mulVec_nonneg fun a => ∑ i, w i * x i a
      refine this.trans_eq ?_
      simp only [_root_.dotProduct, Matrix.mulVec, Pi.star_apply, star_trivial]
      have e : ∀ a, ∑ b, M a b * ∑ j, w j * x j b = ∑ j, w j * ∑ b, M a b * x j b := by
        intro a
        simp only [mul_sum]
        rw [sum_comm]
        exact sum_congr rfl fun j _ => sum_congr rfl fun b _ => by ring
      simp only [e, sum_mul_sum]
      rw [sum_comm]
      refine sum_congr rfl fun i _ => ?_
      rw [sum_comm]
      refine sum_congr rfl fun j _ => ?_
      rw [mul_sum]
      exact sum_congr rfl fun a _ => by ring
  have := IsPSDKernel.add (IsPSDKernel.smul (IsPSDKernel.feature fun _ : Fin D → ℝ => 1) h) hq
  simpa [dotProduct] using this

/-- C66, basis-function kernel, for every choice of centres, weights and width. -/
theorem C66_non_stat {D m : ℕ} (x0 : Fin m → Fin D → ℝ) (w : Fin m → ℝ) (l : ℝ) (_hl : l ≠ 0) :
    IsPSDKernel fun x y : Fin D → ℝ => nonStat x y x0 w l :=
  IsPSDKernel.feature fun x => basis x x0 w l

/-- `exp(-c |x-y|²)` is a positive semidefinite kernel. -/
theorem gauss_psd {D : ℕ} {c : ℝ} (hc : 0 ≤ c) : IsPSDKernel fun x y : Fin D → ℝ => Real.exp (-c * ∑ i, (x i - y i) ^ 2) := by
  have h1 := IsPSDKernel.exp (IsPSDKernel.smul (inner_psd (D := D)) (mul_nonneg zero_le_two hc))
  have h2 := IsPSDKernel.mul (IsPSDKernel.feature fun x : Fin D → ℝ => Real.exp (-c * ∑ i, x i ^ 2)) h1
  convert h2 using 3 with x y
  rw [← Real.exp_add, ← Real.exp_add]
  congr 1
  simp only [mul_sum, ← sum_add_distrib]
  exact sum_congr rfl fun i _ => by ring

theorem distance_sq {D : ℕ} (x y : Fin D → ℝ) : distance x y ^ 2 = ∑ i, (x i - y i) ^ 2 :=
  sq_sqrt (sum_nonneg fun i _ => sq_nonneg _)

theorem anisoDistance_eq {D : ℕ} (x y l : Fin D → ℝ) :
    anisoDistance x y l = distance (fun i => x i / l i) (fun i => y i / l i) := by
  unfold anisoDistance distance
  congr 1
  exact sum_congr rfl fun i _ => by rw [sq_abs, sub_div]

/-- C66, squared exponential kernel of the Euclidean distance. -/
theorem C66_squared_exponential {D : ℕ} (l : ℝ) (_hl : l ≠ 0) :
    IsPSDKernel fun x y : Fin D → ℝ => squaredExponential (distance x y) l := by
  have := gauss_psd (D := D) (c := 1 / (2 * l ^ 2)) (by positivity)
  convert this using 3 with x y
  unfold squaredExponential
  rw [distance_sq]
  congr 1
  ring

/-- C66, robust squared exponential kernel of the Euclidean distance. -/
theorem C66_squared_exponential_robust {D : ℕ} (φ : ℝ) :
    IsPSDKernel fun x y : Fin D → ℝ => squaredExponentialRobust (distance x y) φ := by
  have := gauss_psd (D := D) (c := φ ^ 2) (by positivity)
  convert this using 3 with x y
  unfold squaredExponentialRobust
  rw [distance_sq]
  congr 1
  ring

/-- C66, squared exponential kernel of the anisotropic distance. -/
theorem C66_squared_exponential_aniso {D : ℕ} (l : ℝ) (hl : l ≠ 0) (s : Fin D → ℝ) (_hs : ∀ i, s i ≠ 0) :
    IsPSDKernel fun x y : Fin D → ℝ => squaredExponential (anisoDistance x y s) l := by
  simp only [anisoDistance_eq]
  exact IsPSDKernel.comp (C66_squared_exponential l hl) fun (x : Fin D → ℝ) i => x i / s i

/-- C66, periodic kernel of the distance of numbers. -/
theorem C66_periodic (l p : ℝ) (_hl : l ≠ 0) (_hp : p ≠ 0) : IsPSDKernel fun x y : ℝ => periodic |x - y| l p := by
  have hcs : IsPSDKernel fun x y : ℝ => cos (2 * π * x / p) * cos (2 * π * y / p) + sin (2 * π * x / p) * sin (2 * π * y / p) :=
    IsPSDKernel.add (IsPSDKernel.feature fun x : ℝ => cos (2 * π * x / p)) (IsPSDKernel.feature fun x : ℝ => sin (2 * π * x / p))
  have h := IsPSDKernel.smul (IsPSDKernel.exp (IsPSDKernel.smul hcs (c := 1 / l ^ 2) (by positivity))) (Real.exp_pos (-(1 / l ^ 2))).le
  convert h using 3 with x y
  unfold periodic
  rw [← Real.exp_add]
  congr 1
  rw [← cos_sub]
  have e1 : 2 * π * x / p - 2 * π * y / p = 2 * (π * (x - y) / p) := by ring
  rw [e1, cos_two_mul]
  have e2 : sin (π * |x - y| / p) ^ 2 = sin (π * (x - y) / p) ^ 2 := by
    rcases abs_choice (x - y) with h | h
    · rw [h]
    · rw [h, mul_neg, neg_div, sin_neg, neg_sq]
  rw [e2, sin_sq]
  ring

/-- C66, landmark-embedding kernel: nonnegative amplitude and positive length; any nonzero radius, any sharpness. -/
theorem C66_sle {D m : ℕ} (xs : Fin m → Fin D → ℝ) (h0 r β h3 : ℝ) (ha : 0 ≤ h0) (_hr : r ≠ 0) (hl : 0 < h3) :
    IsPSDKernel fun x y : Fin D → ℝ => sle x y xs h0 r β h3 := by
  have := IsPSDKernel.smul (IsPSDKernel.comp (gauss_psd (D := m) (c := 1 / h3) (by positivity))
    fun (x : Fin D → ℝ) c => bump (distance x (xs c)) r β 1) ha
  convert this using 3 with x y
  unfold sle
  rw [sq_sqrt (sum_nonneg fun i _ => sq_nonneg _)]
  congr 2
  ring

/-! Concrete Gram matrices: three points, arbitrary weights. -/

example (w : Fin 3 → ℝ) : 0 ≤ ∑ i, ∑ j, w i * w j * linear (![1, -2, 5] i) (![1, -2, 5] j) 1 2 3 :=
  (C66_linear 1 2 3 zero_le_one zero_le_two).2 3 _ w

example (w : Fin 2 → ℝ) :
    0 ≤ ∑ i, ∑ j, w i * w j * dotProduct (![![1, -2], ![0, 3]] i) (![![1, -2], ![0, 3]] j) 1 (1 : Matrix (Fin 2) (Fin 2) ℝ) :=
  (C66_dot_product 1 zero_le_one 1 Matrix.PosSemidef.one).2 2 _ w

example (w : Fin 2 → ℝ) : 0 ≤ ∑ i, ∑ j, w i * w j * squaredExponential (distance (![![1, -2], ![0, 3]] i) (![![1, -2], ![0, 3]] j)) 2 :=
  (C66_squared_exponential 2 two_ne_zero).2 2 _ w

example (w : Fin 2 → ℝ) : 0 ≤ ∑ i, ∑ j, w i * w j * periodic |![1, 7] i - ![1, 7] j| 2 3 :=
  (C66_periodic 2 3 two_ne_zero three_ne_zero).2 2 _ w

/-- C66, violated by the robust Matérn kernel of differentiability 2: for every nonzero parameter there are two points on
the line whose Gram matrix is indefinite. -/
theorem C66_matern2_robust_violated (φ : ℝ) (hφ : φ ≠ 0) :
    ¬ IsPSDKernel fun x y : Fin 1 → ℝ => matern2Robust (distance x y) φ := by
  intro h
  obtain ⟨d, hd, h1⟩ := C64_matern2_robust_violated φ hφ
  have := h.2 2 ![fun _ => 0, fun _ => d] ![1, -1]
  simp only [Fin.sum_univ_two, Matrix.cons_val_zero, Matrix.cons_val_one, distance, Fin.sum_univ_one, univ_unique,
    Fin.default_eq_zero, sum_singleton] at this
  have e1 : √((0 - d) ^ 2) = d := by rw [zero_sub, neg_sq, sqrt_sq hd.le]
  have e2 : √((d - 0) ^ 2) = d := by rw [sub_zero, sqrt_sq hd.le]
  have e3 : matern2Robust 0 φ = 1 := by simp [matern2Robust]
  simp only [sub_self] at this
  rw [e1, e2] at this
  simp only [ne_eq, OfNat.ofNat_ne_zero, not_false_eq_true, zero_pow, sqrt_zero, e3] at this
  norm_num at h1
  linarith

end Verif.Kernels
