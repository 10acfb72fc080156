import Verif.Kernels.GpuModel
import Verif.Kernels.SparseProps
import Mathlib.Analysis.InnerProductSpace.PiL2
import Mathlib.Analysis.Calculus.MeanValue
import Mathlib.Analysis.Calculus.Deriv.Pow

/-!
C134: the GPU versions of the gp2Scale Wendland kernels compute the Wendland kernel.
-/

namespace Verif.Kernels

open Verif.Gp2Scale Finset Real

variable {D : ℕ}

theorem foldl_add_sum (f : Fin D → ℝ) : (List.finRange D).foldl (fun d i => d + f i) 0 = ∑ i, f i := by
  rw [Fin.sum_univ_def]
  have : ∀ (l : List (Fin D)) (c : ℝ), l.foldl (fun d i => d + f i) c = c + (l.map f).sum := by
    intro l
    induction l with
    | nil => intro c; simp
    | cons a l ih => intro c; rw [List.foldl_cons, ih, List.map_cons, List.sum_cons, add_assoc]
  rw [this, zero_add]

theorem gpuPoly_id (d a : ℝ) : gpuPoly id d a = amplitudePoly d a := rfl

theorem gpuSq_conv (conv : ℝ → ℝ) (s x y : Fin D → ℝ) :
    gpuSq conv id s x y = ∑ i, ((conv (x i) - conv (y i)) / conv (s i)) ^ 2 :=
  foldl_add_sum fun i => ((conv (x i) - conv (y i)) / conv (s i)) ^ 2

theorem gpuPairSq_conv (conv : ℝ → ℝ) (z1 z2 : List (Fin D → ℝ)) (p : ℕ × ℕ) :
    gpuPairSq conv id z1 z2 p = ∑ i, conv ((z2.getD p.2 0) i - (z1.getD p.1 0) i) ^ 2 := by
  refine (foldl_add_sum fun i => conv ((z2.getD p.2 0) i - (z1.getD p.1 0) i) * conv ((z2.getD p.2 0) i - (z1.getD p.1 0) i)).trans ?_
  exact sum_congr rfl fun i _ => (pow_two _).symm

/-- C134: with exact arithmetic the GPU kernels return what the CPU kernels return, for any point sets. -/
theorem C134_exact (q : Query D) (engine : Bool) (a : ℝ) (s : Fin D → ℝ) (x1 x2 : List (Fin D → ℝ)) :
    (x1 ≠ [] → wendlandGpu engine id id a s x1 x2 = wendlandDense a s x1 x2) ∧
    wendlandGpuSparse q engine id id a s x1 x2 = wendlandSparse q a s x1 x2 := by
  constructor
  · intro h1
    unfold wendlandGpu
    cases engine with
    | false => rfl
    | true =>
      unfold wendlandDense
      rw [if_pos rfl, if_neg h1]
      have hv : ∀ x y : Fin D → ℝ, gpuEntry id id a s x y = amplitudePoly (if √(∑ i, ((x i - y i) / s i) ^ 2) > 1 then 1 else
          √(∑ i, ((x i - y i) / s i) ^ 2)) a := by
        intro x y
        unfold gpuEntry
        rw [gpuPoly_id, gpuSq_conv]
        simp only [id]
        split_ifs with h
        · rw [min_eq_right h.lt.le]
        · rw [min_eq_left (not_lt.1 h)]
      simp only [hv]
  · unfold wendlandGpuSparse wendlandSparse
    have hp : ∀ (z1 z2 : List (Fin D → ℝ)) p, gpuPairSq id id z1 z2 p = pairSq z1 z2 p := fun z1 z2 p => gpuPairSq_conv id z1 z2 p
    cases engine with
    | false =>
      congr 2
      by_cases he : x1.length = 0 ∨ x2.length = 0
      · rw [if_pos he]; unfold supportTriplets; rw [if_pos he]
      · rw [if_neg he]
        simp only [Bool.false_eq_true, if_false]
        split_ifs with hb
        · unfold supportTriplets; rw [if_neg he]; simp only [hb, if_true]
        · rfl
    | true =>
      simp only [if_true, gpuPoly_id, hp, id]
      rfl

/-- C134: the dense GPU kernel is symmetric, whatever the rounding, as long as it treats both signs alike. -/
theorem C134_dense_symmetric (conv rd : ℝ → ℝ) (hodd : ∀ r, rd (-r) = -rd r) (a : ℝ) (s x y : Fin D → ℝ) :
    gpuEntry conv rd a s x y = gpuEntry conv rd a s y x := by
  have : gpuSq conv rd s x y = gpuSq conv rd s y x := by
    unfold gpuSq
    congr 1
    funext d i
    rw [show conv (y i) - conv (x i) = -(conv (x i) - conv (y i)) by ring, hodd, neg_div, hodd, neg_sq]
  unfold gpuEntry
  rw [this]

/-! ### The sparse kernel, point by point -/

/-- The kernel function computed by the sparse GPU kernel. -/
noncomputable def gpuSparseAt (conv rd : ℝ → ℝ) (a : ℝ) (s x y : Fin D → ℝ) : ℝ :=
  let sq := gpuPairSq conv rd [whiten s x] [whiten s y] (0, 0)
  if anisoDistance x y s ≤ 1 ∧ sq ≤ 1 then gpuPoly rd (rd √(min sq 1)) a else 0

/-- C134: the sparse GPU kernel evaluates one function point by point (each pair on its own, in any block). -/
theorem C134_sparse_pointwise (q : Query D) (hq : QueryContract q) (conv rd : ℝ → ℝ) (a : ℝ) (s : Fin D → ℝ) :
    PointwiseKernel (wendlandGpuSparse q true conv rd a s) (gpuSparseAt conv rd a s) := by
  intro x1 x2 blk h
  unfold wendlandGpuSparse at h
  obtain rfl := Except.ok.inj h
  by_cases he : x1.length = 0 ∨ x2.length = 0
  · rw [if_pos he]
    refine ⟨fun t ht => by simp at ht, fun i j => ?_⟩
    have : kAt (gpuSparseAt conv rd a s) x1 x2 i j = 0 := by
      rcases he with h | h
      · exact kAt_of_le_left _ _ _ (by omega)
      · exact kAt_of_le_right _ _ _ (by omega)
    rw [this]; rfl
  rw [if_neg he]
  simp only [if_true]
  split_ifs with hb
  · refine ⟨fun t ht => by simp at ht, fun i j => ?_⟩
    have : kAt (gpuSparseAt conv rd a s) x1 x2 i j = 0 := by
      unfold kAt
      cases h1 : x1[i]? with
      | none => rfl
      | some x =>
        cases h2 : x2[j]? with
        | none => rfl
        | some y =>
          unfold gpuSparseAt
          refine if_neg fun hc => absurd hc.1 (not_le.2 ?_)
          rw [← whiten_distance]
          exact hb.lt.trans_le (blockDistance_le (List.mem_map.2 ⟨x, List.mem_of_getElem? h1, rfl⟩)
            (List.mem_map.2 ⟨y, List.mem_of_getElem? h2, rfl⟩))
    rw [this]; rfl
  · set z1 := x1.map (whiten s) with hz1
    set z2 := x2.map (whiten s) with hz2
    set P := neighbourPairs (q z1 z2) with hP
    have hmemP : ∀ i j, (i, j) ∈ P ↔ ∃ x y, x1[i]? = some x ∧ x2[j]? = some y ∧ anisoDistance x y s ≤ 1 := by
      intro i j
      rw [hP, mem_neighbourPairs]
      constructor
      · rintro ⟨l, hl, hj⟩
        have hi : i < x1.length := by
          have := (List.getElem?_eq_some_iff.1 hl).1
          rw [hq.length, hz1, List.length_map] at this
          exact this
        obtain ⟨z', h1, h2⟩ := (hq.mem z1 z2 i l (whiten s x1[i]) hl (by simp [hz1, hi]) j).1 hj
        rw [hz2, List.getElem?_map, Option.map_eq_some_iff] at h1
        obtain ⟨y, hy, rfl⟩ := h1
        exact ⟨x1[i], y, by simp [hi], hy, by rw [← whiten_distance]; exact h2⟩
      · rintro ⟨x, y, hx, hy, hd⟩
        have hi : i < (q z1 z2).length := by
          rw [hq.length, hz1, List.length_map]
          exact (List.getElem?_eq_some_iff.1 hx).1
        refine ⟨(q z1 z2)[i], by simp [hi], ?_⟩
        refine (hq.mem z1 z2 i _ (whiten s x) (by simp [hi]) (by simp [hz1, hx]) j).2 ⟨whiten s y, by simp [hz2, hy], ?_⟩
        rw [whiten_distance]; exact hd
    have hsq : ∀ i j x y, x1[i]? = some x → x2[j]? = some y →
        gpuPairSq conv rd z1 z2 (i, j) = gpuPairSq conv rd [whiten s x] [whiten s y] (0, 0) := by
      intro i j x y hx hy
      unfold gpuPairSq
      simp [hz1, hz2, List.getD_eq_getElem?_getD, hx, hy]
    have hval : ∀ i j x y, x1[i]? = some x → x2[j]? = some y → anisoDistance x y s ≤ 1 →
        gpuPairSq conv rd z1 z2 (i, j) ≤ 1 →
        gpuPoly rd (rd √(min (gpuPairSq conv rd z1 z2 (i, j)) 1)) a = gpuSparseAt conv rd a s x y := by
      intro i j x y hx hy hd hle
      unfold gpuSparseAt
      rw [hsq i j x y hx hy] at hle ⊢
      exact (if_pos ⟨hd, hle⟩).symm
    set f : ℕ × ℕ → ℝ := fun p => gpuPoly rd (rd √(min (gpuPairSq conv rd z1 z2 p) 1)) a with hf
    have hm : ((P.filter fun p => gpuPairSq conv rd z1 z2 p ≤ 1).map fun p => (⟨f p, p.1, p.2⟩ : Triplet ℝ)).filter
        (fun t => t.val ≠ 0) = ((P.filter fun p => gpuPairSq conv rd z1 z2 p ≤ 1).filter fun p => f p ≠ 0).map
          fun p => (⟨f p, p.1, p.2⟩ : Triplet ℝ) := by
      rw [List.filter_map]
      rfl
    rw [hm]
    set L := (P.filter fun p => gpuPairSq conv rd z1 z2 p ≤ 1).filter fun p => f p ≠ 0 with hL
    have hLn : L.Nodup := ((nodup_neighbourPairs (hq.nodup z1 z2)).filter _).filter _
    have hLm : ∀ i j, (i, j) ∈ L ↔ (∃ x y, x1[i]? = some x ∧ x2[j]? = some y ∧ anisoDistance x y s ≤ 1) ∧
        gpuPairSq conv rd z1 z2 (i, j) ≤ 1 ∧ f (i, j) ≠ 0 := by
      intro i j
      rw [hL, List.mem_filter, List.mem_filter, hmemP]
      simp only [decide_eq_true_eq, and_assoc]
    refine ⟨?_, fun i j => ?_⟩
    · intro t ht
      obtain ⟨⟨i, j⟩, hp, rfl⟩ := List.mem_map.1 ht
      obtain ⟨⟨x, y, hx, hy, -⟩, -⟩ := (hLm i j).1 hp
      exact ⟨(List.getElem?_eq_some_iff.1 hx).1, (List.getElem?_eq_some_iff.1 hy).1⟩
    · simp only [Block.at]
      rw [tripletsAt_of_pairs hLn f]
      by_cases hp : (i, j) ∈ L
      · rw [if_pos hp]
        obtain ⟨⟨x, y, hx, hy, hd⟩, hle, -⟩ := (hLm i j).1 hp
        rw [hf]
        simp only
        rw [hval i j x y hx hy hd hle]
        simp [kAt, hx, hy]
      · rw [if_neg hp]
        unfold kAt
        cases h1 : x1[i]? with
        | none => rfl
        | some x =>
          cases h2 : x2[j]? with
          | none => rfl
          | some y =>
            simp only
            by_cases hc : anisoDistance x y s ≤ 1 ∧ gpuPairSq conv rd z1 z2 (i, j) ≤ 1
            · have h0 : f (i, j) = 0 := by
                by_contra hne
                exact hp ((hLm i j).2 ⟨⟨x, y, h1, h2, hc.1⟩, hc.2, hne⟩)
              rw [← hval i j x y h1 h2 hc.1 hc.2]
              exact h0.symm
            · unfold gpuSparseAt
              rw [hsq i j x y h1 h2] at hc
              exact (if_neg hc).symm

/-- C134: the sparse GPU kernel is symmetric for every conversion that treats both signs alike. -/
theorem C134_sparse_symmetric (conv rd : ℝ → ℝ) (hodd : ∀ r, conv (-r) = -conv r) (a : ℝ) (s x y : Fin D → ℝ) :
    gpuSparseAt conv rd a s x y = gpuSparseAt conv rd a s y x := by
  have h1 : gpuPairSq conv rd [whiten s x] [whiten s y] (0, 0) = gpuPairSq conv rd [whiten s y] [whiten s x] (0, 0) := by
    unfold gpuPairSq
    congr 1
    funext d i
    simp only [List.getD_cons_zero]
    rw [show whiten s y i - whiten s x i = -(whiten s x i - whiten s y i) by ring, hodd, neg_mul_neg]
  have h2 : anisoDistance x y s = anisoDistance y x s := by
    rw [← whiten_distance, ← whiten_distance, distance_comm]
  unfold gpuSparseAt
  rw [h1, h2]

/-! ### Error bounds -/

/-- The derivative of the Wendland polynomial is at most 13 in absolute value on the unit interval. -/
theorem wendlandPoly_lipschitz {d e : ℝ} (hd : d ∈ Set.Icc (0 : ℝ) 1) (he : e ∈ Set.Icc (0 : ℝ) 1) :
    |wendlandPoly d - wendlandPoly e| ≤ 13 * |d - e| := by
  have hder : ∀ x ∈ Set.Icc (0 : ℝ) 1, HasDerivWithinAt wendlandPoly (-(22 * x * (1 - x) ^ 7 * (16 * x ^ 2 + 7 * x + 1)))
      (Set.Icc 0 1) x := by
    intro x _
    refine HasDerivAt.hasDerivWithinAt ?_
    unfold wendlandPoly
    have h1 : HasDerivAt (fun x : ℝ => 1 - x) (-1) x := by simpa using (hasDerivAt_id x).const_sub 1
    have h8 := h1.pow 8
    have hq : HasDerivAt (fun x : ℝ => 32 * x ^ 3 + 25 * x ^ 2 + 8 * x + 1) (32 * (3 * x ^ 2) + 25 * (2 * x) + 8) x := by
      have a3 := ((hasDerivAt_pow 3 x).const_mul 32)
      have a2 := ((hasDerivAt_pow 2 x).const_mul 25)
      have a1 := ((hasDerivAt_id x).const_mul 8)
      have h := ((a3.add a2).add a1).add_const 1
      refine HasDerivAt.congr_deriv (f := fun x : ℝ => 32 * x ^ 3 + 25 * x ^ 2 + 8 * x + 1) h ?_
      norm_num
    have h := h8.mul hq
    refine HasDerivAt.congr_deriv (f := fun x : ℝ => (1 - x) ^ 8 * (32 * x ^ 3 + 25 * x ^ 2 + 8 * x + 1)) h ?_
    norm_num
    ring
  have hbound : ∀ x ∈ Set.Icc (0 : ℝ) 1, ‖-(22 * x * (1 - x) ^ 7 * (16 * x ^ 2 + 7 * x + 1))‖ ≤ 13 := by
    intro x ⟨h0, h1⟩
    have hu : 0 ≤ 1 - x := by linarith
    rw [norm_neg, Real.norm_eq_abs, abs_of_nonneg (by positivity)]
    have e1 : x * (1 - x) ≤ 1 / 4 := by nlinarith [sq_nonneg (x - 1 / 2)]
    have p1 : ∀ n : ℕ, (1 - x) ^ n ≤ 1 := fun n => pow_le_one₀ hu (by linarith)
    have e2 : 16 * x ^ 2 * (1 - x) ^ 6 ≤ 1 := by
      have : 16 * x ^ 2 * (1 - x) ^ 6 = 16 * (x * (1 - x)) ^ 2 * (1 - x) ^ 4 := by ring
      rw [this]
      have hx0 : 0 ≤ x * (1 - x) := mul_nonneg h0 hu
      have : (x * (1 - x)) ^ 2 ≤ 1 / 16 := by nlinarith
      have h4 := p1 4
      have h4' : 0 ≤ (1 - x) ^ 4 := by positivity
      nlinarith
    have e3 : (6 * x + 1) * (1 - x) ^ 6 ≤ 1 := by
      have hb : 1 + 6 * x ≤ (1 + x) ^ 6 := by
        have := one_add_mul_le_pow (a := x) (by linarith) 6
        simpa using this
      have : (1 + x) ^ 6 * (1 - x) ^ 6 ≤ 1 := by
        rw [← mul_pow]
        exact pow_le_one₀ (by nlinarith) (by nlinarith)
      have h6 : 0 ≤ (1 - x) ^ 6 := by positivity
      nlinarith
    have e4 : x * (1 - x) ^ 6 ≤ 1 / 4 := by
      have : x * (1 - x) ^ 6 = x * (1 - x) * (1 - x) ^ 5 := by ring
      rw [this]
      have h5 := p1 5
      have h5' : 0 ≤ (1 - x) ^ 5 := by positivity
      have hx0 : 0 ≤ x * (1 - x) := mul_nonneg h0 hu
      nlinarith
    have key : 22 * x * (1 - x) ^ 7 * (16 * x ^ 2 + 7 * x + 1)
        = 22 * (x * (1 - x)) * (16 * x ^ 2 * (1 - x) ^ 6 + (6 * x + 1) * (1 - x) ^ 6 + x * (1 - x) ^ 6) := by ring
    rw [key]
    have hx0 : 0 ≤ x * (1 - x) := mul_nonneg h0 hu
    nlinarith
  have := (convex_Icc (0 : ℝ) 1).norm_image_sub_le_of_norm_hasDerivWithin_le hder hbound he hd
  simpa [Real.norm_eq_abs] using this

theorem norm_diff (v w : Fin D → ℝ) : |√(∑ i, v i ^ 2) - √(∑ i, w i ^ 2)| ≤ √(∑ i, (v i - w i) ^ 2) := by
  have h := abs_norm_sub_norm_le (WithLp.toLp 2 v : EuclideanSpace ℝ (Fin D)) (WithLp.toLp 2 w)
  rw [EuclideanSpace.norm_eq, EuclideanSpace.norm_eq, EuclideanSpace.norm_eq] at h
  simpa [Real.norm_eq_abs, sq_abs] using h

/-- Values of the clamped polynomial at two vectors of whitened differences. -/
theorem poly_diff (a : ℝ) (v w : Fin D → ℝ) (e : ℝ) (h : √(∑ i, (v i - w i) ^ 2) ≤ e) :
    |amplitudePoly (min √(∑ i, v i ^ 2) 1) a - amplitudePoly (min √(∑ i, w i ^ 2) 1) a| ≤ 13 * |a| * e := by
  rw [amplitudePoly_eq, amplitudePoly_eq, ← mul_sub, abs_mul]
  have h1 := wendlandPoly_lipschitz (d := min √(∑ i, v i ^ 2) 1) (e := min √(∑ i, w i ^ 2) 1)
    ⟨le_min (sqrt_nonneg _) zero_le_one, min_le_right _ _⟩ ⟨le_min (sqrt_nonneg _) zero_le_one, min_le_right _ _⟩
  have h2 : |min √(∑ i, v i ^ 2) 1 - min √(∑ i, w i ^ 2) 1| ≤ e := by
    refine (abs_min_sub_min_le_max _ _ _ _).trans ?_
    rw [sub_self, abs_zero]
    exact max_le ((norm_diff v w).trans h) ((sqrt_nonneg _).trans h)
  have := mul_le_mul_of_nonneg_left (h1.trans (mul_le_mul_of_nonneg_left h2 (by norm_num))) (abs_nonneg a)
  linarith

theorem wendlandAniso_eq (a : ℝ) (s x y : Fin D → ℝ) :
    wendlandAniso x y a s = amplitudePoly (min √(∑ i, ((x i - y i) / s i) ^ 2) 1) a := by
  rw [amplitudePoly_eq, wendlandAniso, wendland, anisoDistance]
  simp only [sq_abs]
  split_ifs with h
  · rw [min_eq_right h.lt.le]
  · rw [min_eq_left (not_lt.1 h)]

/-- C134 (partial): the dense GPU kernel converts the coordinates before it subtracts them. With relative conversion error
`u` (for `float32` about 6e-8) the error of an entry is at most `13 a u` times the distance of the points from the
origin in length scales: it is small only if the coordinates are. The rounding of the arithmetic itself and of the
hyperparameters is left out. -/
theorem C134_dense_error_partial (conv : ℝ → ℝ) (u : ℝ) (hu : ∀ r, |conv r - r| ≤ u * |r|) (a : ℝ) (s x y : Fin D → ℝ)
    (ha : conv a = a) (hs : ∀ i, conv (s i) = s i) :
    |gpuEntry conv id a s x y - wendlandAniso x y a s| ≤ 13 * |a| * √(∑ i, (u * ((|x i| + |y i|) / |s i|)) ^ 2) := by
  unfold gpuEntry
  rw [gpuPoly_id, ha, wendlandAniso_eq, gpuSq_conv]
  simp only [hs, id]
  refine poly_diff a (fun i => (conv (x i) - conv (y i)) / s i) (fun i => (x i - y i) / s i) _ ?_
  refine sqrt_le_sqrt (sum_le_sum fun i _ => ?_)
  rw [← sq_abs]
  refine pow_le_pow_left₀ (abs_nonneg _) ?_ 2
  rw [← sub_div, abs_div, ← mul_div_assoc]
  refine div_le_div_of_nonneg_right ?_ (abs_nonneg _)
  have e : conv (x i) - conv (y i) - (x i - y i) = (conv (x i) - x i) - (conv (y i) - y i) := by ring
  rw [e, mul_add]
  exact (abs_sub _ _).trans (add_le_add (hu _) (hu _))

/-- C134 (partial): the sparse GPU kernel converts the differences of coordinates. The error of an entry is at most
`13 a u`, wherever the points lie. The rounding of the arithmetic itself is left out. -/
theorem C134_sparse_error_partial (conv : ℝ → ℝ) (u : ℝ) (hu0 : 0 ≤ u) (hu : ∀ r, |conv r - r| ≤ u * |r|) (a : ℝ) (s x y : Fin D → ℝ) :
    |gpuSparseAt conv id a s x y - wendlandAniso x y a s| ≤ 13 * |a| * u := by
  have hsq : gpuPairSq conv id [whiten s x] [whiten s y] (0, 0) = ∑ i, conv ((y i - x i) / s i) ^ 2 := by
    rw [gpuPairSq_conv]
    refine sum_congr rfl fun i _ => ?_
    simp only [List.getD_cons_zero, whiten, sub_div]
  have hd : anisoDistance x y s = √(∑ i, ((y i - x i) / s i) ^ 2) := by
    rw [← whiten_distance, distance_comm, distance]
    simp only [whiten, sub_div]
  have hw : wendlandAniso x y a s = amplitudePoly (min √(∑ i, ((y i - x i) / s i) ^ 2) 1) a := by
    rw [wendlandAniso_comm, wendlandAniso_eq]
  unfold gpuSparseAt
  rw [hsq, hd, hw]
  have hnn : 0 ≤ 13 * |a| * u := by positivity
  by_cases h1 : √(∑ i, ((y i - x i) / s i) ^ 2) ≤ 1
  · have hdiff : √(∑ i, (conv ((y i - x i) / s i) - (y i - x i) / s i) ^ 2) ≤ u := by
      have : ∑ i, (conv ((y i - x i) / s i) - (y i - x i) / s i) ^ 2 ≤ u ^ 2 * ∑ i, ((y i - x i) / s i) ^ 2 := by
        rw [mul_sum]
        refine sum_le_sum fun i _ => ?_
        rw [← sq_abs, ← mul_pow, ← sq_abs (u * _), abs_mul, abs_of_nonneg hu0]
        exact pow_le_pow_left₀ (abs_nonneg _) (hu _) 2
      refine (sqrt_le_sqrt this).trans ?_
      rw [sqrt_mul (sq_nonneg u), sqrt_sq hu0]
      exact mul_le_of_le_one_right hu0 h1
    have hpd := poly_diff a (fun i => conv ((y i - x i) / s i)) (fun i => (y i - x i) / s i) u hdiff
    by_cases h2 : ∑ i, conv ((y i - x i) / s i) ^ 2 ≤ 1
    · simp only [h1, h2, and_self, if_true, gpuPoly_id, id]
      have : √(min (∑ i, conv ((y i - x i) / s i) ^ 2) 1) = min √(∑ i, conv ((y i - x i) / s i) ^ 2) 1 := by
        rw [min_eq_left h2, min_eq_left (sqrt_le_one.2 h2)]
      rw [this]
      exact hpd
    · have hge : 1 ≤ √(∑ i, conv ((y i - x i) / s i) ^ 2) := one_le_sqrt.2 (not_le.1 h2).le
      have h0 : amplitudePoly (min √(∑ i, conv ((y i - x i) / s i) ^ 2) 1) a = 0 := by
        rw [min_eq_right hge]; simp [amplitudePoly]
      simp only [h2, and_false, if_false]
      rw [← h0]
      exact hpd
  · have h0 : amplitudePoly (min √(∑ i, ((y i - x i) / s i) ^ 2) 1) a = 0 := by
      rw [min_eq_right (not_le.1 h1).le]; simp [amplitudePoly]
    simp only [h1, false_and, if_false]
    rw [h0]
    simpa using hnn

/-! ### Points that single precision cannot tell apart -/

/-- Any two points with the same coordinates after conversion have the same rows in the dense GPU covariance matrix. -/
theorem gpuEntry_collapse (conv rd : ℝ → ℝ) (a : ℝ) (s x y : Fin D → ℝ) (h : ∀ i, conv (x i) = conv (y i)) (z : Fin D → ℝ) :
    gpuEntry conv rd a s x z = gpuEntry conv rd a s y z := by
  unfold gpuEntry gpuSq
  simp only [h]

theorem single_zero : single 0 = 0 := by simp [single, Verif.GP.Dtype.store]

theorem single_pow (k : ℕ) : single ((2 : ℝ) ^ k) = 2 ^ k := by
  have h0 : ((2 : ℝ) ^ k) ≠ 0 := by positivity
  have hl : Int.log 2 |(2 : ℝ) ^ k| = k := by
    rw [abs_of_pos (by positivity)]
    have := Int.log_zpow (R := ℝ) (b := 2) (by norm_num) k
    simpa using this
  unfold single Verif.GP.Dtype.store
  simp only [if_neg h0]
  rw [hl]
  have e : (2 : ℝ) ^ k * (2 : ℝ) ^ (23 - (k : ℤ)) = ((2 ^ 23 : ℤ) : ℝ) := by
    rw [← zpow_natCast, ← zpow_add₀ (by norm_num)]
    rw [show (k : ℤ) + (23 - k) = (23 : ℕ) by push_cast; ring, zpow_natCast]
    norm_num
  rw [e, round_intCast]
  have : (((2 : ℤ) ^ 23 : ℤ) : ℝ) = (2 : ℝ) ^ (23 : ℤ) := by norm_num
  rw [this, ← zpow_add₀ (by norm_num), ← zpow_natCast]
  congr 1
  ring

theorem single_one : single 1 = 1 := by simpa using single_pow 0

/-- A coordinate of the size of a time stamp in seconds: 2^30 and 2^30 + 1 are the same number in single precision. -/
theorem single_timestamp : single ((2 : ℝ) ^ 30 + 1) = 2 ^ 30 := by
  have h0 : ((2 : ℝ) ^ 30 + 1) ≠ 0 := by positivity
  have hl : Int.log 2 |(2 : ℝ) ^ 30 + 1| = 30 := by
    rw [abs_of_pos (by positivity)]
    have hpos : (0 : ℝ) < 2 ^ 30 + 1 := by positivity
    refine le_antisymm ?_ ?_
    · have : Int.log 2 ((2 : ℝ) ^ 30 + 1) < 31 := by
        rw [← Int.lt_zpow_iff_log_lt (by norm_num) hpos]
        norm_num
      omega
    · rw [← Int.zpow_le_iff_le_log (by norm_num) hpos]
      norm_num
  unfold single Verif.GP.Dtype.store
  simp only [if_neg h0]
  rw [hl]
  have hr : round (((2 : ℝ) ^ 30 + 1) * (2 : ℝ) ^ (23 - (30 : ℤ))) = (2 : ℤ) ^ 23 := by
    rw [round_eq, Int.floor_eq_iff]
    norm_num
  rw [hr]
  norm_num

/-- C134 is violated by the dense GPU kernel for coordinates that are large compared to the length scale: the two points
`2^30` and `2^30 + 1` (time stamps one second apart) with length scale `1/2` are independent for the Wendland kernel,
and for the sparse GPU kernel, but have covariance equal to the variance on the GPU, so that the covariance matrix is
singular. Every rounding of arithmetic is included. -/
theorem C134_large_coordinates_violated :
    let x : Fin 1 → ℝ := fun _ => 2 ^ 30
    let y : Fin 1 → ℝ := fun _ => 2 ^ 30 + 1
    let s : Fin 1 → ℝ := fun _ => 1 / 2
    wendlandDense 1 s [x, y] [x, y] = .ok (.dense [[1, 0], [0, 1]]) ∧
    wendlandGpu true single single 1 s [x, y] [x, y] = .ok (.dense [[1, 1], [1, 1]]) ∧
    gpuSparseAt single single 1 s x y = 0 := by
  intro x y s
  refine ⟨?_, ?_, ?_⟩
  · have hxy : √(∑ i, ((x i - y i) / s i) ^ 2) = 2 := by
      simp only [x, y, s, univ_unique, sum_const, card_singleton, one_smul]
      rw [show ((2 : ℝ) ^ 30 - (2 ^ 30 + 1)) / (1 / 2) = -2 by norm_num, neg_sq, sqrt_sq (by norm_num)]
    have hyx : √(∑ i, ((y i - x i) / s i) ^ 2) = 2 := by
      simp only [x, y, s, univ_unique, sum_const, card_singleton, one_smul]
      rw [show ((2 : ℝ) ^ 30 + 1 - 2 ^ 30) / (1 / 2) = 2 by norm_num, sqrt_sq (by norm_num)]
    have h0 : ∀ z : Fin 1 → ℝ, √(∑ i, ((z i - z i) / s i) ^ 2) = 0 := by intro z; simp
    unfold wendlandDense
    rw [if_neg (by simp)]
    simp only [List.map_cons, List.map_nil, h0, hxy, hyx]
    norm_num [amplitudePoly]
  · have hc : ∀ i, single (x i) = single (y i) := by
      intro i
      simp only [x, y, single_timestamp, single_pow]
    have hxx : gpuEntry single single 1 s x x = 1 := by
      unfold gpuEntry gpuSq
      simp only [sub_self, single_zero, zero_div, ne_eq, OfNat.ofNat_ne_zero, not_false_eq_true, zero_pow, add_zero]
      have : (List.finRange 1).foldl (fun (d : ℝ) (_ : Fin 1) => single d) 0 = 0 := by
        simp [List.finRange_succ, single_zero]
      rw [this]
      simp [gpuPoly, single_zero, single_one]
    have hyx : gpuEntry single single 1 s y x = 1 := by
      rw [← gpuEntry_collapse single single 1 s x y hc x]; exact hxx
    have hxy : gpuEntry single single 1 s x y = 1 := by
      unfold gpuEntry gpuSq at hxx ⊢
      simp only [hc] at hxx ⊢
      exact hxx
    have hyy : gpuEntry single single 1 s y y = 1 := by
      rw [← gpuEntry_collapse single single 1 s x y hc y]; exact hxy
    unfold wendlandGpu
    rw [if_pos rfl]
    simp only [List.map_cons, List.map_nil, hxx, hxy, hyx, hyy]
  · unfold gpuSparseAt
    refine if_neg fun h => absurd h.1 (not_le.2 ?_)
    rw [← whiten_distance, distance]
    simp only [whiten, x, y, s, univ_unique, sum_const, card_singleton, one_smul]
    rw [show (2 : ℝ) ^ 30 / (1 / 2) - (2 ^ 30 + 1) / (1 / 2) = -2 by norm_num, neg_sq, sqrt_sq (by norm_num)]
    norm_num

/-! ### Instances -/

/-- Single precision has a relative error of at most `2^-24`. -/
theorem single_error (r : ℝ) : |single r - r| ≤ 2⁻¹ ^ 24 * |r| := by
  unfold single Verif.GP.Dtype.store
  by_cases h0 : r = 0
  · simp [h0]
  · simp only [h0, if_false]
    set l := Int.log 2 |r| with hl
    have hle : (2 : ℝ) ^ l ≤ |r| := Int.zpow_log_le_self (by norm_num) (abs_pos.2 h0)
    have hr : r = r * (2 : ℝ) ^ (23 - l) * (2 : ℝ) ^ (l - 23) := by
      rw [mul_assoc, ← zpow_add₀ (by norm_num)]
      simp
    conv_lhs => rw [show (round (r * (2 : ℝ) ^ (23 - l)) : ℝ) * (2 : ℝ) ^ (l - 23) - r
      = -((r * (2 : ℝ) ^ (23 - l) - round (r * (2 : ℝ) ^ (23 - l))) * (2 : ℝ) ^ (l - 23)) by
        rw [sub_mul, ← hr]; ring]
    rw [abs_neg, abs_mul, abs_of_pos (show (0 : ℝ) < 2 ^ (l - 23) by positivity)]
    have h1 := abs_sub_round (r * (2 : ℝ) ^ (23 - l))
    have h2 : (2 : ℝ) ^ (l - 23) = 2⁻¹ ^ 23 * 2 ^ l := by
      rw [zpow_sub₀ (by norm_num)]
      norm_num
      ring
    have h3 : (0 : ℝ) < 2 ^ l := by positivity
    calc |r * (2 : ℝ) ^ (23 - l) - round (r * (2 : ℝ) ^ (23 - l))| * 2 ^ (l - 23) ≤ 1 / 2 * 2 ^ (l - 23) := by gcongr
      _ = 2⁻¹ ^ 24 * 2 ^ l := by rw [h2]; ring
      _ ≤ 2⁻¹ ^ 24 * |r| := by gcongr

/-- Entries of the sparse GPU kernel are off by less than a millionth of the variance. -/
example (a : ℝ) (s x y : Fin D → ℝ) : |gpuSparseAt single id a s x y - wendlandAniso x y a s| ≤ 13 * |a| * 2⁻¹ ^ 24 :=
  C134_sparse_error_partial single _ (by positivity) single_error a s x y

/-- Coordinates up to a thousand length scales `2`, three dimensions. -/
example (x y : Fin 3 → ℝ) (hx : ∀ i, |x i| ≤ 2000) (hy : ∀ i, |y i| ≤ 2000) :
    |gpuEntry single id 1 (fun _ => 2) x y - wendlandAniso x y 1 fun _ => 2| ≤ 13 * √(3 * (2⁻¹ ^ 24 * 2000) ^ 2) := by
  have h2 : single 2 = 2 := by simpa using single_pow 1
  refine (C134_dense_error_partial single _ single_error 1 (fun _ => 2) x y single_one (fun _ => h2)).trans ?_
  rw [abs_one, mul_one]
  gcongr
  calc ∑ i : Fin 3, ((2⁻¹ : ℝ) ^ 24 * ((|x i| + |y i|) / |(2 : ℝ)|)) ^ 2 ≤ ∑ _i : Fin 3, ((2⁻¹ : ℝ) ^ 24 * 2000) ^ 2 := by
        refine sum_le_sum fun i _ => ?_
        have := hx i
        have := hy i
        gcongr
        rw [abs_of_pos (by norm_num : (0 : ℝ) < 2), div_le_iff₀ (by norm_num)]
        linarith
    _ = _ := by rw [sum_const, card_univ, Fintype.card_fin, nsmul_eq_mul]; norm_num

example : gpuSparseAt (fun r : ℝ => r * (1 + 1e-7)) id 2 (fun _ : Fin 2 => 3) (fun _ => 5) (fun _ => 4)
    = gpuSparseAt (fun r : ℝ => r * (1 + 1e-7)) id 2 (fun _ : Fin 2 => 3) (fun _ => 4) (fun _ => 5) :=
  C134_sparse_symmetric _ _ (fun r => by ring) _ _ _ _

example : gpuEntry single (fun r : ℝ => r * (1 + 1e-7)) 2 (fun _ : Fin 2 => 3) (fun _ => 5) (fun _ => 4)
    = gpuEntry single (fun r : ℝ => r * (1 + 1e-7)) 2 (fun _ : Fin 2 => 3) (fun _ => 4) (fun _ => 5) :=
  C134_dense_symmetric _ _ (fun r => by ring) _ _ _ _

example : PointwiseKernel (wendlandGpuSparse (bruteQuery 2) true single single 2 fun _ => 3) (gpuSparseAt single single 2 fun _ => 3) :=
  C134_sparse_pointwise _ bruteQuery_contract _ _ _ _

end Verif.Kernels
