import Verif.Kernels.SparseModel
import Verif.Kernels.PsdProps
import Verif.Gp2Scale.Props

/-!
C63: the support-aware sparse Wendland kernel is the dense one.
-/

namespace Verif.Kernels

open Verif.Gp2Scale Finset Real

variable {D : ℕ}

/-- What `query_ball_tree` returns: per point of the first set, the indices of the points of the second set within
distance 1, each once, in any order (external contract). -/
structure QueryContract (q : Query D) : Prop where
  length : ∀ z1 z2, (q z1 z2).length = z1.length
  nodup : ∀ z1 z2, ∀ l ∈ q z1 z2, l.Nodup
  mem : ∀ z1 z2 (i : ℕ) (l : List ℕ) (z : Fin D → ℝ), (q z1 z2)[i]? = some l → z1[i]? = some z →
    ∀ j, j ∈ l ↔ ∃ z', z2[j]? = some z' ∧ distance z z' ≤ 1

theorem amplitudePoly_eq (d a : ℝ) : amplitudePoly d a = a * wendlandPoly d := by
  unfold amplitudePoly wendlandPoly; ring

theorem foldl_min_le (l : List ℝ) : ∀ a, l.foldl min a ≤ a ∧ ∀ b ∈ l, l.foldl min a ≤ b := by
  induction l with
  | nil => intro a; simp
  | cons c l ih =>
    intro a
    obtain ⟨h1, h2⟩ := ih (min a c)
    refine ⟨h1.trans (min_le_left _ _), fun b hb => ?_⟩
    rcases List.mem_cons.1 hb with rfl | hb
    · exact h1.trans (min_le_right _ _)
    · exact h2 b hb

theorem le_foldl_max (l : List ℝ) : ∀ a, a ≤ l.foldl max a ∧ ∀ b ∈ l, b ≤ l.foldl max a := by
  induction l with
  | nil => intro a; simp
  | cons c l ih =>
    intro a
    obtain ⟨h1, h2⟩ := ih (max a c)
    refine ⟨(le_max_left _ _).trans h1, fun b hb => ?_⟩
    rcases List.mem_cons.1 hb with rfl | hb
    · exact (le_max_right _ _).trans h1
    · exact h2 b hb

theorem listMin_le {l : List ℝ} {b : ℝ} (hb : b ∈ l) : listMin l ≤ b := by
  cases l with
  | nil => cases hb
  | cons a l =>
    obtain ⟨h1, h2⟩ := foldl_min_le l a
    rcases List.mem_cons.1 hb with rfl | hb
    · exact h1
    · exact h2 b hb

theorem le_listMax {l : List ℝ} {b : ℝ} (hb : b ∈ l) : b ≤ listMax l := by
  cases l with
  | nil => cases hb
  | cons a l =>
    obtain ⟨h1, h2⟩ := le_foldl_max l a
    rcases List.mem_cons.1 hb with rfl | hb
    · exact h1
    · exact h2 b hb

/-- The block distance bounds every pair distance from below. -/
theorem blockDistance_le {z1 z2 : List (Fin D → ℝ)} {u v : Fin D → ℝ} (hu : u ∈ z1) (hv : v ∈ z2) :
    blockDistance z1 z2 ≤ distance u v := by
  unfold blockDistance distance
  apply sqrt_le_sqrt
  refine sum_le_sum fun i _ => ?_
  have h1 : listMin (z1.map fun z => z i) ≤ u i := listMin_le (List.mem_map.2 ⟨u, hu, rfl⟩)
  have h2 : listMin (z2.map fun z => z i) ≤ v i := listMin_le (List.mem_map.2 ⟨v, hv, rfl⟩)
  have h3 : u i ≤ listMax (z1.map fun z => z i) := le_listMax (List.mem_map.2 ⟨u, hu, rfl⟩)
  have h4 : v i ≤ listMax (z2.map fun z => z i) := le_listMax (List.mem_map.2 ⟨v, hv, rfl⟩)
  rw [← sq_abs (u i - v i)]
  apply pow_le_pow_left₀ (le_max_left _ _)
  refine max_le (abs_nonneg _) (max_le ?_ ?_)
  · exact le_trans (by linarith) (le_abs_self _)
  · exact le_trans (by linarith) (neg_le_abs _)

theorem mem_neighbourPairs {nl : List (List ℕ)} {i j : ℕ} :
    (i, j) ∈ neighbourPairs nl ↔ ∃ l, nl[i]? = some l ∧ j ∈ l := by
  unfold neighbourPairs
  simp only [List.mem_flatten, List.mem_mapIdx]
  constructor
  · rintro ⟨L, ⟨r, hr, rfl⟩, hm⟩
    obtain ⟨c, hc, hrc⟩ := List.mem_map.1 hm
    simp only [Prod.mk.injEq] at hrc
    obtain ⟨rfl, rfl⟩ := hrc
    exact ⟨nl[r], by simp [hr], hc⟩
  · rintro ⟨l, hl, hj⟩
    obtain ⟨hi, rfl⟩ := List.getElem?_eq_some_iff.1 hl
    exact ⟨nl[i].map fun c => (i, c), ⟨i, hi, rfl⟩, List.mem_map.2 ⟨j, hj, rfl⟩⟩

theorem nodup_neighbourPairs {nl : List (List ℕ)} (h : ∀ l ∈ nl, l.Nodup) : (neighbourPairs nl).Nodup := by
  unfold neighbourPairs
  rw [List.nodup_flatten]
  refine ⟨?_, ?_⟩
  · intro L hL
    obtain ⟨r, hr, rfl⟩ := List.mem_mapIdx.1 hL
    exact (h _ (List.getElem_mem hr)).map fun a b hab => (Prod.mk.inj hab).2
  · rw [List.pairwise_iff_getElem]
    intro a b ha hb hab p hp hq
    simp only [List.getElem_mapIdx, List.mem_map] at hp hq
    obtain ⟨c, -, rfl⟩ := hp
    obtain ⟨c', -, h'⟩ := hq
    simp only [Prod.mk.injEq] at h'
    omega

theorem tripletsAt_of_pairs {L : List (ℕ × ℕ)} (hL : L.Nodup) (f : ℕ × ℕ → ℝ) (i j : ℕ) :
    tripletsAt (L.map fun p => (⟨f p, p.1, p.2⟩ : Triplet ℝ)) i j = if (i, j) ∈ L then f (i, j) else 0 := by
  induction L with
  | nil => simp
  | cons p L ih =>
    rw [List.nodup_cons] at hL
    rw [List.map_cons, tripletsAt_cons, ih hL.2]
    by_cases h : p = (i, j)
    · subst h
      simp [hL.1]
    · have h1 : ¬ (p.1 = i ∧ p.2 = j) := fun ⟨a, b⟩ => h (Prod.ext a b)
      have h2 : (i, j) ∈ p :: L ↔ (i, j) ∈ L := by
        rw [List.mem_cons]; exact ⟨fun h' => h'.resolve_left fun e => h e.symm, Or.inr⟩
      simp only [h1, if_false, zero_add, h2]

theorem distance_comm (x y : Fin D → ℝ) : distance x y = distance y x := by
  unfold distance
  congr 1
  exact sum_congr rfl fun i _ => by ring

theorem whiten_distance (s x y : Fin D → ℝ) : distance (whiten s x) (whiten s y) = anisoDistance x y s :=
  (anisoDistance_eq x y s).symm

theorem wendlandAniso_far (a : ℝ) (s x y : Fin D → ℝ) (h : 1 ≤ anisoDistance x y s) : wendlandAniso x y a s = 0 := by
  rw [wendlandAniso, C64_wendland.support _ h, mul_zero]

theorem distance_nonneg' (x y : Fin D → ℝ) : 0 ≤ distance x y := sqrt_nonneg _

/-- The dense kernel evaluates `wendlandAniso` point by point. -/
theorem wendlandDense_pointwise (a : ℝ) (s : Fin D → ℝ) : PointwiseKernel (wendlandDense a s) fun x y => wendlandAniso x y a s := by
  intro xs ys blk h
  unfold wendlandDense at h
  split_ifs at h with h0
  obtain rfl := Except.ok.inj h
  refine ⟨⟨by simp, ?_⟩, fun i j => ?_⟩
  · intro r hr
    obtain ⟨x, -, rfl⟩ := List.mem_map.1 hr
    simp
  · have hv : ∀ x y : Fin D → ℝ, amplitudePoly (if √(∑ i, ((x i - y i) / s i) ^ 2) > 1 then 1 else
        √(∑ i, ((x i - y i) / s i) ^ 2)) a = wendlandAniso x y a s := by
      intro x y
      rw [amplitudePoly_eq, wendlandAniso, wendland, anisoDistance]
      simp only [sq_abs]
    simp only [hv, Block.at, kAt, List.getElem?_map]
    cases xs[i]? with
    | none => rfl
    | some x =>
      simp only [Option.map_some, Option.bind_some, List.getElem?_map]
      cases ys[j]? <;> rfl

/-- Which pairs are kept and their values. -/
theorem supportTriplets_spec (q : Query D) (hq : QueryContract q) (a : ℝ) (s : Fin D → ℝ) (x1 x2 : List (Fin D → ℝ)) :
    ∃ L : List (ℕ × ℕ), L.Nodup ∧ supportTriplets q a s x1 x2 =
        L.map (fun p => (⟨wendlandAniso (x1.getD p.1 0) (x2.getD p.2 0) a s, p.1, p.2⟩ : Triplet ℝ)) ∧
      ∀ i j, (i, j) ∈ L ↔ kAt (fun x y => wendlandAniso x y a s) x1 x2 i j ≠ 0 := by
  unfold supportTriplets
  by_cases he : x1.length = 0 ∨ x2.length = 0
  · rw [if_pos he]
    refine ⟨[], List.nodup_nil, rfl, fun i j => ?_⟩
    rcases he with h | h
    · rw [List.length_eq_zero_iff] at h
      subst h
      simp [kAt]
    · rw [List.length_eq_zero_iff] at h
      subst h
      unfold kAt
      cases x1[i]? <;> simp
  rw [if_neg he]
  simp only
  split_ifs with hb
  · refine ⟨[], List.nodup_nil, rfl, fun i j => ?_⟩
    simp only [List.not_mem_nil, false_iff, not_not]
    unfold kAt
    cases h1 : x1[i]? with
    | none => rfl
    | some x =>
      cases h2 : x2[j]? with
      | none => rfl
      | some y =>
        apply wendlandAniso_far
        rw [← whiten_distance]
        exact hb.lt.le.trans (blockDistance_le (List.mem_map.2 ⟨x, List.mem_of_getElem? h1, rfl⟩)
          (List.mem_map.2 ⟨y, List.mem_of_getElem? h2, rfl⟩))
  · set z1 := x1.map (whiten s) with hz1
    set z2 := x2.map (whiten s) with hz2
    set P := neighbourPairs (q z1 z2) with hP
    have hmemP : ∀ i j, (i, j) ∈ P ↔ ∃ x y, x1[i]? = some x ∧ x2[j]? = some y ∧ anisoDistance x y s ≤ 1 := by
      intro i j
      rw [hP, mem_neighbourPairs]
      constructor
      · rintro ⟨l, hl, hj⟩
        have hi : i < x1.length := by
          have := (List.getElem?_eq_some_iff.1 hl).1
          rw [hq.length, hz1, List.length_map] at this
          exact this
        obtain ⟨z', h1, h2⟩ := (hq.mem z1 z2 i l (whiten s x1[i]) hl (by simp [hz1, hi]) j).1 hj
        rw [hz2, List.getElem?_map, Option.map_eq_some_iff] at h1
        obtain ⟨y, hy, rfl⟩ := h1
        exact ⟨x1[i], y, by simp [hi], hy, by rw [← whiten_distance]; exact h2⟩
      · rintro ⟨x, y, hx, hy, hd⟩
        have hi : i < (q z1 z2).length := by
          rw [hq.length, hz1, List.length_map]
          exact (List.getElem?_eq_some_iff.1 hx).1
        refine ⟨(q z1 z2)[i], by simp [hi], ?_⟩
        refine (hq.mem z1 z2 i _ (whiten s x) (by simp [hi]) (by simp [hz1, hx]) j).2 ⟨whiten s y, by simp [hz2, hy], ?_⟩
        rw [whiten_distance]; exact hd
    have hsq : ∀ i j x y, x1[i]? = some x → x2[j]? = some y → √(pairSq z1 z2 (i, j)) = anisoDistance x y s := by
      intro i j x y hx hy
      rw [← whiten_distance, distance_comm, distance]
      congr 1
      unfold pairSq
      refine sum_congr rfl fun k _ => ?_
      simp [hz1, hz2, List.getD_eq_getElem?_getD, hx, hy]
    have hval : ∀ p ∈ P, amplitudePoly (√(min (pairSq z1 z2 p) 1)) a = wendlandAniso (x1.getD p.1 0) (x2.getD p.2 0) a s ∧
        pairSq z1 z2 p ≤ 1 := by
      rintro ⟨i, j⟩ hp
      obtain ⟨x, y, hx, hy, hd⟩ := (hmemP i j).1 hp
      have hs := hsq i j x y hx hy
      have hle : pairSq z1 z2 (i, j) ≤ 1 := by
        rw [← hs] at hd
        simpa using (sqrt_le_iff.1 hd).2
      refine ⟨?_, hle⟩
      rw [min_eq_left hle, hs, amplitudePoly_eq, wendlandAniso, wendland]
      simp only [List.getD_eq_getElem?_getD, hx, hy, Option.getD_some]
      rw [if_neg (not_lt.2 hd)]
    have hfil : P.filter (fun p => pairSq z1 z2 p ≤ 1) = P := by
      rw [List.filter_eq_self]
      intro p hp
      simpa using (hval p hp).2
    rw [hfil]
    refine ⟨P.filter fun p => wendlandAniso (x1.getD p.1 0) (x2.getD p.2 0) a s ≠ 0,
      (nodup_neighbourPairs (hq.nodup z1 z2)).filter _, ?_, fun i j => ?_⟩
    · have hm : P.map (fun p => (⟨amplitudePoly (√(min (pairSq z1 z2 p) 1)) a, p.1, p.2⟩ : Triplet ℝ)) =
          P.map (fun p => (⟨wendlandAniso (x1.getD p.1 0) (x2.getD p.2 0) a s, p.1, p.2⟩ : Triplet ℝ)) := by
        refine List.map_congr_left fun p hp => ?_
        rw [(hval p hp).1]
      rw [hm, List.filter_map]
      rfl
    · rw [List.mem_filter, hmemP]
      unfold kAt
      cases h1 : x1[i]? with
      | none => simp
      | some x =>
        cases h2 : x2[j]? with
        | none => simp
        | some y =>
          simp only [Option.some.injEq, decide_eq_true_eq, List.getD_eq_getElem?_getD, h1, h2, Option.getD_some]
          constructor
          · exact fun h => h.2
          · intro h
            refine ⟨⟨x, y, rfl, rfl, ?_⟩, h⟩
            by_contra hcon
            exact h (wendlandAniso_far a s x y (not_le.1 hcon).le)

/-- C63: the sparse kernel evaluates `wendlandAniso` point by point: omitted pairs and pruned blocks have value zero. -/
theorem C63_sparse_pointwise (q : Query D) (hq : QueryContract q) (a : ℝ) (s : Fin D → ℝ) (_hs : ∀ i, s i ≠ 0) :
    PointwiseKernel (wendlandSparse q a s) fun x y => wendlandAniso x y a s := by
  intro xs ys blk h
  unfold wendlandSparse at h
  obtain rfl := Except.ok.inj h
  obtain ⟨L, hL, hv, hm⟩ := supportTriplets_spec q hq a s xs ys
  refine ⟨?_, fun i j => ?_⟩
  · intro t ht
    rw [hv] at ht
    obtain ⟨⟨i, j⟩, hp, rfl⟩ := List.mem_map.1 ht
    have := (hm i j).1 hp
    constructor
    · by_contra hcon
      exact this (kAt_of_le_left _ _ _ (not_lt.1 hcon))
    · by_contra hcon
      exact this (kAt_of_le_right _ _ _ (not_lt.1 hcon))
  · simp only [Block.at]
    rw [hv, tripletsAt_of_pairs hL (fun p => wendlandAniso (xs.getD p.1 0) (ys.getD p.2 0) a s)]
    by_cases h0 : kAt (fun x y => wendlandAniso x y a s) xs ys i j = 0
    · rw [if_neg (fun h => (hm i j).1 h h0), h0]
    · rw [if_pos ((hm i j).2 h0)]
      unfold kAt at h0 ⊢
      cases h1 : xs[i]? with
      | none => simp [h1] at h0
      | some x =>
        cases h2 : ys[j]? with
        | none => simp [h1, h2] at h0
        | some y => simp [List.getD_eq_getElem?_getD, h1, h2]

/-- C63: for nonempty point sets both kernels return, the two matrices are equal entry by entry, and the sparse one stores
exactly the nonzero entries, each once. Length scales may be of either sign, but not zero (division by zero is not
represented). -/
theorem C63_sparse_equals_dense (q : Query D) (hq : QueryContract q) (a : ℝ) (s : Fin D → ℝ) (hs : ∀ i, s i ≠ 0)
    (x1 x2 : List (Fin D → ℝ)) (h1 : x1 ≠ []) :
    ∃ B entries, wendlandDense a s x1 x2 = .ok B ∧ wendlandSparse q a s x1 x2 = .ok (.sparse entries) ∧
      (∀ i j, (Block.sparse entries).at i j = B.at i j) ∧
      (entries.map fun t => (t.row, t.col)).Nodup ∧
      ∀ i j, (∃ t ∈ entries, t.row = i ∧ t.col = j) ↔ B.at i j ≠ 0 := by
  have hB : ∃ B, wendlandDense a s x1 x2 = .ok B := by
    unfold wendlandDense
    rw [if_neg h1]
    exact ⟨_, rfl⟩
  obtain ⟨B, hB⟩ := hB
  have hd := (wendlandDense_pointwise a s x1 x2 B hB).2
  have hsp := (C63_sparse_pointwise q hq a s hs x1 x2 _ rfl).2
  obtain ⟨L, hL, hv, hm⟩ := supportTriplets_spec q hq a s x1 x2
  refine ⟨B, supportTriplets q a s x1 x2, hB, rfl, fun i j => by rw [hsp, hd], ?_, fun i j => ?_⟩
  · rw [hv, List.map_map]
    simpa [Function.comp_def] using hL
  · rw [hd, ← hm, hv]
    constructor
    · rintro ⟨t, ht, rfl, rfl⟩
      obtain ⟨p, hp, rfl⟩ := List.mem_map.1 ht
      exact hp
    · intro h
      exact ⟨_, List.mem_map.2 ⟨(i, j), h, rfl⟩, rfl, rfl⟩

/-- C63, no block: for an empty first point set the sparse kernel returns an empty block where the dense one raises. -/
theorem C63_empty (q : Query D) (a : ℝ) (s : Fin D → ℝ) (x2 : List (Fin D → ℝ)) :
    wendlandSparse q a s [] x2 = .ok (.sparse []) ∧ wendlandDense a s [] x2 = .error "IndexError" := by
  constructor
  · simp [wendlandSparse, supportTriplets]
  · simp [wendlandDense]

theorem wendlandAniso_comm (a : ℝ) (s x y : Fin D → ℝ) : wendlandAniso x y a s = wendlandAniso y x a s := by
  rw [wendlandAniso, wendlandAniso, ← whiten_distance, ← whiten_distance, distance_comm]

/-- C63 with C02: whatever the batch size and the order in which the blocks finish, a distributed covariance computed with
the sparse kernel is the matrix of the dense kernel. -/
theorem C63_distributed (q : Query D) (hq : QueryContract q) (a : ℝ) (s : Fin D → ℝ) (hs0 : ∀ i, s i ≠ 0)
    {sched : List (Future ℝ) → List (Future ℝ)} (hs : ∀ l, (sched l).Perm l) {cancel : ℕ → Option String} (key : ℕ)
    (x : List (Fin D → ℝ)) (b : ℤ) {K : Sparse ℝ}
    (h : (distributedCovariance sched cancel 3 (wendlandSparse q a s) ⟨key, x⟩ x.length ⟨key, x⟩ x.length b true
      .blockwise).outcome = .ok K) : IsCovariance K (fun x y => wendlandAniso x y a s) x x :=
  C02_blockwise_equals_local hs (C63_sparse_pointwise q hq a s hs0) (fun x y => wendlandAniso_comm a s x y) key x b h

/-- Brute-force search, which satisfies the contract. -/
noncomputable def bruteQuery (D : ℕ) : Query D := fun z1 z2 =>
  z1.map fun z => (List.range z2.length).filter fun j => distance z (z2.getD j 0) ≤ 1

theorem bruteQuery_contract : QueryContract (bruteQuery D) where
  length z1 z2 := by simp [bruteQuery]
  nodup z1 z2 l hl := by
    obtain ⟨z, -, rfl⟩ := List.mem_map.1 hl
    exact List.nodup_range.filter _
  mem z1 z2 i l z hl hz j := by
    unfold bruteQuery at hl
    rw [List.getElem?_map, hz] at hl
    obtain rfl := Option.some.inj hl
    simp only [List.mem_filter, List.mem_range, decide_eq_true_eq]
    constructor
    · rintro ⟨h1, h2⟩
      exact ⟨z2[j], by simp [h1], by simpa [List.getD_eq_getElem?_getD, h1] using h2⟩
    · rintro ⟨z', h1, h2⟩
      obtain ⟨h3, rfl⟩ := List.getElem?_eq_some_iff.1 h1
      exact ⟨h3, by simpa [List.getD_eq_getElem?_getD, h3] using h2⟩

example : ∃ B entries, wendlandDense 3 ![1, -2] [![0, 0], ![5, 5]] [![0, 1]] = .ok B ∧
    wendlandSparse (bruteQuery 2) 3 ![1, -2] [![0, 0], ![5, 5]] [![0, 1]] = .ok (.sparse entries) ∧
    ∀ i j, (Block.sparse entries).at i j = B.at i j := by
  obtain ⟨B, e, h1, h2, h3, -⟩ := C63_sparse_equals_dense (bruteQuery 2) bruteQuery_contract 3 ![1, -2]
    (by simp [Fin.forall_fin_two]) [![0, 0], ![5, 5]] [![0, 1]] (by simp)
  exact ⟨B, e, h1, h2, h3⟩

end Verif.Kernels
