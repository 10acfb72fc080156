import Verif.LinAlg.PrecondLemmas

/-! Properties C20, C23 and C24: block preconditioners, shift retries, incomplete Cholesky. -/

namespace Verif.LinAlg

open Finset

/-! ## C23 -/

/-- C23: the loop returns the first shift of the schedule for which the factorisation works. -/
theorem C23_first_working_shift {α : Type} (next : ℝ → ℝ) (build : ℝ → Except String α) (attempts : ℤ)
    (s₀ : ℝ) (f : α) (t : ℝ) :
    (retry next build (max attempts 1).toNat s₀).1 = .ok (f, t) ↔
      ∃ m : ℕ, (m : ℤ) < max attempts 1 ∧ t = next^[m] s₀ ∧ build t = .ok f
        ∧ ∀ l < m, ∃ e, build (next^[l] s₀) = .error e := by
  rw [retry_ok_iff]
  constructor
  · rintro ⟨m, hm, h⟩; exact ⟨m, by omega, h⟩
  · rintro ⟨m, hm, h⟩; exact ⟨m, by omega, h⟩

/-- C23: the loop raises exactly when every attempt failed; there is at least one attempt. -/
theorem C23_raises_iff_all_fail {α : Type} (next : ℝ → ℝ) (build : ℝ → Except String α) (attempts : ℤ)
    (s₀ : ℝ) :
    (∃ e, (retry next build (max attempts 1).toNat s₀).1 = .error e) ↔
      ∀ m : ℕ, (m : ℤ) < max attempts 1 → ∃ e, build (next^[m] s₀) = .error e := by
  rw [retry_error_iff]
  constructor
  · intro h m hm; exact h m (by omega)
  · intro h m hm; exact h m (by omega)

/-- C23: the shifts tried are the first entries of the schedule, at most the configured number of them. -/
theorem C23_tried_shifts {α : Type} (next : ℝ → ℝ) (build : ℝ → Except String α) (attempts : ℤ) (s₀ : ℝ) :
    (((retry next build (max attempts 1).toNat s₀).2.length : ℤ) ≤ max attempts 1)
      ∧ (retry next build (max attempts 1).toNat s₀).2
          = (List.range (retry next build (max attempts 1).toNat s₀).2.length).map fun m => next^[m] s₀ := by
  obtain ⟨h1, h2⟩ := retry_tried next build (max attempts 1).toNat s₀
  exact ⟨by omega, h2⟩

/-- C23: with initial shift zero the first matrix tried is the unshifted one, and the factor of an unshifted
positive definite matrix is returned unshifted. -/
theorem C23_unshifted_first (junk : ℕ → ℕ → ℝ) (n : ℕ) (M : ℕ → ℕ → ℝ) (growth : ℝ) (attempts : ℤ)
    (hs : ∀ i < n, ∀ j < n, M i j = M j i) (hpd : (toMat n M).PosDef) :
    ∃ F, shiftedDenseCholesky junk n M 0 growth attempts = .ok (F, 0) ∧ IsFactor n F M := by
  obtain ⟨F, hF, hfac⟩ := (C12_from_scratch_iff_posDef n M junk hs).2 hpd
  refine ⟨F, ?_, hfac⟩
  unfold shiftedDenseCholesky
  rw [C23_first_working_shift]
  refine ⟨0, by omega, by simp, ?_, by simp⟩
  rw [shifted, if_pos rfl]
  exact hF

/-- C23: what is returned is a factor of the matrix with the returned shift on its diagonal, and nowhere else. -/
theorem C23_factor_of_shifted (junk : ℕ → ℕ → ℝ) (n : ℕ) (M : ℕ → ℕ → ℝ) (base growth : ℝ) (attempts : ℤ)
    (hs : ∀ i < n, ∀ j < n, M i j = M j i) (F : ℕ → ℕ → ℝ) (s : ℝ)
    (h : shiftedDenseCholesky junk n M base growth attempts = .ok (F, s)) :
    IsFactor n F fun i j => if i = j then M i j + s else M i j := by
  have := shiftedDense_ok hs h
  convert this using 3 with i j
  unfold shifted
  split_ifs <;> simp_all

/-- The one by one matrix `4` needs no shift. -/
example (junk : ℕ → ℕ → ℝ) : ∃ F, shiftedDenseCholesky junk 1 (fun _ _ => 4) 0 10 5 = .ok (F, 0) ∧
    IsFactor 1 F fun i j => if i = j then (4 : ℝ) + 0 else 4 := by
  obtain ⟨F, hF, -⟩ := C23_unshifted_first junk 1 (fun _ _ => 4) 10 5 (fun _ _ _ _ => rfl) (by
    have : toMat 1 (fun _ _ => (4 : ℝ)) = Matrix.diagonal fun _ => 4 := by
      ext i j
      rw [Subsingleton.elim i j]
      simp [toMat]
    rw [this]
    exact Matrix.PosDef.diagonal fun _ => by norm_num)
  exact ⟨F, hF, C23_factor_of_shifted junk 1 _ 0 10 5 (fun _ _ _ _ => rfl) F 0 hF⟩

/-- C23: both schedules strictly increase for growth above one and a non-negative start. -/
theorem C23_shifts_increase (growth s₀ : ℝ) (hg : 1 < growth) (hs : 0 ≤ s₀) :
    StrictMono (fun m => (denseNext growth)^[m] s₀) ∧ StrictMono (fun m => (iluppNext growth)^[m] s₀) := by
  have h1 : ∀ s, 0 ≤ s → s < denseNext growth s := by
    intro s hs
    unfold denseNext
    split
    · rename_i h; rw [h]; norm_num
    · rename_i h
      have : 0 < s := lt_of_le_of_ne hs (Ne.symm h)
      nlinarith
  have h2 : ∀ s, 0 ≤ s → s < iluppNext growth s := by
    intro s hs
    unfold iluppNext
    rcases hs.eq_or_lt with h | h
    · rw [← h]; simp; norm_num
    · exact lt_max_of_lt_left (by nlinarith)
  have gen : ∀ next : ℝ → ℝ, (∀ s, 0 ≤ s → s < next s) → StrictMono (fun m => next^[m] s₀) := by
    intro next hnext
    have hpos : ∀ m, 0 ≤ next^[m] s₀ := by
      intro m
      induction m with
      | zero => simpa using hs
      | succ m ih => rw [Function.iterate_succ_apply']; exact ih.trans (hnext _ ih).le
    apply strictMono_nat_of_lt_succ
    intro m
    simp only [Function.iterate_succ_apply']
    exact hnext _ (hpos m)
  exact ⟨gen _ h1, gen _ h2⟩

/-- C23: the `ilupp` retry loop builds from the unshifted matrix whenever that works and the start is zero. -/
theorem C23_ilupp_unshifted_first {α : Type} (M : ℕ → ℕ → ℝ) (build : (ℕ → ℕ → ℝ) → Except String α)
    (growth : ℝ) (attempts : ℤ) (f : α) (hf : build M = .ok f) :
    shiftRetryIlupp M build 0 growth attempts = (.ok f, [0]) := by
  unfold shiftRetryIlupp
  obtain ⟨k, hk⟩ : ∃ k, (max attempts 1).toNat = k + 1 := ⟨(max attempts 1).toNat - 1, by omega⟩
  rw [hk, retry]
  simp only [shifted, if_true, hf]
  rfl

/-- A matrix whose unshifted factorisation fails and whose first shift works (non-trivial use of the loop). -/
example : (retry (denseNext 10) (fun s => if s = 0 then .error "singular" else .ok s) (max (5 : ℤ) 1).toNat (0 : ℝ)).1
    = (.ok ((1e-10 : ℝ), (1e-10 : ℝ)) : Except String (ℝ × ℝ)) := by
  refine (C23_first_working_shift _ _ 5 0 _ _).2 ⟨1, by norm_num, ?_, ?_, ?_⟩
  · simp [denseNext]
  · norm_num
  · intro l hl
    have : l = 0 := by omega
    subst this
    exact ⟨"singular", by simp⟩

/-! ## C20 -/

/-- C20: the block operator is linear. -/
theorem C20_operator_linear (n : ℕ) (models : List LocalModel) (h : SoundModels n models) (x y : ℕ → ℝ)
    (a b : ℝ) (i : ℕ) :
    blockMatvec models (fun k => a * x k + b * y k) i
      = a * blockMatvec models x i + b * blockMatvec models y i := by
  have hn : ∀ m ∈ models, m.indices.Nodup := fun m hm => (h m hm).1
  rw [blockMatvec_apply models hn, blockMatvec_apply models hn, blockMatvec_apply models hn,
    ← List.sum_map_mul_left, ← List.sum_map_mul_left, ← List.sum_map_add]
  congr 1
  apply List.map_congr_left
  intro m _
  unfold contrib
  rw [Finset.mul_sum, Finset.mul_sum, ← Finset.sum_add_distrib]
  apply Finset.sum_congr rfl
  intro p _
  split
  · exact cholSolve_linear _ _ (gather x m.indices) (gather y m.indices) a b p
  · simp

/-- C20: the block operator is symmetric. -/
theorem C20_operator_symmetric (n : ℕ) (models : List LocalModel) (h : SoundModels n models) (x y : ℕ → ℝ) :
    ∑ i ∈ range n, y i * blockMatvec models x i = ∑ i ∈ range n, x i * blockMatvec models y i := by
  rw [form_block h, form_block h]
  congr 1
  apply List.map_congr_left
  intro m _
  exact Finset.sum_congr rfl fun k _ => mul_comm _ _

theorem form_terms_nonneg (models : List LocalModel) (x : ℕ → ℝ) :
    ∀ t ∈ models.map (fun m => ∑ k ∈ range m.indices.length,
      fsub m.factor (gather x m.indices) k * fsub m.factor (gather x m.indices) k), 0 ≤ t := by
  intro t ht
  obtain ⟨m, _, rfl⟩ := List.mem_map.1 ht
  exact Finset.sum_nonneg fun k _ => mul_self_nonneg _

/-- C20: the block operator is positive semidefinite. -/
theorem C20_operator_psd (n : ℕ) (models : List LocalModel) (h : SoundModels n models) (x : ℕ → ℝ) :
    0 ≤ ∑ i ∈ range n, x i * blockMatvec models x i := by
  rw [form_block h]
  exact List.sum_nonneg (form_terms_nonneg models x)

/-- C20: when every index belongs to some block the operator is positive definite. -/
theorem C20_operator_pd (n : ℕ) (models : List LocalModel) (h : SoundModels n models)
    (hcover : ∀ i < n, ∃ m ∈ models, i ∈ m.indices) (x : ℕ → ℝ) (hx : ∃ i < n, x i ≠ 0) :
    0 < ∑ i ∈ range n, x i * blockMatvec models x i := by
  refine lt_of_le_of_ne (C20_operator_psd n models h x) ?_
  intro h0
  rw [form_block h] at h0
  have hz := fun t ht => le_antisymm (h0 ▸ List.single_le_sum (form_terms_nonneg models x) t ht)
    (form_terms_nonneg models x t ht)
  obtain ⟨i, hi, hxi⟩ := hx
  obtain ⟨m, hm, him⟩ := hcover i hi
  have hzm := hz _ (List.mem_map_of_mem (f := fun m : LocalModel => ∑ k ∈ range m.indices.length,
      fsub m.factor (gather x m.indices) k * fsub m.factor (gather x m.indices) k) hm)
  rw [Finset.sum_eq_zero_iff_of_nonneg (fun k _ => mul_self_nonneg _)] at hzm
  obtain ⟨_, _, A, hA⟩ := h m hm
  have hu := fsub_zero hA (gather x m.indices) (fun k hk => by
    have := hzm k (Finset.mem_range.2 hk)
    exact mul_self_eq_zero.1 this)
  obtain ⟨p, hp, hpi⟩ := List.getElem_of_mem him
  have := hu p hp
  unfold gather at this
  rw [List.getD_eq_getElem _ _ hp, hpi] at this
  exact hxi this

theorem blockJacobi_sound {junk KV : ℕ → ℕ → ℝ} {adj : ℕ → List ℕ} {n : ℕ} {bs attempts : ℤ}
    {base growth : ℝ} {models : List LocalModel} (hadj : ∀ i < n, ∀ j ∈ adj i, j < n)
    (h : blockJacobi junk KV adj n bs base growth attempts = .ok models) :
    SoundModels n models ∧ ∀ i < n, ∃ m ∈ models, i ∈ m.indices := by
  obtain ⟨h1, h2⟩ := buildLocal_ok (fun i j => symmetrize_symm KV i j) _ _ h
  rw [List.map_id] at h1
  obtain ⟨g1, g2, _, g4⟩ := graphBlocks_spec adj n bs hadj
  constructor
  · intro m hm
    have hmem : m.indices ∈ graphBlocks adj n bs := by
      rw [← h1]; exact List.mem_map_of_mem (f := LocalModel.indices) hm
    refine ⟨(List.nodup_flatten.1 g1).1 _ hmem, fun i hi => g2 i (List.mem_flatten.2 ⟨_, hmem, hi⟩), ?_⟩
    obtain ⟨s, hs⟩ := h2 m hm
    exact ⟨_, hs⟩
  · intro i hi
    obtain ⟨b, hb, hib⟩ := List.mem_flatten.1 (g4 i hi)
    rw [← h1] at hb
    obtain ⟨m, hm, rfl⟩ := List.mem_map.1 hb
    exact ⟨m, hm, hib⟩

theorem within_lt {adj : ℕ → List ℕ} {n k b x : ℕ} (hadj : ∀ i < n, ∀ j ∈ adj i, j < n) (hb : b < n)
    (h : Within adj k b x) : x < n := by
  induction h with
  | refl => exact hb
  | step _ hl ih => exact hadj _ (ih hb) _ hl

theorem schwarz_sound {junk KV : ℕ → ℕ → ℝ} {adj : ℕ → List ℕ} {order : Finset ℕ → List ℕ} {n : ℕ}
    {bs ov attempts : ℤ} {base growth : ℝ} {models : List LocalModel}
    (hadj : ∀ i < n, ∀ j ∈ adj i, j < n) (horder : ∀ s x, x ∈ order s ↔ x ∈ s)
    (h : additiveSchwarz junk KV adj order n bs ov base growth attempts = .ok models) :
    SoundModels n models ∧ ∀ i < n, ∃ m ∈ models, i ∈ m.indices := by
  obtain ⟨h1, h2⟩ := buildLocal_ok (fun i j => symmetrize_symm KV i j) _ _ h
  obtain ⟨g1, g2, _, g4⟩ := graphBlocks_spec adj n bs hadj
  constructor
  · intro m hm
    have hmem : m.indices ∈ (graphBlocks adj n bs).map fun b => expandOverlap adj order b ov := by
      rw [← h1]; exact List.mem_map_of_mem (f := LocalModel.indices) hm
    obtain ⟨b, hb, hbm⟩ := List.mem_map.1 hmem
    refine ⟨?_, ?_, ?_⟩
    · rw [← hbm]
      exact (C19_overlap_sorted adj order b ov).imp (fun h => Nat.ne_of_lt h)
    · intro i hi
      rw [← hbm] at hi
      obtain ⟨c, hc, hw⟩ := (C19_overlap_is_neighbourhood adj order horder b ov i).1 hi
      exact within_lt hadj (g2 c (List.mem_flatten.2 ⟨b, hb, hc⟩)) hw
    · obtain ⟨s, hs⟩ := h2 m hm
      exact ⟨_, hs⟩
  · intro i hi
    obtain ⟨b, hb, hib⟩ := List.mem_flatten.1 (g4 i hi)
    have hb' : expandOverlap adj order b ov ∈ models.map LocalModel.indices := by
      rw [h1]; exact List.mem_map_of_mem (f := fun b => expandOverlap adj order b ov) hb
    obtain ⟨m, hm, hmi⟩ := List.mem_map.1 hb'
    exact ⟨m, hm, hmi ▸ (C19_overlap_zero adj order horder b ov i).1 hib⟩

/-- C20: whatever matrix, sparsity pattern, block size and shift settings, a block-Jacobi preconditioner that
was built is a symmetric positive definite operator. -/
theorem C20_block_jacobi_spd (junk KV : ℕ → ℕ → ℝ) (adj : ℕ → List ℕ) (n : ℕ) (bs attempts : ℤ)
    (base growth : ℝ) (models : List LocalModel) (hadj : ∀ i < n, ∀ j ∈ adj i, j < n)
    (h : blockJacobi junk KV adj n bs base growth attempts = .ok models) (x y : ℕ → ℝ) :
    (∑ i ∈ range n, y i * blockMatvec models x i = ∑ i ∈ range n, x i * blockMatvec models y i)
      ∧ ((∃ i < n, x i ≠ 0) → 0 < ∑ i ∈ range n, x i * blockMatvec models x i) := by
  obtain ⟨hs, hc⟩ := blockJacobi_sound hadj h
  exact ⟨C20_operator_symmetric n models hs x y, C20_operator_pd n models hs hc x⟩

/-- C20: the same for additive Schwarz with any overlap. -/
theorem C20_schwarz_spd (junk KV : ℕ → ℕ → ℝ) (adj : ℕ → List ℕ) (order : Finset ℕ → List ℕ) (n : ℕ)
    (bs ov attempts : ℤ) (base growth : ℝ) (models : List LocalModel)
    (hadj : ∀ i < n, ∀ j ∈ adj i, j < n) (horder : ∀ s x, x ∈ order s ↔ x ∈ s)
    (h : additiveSchwarz junk KV adj order n bs ov base growth attempts = .ok models) (x y : ℕ → ℝ) :
    (∑ i ∈ range n, y i * blockMatvec models x i = ∑ i ∈ range n, x i * blockMatvec models y i)
      ∧ ((∃ i < n, x i ≠ 0) → 0 < ∑ i ∈ range n, x i * blockMatvec models x i) := by
  obtain ⟨hs, hc⟩ := schwarz_sound hadj horder h
  exact ⟨C20_operator_symmetric n models hs x y, C20_operator_pd n models hs hc x⟩

theorem localMatrix_posDef {n : ℕ} {A : ℕ → ℕ → ℝ} (hpd : (toMat n A).PosDef) {b : List ℕ} (hn : b.Nodup)
    (hlt : ∀ i ∈ b, i < n) : (toMat b.length (localMatrix A b)).PosDef := by
  have hinj : Function.Injective (fun p : Fin b.length => (⟨b[p], hlt _ (List.getElem_mem _)⟩ : Fin n)) := by
    intro p q hpq
    simp only [Fin.mk.injEq] at hpq
    exact Fin.ext ((List.Nodup.getElem_inj_iff hn).1 hpq)
  have := hpd.submatrix hinj
  convert this using 1
  ext p q
  simp [toMat, localMatrix]

/-- C20: for a positive definite matrix and initial shift zero the block-Jacobi construction always succeeds
and every block carries the factor of the unshifted local matrix. -/
theorem C20_block_jacobi_builds (junk KV : ℕ → ℕ → ℝ) (adj : ℕ → List ℕ) (n : ℕ) (bs attempts : ℤ)
    (growth : ℝ) (hadj : ∀ i < n, ∀ j ∈ adj i, j < n) (hpd : (toMat n (symmetrize KV)).PosDef) :
    ∃ models, blockJacobi junk KV adj n bs 0 growth attempts = .ok models
      ∧ ∀ m ∈ models, IsFactor m.indices.length m.factor (localMatrix (symmetrize KV) m.indices) := by
  obtain ⟨g1, g2, _, _⟩ := graphBlocks_spec adj n bs hadj
  have key : ∀ blocks : List (List ℕ), (∀ b ∈ blocks, b.Nodup ∧ ∀ i ∈ b, i < n) →
      ∃ models, buildLocal junk (symmetrize KV) 0 growth attempts id blocks = .ok models
        ∧ ∀ m ∈ models, IsFactor m.indices.length m.factor (localMatrix (symmetrize KV) m.indices) := by
    intro blocks
    induction blocks with
    | nil => intro _; exact ⟨[], rfl, by simp⟩
    | cons b rest ih =>
      intro hb
      obtain ⟨tail, ht, htf⟩ := ih (fun b' h' => hb b' (List.mem_cons_of_mem _ h'))
      obtain ⟨hbn, hbl⟩ := hb b List.mem_cons_self
      obtain ⟨F, hF, hfac⟩ := C23_unshifted_first junk b.length (localMatrix (symmetrize KV) b) growth attempts
        (fun i _ j _ => symmetrize_symm KV _ _) (localMatrix_posDef hpd hbn hbl)
      refine ⟨⟨b, F⟩ :: tail, ?_, ?_⟩
      · simp only [buildLocal, id_eq, bind, Except.bind, hF, ht]
      · intro m hm
        rcases List.mem_cons.1 hm with rfl | hm
        · exact hfac
        · exact htf m hm
  exact key _ fun b hb => ⟨(List.nodup_flatten.1 g1).1 b hb, fun i hi => g2 i (List.mem_flatten.2 ⟨b, hb, hi⟩)⟩

theorem symmetrize_of_symm {KV : ℕ → ℕ → ℝ} (h : ∀ i j, KV i j = KV j i) : symmetrize KV = KV := by
  funext i j
  unfold symmetrize
  rw [h j i]
  ring

theorem shifted_apply (M : ℕ → ℕ → ℝ) (s : ℝ) (p q : ℕ) : shifted M s p q = M p q + if p = q then s else 0 := by
  unfold shifted
  split_ifs <;> simp_all

/-- C20: for a symmetric matrix every local factor of a block-Jacobi preconditioner is a factor of the rows and columns of the
matrix listed in its block, with one shift on the diagonal. -/
theorem C20_block_jacobi_local (junk KV : ℕ → ℕ → ℝ) (adj : ℕ → List ℕ) (n : ℕ) (bs attempts : ℤ)
    (base growth : ℝ) (models : List LocalModel) (hKV : ∀ i j, KV i j = KV j i)
    (h : blockJacobi junk KV adj n bs base growth attempts = .ok models) :
    ∀ m ∈ models, ∃ s, IsFactor m.indices.length m.factor
      fun p q => KV (m.indices.getD p 0) (m.indices.getD q 0) + if p = q then s else 0 := by
  intro m hm
  obtain ⟨s, hs⟩ := (buildLocal_ok (fun i j => symmetrize_symm KV i j) _ _ h).2 m hm
  refine ⟨s, ?_⟩
  rw [symmetrize_of_symm hKV] at hs
  convert hs using 1
  funext p q
  rw [shifted_apply]
  rfl

/-- C20: the same for additive Schwarz with any overlap. -/
theorem C20_schwarz_local (junk KV : ℕ → ℕ → ℝ) (adj : ℕ → List ℕ) (order : Finset ℕ → List ℕ) (n : ℕ)
    (bs ov attempts : ℤ) (base growth : ℝ) (models : List LocalModel) (hKV : ∀ i j, KV i j = KV j i)
    (h : additiveSchwarz junk KV adj order n bs ov base growth attempts = .ok models) :
    ∀ m ∈ models, ∃ s, IsFactor m.indices.length m.factor
      fun p q => KV (m.indices.getD p 0) (m.indices.getD q 0) + if p = q then s else 0 := by
  intro m hm
  obtain ⟨s, hs⟩ := (buildLocal_ok (fun i j => symmetrize_symm KV i j) _ _ h).2 m hm
  refine ⟨s, ?_⟩
  rw [symmetrize_of_symm hKV] at hs
  convert hs using 1
  funext p q
  rw [shifted_apply]
  rfl

/-- A sound, covering family with two overlapping blocks of three unknowns (hypotheses of C20). -/
example : SoundModels 3 [⟨[0, 1], fun i j => if i = j then 1 else 0⟩, ⟨[2, 1], fun i j => if i = j then 2 else 0⟩]
    ∧ ∀ i < 3, ∃ m ∈ ([⟨[0, 1], fun i j => if i = j then 1 else 0⟩,
        ⟨[2, 1], fun i j => if i = j then 2 else 0⟩] : List LocalModel), i ∈ m.indices := by
  constructor
  · intro m hm
    simp only [List.mem_cons, List.not_mem_nil, or_false] at hm
    rcases hm with rfl | rfl
    · refine ⟨by decide, by decide, fun i j => if i = j then 1 else 0, by simp, ?_⟩
      intro i hi j hj
      simp only [List.length_cons, List.length_nil] at hi hj ⊢
      interval_cases i <;> interval_cases j <;> simp [Finset.sum_range_succ, low]
    · refine ⟨by decide, by decide, fun i j => if i = j then 4 else 0, by simp, ?_⟩
      intro i hi j hj
      simp only [List.length_cons, List.length_nil] at hi hj ⊢
      interval_cases i <;> interval_cases j <;> simp [Finset.sum_range_succ, low] <;> norm_num
  · intro i hi
    interval_cases i <;> simp

/-! ## C24 -/

/-- Well-formed lower-triangular CSR rows: distinct columns, none beyond the diagonal. -/
def LowerRows (lower : ℕ → List (ℕ × ℝ)) (n : ℕ) : Prop :=
  ∀ i < n, ((lower i).map Prod.fst).Nodup ∧ ∀ e ∈ lower i, e.1 ≤ i

theorem icRow_spec {rows : ℕ → List (ℕ × ℝ)} {diag : ℕ → ℝ} {i : ℕ} {row : List (ℕ × ℝ)}
    {r : List (ℕ × ℝ)} {d : ℝ} (hn : (row.map Prod.fst).Nodup)
    (hrows : ∀ j < i, ((rows j).map Prod.fst).Nodup ∧ (∀ e ∈ rows j, e.1 < j) ∧ 0 < diag j)
    (h : icRow rows diag i row = .ok (r, d)) :
    (r.map Prod.fst).Nodup ∧ (∀ e ∈ r, e.1 < i) ∧ 0 < d
      ∧ (∀ k, k ∈ r.map Prod.fst → k ∈ row.map Prod.fst)
      ∧ (∀ j v, (j, v) ∈ row → j < i →
          ∑ k ∈ range j, dget r k * dget (rows j) k + dget r j * diag j = v)
      ∧ (∀ v, (i, v) ∈ row → ∑ k ∈ range i, dget r k * dget r k + d * d = v)
      ∧ i ∈ row.map Prod.fst := by
  unfold icRow at h
  split at h
  · simp at h
  · rename_i dv hdv
    simp only at h
    split at h
    · simp at h
    · rename_i hdsq
      simp only [Except.ok.injEq, Prod.mk.injEq] at h
      rw [icOriginal_eq hn] at h hdsq
      set l := (row.filter fun e => decide (e.1 < i)).mergeSort (fun a b => decide (a.1 ≤ b.1)) with hl
      have hperm : l.Perm (row.filter fun e => decide (e.1 < i)) := List.mergeSort_perm _ _
      have hmeml : ∀ e, e ∈ l ↔ e ∈ row ∧ e.1 < i := by
        intro e; rw [hperm.mem_iff, List.mem_filter]; simp
      have hsort : (l.map Prod.fst).Pairwise (· < ·) := by
        have h1 : l.Pairwise (fun a b => a.1 ≤ b.1) := by
          have := List.pairwise_mergeSort (le := fun a b : ℕ × ℝ => decide (a.1 ≤ b.1))
            (fun a b c h1 h2 => by simp at *; omega) (fun a b => by simp; omega)
            (row.filter fun e => decide (e.1 < i))
          exact this.imp (fun h => by simpa using h)
        have h2 : (l.map Prod.fst).Nodup :=
          ((hperm.map Prod.fst).nodup_iff).2 (hn.sublist (List.filter_sublist.map _))
        rw [List.pairwise_map]
        have h3 : l.Pairwise (fun a b => a.1 ≠ b.1) := by
          rw [List.Nodup, List.pairwise_map] at h2; exact h2
        exact h1.imp₂ (fun a b h h' => lt_of_le_of_ne h h') h3
      obtain ⟨s1, _, s3⟩ := icRowLoop_spec (rows := rows) (diag := diag) l [] (by simpa using hsort)
        (fun e he => by
          obtain ⟨a, b, c⟩ := hrows e.1 ((hmeml e).1 he).2
          exact ⟨a, b, c.ne'⟩)
      rw [List.nil_append] at s1
      rw [h.1] at s1 s3
      have hrn : (r.map Prod.fst).Nodup := by
        rw [s1]; exact hsort.imp (fun h => Nat.ne_of_lt h)
      have hri : ∀ e ∈ r, e.1 < i := by
        intro e he
        have : e.1 ∈ l.map Prod.fst := by rw [← s1]; exact List.mem_map_of_mem (f := Prod.fst) he
        obtain ⟨e', he', hee⟩ := List.mem_map.1 this
        rw [← hee]; exact ((hmeml e').1 he').2
      have hdpos : 0 < dv - (r.map fun e => e.2 * e.2).sum := by
        rw [h.1] at hdsq; linarith
      have hdd : d * d = dv - (r.map fun e => e.2 * e.2).sum := by
        rw [← h.2, h.1, Real.mul_self_sqrt hdpos.le]
      refine ⟨hrn, hri, ?_, ?_, ?_, ?_, List.mem_map_of_mem (f := Prod.fst) (icDiag_mem hdv)⟩
      · rw [← h.2, h.1]; exact Real.sqrt_pos.2 hdpos
      · intro k hk
        rw [s1] at hk
        obtain ⟨e, he, rfl⟩ := List.mem_map.1 hk
        exact List.mem_map_of_mem (f := Prod.fst) ((hmeml e).1 he).1
      · intro j v hjv hji
        exact s3 (j, v) ((hmeml (j, v)).2 ⟨hjv, hji⟩)
      · intro v hv
        have hvdv : v = dv := by
          rw [← dget_mem hn hv, dget_mem hn (icDiag_mem hdv)]
        have hsq : (r.map fun e => e.2 * e.2).sum = ∑ k ∈ range i, dget r k * dget r k := by
          rw [← sum_dict hrn hri (fun k => dget r k)]
          congr 1
          apply List.map_congr_left
          intro e he
          rw [dget_mem hrn (show (e.1, e.2) ∈ r from he)]
        rw [hdd, hsq, hvdv]
        ring

theorem icRows_spec {lower : ℕ → List (ℕ × ℝ)} : ∀ (n : ℕ) (rows : ℕ → List (ℕ × ℝ)) (diag : ℕ → ℝ),
    LowerRows lower n → icRows lower n = .ok (rows, diag) →
    ∀ i < n, ((rows i).map Prod.fst).Nodup ∧ (∀ e ∈ rows i, e.1 < i) ∧ 0 < diag i
      ∧ (∀ k, k ∈ (rows i).map Prod.fst → k ∈ (lower i).map Prod.fst)
      ∧ (∀ j v, (j, v) ∈ lower i → j < i →
          ∑ k ∈ range j, dget (rows i) k * dget (rows j) k + dget (rows i) j * diag j = v)
      ∧ (∀ v, (i, v) ∈ lower i → ∑ k ∈ range i, dget (rows i) k * dget (rows i) k + diag i * diag i = v)
      ∧ i ∈ (lower i).map Prod.fst := by
  intro n
  induction n with
  | zero => intro _ _ _ _ i hi; omega
  | succ n ih =>
    intro rows diag hl h
    rw [icRows] at h
    cases hprev : icRows lower n with
    | error e => rw [hprev] at h; simp [bind, Except.bind] at h
    | ok p =>
      obtain ⟨rows', diag'⟩ := p
      rw [hprev] at h
      simp only [bind, Except.bind] at h
      cases hrow : icRow rows' diag' n (lower n) with
      | error e => rw [hrow] at h; simp at h
      | ok q =>
        obtain ⟨r, d⟩ := q
        rw [hrow] at h
        simp only [Except.ok.injEq, Prod.mk.injEq] at h
        have hi' := ih rows' diag' (fun i hi => hl i (by omega)) hprev
        have hsp := icRow_spec (hl n (by omega)).1
          (fun j hj => ⟨(hi' j hj).1, (hi' j hj).2.1, (hi' j hj).2.2.1⟩) hrow
        have hold : ∀ j < n, rows j = rows' j ∧ diag j = diag' j := by
          intro j hj
          rw [← h.1, ← h.2, Function.update_of_ne (by omega), Function.update_of_ne (by omega)]
          exact ⟨rfl, rfl⟩
        have hnew : rows n = r ∧ diag n = d := by
          rw [← h.1, ← h.2, Function.update_self, Function.update_self]
          exact ⟨rfl, rfl⟩
        intro i hi
        rcases Nat.lt_succ_iff_lt_or_eq.1 hi with hlt | rfl
        · rw [(hold i hlt).1, (hold i hlt).2]
          obtain ⟨a, b, c, d', e, f, g⟩ := hi' i hlt
          refine ⟨a, b, c, d', ?_, f, g⟩
          intro j v hjv hji
          rw [(hold j (by omega)).1, (hold j (by omega)).2]
          exact e j v hjv hji
        · rw [hnew.1, hnew.2]
          obtain ⟨a, b, c, d', e, f, g⟩ := hsp
          refine ⟨a, b, c, d', ?_, f, g⟩
          intro j v hjv hji
          rw [(hold j hji).1, (hold j hji).2]
          exact e j v hjv hji

theorem icFactor_low {rows : ℕ → List (ℕ × ℝ)} {diag : ℕ → ℝ} (i k : ℕ) :
    low (icFactor rows diag) i k = icFactor rows diag i k := by
  unfold low icFactor
  split
  · rfl
  · rw [if_neg (by omega), if_neg (by omega)]

/-- The sum defining `(L Lᵀ) i j` only involves columns up to `min i j`. -/
theorem icFactor_prod {n : ℕ} {rows : ℕ → List (ℕ × ℝ)} {diag : ℕ → ℝ} {i j : ℕ} (hj : j < n) (hji : j ≤ i) :
    ∑ k ∈ range n, icFactor rows diag i k * icFactor rows diag j k
      = ∑ k ∈ range j, icFactor rows diag i k * dget (rows j) k + icFactor rows diag i j * diag j := by
  have h1 : ∑ k ∈ range n, icFactor rows diag i k * icFactor rows diag j k
      = ∑ k ∈ range n, low (icFactor rows diag) j k * icFactor rows diag i k := by
    apply Finset.sum_congr rfl
    intro k _
    rw [icFactor_low, mul_comm]
  rw [h1, sum_low hj]
  congr 1
  · apply Finset.sum_congr rfl
    intro k hk
    rw [Finset.mem_range] at hk
    rw [show icFactor rows diag j k = dget (rows j) k by simp [icFactor, hk], mul_comm]
  · rw [show icFactor rows diag j j = diag j by simp [icFactor], mul_comm]

theorem icShiftRow_keys {lower : ℕ → List (ℕ × ℝ)} {n : ℕ} (s : ℝ) (hl : LowerRows lower n) :
    LowerRows (icShiftRow lower s) n := by
  intro i hi
  obtain ⟨h1, h2⟩ := hl i hi
  unfold icShiftRow
  split
  · exact ⟨h1, h2⟩
  · split
    · have hmap : ((lower i).map fun e => if e.1 = i then (i, e.2 + s) else e).map Prod.fst
          = (lower i).map Prod.fst := by
        rw [List.map_map]
        apply List.map_congr_left
        intro e _
        simp only [Function.comp]
        split
        · rename_i h; exact h.symm
        · rfl
      constructor
      · rw [hmap]; exact h1
      · intro e he
        have : e.1 ∈ (lower i).map Prod.fst := by
          rw [← hmap]; exact List.mem_map_of_mem (f := Prod.fst) he
        obtain ⟨e', he', hee⟩ := List.mem_map.1 this
        rw [← hee]; exact h2 e' he'
    · rename_i hany
      have hnot : i ∉ (lower i).map Prod.fst := by
        intro hm
        obtain ⟨e, he, hei⟩ := List.mem_map.1 hm
        apply hany
        rw [List.any_eq_true]
        exact ⟨e, he, by simpa using hei⟩
      constructor
      · rw [List.map_append, List.nodup_append]
        refine ⟨h1, by simp, ?_⟩
        rintro a ha b hb rfl
        simp only [List.map_cons, List.map_nil, List.mem_singleton] at hb
        subst hb; exact hnot ha
      · intro e he
        rcases List.mem_append.1 he with he | he
        · exact h2 e he
        · rw [List.mem_singleton] at he; subst he; exact le_rfl

theorem icShiftRow_mem {lower : ℕ → List (ℕ × ℝ)} (s : ℝ) {i j : ℕ} {v : ℝ} (h : (j, v) ∈ lower i) :
    (j, v + if j = i then s else 0) ∈ icShiftRow lower s i := by
  unfold icShiftRow
  split
  · rename_i hs; subst hs; simpa using h
  · split
    · rw [List.mem_map]
      refine ⟨(j, v), h, ?_⟩
      by_cases hji : j = i
      · simp [hji]
      · simp [hji]
    · rename_i hany
      have hji : j ≠ i := by
        rintro rfl
        apply hany
        rw [List.any_eq_true]
        exact ⟨(j, v), h, by simp⟩
      rw [if_neg hji, add_zero]
      exact List.mem_append.2 (Or.inl h)

/-- C24: the incomplete factorisation starts with the configured shift, multiplies it after a failure (or replaces zero by
`1e-10`), returns the first factor that exists and makes at least one attempt. -/
theorem C24_first_working_shift (lower : ℕ → List (ℕ × ℝ)) (n : ℕ) (base growth : ℝ) (attempts : ℤ)
    (F : (ℕ → List (ℕ × ℝ)) × (ℕ → ℝ)) (s : ℝ) :
    ic0 lower n base growth attempts = .ok (F, s) ↔
      ∃ m : ℕ, ((m : ℤ) < attempts ∨ m = 0) ∧ s = (fun t : ℝ => if t = 0 then 1 / 10 ^ 10 else t * growth)^[m] base ∧
        icRows (icShiftRow lower s) n = .ok F ∧
        ∀ l < m, ∃ e, icRows (icShiftRow lower ((fun t : ℝ => if t = 0 then 1 / 10 ^ 10 else t * growth)^[l] base)) n
          = .error e := by
  have hn : denseNext growth = fun t : ℝ => if t = 0 then 1 / 10 ^ 10 else t * growth := by
    funext t
    unfold denseNext
    split_ifs
    · norm_num
    · rfl
  unfold ic0
  rw [C23_first_working_shift, hn]
  constructor
  · rintro ⟨m, hm, h⟩; exact ⟨m, by omega, h⟩
  · rintro ⟨m, hm, h⟩; exact ⟨m, by omega, h⟩

/-- One unknown with the entry 4 needs no shift, even if no attempt is configured. -/
example : ∃ F, ic0 (fun _ => [(0, 4)]) 1 0 10 0 = .ok (F, 0) := by
  have h : ∃ F, icRows (icShiftRow (fun _ => [(0, 4)]) 0) 1 = .ok F := by
    simp [icRows, icShiftRow, icRow, icDiag, icOriginal, icRowLoop, bind, Except.bind,
      if_neg (show ¬ (4 : ℝ) ≤ 0 by norm_num)]
  obtain ⟨F, hF⟩ := h
  exact ⟨F, (C24_first_working_shift _ 1 0 10 0 F 0).2 ⟨0, Or.inr rfl, rfl, hF, by simp⟩⟩

/-- C24: when the factorisation succeeds with shift `s`, the product `L Lᵀ` agrees with the shifted matrix at
every stored position of the lower triangle. -/
theorem C24_reproduces_on_pattern (lower : ℕ → List (ℕ × ℝ)) (n : ℕ) (base growth : ℝ) (attempts : ℤ)
    (rows : ℕ → List (ℕ × ℝ)) (diag : ℕ → ℝ) (s : ℝ) (hl : LowerRows lower n)
    (h : ic0 lower n base growth attempts = .ok ((rows, diag), s)) :
    ∀ i < n, ∀ j v, (j, v) ∈ lower i →
      ∑ k ∈ range n, icFactor rows diag i k * icFactor rows diag j k = v + if i = j then s else 0 := by
  obtain ⟨m, _, _, hb, _⟩ := (retry_ok_iff _ _ _ _ _ _).1 h
  have hsp := icRows_spec n rows diag (icShiftRow_keys s hl) hb
  intro i hi j v hjv
  have hji : j ≤ i := (hl i hi).2 _ hjv
  rw [icFactor_prod (by omega) hji]
  have hmem := icShiftRow_mem s hjv
  rcases Nat.lt_or_eq_of_le hji with hlt | rfl
  · rw [if_neg (by omega)] at hmem ⊢
    have := (hsp i hi).2.2.2.2.1 j _ hmem hlt
    rw [← this]
    congr 1
    · apply Finset.sum_congr rfl
      intro k hk
      rw [Finset.mem_range] at hk
      rw [show icFactor rows diag i k = dget (rows i) k by simp [icFactor, show k < i by omega]]
    · rw [show icFactor rows diag i j = dget (rows i) j by simp [icFactor, hlt]]
  · rw [if_pos rfl] at hmem ⊢
    have := (hsp j hi).2.2.2.2.2.1 _ hmem
    rw [← this]
    congr 1
    · apply Finset.sum_congr rfl
      intro k hk
      rw [Finset.mem_range] at hk
      rw [show icFactor rows diag j k = dget (rows j) k by simp [icFactor, hk]]
    · rw [show icFactor rows diag j j = diag j by simp [icFactor]]

/-- C24: the factor has no entry outside the stored pattern, is lower triangular and has a positive diagonal.
-/
theorem C24_no_fill_in (lower : ℕ → List (ℕ × ℝ)) (n : ℕ) (base growth : ℝ) (attempts : ℤ)
    (rows : ℕ → List (ℕ × ℝ)) (diag : ℕ → ℝ) (s : ℝ) (hl : LowerRows lower n)
    (h : ic0 lower n base growth attempts = .ok ((rows, diag), s)) :
    ∀ i < n, 0 < icFactor rows diag i i
      ∧ ∀ j, icFactor rows diag i j ≠ 0 → j = i ∨ (j < i ∧ j ∈ (lower i).map Prod.fst) := by
  obtain ⟨m, _, _, hb, _⟩ := (retry_ok_iff _ _ _ _ _ _).1 h
  have hsp := icRows_spec n rows diag (icShiftRow_keys s hl) hb
  intro i hi
  obtain ⟨a, b, c, d, _⟩ := hsp i hi
  refine ⟨by simpa [icFactor] using c, ?_⟩
  intro j hj
  unfold icFactor at hj
  split at hj
  · rename_i hji
    right
    refine ⟨hji, ?_⟩
    have hmem : j ∈ (rows i).map Prod.fst := by
      by_contra hn
      exact hj (dget_notMem hn)
    have hk := d j hmem
    unfold icShiftRow at hk
    split at hk
    · exact hk
    · split at hk
      · obtain ⟨e, he, hej⟩ := List.mem_map.1 hk
        obtain ⟨e', he', hee⟩ := List.mem_map.1 he
        split at hee
        · rw [← hee] at hej; simp only at hej; omega
        · rw [hee] at he'
          exact hej ▸ List.mem_map_of_mem (f := Prod.fst) he'
      · rw [List.map_append, List.mem_append] at hk
        rcases hk with hk | hk
        · exact hk
        · simp at hk; omega
  · split at hj
    · rename_i hji; exact Or.inl hji
    · exact absurd rfl hj

/-- C24: on a full lower triangle the incomplete factor is the Cholesky factor of the shifted matrix. -/
theorem C24_full_pattern_is_cholesky (A : ℕ → ℕ → ℝ) (hA : ∀ i j, A i j = A j i) (n : ℕ) (base growth : ℝ)
    (attempts : ℤ) (rows : ℕ → List (ℕ × ℝ)) (diag : ℕ → ℝ) (s : ℝ)
    (h : ic0 (fun i => (List.range (i + 1)).map fun j => (j, A i j)) n base growth attempts
      = .ok ((rows, diag), s)) :
    IsFactor n (icFactor rows diag) (fun i j => A i j + if i = j then s else 0) := by
  have hl : LowerRows (fun i => (List.range (i + 1)).map fun j => (j, A i j)) n := by
    intro i _
    constructor
    · rw [List.map_map]
      have : (Prod.fst ∘ fun j => (j, A i j)) = id := rfl
      rw [this, List.map_id]; exact List.nodup_range
    · intro e he
      obtain ⟨j, hj, rfl⟩ := List.mem_map.1 he
      have := List.mem_range.1 hj
      simp only; omega
  refine ⟨fun i hi => (C24_no_fill_in _ n base growth attempts rows diag s hl h i hi).1, ?_⟩
  have key : ∀ i < n, ∀ j ≤ i, ∑ k ∈ range n, low (icFactor rows diag) i k * low (icFactor rows diag) j k
      = A i j + if i = j then s else 0 := by
    intro i hi j hji
    rw [← C24_reproduces_on_pattern _ n base growth attempts rows diag s hl h i hi j (A i j)
      (List.mem_map.2 ⟨j, List.mem_range.2 (by omega), rfl⟩)]
    exact Finset.sum_congr rfl fun k _ => by rw [icFactor_low, icFactor_low]
  intro i hi j hj
  rcases le_total j i with hji | hij
  · exact key i hi j hji
  · have := key j hj i hij
    simp only
    rw [hA i j, show (if i = j then s else 0) = if j = i then s else 0 by simp [eq_comm], ← this]
    exact Finset.sum_congr rfl fun k _ => mul_comm _ _

/-- C24: the preconditioner operator (two triangular solves with the incomplete factor) is symmetric positive
definite. -/
theorem C24_operator_spd (lower : ℕ → List (ℕ × ℝ)) (n : ℕ) (base growth : ℝ) (attempts : ℤ)
    (rows : ℕ → List (ℕ × ℝ)) (diag : ℕ → ℝ) (s : ℝ) (hl : LowerRows lower n)
    (h : ic0 lower n base growth attempts = .ok ((rows, diag), s)) (x y : ℕ → ℝ) :
    (∑ p ∈ range n, y p * cholSolve n (icFactor rows diag) x p
        = ∑ p ∈ range n, x p * cholSolve n (icFactor rows diag) y p)
      ∧ ((∃ i < n, x i ≠ 0) → 0 < ∑ p ∈ range n, x p * cholSolve n (icFactor rows diag) x p) := by
  have hF : IsFactor n (icFactor rows diag) (fun i j =>
      ∑ k ∈ range n, low (icFactor rows diag) i k * low (icFactor rows diag) j k) :=
    ⟨fun i hi => (C24_no_fill_in lower n base growth attempts rows diag s hl h i hi).1,
      fun _ _ _ _ => rfl⟩
  rw [form_cholSolve hF, form_cholSolve hF, form_cholSolve hF]
  refine ⟨Finset.sum_congr rfl fun k _ => mul_comm _ _, ?_⟩
  rintro ⟨i, hi, hxi⟩
  refine lt_of_le_of_ne (Finset.sum_nonneg fun k _ => mul_self_nonneg _) ?_
  intro h0
  rw [eq_comm, Finset.sum_eq_zero_iff_of_nonneg (fun k _ => mul_self_nonneg _)] at h0
  exact hxi (fsub_zero hF x (fun k hk => mul_self_eq_zero.1 (h0 k (Finset.mem_range.2 hk))) i hi)

/-- Concrete case for C24: `[[4, 2], [2, 5]]` factorises to `[[2, 0], [1, 2]]` without shift. -/
example : ∃ rows diag, ic0 (fun i => if i = 0 then [(0, 4)] else [(0, 2), (1, 5)]) 2 0 10 5
      = .ok ((rows, diag), 0)
    ∧ LowerRows (fun i => if i = 0 then [(0, (4 : ℝ))] else [(0, 2), (1, 5)]) 2 := by
  have hl : LowerRows (fun i => if i = 0 then [(0, (4 : ℝ))] else [(0, 2), (1, 5)]) 2 := by
    intro i hi
    interval_cases i <;> simp
  have h4 : Real.sqrt 4 = 2 := by
    rw [show (4 : ℝ) = 2 ^ 2 by norm_num]; exact Real.sqrt_sq (by norm_num)
  have hb : ∃ p, icRows (icShiftRow (fun i => if i = 0 then [(0, (4 : ℝ))] else [(0, 2), (1, 5)]) 0) 2
      = .ok p := by
    simp only [icRows, icRow, icShiftRow, icDiag, icOriginal, bind, Except.bind, if_true, List.foldl_cons,
      List.foldl_nil, dset, List.any_nil]
    norm_num [List.mergeSort, icRowLoop, icEntry, Function.update, h4]
  obtain ⟨⟨rows, diag⟩, hp⟩ := hb
  refine ⟨rows, diag, ?_, hl⟩
  exact (retry_ok_iff _ _ _ _ _ _).2 ⟨0, by norm_num, by simp, hp, by simp⟩

end Verif.LinAlg
