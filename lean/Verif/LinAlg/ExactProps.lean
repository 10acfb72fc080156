import Verif.LinAlg.PrecondProps
import Verif.LinAlg.GrowProps
import Verif.LinAlg.BlockCGProps

/-!
C160: the block and incomplete-Cholesky preconditioners are exact when nothing is cut off, and an exact preconditioner
makes the block conjugate-gradient solver finish after one iteration.

Models: `PrecondModel.lean`, `GraphModel.lean`, `KrylovModel.lean` (gp_lin_alg.py:534-756 and :1018-1080).
-/

namespace Verif.LinAlg

open Finset

/-! ### Specification -/

/-- `op` solves the system with the leading `n x n` block of `A`. -/
def Solves (n : ℕ) (A : ℕ → ℕ → ℝ) (op : (ℕ → ℝ) → ℕ → ℝ) : Prop :=
  ∀ x, ∀ i < n, ∑ j ∈ range n, A i j * op x j = x i

/-- An operator on sequences, seen as an operator on vectors of length `n`. -/
noncomputable def onFin (n : ℕ) (op : (ℕ → ℝ) → ℕ → ℝ) (v : Fin n → ℝ) : Fin n → ℝ :=
  fun i => op (fun j => if h : j < n then v ⟨j, h⟩ else 0) i

/-! ### Block operators -/

/-- The contribution of one local model to a row of `A` times the operator. -/
theorem row_contrib {n : ℕ} (A : ℕ → ℕ → ℝ) (x : ℕ → ℝ) (m : LocalModel) (hlt : ∀ i ∈ m.indices, i < n) (i : ℕ) :
    ∑ j ∈ range n, A i j * contrib x m j = ∑ p ∈ range m.indices.length,
      A i (m.indices.getD p 0) * cholSolve m.indices.length m.factor (gather x m.indices) p := by
  unfold contrib
  simp_rw [Finset.mul_sum]
  rw [Finset.sum_comm]
  refine Finset.sum_congr rfl fun p hp => ?_
  rw [Finset.mem_range] at hp
  have hmem : m.indices.getD p 0 ∈ m.indices := by
    rw [List.getD_eq_getElem _ _ hp]; exact List.getElem_mem _
  rw [Finset.sum_eq_single (m.indices.getD p 0)]
  · rw [if_pos rfl]
  · intro j _ hj
    rw [if_neg (Ne.symm hj), mul_zero]
  · intro h
    exact absurd (Finset.mem_range.2 (hlt _ hmem)) h

theorem row_operator {n : ℕ} (A : ℕ → ℕ → ℝ) (x : ℕ → ℝ) (models : List LocalModel) (h : SoundModels n models) (i : ℕ) :
    ∑ j ∈ range n, A i j * blockMatvec models x j = (models.map fun m => ∑ p ∈ range m.indices.length,
      A i (m.indices.getD p 0) * cholSolve m.indices.length m.factor (gather x m.indices) p).sum := by
  have h1 : ∀ j ∈ range n, A i j * blockMatvec models x j = (models.map fun m => A i j * contrib x m j).sum := by
    intro j _
    rw [blockMatvec_apply models (fun m hm => (h m hm).1), List.sum_map_mul_left]
  rw [Finset.sum_congr rfl h1]
  clear h1
  induction models with
  | nil => simp
  | cons m rest ih =>
    simp only [List.map_cons, List.sum_cons]
    rw [Finset.sum_add_distrib, row_contrib A x m (h m List.mem_cons_self).2.1,
      ih fun m' hm' => h m' (List.mem_cons_of_mem _ hm')]

/-- A local model whose factor belongs to the rows and columns of `A` reproduces the entries of its block. -/
theorem local_solves {A : ℕ → ℕ → ℝ} {m : LocalModel} (hF : IsFactor m.indices.length m.factor (localMatrix A m.indices))
    (x : ℕ → ℝ) {i : ℕ} (hi : i ∈ m.indices) :
    ∑ p ∈ range m.indices.length, A i (m.indices.getD p 0) * cholSolve m.indices.length m.factor (gather x m.indices) p
      = x i := by
  obtain ⟨q, hq, rfl⟩ := List.getElem_of_mem hi
  have := C16_solve_exact _ _ _ hF (gather x m.indices) q hq
  unfold localMatrix gather at this
  rw [List.getD_eq_getElem _ _ hq] at this
  exact this

/-- With the initial shift zero and a positive definite matrix every local factor belongs to the unshifted local matrix. -/
theorem buildLocal_unshifted {junk A : ℕ → ℕ → ℝ} {growth : ℝ} {attempts : ℤ} {expand : List ℕ → List ℕ} {n : ℕ}
    (hA : ∀ i j, A i j = A j i) (hpd : (toMat n A).PosDef) : ∀ blocks : List (List ℕ),
      (∀ b ∈ blocks, (expand b).Nodup ∧ ∀ i ∈ expand b, i < n) →
      ∃ models, buildLocal junk A 0 growth attempts expand blocks = .ok models
        ∧ ∀ m ∈ models, IsFactor m.indices.length m.factor (localMatrix A m.indices) := by
  intro blocks
  induction blocks with
  | nil => intro _; exact ⟨[], rfl, by simp⟩
  | cons b rest ih =>
    intro hb
    obtain ⟨tail, ht, htf⟩ := ih (fun b' h' => hb b' (List.mem_cons_of_mem _ h'))
    obtain ⟨hbn, hbl⟩ := hb b List.mem_cons_self
    obtain ⟨F, hF, hfac⟩ := C23_unshifted_first junk (expand b).length (localMatrix A (expand b)) growth attempts
      (fun i _ j _ => hA _ _) (localMatrix_posDef hpd hbn hbl)
    refine ⟨⟨expand b, F⟩ :: tail, ?_, ?_⟩
    · simp only [buildLocal, bind, Except.bind, hF, ht]
    · intro m hm
      rcases List.mem_cons.1 hm with rfl | hm
      · exact hfac
      · exact htf m hm

/-- Row `i` of `A` times the operator, when all other blocks hold no column with an entry in that row. -/
theorem row_solves {n : ℕ} {A : ℕ → ℕ → ℝ} {models : List LocalModel} (hs : SoundModels n models)
    (hF : ∀ m ∈ models, IsFactor m.indices.length m.factor (localMatrix A m.indices)) (x : ℕ → ℝ) {i : ℕ}
    {pre post : List LocalModel} {m : LocalModel} (hsplit : models = pre ++ m :: post) (hi : i ∈ m.indices)
    (hz : ∀ m' ∈ pre ++ post, ∀ j ∈ m'.indices, A i j = 0) :
    ∑ j ∈ range n, A i j * blockMatvec models x j = x i := by
  rw [row_operator A x models hs]
  have hm : m ∈ models := by rw [hsplit]; simp
  have h0 : ∀ m' ∈ pre ++ post, ∑ p ∈ range m'.indices.length,
      A i (m'.indices.getD p 0) * cholSolve m'.indices.length m'.factor (gather x m'.indices) p = 0 := by
    intro m' hm'
    refine Finset.sum_eq_zero fun p hp => ?_
    rw [Finset.mem_range] at hp
    rw [hz m' hm' _ (by rw [List.getD_eq_getElem _ _ hp]; exact List.getElem_mem _), zero_mul]
  have hpre : (pre.map fun m' => ∑ p ∈ range m'.indices.length,
      A i (m'.indices.getD p 0) * cholSolve m'.indices.length m'.factor (gather x m'.indices) p).sum = 0 := by
    refine List.sum_eq_zero fun t ht => ?_
    obtain ⟨m', hm', rfl⟩ := List.mem_map.1 ht
    exact h0 m' (List.mem_append_left _ hm')
  have hpost : (post.map fun m' => ∑ p ∈ range m'.indices.length,
      A i (m'.indices.getD p 0) * cholSolve m'.indices.length m'.factor (gather x m'.indices) p).sum = 0 := by
    refine List.sum_eq_zero fun t ht => ?_
    obtain ⟨m', hm', rfl⟩ := List.mem_map.1 ht
    exact h0 m' (List.mem_append_right _ hm')
  rw [hsplit, List.map_append, List.sum_append, hpre, List.map_cons, List.sum_cons, hpost, zero_add, add_zero]
  exact local_solves (hF m hm) x hi

/-- Separated blocks: if the matrix has no entry between two different blocks of a partition, and every local model covers
the same indices as its block, the operator solves the whole system. -/
theorem separated_solves {n : ℕ} {A : ℕ → ℕ → ℝ} {blocks : List (List ℕ)} {models : List LocalModel}
    (hperm : blocks.flatten.Perm (List.range n))
    (hsep : ∀ b ∈ blocks, ∀ b' ∈ blocks, ∀ i ∈ b, ∀ j ∈ b', A i j ≠ 0 → b = b')
    (hs : SoundModels n models) (hF : ∀ m ∈ models, IsFactor m.indices.length m.factor (localMatrix A m.indices))
    {expand : List ℕ → List ℕ} (hm : models.map LocalModel.indices = blocks.map expand)
    (hexp : ∀ b ∈ blocks, ∀ i, i ∈ expand b ↔ i ∈ b) : Solves n A (blockMatvec models) := by
  intro x i hi
  have hnd : blocks.flatten.Nodup := hperm.nodup_iff.2 List.nodup_range
  obtain ⟨b, hb, hib⟩ := List.mem_flatten.1 (hperm.mem_iff.2 (List.mem_range.2 hi))
  obtain ⟨B1, B2, hB⟩ := List.append_of_mem hb
  rw [hB, List.map_append, List.map_cons] at hm
  obtain ⟨pre, rest, hmod, hpre, hrest⟩ := List.map_eq_append_iff.1 hm
  obtain ⟨m, post, hrest', hmi, hpost⟩ := List.map_eq_cons_iff.1 hrest
  subst hrest'
  refine row_solves hs hF x hmod (by rw [hmi]; exact (hexp b hb i).2 hib) ?_
  intro m' hm' j hj
  have hother : ∃ b' ∈ B1 ++ B2, j ∈ b' := by
    rcases List.mem_append.1 hm' with h | h
    · have : m'.indices ∈ B1.map expand := by rw [← hpre]; exact List.mem_map_of_mem (f := LocalModel.indices) h
      obtain ⟨b', hb', he⟩ := List.mem_map.1 this
      refine ⟨b', List.mem_append_left _ hb', ?_⟩
      rw [← he] at hj
      exact (hexp b' (by rw [hB]; exact List.mem_append_left _ hb') j).1 hj
    · have : m'.indices ∈ B2.map expand := by rw [← hpost]; exact List.mem_map_of_mem (f := LocalModel.indices) h
      obtain ⟨b', hb', he⟩ := List.mem_map.1 this
      refine ⟨b', List.mem_append_right _ hb', ?_⟩
      rw [← he] at hj
      exact (hexp b' (by rw [hB]; exact List.mem_append_right _ (List.mem_cons_of_mem _ hb')) j).1 hj
  obtain ⟨b', hb', hjb⟩ := hother
  by_contra hne
  have hb'' : b' ∈ blocks := by
    rw [hB]
    rcases List.mem_append.1 hb' with h | h
    · exact List.mem_append_left _ h
    · exact List.mem_append_right _ (List.mem_cons_of_mem _ h)
  have heq := hsep b hb b' hb'' i hib j hjb hne
  subst heq
  rw [hB] at hnd
  have hnd' : (b ++ (B1 ++ B2).flatten).Nodup := by
    refine (List.Perm.nodup_iff ?_).1 hnd
    rw [List.flatten_append, List.flatten_cons, List.flatten_append, ← List.append_assoc, ← List.append_assoc]
    exact List.Perm.append_right _ List.perm_append_comm
  rw [List.nodup_append] at hnd'
  exact hnd'.2.2 i hib i (List.mem_flatten.2 ⟨b, hb', hib⟩) rfl

theorem map_indices_mem {models : List LocalModel} {blocks : List (List ℕ)} {expand : List ℕ → List ℕ}
    (h : models.map LocalModel.indices = blocks.map expand) {m : LocalModel} (hm : m ∈ models) :
    ∃ b ∈ blocks, expand b = m.indices := by
  have : m.indices ∈ blocks.map expand := by rw [← h]; exact List.mem_map_of_mem (f := LocalModel.indices) hm
  exact List.mem_map.1 this

/-! ### C160 -/

/-- C160: block Jacobi with initial shift zero on a symmetric positive definite matrix that has no entry between two
different blocks is always built and solves the system exactly, whatever the block size. -/
theorem C160_separated_exact (junk KV : ℕ → ℕ → ℝ) (adj : ℕ → List ℕ) (n : ℕ) (bs attempts : ℤ) (growth : ℝ)
    (hadj : ∀ i < n, ∀ j ∈ adj i, j < n) (hKV : ∀ i j, KV i j = KV j i) (hpd : (toMat n KV).PosDef)
    (hsep : ∀ b ∈ graphBlocks adj n bs, ∀ b' ∈ graphBlocks adj n bs, ∀ i ∈ b, ∀ j ∈ b', KV i j ≠ 0 → b = b') :
    ∃ models, blockJacobi junk KV adj n bs 0 growth attempts = .ok models ∧ Solves n KV (blockMatvec models) := by
  have hsy := symmetrize_of_symm hKV
  obtain ⟨models, h, hF⟩ := C20_block_jacobi_builds junk KV adj n bs attempts growth hadj (by rwa [hsy])
  rw [hsy] at hF
  refine ⟨models, h, ?_⟩
  exact separated_solves (C18_blocks_partition adj n bs hadj) hsep (blockJacobi_sound hadj h).1 hF
    (expand := id) (buildLocal_ok (fun i j => symmetrize_symm KV i j) _ _ h).1 (by simp)

/-- The converse: an exact operator of unshifted local models on a partition shows that the blocks are separated. -/
theorem solves_separated {n : ℕ} {A : ℕ → ℕ → ℝ} {blocks : List (List ℕ)} {models : List LocalModel}
    (hperm : blocks.flatten.Perm (List.range n)) (hs : SoundModels n models)
    (hF : ∀ m ∈ models, IsFactor m.indices.length m.factor (localMatrix A m.indices))
    (hm : models.map LocalModel.indices = blocks) (hex : Solves n A (blockMatvec models)) :
    ∀ b ∈ blocks, ∀ b' ∈ blocks, ∀ i ∈ b, ∀ j ∈ b', A i j ≠ 0 → b = b' := by
  intro b hb b' hb' i hi j hj hne
  by_contra hbb
  have hnd : blocks.flatten.Nodup := hperm.nodup_iff.2 List.nodup_range
  have hin : i < n := List.mem_range.1 (hperm.mem_iff.1 (List.mem_flatten.2 ⟨b, hb, hi⟩))
  obtain ⟨B1, B2, hB⟩ := List.append_of_mem hb'
  have hnd' : (b' ++ (B1 ++ B2).flatten).Nodup := by
    rw [hB] at hnd
    refine (List.Perm.nodup_iff ?_).1 hnd
    rw [List.flatten_append, List.flatten_cons, List.flatten_append, ← List.append_assoc, ← List.append_assoc]
    exact List.Perm.append_right _ List.perm_append_comm
  rw [List.nodup_append] at hnd'
  have hib' : i ∉ b' := by
    intro h
    have : b ∈ B1 ++ B2 := by
      rw [hB, List.mem_append, List.mem_cons] at hb
      rcases hb with h1 | h1 | h1
      · exact List.mem_append_left _ h1
      · exact absurd h1 hbb
      · exact List.mem_append_right _ h1
    exact hnd'.2.2 i h i (List.mem_flatten.2 ⟨b, this, hi⟩) rfl
  rw [hB] at hm
  obtain ⟨pre, rest, hmod, hpre, hrest⟩ := List.map_eq_append_iff.1 hm
  obtain ⟨m, post, hrest', hmi, hpost⟩ := List.map_eq_cons_iff.1 hrest
  subst hrest'
  set x : ℕ → ℝ := fun l => if l ∈ b' then A l j else 0 with hx
  have hrow := hex x i hin
  rw [row_operator A x models hs, hmod, List.map_append, List.sum_append, List.map_cons, List.sum_cons] at hrow
  have h0 : ∀ m' ∈ pre ++ post, ∑ p ∈ range m'.indices.length,
      A i (m'.indices.getD p 0) * cholSolve m'.indices.length m'.factor (gather x m'.indices) p = 0 := by
    intro m' hm'
    have hm'' : m' ∈ models := by
      rw [hmod]
      rcases List.mem_append.1 hm' with h | h
      · exact List.mem_append_left _ h
      · exact List.mem_append_right _ (List.mem_cons_of_mem _ h)
    have hblk : m'.indices ∈ B1 ++ B2 := by
      rcases List.mem_append.1 hm' with h | h
      · exact List.mem_append_left _ (by rw [← hpre]; exact List.mem_map_of_mem (f := LocalModel.indices) h)
      · exact List.mem_append_right _ (by rw [← hpost]; exact List.mem_map_of_mem (f := LocalModel.indices) h)
    have hz := C16_solve_unique _ _ _ (hF m' hm'') (gather x m'.indices) (fun _ => 0) (by
      intro q hq
      rw [Finset.sum_eq_zero fun _ _ => mul_zero _]
      unfold gather
      rw [List.getD_eq_getElem _ _ hq, hx]
      simp only
      rw [if_neg]
      intro h
      exact hnd'.2.2 _ h _ (List.mem_flatten.2 ⟨_, hblk, List.getElem_mem _⟩) rfl)
    refine Finset.sum_eq_zero fun p hp => ?_
    rw [← hz p (Finset.mem_range.1 hp), mul_zero]
  have hmm : m ∈ models := by rw [hmod]; simp
  have hu := C16_solve_unique _ _ _ (hF m hmm) (gather x m.indices) (fun p => if m.indices.getD p 0 = j then 1 else 0) (by
    intro q hq
    obtain ⟨r, hr, hrj⟩ := List.getElem_of_mem (show j ∈ m.indices by rw [hmi]; exact hj)
    rw [Finset.sum_eq_single r]
    · rw [List.getD_eq_getElem _ _ hr, if_pos hrj, mul_one]
      unfold localMatrix gather
      rw [List.getD_eq_getElem _ _ hr, List.getD_eq_getElem _ _ hq, hrj, hx]
      simp only
      rw [if_pos]
      rw [← hmi]; exact List.getElem_mem _
    · intro p hp hpr
      rw [Finset.mem_range] at hp
      rw [List.getD_eq_getElem _ _ hp, if_neg, mul_zero]
      intro h
      rw [← hrj] at h
      exact hpr ((List.Nodup.getElem_inj_iff (hs m hmm).1).1 h)
    · intro h; exact absurd (Finset.mem_range.2 hr) h)
  have hmain : ∑ p ∈ range m.indices.length,
      A i (m.indices.getD p 0) * cholSolve m.indices.length m.factor (gather x m.indices) p = A i j := by
    obtain ⟨r, hr, hrj⟩ := List.getElem_of_mem (show j ∈ m.indices by rw [hmi]; exact hj)
    rw [Finset.sum_eq_single r]
    · rw [← hu r hr, List.getD_eq_getElem _ _ hr, if_pos hrj, hrj, mul_one]
    · intro p hp hpr
      rw [Finset.mem_range] at hp
      rw [← hu p hp, List.getD_eq_getElem _ _ hp, if_neg, mul_zero]
      intro h
      rw [← hrj] at h
      exact hpr ((List.Nodup.getElem_inj_iff (hs m hmm).1).1 h)
    · intro h; exact absurd (Finset.mem_range.2 hr) h
  have hpre0 : (pre.map fun m' => ∑ p ∈ range m'.indices.length,
      A i (m'.indices.getD p 0) * cholSolve m'.indices.length m'.factor (gather x m'.indices) p).sum = 0 := by
    refine List.sum_eq_zero fun t ht => ?_
    obtain ⟨m', hm', rfl⟩ := List.mem_map.1 ht
    exact h0 m' (List.mem_append_left _ hm')
  have hpost0 : (post.map fun m' => ∑ p ∈ range m'.indices.length,
      A i (m'.indices.getD p 0) * cholSolve m'.indices.length m'.factor (gather x m'.indices) p).sum = 0 := by
    refine List.sum_eq_zero fun t ht => ?_
    obtain ⟨m', hm', rfl⟩ := List.mem_map.1 ht
    exact h0 m' (List.mem_append_right _ hm')
  rw [hpre0, hmain, hpost0, hx] at hrow
  simp only [if_neg hib', zero_add, add_zero] at hrow
  exact hne hrow

/-- C160: separation is also necessary: an unshifted block-Jacobi preconditioner of a positive definite matrix is exact if
and only if the matrix has no entry between two different blocks. -/
theorem C160_exact_iff_separated (junk KV : ℕ → ℕ → ℝ) (adj : ℕ → List ℕ) (n : ℕ) (bs attempts : ℤ) (growth : ℝ)
    (hadj : ∀ i < n, ∀ j ∈ adj i, j < n) (hKV : ∀ i j, KV i j = KV j i) (hpd : (toMat n KV).PosDef)
    (models : List LocalModel) (h : blockJacobi junk KV adj n bs 0 growth attempts = .ok models) :
    Solves n KV (blockMatvec models) ↔
      ∀ b ∈ graphBlocks adj n bs, ∀ b' ∈ graphBlocks adj n bs, ∀ i ∈ b, ∀ j ∈ b', KV i j ≠ 0 → b = b' := by
  have hsy := symmetrize_of_symm hKV
  obtain ⟨models', h', hF⟩ := C20_block_jacobi_builds junk KV adj n bs attempts growth hadj (by rwa [hsy])
  rw [hsy] at hF
  rw [h] at h'
  simp only [Except.ok.injEq] at h'
  subst h'
  constructor
  · intro hex
    have hmap := (buildLocal_ok (fun i j => symmetrize_symm KV i j) _ _ h).1
    rw [List.map_id] at hmap
    exact solves_separated (C18_blocks_partition adj n bs hadj) (blockJacobi_sound hadj h).1 hF hmap hex
  · intro hsep
    obtain ⟨models', h', hs⟩ := C160_separated_exact junk KV adj n bs attempts growth hadj hKV hpd hsep
    rw [h] at h'
    simp only [Except.ok.injEq] at h'
    subst h'
    exact hs

/-- C160: a block limit that cuts a chain of coupled points costs exactness: with neighbouring points coupled and a block size
below the number of points, block Jacobi never solves the system. -/
theorem C160_cut_inexact (junk KV : ℕ → ℕ → ℝ) (adj : ℕ → List ℕ) (n : ℕ) (bs attempts : ℤ) (growth : ℝ)
    (hadj : ∀ i < n, ∀ j ∈ adj i, j < n) (hKV : ∀ i j, KV i j = KV j i) (hpd : (toMat n KV).PosDef)
    (hchain : ∀ i, i + 1 < n → KV i (i + 1) ≠ 0) (hn : 1 < n) (hbs : bs < n) :
    ∃ models, blockJacobi junk KV adj n bs 0 growth attempts = .ok models ∧ ¬ Solves n KV (blockMatvec models) := by
  obtain ⟨models, h, -⟩ := C20_block_jacobi_builds junk KV adj n bs attempts growth hadj (by rwa [symmetrize_of_symm hKV])
  refine ⟨models, h, ?_⟩
  rw [C160_exact_iff_separated junk KV adj n bs attempts growth hadj hKV hpd models h]
  intro hsep
  have hperm := C18_blocks_partition adj n bs hadj
  obtain ⟨b, hb, h0⟩ := List.mem_flatten.1 (hperm.mem_iff.2 (List.mem_range.2 (show 0 < n by omega)))
  have hall : ∀ i, i < n → i ∈ b := by
    intro i
    induction i with
    | zero => intro _; exact h0
    | succ i ih =>
      intro hi
      obtain ⟨b', hb', hib⟩ := List.mem_flatten.1 (hperm.mem_iff.2 (List.mem_range.2 hi))
      rw [hsep b hb b' hb' i (ih (by omega)) (i + 1) hib (hchain i hi)]
      exact hib
  have hlen : n ≤ b.length := by
    have := (List.subperm_of_subset List.nodup_range (fun i hi => hall i (List.mem_range.1 hi))).length_le
    simpa using this
  have := C18_block_sizes adj n bs hadj b hb
  omega

/-- C160: in particular when the block size exceeds the number of points: the blocks are then unions of whole connected
pieces of the sparsity pattern. -/
theorem C160_components_exact (junk KV : ℕ → ℕ → ℝ) (adj : ℕ → List ℕ) (n : ℕ) (bs attempts : ℤ) (growth : ℝ)
    (hadj : ∀ i < n, ∀ j ∈ adj i, j < n) (hsym : ∀ i j, j ∈ adj i → i ∈ adj j) (hpat : ∀ i j, KV i j ≠ 0 → j ∈ adj i)
    (hbs : (n : ℤ) < bs) (hKV : ∀ i j, KV i j = KV j i) (hpd : (toMat n KV).PosDef) :
    ∃ models, blockJacobi junk KV adj n bs 0 growth attempts = .ok models ∧ Solves n KV (blockMatvec models) :=
  C160_separated_exact junk KV adj n bs attempts growth hadj hKV hpd fun b hb b' hb' i hi j hj hne =>
    C18_blocks_separate adj n bs hadj hsym hbs b b' hb hb' i j hi hj (hpat i j hne)

theorem within_block {adj : ℕ → List ℕ} {n : ℕ} {bs : ℤ} (hadj : ∀ i < n, ∀ j ∈ adj i, j < n)
    (hsym : ∀ i j, j ∈ adj i → i ∈ adj j) (hbs : (n : ℤ) < bs) {b : List ℕ} (hb : b ∈ graphBlocks adj n bs) {k y z : ℕ}
    (hy : y ∈ b) (h : Within adj k y z) : z ∈ b := by
  induction h with
  | refl => exact hy
  | @step k y j z hj hl ih =>
    have hjb := ih hy
    have hperm := C18_blocks_partition adj n bs hadj
    have hjn : j < n := List.mem_range.1 (hperm.mem_iff.1 (List.mem_flatten.2 ⟨b, hb, hjb⟩))
    obtain ⟨b', hb', hzb⟩ := List.mem_flatten.1 (hperm.mem_iff.2 (List.mem_range.2 (hadj j hjn z hl)))
    have := C18_blocks_separate adj n bs hadj hsym hbs b b' hb hb' j z hjb hzb hl
    rwa [this]

/-- C160: the same for additive Schwarz with any overlap, whatever order Python iterates its sets in. -/
theorem C160_schwarz_exact (junk KV : ℕ → ℕ → ℝ) (adj : ℕ → List ℕ) (order : Finset ℕ → List ℕ) (n : ℕ)
    (bs ov attempts : ℤ) (growth : ℝ) (hadj : ∀ i < n, ∀ j ∈ adj i, j < n) (hsym : ∀ i j, j ∈ adj i → i ∈ adj j)
    (hpat : ∀ i j, KV i j ≠ 0 → j ∈ adj i) (horder : ∀ s x, x ∈ order s ↔ x ∈ s) (hbs : (n : ℤ) < bs)
    (hKV : ∀ i j, KV i j = KV j i) (hpd : (toMat n KV).PosDef) :
    ∃ models, additiveSchwarz junk KV adj order n bs ov 0 growth attempts = .ok models ∧
      Solves n KV (blockMatvec models) := by
  have hsy := symmetrize_of_symm hKV
  have hperm := C18_blocks_partition adj n bs hadj
  have hexp : ∀ b ∈ graphBlocks adj n bs, ∀ i, i ∈ expandOverlap adj order b ov ↔ i ∈ b := by
    intro b hb i
    rw [C19_overlap_is_neighbourhood adj order horder]
    constructor
    · rintro ⟨y, hy, h⟩
      exact within_block hadj hsym hbs hb hy h
    · intro h; exact ⟨i, h, Within.refl _ _⟩
  obtain ⟨models, h, hF⟩ := buildLocal_unshifted (junk := junk) (growth := growth) (attempts := attempts)
    (expand := fun b => expandOverlap adj order b ov) hKV hpd (graphBlocks adj n bs) (by
      intro b hb
      refine ⟨(C19_overlap_sorted adj order b ov).imp fun h => h.ne, fun i hi => ?_⟩
      exact List.mem_range.1 (hperm.mem_iff.1 (List.mem_flatten.2 ⟨b, hb, (hexp b hb i).1 hi⟩)))
  have h' : additiveSchwarz junk KV adj order n bs ov 0 growth attempts = .ok models := by
    unfold additiveSchwarz
    rw [hsy]
    exact h
  refine ⟨models, h', ?_⟩
  exact separated_solves hperm (fun b hb b' hb' i hi j hj hne =>
      C18_blocks_separate adj n bs hadj hsym hbs b b' hb hb' i j hi hj (hpat i j hne))
    (schwarz_sound hadj horder h').1 hF (buildLocal_ok hKV _ _ h).1 hexp

/-- C160: when the overlap makes every block the whole index set, the operator is the inverse counted once per block. -/
theorem C160_whole_overlap (junk KV : ℕ → ℕ → ℝ) (adj : ℕ → List ℕ) (order : Finset ℕ → List ℕ) (n : ℕ)
    (bs ov attempts : ℤ) (growth : ℝ) (hadj : ∀ i < n, ∀ j ∈ adj i, j < n) (horder : ∀ s x, x ∈ order s ↔ x ∈ s)
    (hall : ∀ b ∈ graphBlocks adj n bs, ∀ i < n, ∃ y ∈ b, Within adj ov.toNat y i)
    (hKV : ∀ i j, KV i j = KV j i) (hpd : (toMat n KV).PosDef) :
    ∃ models, additiveSchwarz junk KV adj order n bs ov 0 growth attempts = .ok models ∧
      ∀ x, ∀ i < n, ∑ j ∈ range n, KV i j * blockMatvec models x j = (graphBlocks adj n bs).length * x i := by
  have hsy := symmetrize_of_symm hKV
  have hperm := C18_blocks_partition adj n bs hadj
  have hlt : ∀ b ∈ graphBlocks adj n bs, ∀ i ∈ expandOverlap adj order b ov, i < n := by
    intro b hb i hi
    rw [C19_overlap_is_neighbourhood adj order horder] at hi
    obtain ⟨y, hy, h⟩ := hi
    exact within_lt hadj (List.mem_range.1 (hperm.mem_iff.1 (List.mem_flatten.2 ⟨b, hb, hy⟩))) h
  obtain ⟨models, h, hF⟩ := buildLocal_unshifted (junk := junk) (growth := growth) (attempts := attempts)
    (expand := fun b => expandOverlap adj order b ov) hKV hpd (graphBlocks adj n bs) (fun b hb =>
      ⟨(C19_overlap_sorted adj order b ov).imp fun h => h.ne, hlt b hb⟩)
  have h' : additiveSchwarz junk KV adj order n bs ov 0 growth attempts = .ok models := by
    unfold additiveSchwarz
    rw [hsy]
    exact h
  refine ⟨models, h', fun x i hi => ?_⟩
  have hmap := (buildLocal_ok hKV _ _ h).1
  rw [row_operator KV x models (schwarz_sound hadj horder h').1]
  have hc : ∀ m ∈ models, ∑ p ∈ range m.indices.length,
      KV i (m.indices.getD p 0) * cholSolve m.indices.length m.factor (gather x m.indices) p = x i := by
    intro m hm
    obtain ⟨b, hb, he⟩ := map_indices_mem hmap hm
    refine local_solves (hF m hm) x ?_
    rw [← he, C19_overlap_is_neighbourhood adj order horder]
    exact hall b hb i hi
  rw [List.map_congr_left (g := fun _ => x i) hc]
  have hlen : models.length = (graphBlocks adj n bs).length := by
    have := congrArg List.length hmap
    simpa using this
  rw [List.map_const', List.sum_replicate, hlen, nsmul_eq_mul]

/-- The lower triangle stored in `lower` is that of `A`: entries of the matrix, the diagonal present, zeros elsewhere. -/
def StoresLower (lower : ℕ → List (ℕ × ℝ)) (A : ℕ → ℕ → ℝ) (n : ℕ) : Prop :=
  ∀ i < n, (∀ e ∈ lower i, e.2 = A i e.1) ∧ ∀ j ≤ i, j ∉ (lower i).map Prod.fst → j < i ∧ A i j = 0

/-- The stored pattern is closed under elimination: two entries of a column imply the entry that couples their rows. -/
def NoFill (lower : ℕ → List (ℕ × ℝ)) (n : ℕ) : Prop :=
  ∀ i < n, ∀ j < i, ∀ k < j, k ∈ (lower i).map Prod.fst → k ∈ (lower j).map Prod.fst → j ∈ (lower i).map Prod.fst

theorem ic_isFactor {A : ℕ → ℕ → ℝ} (hA : ∀ i j, A i j = A j i) {lower : ℕ → List (ℕ × ℝ)} {n : ℕ}
    {base growth : ℝ} {attempts : ℤ} {rows : ℕ → List (ℕ × ℝ)} {diag : ℕ → ℝ} {s : ℝ} (hl : LowerRows lower n)
    (hst : StoresLower lower A n) (hclosed : NoFill lower n) (h : ic0 lower n base growth attempts = .ok ((rows, diag), s)) :
    IsFactor n (icFactor rows diag) (fun i j => A i j + if i = j then s else 0) := by
  have hfill := C24_no_fill_in lower n base growth attempts rows diag s hl h
  have key : ∀ i < n, ∀ j ≤ i, ∑ k ∈ range n, low (icFactor rows diag) i k * low (icFactor rows diag) j k
      = A i j + if i = j then s else 0 := by
    intro i hi j hji
    have hlow : ∑ k ∈ range n, low (icFactor rows diag) i k * low (icFactor rows diag) j k
        = ∑ k ∈ range n, icFactor rows diag i k * icFactor rows diag j k :=
      Finset.sum_congr rfl fun k _ => by rw [icFactor_low, icFactor_low]
    rw [hlow]
    by_cases hj : j ∈ (lower i).map Prod.fst
    · obtain ⟨⟨j', v⟩, he, rfl⟩ := List.mem_map.1 hj
      rw [C24_reproduces_on_pattern lower n base growth attempts rows diag s hl h i hi j' v he]
      rw [show v = A i j' from (hst i hi).1 _ he]
    · obtain ⟨hlt, h0⟩ := (hst i hi).2 j hji hj
      rw [h0, if_neg (by omega), add_zero]
      refine Finset.sum_eq_zero fun k _ => ?_
      by_contra hne
      have h1 := left_ne_zero_of_mul hne
      have h2 := right_ne_zero_of_mul hne
      rcases (hfill i hi).2 k h1 with rfl | ⟨hki, hkm⟩
      · rcases (hfill j (by omega)).2 k h2 with h3 | ⟨h3, _⟩ <;> omega
      · rcases (hfill j (by omega)).2 k h2 with rfl | ⟨hkj, hkm'⟩
        · exact hj hkm
        · exact hj (hclosed i hi j hlt k hkj hkm hkm')
  refine ⟨fun i hi => (hfill i hi).1, ?_⟩
  intro i hi j hj
  rcases le_total j i with hji | hij
  · exact key i hi j hji
  · have := key j hj i hij
    simp only
    rw [hA i j, show (if i = j then s else 0) = if j = i then s else 0 by simp [eq_comm], ← this]
    exact Finset.sum_congr rfl fun k _ => mul_comm _ _

/-- C160: incomplete Cholesky on a pattern closed under elimination drops nothing: whatever the matrix and the shift
settings, its operator solves the system with the shift that was used. -/
theorem C160_incomplete_cholesky_exact (A : ℕ → ℕ → ℝ) (hA : ∀ i j, A i j = A j i) (lower : ℕ → List (ℕ × ℝ)) (n : ℕ)
    (base growth : ℝ) (attempts : ℤ) (rows : ℕ → List (ℕ × ℝ)) (diag : ℕ → ℝ) (s : ℝ) (hl : LowerRows lower n)
    (hst : StoresLower lower A n) (hclosed : NoFill lower n)
    (h : ic0 lower n base growth attempts = .ok ((rows, diag), s)) :
    Solves n (fun i j => A i j + if i = j then s else 0) (cholSolve n (icFactor rows diag)) := by
  intro x i hi
  exact C16_solve_exact n _ _ (ic_isFactor hA hl hst hclosed h) x i hi

/-- What the loop over the stored columns of a row computes, before the test of the pivot. -/
theorem icComputed_spec {rows : ℕ → List (ℕ × ℝ)} {diag : ℕ → ℝ} {i : ℕ} {row r : List (ℕ × ℝ)}
    (hn : (row.map Prod.fst).Nodup)
    (hrows : ∀ j < i, ((rows j).map Prod.fst).Nodup ∧ (∀ e ∈ rows j, e.1 < j) ∧ 0 < diag j)
    (hr : r = icRowLoop rows diag ((icOriginal i row).mergeSort (fun a b => decide (a.1 ≤ b.1))) []) :
    (r.map fun e => e.2 * e.2).sum = ∑ k ∈ range i, dget r k * dget r k ∧
      (∀ k, k ∉ row.map Prod.fst → dget r k = 0) ∧
      ∀ j v, (j, v) ∈ row → j < i → ∑ k ∈ range j, dget r k * dget (rows j) k + dget r j * diag j = v := by
  rw [icOriginal_eq hn] at hr
  set l := (row.filter fun e => decide (e.1 < i)).mergeSort (fun a b => decide (a.1 ≤ b.1)) with hl
  have hperm : l.Perm (row.filter fun e => decide (e.1 < i)) := List.mergeSort_perm _ _
  have hmeml : ∀ e, e ∈ l ↔ e ∈ row ∧ e.1 < i := by
    intro e; rw [hperm.mem_iff, List.mem_filter]; simp
  have hsort : (l.map Prod.fst).Pairwise (· < ·) := by
    have h1 : l.Pairwise (fun a b => a.1 ≤ b.1) := by
      have := List.pairwise_mergeSort (le := fun a b : ℕ × ℝ => decide (a.1 ≤ b.1))
        (fun a b c h1 h2 => by simp at *; omega) (fun a b => by simp; omega)
        (row.filter fun e => decide (e.1 < i))
      exact this.imp (fun h => by simpa using h)
    have h2 : (l.map Prod.fst).Nodup :=
      ((hperm.map Prod.fst).nodup_iff).2 (hn.sublist (List.filter_sublist.map _))
    rw [List.pairwise_map]
    have h3 : l.Pairwise (fun a b => a.1 ≠ b.1) := by
      rw [List.Nodup, List.pairwise_map] at h2; exact h2
    exact h1.imp₂ (fun a b h h' => lt_of_le_of_ne h h') h3
  obtain ⟨s1, _, s3⟩ := icRowLoop_spec (rows := rows) (diag := diag) l [] (by simpa using hsort)
    (fun e he => by
      obtain ⟨a, b, c⟩ := hrows e.1 ((hmeml e).1 he).2
      exact ⟨a, b, c.ne'⟩)
  rw [List.nil_append, ← hr] at s1
  rw [← hr] at s3
  have hrn : (r.map Prod.fst).Nodup := by
    rw [s1]; exact hsort.imp (fun h => Nat.ne_of_lt h)
  have hri : ∀ e ∈ r, e.1 < i := by
    intro e he
    have : e.1 ∈ l.map Prod.fst := by rw [← s1]; exact List.mem_map_of_mem (f := Prod.fst) he
    obtain ⟨e', he', hee⟩ := List.mem_map.1 this
    rw [← hee]; exact ((hmeml e').1 he').2
  refine ⟨?_, ?_, fun j v hjv hji => s3 (j, v) ((hmeml (j, v)).2 ⟨hjv, hji⟩)⟩
  · rw [← sum_dict hrn hri (fun k => dget r k)]
    congr 1
    apply List.map_congr_left
    intro e he
    rw [dget_mem hrn (show (e.1, e.2) ∈ r from he)]
  · intro k hk
    refine dget_notMem fun hm => hk ?_
    rw [s1] at hm
    obtain ⟨e, he, rfl⟩ := List.mem_map.1 hm
    exact List.mem_map_of_mem (f := Prod.fst) ((hmeml e).1 he).1

theorem icDiag_some {row : List (ℕ × ℝ)} {i : ℕ} (h : i ∈ row.map Prod.fst) : ∃ v, icDiag i row = some v := by
  have key : ∀ (l : List (ℕ × ℝ)) (d : Option ℝ), (i ∈ l.map Prod.fst ∨ d.isSome) →
      (l.foldl (fun d e => if e.1 < i then d else if e.1 = i then some e.2 else d) d).isSome := by
    intro l
    induction l with
    | nil => intro d h; simpa using h
    | cons e l ih =>
      intro d h
      rw [List.foldl_cons]
      apply ih
      rcases h with h | h
      · rw [List.map_cons, List.mem_cons] at h
        rcases h with h | h
        · right; simp [h]
        · exact Or.inl h
      · right
        split
        · exact h
        · split
          · rfl
          · exact h
  exact Option.isSome_iff_exists.1 (key row none (Or.inl h))

theorem icRows_builds {A : ℕ → ℕ → ℝ} (hA : ∀ i j, A i j = A j i) {lower : ℕ → List (ℕ × ℝ)} {n : ℕ}
    (hl : LowerRows lower n) (hst : StoresLower lower A n) (hclosed : NoFill lower n) (hpd : (toMat n A).PosDef) :
    ∀ m ≤ n, ∃ F, icRows lower m = .ok F := by
  intro m
  induction m with
  | zero => intro _; exact ⟨_, rfl⟩
  | succ m ih =>
    intro hm
    obtain ⟨⟨rows, diag⟩, hprev⟩ := ih (by omega)
    have hl' : LowerRows lower m := fun i hi => hl i (by omega)
    have h0 : ic0 lower m 0 1 1 = .ok ((rows, diag), 0) := by
      refine (retry_ok_iff _ _ _ _ _ _).2 ⟨0, by norm_num, by simp, ?_, by simp⟩
      have : icShiftRow lower 0 = lower := by funext i; simp [icShiftRow]
      rw [this, hprev]
    have hF := ic_isFactor hA hl' (fun i hi => hst i (by omega)) (fun i hi => hclosed i (by omega)) h0
    have hfill := C24_no_fill_in lower m 0 1 1 rows diag 0 hl' h0
    have hF' : IsFactor m (icFactor rows diag) A := by
      have e : (fun i j => A i j + if i = j then (0 : ℝ) else 0) = A := by funext i j; simp
      rwa [e] at hF
    have hsp := icRows_spec m rows diag hl' hprev
    have hdiag : m ∈ (lower m).map Prod.fst := by
      by_contra hc
      exact absurd ((hst m (by omega)).2 m le_rfl hc).1 (lt_irrefl _)
    obtain ⟨dv, hdv⟩ := icDiag_some hdiag
    have hdvA : dv = A m m := (hst m (by omega)).1 _ (icDiag_mem hdv)
    obtain ⟨r, hr⟩ : ∃ r, r = icRowLoop rows diag ((icOriginal m (lower m)).mergeSort (fun a b => decide (a.1 ≤ b.1))) [] :=
      ⟨_, rfl⟩
    obtain ⟨c1, c2, c3⟩ := icComputed_spec (hl m (by omega)).1
      (fun j hj => ⟨(hsp j hj).1, (hsp j hj).2.1, (hsp j hj).2.2.1⟩) hr
    have hall : ∀ j < m, ∑ k ∈ range j, dget r k * dget (rows j) k + dget r j * diag j = A m j := by
      intro j hj
      by_cases hjm : j ∈ (lower m).map Prod.fst
      · obtain ⟨⟨j', v⟩, he, rfl⟩ := List.mem_map.1 hjm
        rw [c3 j' v he hj]
        exact (hst m (by omega)).1 _ he
      · obtain ⟨_, hz⟩ := (hst m (by omega)).2 j hj.le hjm
        rw [hz, c2 j hjm, zero_mul, add_zero]
        refine Finset.sum_eq_zero fun k hk => ?_
        rw [Finset.mem_range] at hk
        by_cases h1 : k ∈ (lower m).map Prod.fst
        · by_cases h2 : k ∈ (lower j).map Prod.fst
          · exact absurd (hclosed m (by omega) j hj k hk h1 h2) hjm
          · rw [dget_notMem fun h3 => h2 ((hsp j hj).2.2.2.1 k h3), mul_zero]
        · rw [c2 k h1, zero_mul]
    have hsub : ∀ j, j < m → dget r j = fsub (icFactor rows diag) (A m) j := by
      intro j
      induction j using Nat.strong_induction_on with
      | _ j ihj =>
        intro hj
        rw [fsub_eq, show icFactor rows diag j j = diag j by simp [icFactor], ← hall j hj]
        have hd := (hsp j hj).2.2.1.ne'
        rw [eq_div_iff hd]
        have : ∑ k ∈ range j, dget r k * dget (rows j) k
            = ∑ k ∈ range j, icFactor rows diag j k * fsub (icFactor rows diag) (A m) k := by
          refine Finset.sum_congr rfl fun k hk => ?_
          rw [Finset.mem_range] at hk
          rw [ihj k hk (by omega), show icFactor rows diag j k = dget (rows j) k by simp [icFactor, hk], mul_comm]
        rw [this]
        ring
    have hpos : 0 < dv - (r.map fun e => e.2 * e.2).sum := by
      rw [c1, hdvA]
      have hdet := (posDef_leading hpd (show m + 1 ≤ n from hm)).det_pos
      rw [det_grow hF' (fun j _ => hA j m)] at hdet
      have := pos_of_mul_pos_right hdet (sq_nonneg _)
      refine lt_of_lt_of_eq this ?_
      congr 1
      exact Finset.sum_congr rfl fun k hk => by rw [hsub k (Finset.mem_range.1 hk)]
    have hrow : icRow rows diag m (lower m) = .ok (r, Real.sqrt (dv - (r.map fun e => e.2 * e.2).sum)) := by
      unfold icRow
      rw [hdv]
      simp only
      rw [← hr, if_neg (not_le.2 hpos)]
    refine ⟨(Function.update rows m r, Function.update diag m (Real.sqrt (dv - (r.map fun e => e.2 * e.2).sum))), ?_⟩
    rw [icRows, hprev]
    simp only [bind, Except.bind, hrow]

/-- C160: for a positive definite matrix with such a pattern and initial shift zero, incomplete Cholesky always succeeds
at the first attempt, and its operator solves the system itself. -/
theorem C160_incomplete_cholesky_builds (A : ℕ → ℕ → ℝ) (hA : ∀ i j, A i j = A j i) (lower : ℕ → List (ℕ × ℝ)) (n : ℕ)
    (growth : ℝ) (attempts : ℤ) (hl : LowerRows lower n) (hst : StoresLower lower A n) (hclosed : NoFill lower n)
    (hpd : (toMat n A).PosDef) :
    ∃ rows diag, ic0 lower n 0 growth attempts = .ok ((rows, diag), 0) ∧ Solves n A (cholSolve n (icFactor rows diag)) := by
  obtain ⟨⟨rows, diag⟩, hF⟩ := icRows_builds hA hl hst hclosed hpd n le_rfl
  have h : ic0 lower n 0 growth attempts = .ok ((rows, diag), 0) := by
    refine (retry_ok_iff _ _ _ _ _ _).2 ⟨0, by omega, by simp, ?_, by simp⟩
    have : icShiftRow lower 0 = lower := by funext i; simp [icShiftRow]
    rw [this, hF]
  refine ⟨rows, diag, h, ?_⟩
  have := C160_incomplete_cholesky_exact A hA lower n 0 growth attempts rows diag 0 hl hst hclosed h
  have e : (fun i j => A i j + if i = j then (0 : ℝ) else 0) = A := by funext i j; simp
  rwa [e] at this

/-! ### One iteration -/

section OneStep

open Matrix

variable {n k : ℕ}

theorem smallResidual_zero {tol : ℝ} (htol : 0 ≤ tol) (B : Matrix (Fin n) (Fin k) ℝ) : smallResidual tol B 0 := by
  intro j
  have : colNorm (0 : Matrix (Fin n) (Fin k) ℝ) j = 0 := by simp [colNorm]
  rw [this, zero_div]
  exact htol

/-- C160: with a preconditioner that solves the system up to a positive factor, the block solver needs one iteration:
for any limit on the iterations and any starting point it returns the starting point if that is good enough, or the exact
solution of all columns with code 0, or stops at once with code 2 because the residuals are linearly dependent. -/
theorem C160_one_iteration {A N : Matrix (Fin n) (Fin n) ℝ} (hA : A.PosDef) {c : ℝ} (hc : 0 < c) (hAN : A * N = c • 1)
    (cg : (Fin n → ℝ) → Option (Fin n → ℝ) → (Fin n → ℝ) × ℤ) (M : Option ((Fin n → ℝ) → Fin n → ℝ)) (hM : PreIs M N)
    (solve : Matrix (Fin k) (Fin k) ℝ → Matrix (Fin k) (Fin k) ℝ → Option (Matrix (Fin k) (Fin k) ℝ))
    (hsolve : SolveContract solve) (tol : ℝ) (htol : 0 ≤ tol) (B : Matrix (Fin n) (Fin k) ℝ) (hk : 2 ≤ k)
    (x0 : Option (Matrix (Fin n) (Fin k) ℝ)) (maxiter : Option ℤ) :
    ∃ (X : Matrix (Fin n) (Fin k) ℝ) (code : ℤ), blockCG cg A M solve tol B x0 maxiter = .ok (X, code) ∧
      (code = 0 ∧ X = x0.getD 0 ∧ smallResidual tol B (B - A * X) ∨ code = 0 ∧ A * X = B ∨
        code = 2 ∧ X = x0.getD 0 ∧ ¬ LinearIndependent ℝ (B - A * X).col) := by
  by_cases hsm : smallResidual tol B (B - A * x0.getD 0)
  · refine ⟨x0.getD 0, 0, ?_, Or.inl ⟨rfl, rfl, hsm⟩⟩
    unfold blockCG
    rw [dif_neg (by omega), if_neg (by omega)]
    simp only
    rw [if_pos hsm]
  by_cases hdep : LinearIndependent ℝ (B - A * x0.getD 0).col
  swap
  · exact ⟨x0.getD 0, 2, C141_dependent_violated cg M hM solve hsolve tol B hk x0 maxiter hsm hdep, Or.inr (Or.inr ⟨rfl, rfl, hdep⟩)⟩
  refine ⟨x0.getD 0 + N * (B - A * x0.getD 0) * (c⁻¹ • (1 : Matrix (Fin k) (Fin k) ℝ)), 0, ?_, Or.inr (Or.inl ⟨rfl, ?_⟩)⟩
  swap
  · rw [Matrix.mul_add, ← Matrix.mul_assoc, ← Matrix.mul_assoc, hAN, Matrix.mul_smul, Matrix.mul_one, Matrix.smul_mul,
      Matrix.one_mul, smul_smul, inv_mul_cancel₀ hc.ne', one_smul]
    exact add_sub_cancel _ _
  have hu : IsUnit A := hA.isUnit
  have hAs : Aᵀ = A := pd_symm hA
  have hNs : Nᵀ = N := by
    have h1 : Nᵀ * A = c • 1 := by
      have := congrArg Matrix.transpose hAN
      rwa [Matrix.transpose_mul, hAs, Matrix.transpose_smul, Matrix.transpose_one] at this
    have h2 : Nᵀ * (A * N) = (Nᵀ * A) * N := (Matrix.mul_assoc _ _ _).symm
    rw [hAN, h1, Matrix.mul_smul, Matrix.mul_one, Matrix.smul_mul, Matrix.one_mul] at h2
    exact smul_right_injective _ hc.ne' h2
  set R := B - A * x0.getD 0 with hR
  have hinit : cgInit A M B (x0.getD 0) = ⟨x0.getD 0, R, N * R, Rᵀ * (N * R)⟩ := by
    unfold cgInit
    simp only
    rw [applyPre_eq hM]
  have hH : (N * R)ᵀ * (A * (N * R)) = c • (Rᵀ * (N * R)) := by
    rw [Matrix.transpose_mul, hNs, ← Matrix.mul_assoc A, hAN, Matrix.smul_mul, Matrix.one_mul, Matrix.mul_smul,
      Matrix.mul_assoc]
  have hinj : Function.Injective (N * R).mulVec := by
    intro u v huv
    have h1 : A *ᵥ ((N * R) *ᵥ u) = A *ᵥ ((N * R) *ᵥ v) := congrArg _ huv
    rw [mulVec_mulVec, mulVec_mulVec, ← Matrix.mul_assoc, hAN, Matrix.smul_mul, Matrix.one_mul, smul_mulVec,
      smul_mulVec] at h1
    exact mulVec_injective_iff.2 hdep (smul_right_injective _ hc.ne' h1)
  have hHpd : ((N * R)ᵀ * (A * (N * R))).PosDef := by
    have := hA.conjTranspose_mul_mul_same (B := N * R) hinj
    rwa [conjTranspose_eq_transpose_of_trivial, Matrix.mul_assoc] at this
  have hHu : IsUnit ((N * R)ᵀ * (A * (N * R))).det := (Matrix.isUnit_iff_isUnit_det _).1 hHpd.isUnit
  have halpha : solve ((N * R)ᵀ * (A * (N * R))) (Rᵀ * (N * R)) = some (c⁻¹ • (1 : Matrix (Fin k) (Fin k) ℝ)) := by
    obtain ⟨h1, h2⟩ := hsolve ((N * R)ᵀ * (A * (N * R))) (Rᵀ * (N * R))
    cases hs : solve ((N * R)ᵀ * (A * (N * R))) (Rᵀ * (N * R)) with
    | none => exact absurd hHu (h1.1 hs)
    | some Y =>
      have hY := h2 Y hs
      congr 1
      have hG : Rᵀ * (N * R) = ((N * R)ᵀ * (A * (N * R))) * (c⁻¹ • 1) := by
        rw [hH, Matrix.mul_smul, Matrix.mul_one, smul_smul, inv_mul_cancel₀ hc.ne', one_smul]
      rw [hG] at hY
      generalize (N * R)ᵀ * (A * (N * R)) = H at hY hHu
      have := congrArg (fun Z => H⁻¹ * Z) hY
      simpa only [← Matrix.mul_assoc, Matrix.nonsing_inv_mul _ hHu, Matrix.one_mul] using this
  unfold blockCG
  rw [dif_neg (by omega), if_neg (by omega)]
  simp only
  rw [if_neg hsm]
  obtain ⟨f, hf⟩ : ∃ f, (max (maxiter.getD (10 * n)) 1).toNat = f + 1 := by
    have := le_max_right (maxiter.getD (10 * (n : ℤ))) 1
    exact ⟨(max (maxiter.getD (10 * n)) 1).toNat - 1, by omega⟩
  rw [hf, cgLoop, hinit]
  unfold cgStep
  simp only
  rw [halpha]
  simp only
  have hz : R - A * (N * R) * (c⁻¹ • (1 : Matrix (Fin k) (Fin k) ℝ)) = 0 := by
    rw [← Matrix.mul_assoc, hAN, Matrix.smul_mul, Matrix.one_mul, Matrix.mul_smul, Matrix.mul_one, smul_smul,
      inv_mul_cancel₀ hc.ne', one_smul, sub_self]
  rw [hz, if_pos (smallResidual_zero htol B)]
  rfl

/-- An operator that solves the system, seen on vectors, is multiplication by an inverse of the matrix. -/
theorem solves_preIs {A : ℕ → ℕ → ℝ} {op : (ℕ → ℝ) → ℕ → ℝ} (hs : Solves n A op) (hu : IsUnit (toMat n A)) :
    PreIs (some (onFin n op)) (toMat n A)⁻¹ := by
  intro v
  have hd := (Matrix.isUnit_iff_isUnit_det _).1 hu
  have h1 : toMat n A *ᵥ onFin n op v = v := by
    funext i
    have := hs (fun j => if h : j < n then v ⟨j, h⟩ else 0) i i.2
    rw [Finset.sum_range] at this
    simp only [i.2, dif_pos] at this
    exact this
  calc onFin n op v = ((toMat n A)⁻¹ * toMat n A) *ᵥ onFin n op v := by
        rw [Matrix.nonsing_inv_mul _ hd, Matrix.one_mulVec]
    _ = (toMat n A)⁻¹ *ᵥ v := by rw [← mulVec_mulVec, h1]

/-- C160: so every operator that solves the system makes the block solver finish in one iteration. -/
theorem C160_exact_one_iteration (A : ℕ → ℕ → ℝ) (hpd : (toMat n A).PosDef) (op : (ℕ → ℝ) → ℕ → ℝ) (hs : Solves n A op)
    (cg : (Fin n → ℝ) → Option (Fin n → ℝ) → (Fin n → ℝ) × ℤ)
    (solve : Matrix (Fin k) (Fin k) ℝ → Matrix (Fin k) (Fin k) ℝ → Option (Matrix (Fin k) (Fin k) ℝ))
    (hsolve : SolveContract solve) (tol : ℝ) (htol : 0 ≤ tol) (B : Matrix (Fin n) (Fin k) ℝ) (hk : 2 ≤ k)
    (hB : LinearIndependent ℝ B.col) (maxiter : Option ℤ) (hbig : ¬ smallResidual tol B B) :
    ∃ X, blockCG cg (toMat n A) (some (onFin n op)) solve tol B none maxiter = .ok (X, 0) ∧ toMat n A * X = B := by
  have hd := (Matrix.isUnit_iff_isUnit_det _).1 hpd.isUnit
  obtain ⟨X, code, h, hcase⟩ := C160_one_iteration hpd one_pos (N := (toMat n A)⁻¹)
    (by rw [Matrix.mul_nonsing_inv _ hd, one_smul]) cg (some (onFin n op)) (solves_preIs hs hpd.isUnit) solve hsolve tol htol B hk
    none maxiter
  rcases hcase with ⟨_, rfl, h2⟩ | ⟨rfl, h2⟩ | ⟨_, rfl, h2⟩
  · simp only [Option.getD_none, Matrix.mul_zero, sub_zero] at h2
    exact absurd h2 hbig
  · exact ⟨X, h, h2⟩
  · simp only [Option.getD_none, Matrix.mul_zero, sub_zero] at h2
    exact absurd hB h2

end OneStep

/-! ### Cases -/

/-- The chain of three points with variance two and covariance one between neighbours. -/
noncomputable def chainKV (i j : ℕ) : ℝ := if i < 3 ∧ j < 3 then (if i = j then 2 else if i = j + 1 ∨ j = i + 1 then 1 else 0) else 0

/-- Its stored pattern. -/
def chainAdj (i : ℕ) : List ℕ := (List.range 3).filter fun j => decide (i < 3 ∧ (i = j ∨ i = j + 1 ∨ j = i + 1))

theorem chain_symm (i j : ℕ) : chainKV i j = chainKV j i := by
  unfold chainKV
  split_ifs <;> first | rfl | omega

theorem chain_posDef : (toMat 3 chainKV).PosDef := by
  refine Matrix.PosDef.of_dotProduct_mulVec_pos ?_ fun x hx => ?_
  · ext i j
    simp only [toMat, Matrix.conjTranspose_apply, Matrix.of_apply, star_trivial]
    exact chain_symm _ _
  · have e : star x ⬝ᵥ Matrix.mulVec (toMat 3 chainKV) x
        = x 0 ^ 2 + (x 0 + x 1) ^ 2 + (x 1 + x 2) ^ 2 + x 2 ^ 2 := by
      simp [dotProduct, Matrix.mulVec, Fin.sum_univ_three, toMat, chainKV]
      ring
    rw [e]
    by_contra hc
    have h0 : x 0 = 0 := by nlinarith [sq_nonneg (x 0), sq_nonneg (x 0 + x 1), sq_nonneg (x 1 + x 2), sq_nonneg (x 2)]
    have h2 : x 2 = 0 := by nlinarith [sq_nonneg (x 0), sq_nonneg (x 0 + x 1), sq_nonneg (x 1 + x 2), sq_nonneg (x 2)]
    have h1 : x 1 = 0 := by
      rw [h0, h2] at hc
      nlinarith [sq_nonneg (x 1)]
    exact hx (by ext i; fin_cases i <;> assumption)

theorem chain_adj : (∀ i < 3, ∀ j ∈ chainAdj i, j < 3) ∧ (∀ i j, j ∈ chainAdj i → i ∈ chainAdj j) ∧
    ∀ i j, chainKV i j ≠ 0 → j ∈ chainAdj i := by
  refine ⟨?_, ?_, ?_⟩
  · intro i _ j hj
    exact List.mem_range.1 (List.mem_of_mem_filter hj)
  · intro i j h
    simp only [chainAdj, List.mem_filter, List.mem_range, decide_eq_true_eq] at h ⊢
    omega
  · intro i j h
    simp only [chainAdj, List.mem_filter, List.mem_range, decide_eq_true_eq]
    unfold chainKV at h
    split at h
    · split at h
      · omega
      · split at h
        · omega
        · exact absurd rfl h
    · exact absurd rfl h

/-- With block size 4 the preconditioner of the chain is its inverse; with block size 2 it is not. -/
example (junk : ℕ → ℕ → ℝ) :
    (∃ models, blockJacobi junk chainKV chainAdj 3 4 0 10 5 = .ok models ∧ Solves 3 chainKV (blockMatvec models)) ∧
      ∃ models, blockJacobi junk chainKV chainAdj 3 2 0 10 5 = .ok models ∧ ¬ Solves 3 chainKV (blockMatvec models) := by
  obtain ⟨h1, h2, h3⟩ := chain_adj
  refine ⟨C160_components_exact junk chainKV chainAdj 3 4 5 10 h1 h2 h3 (by norm_num) chain_symm chain_posDef,
    C160_cut_inexact junk chainKV chainAdj 3 2 5 10 h1 chain_symm chain_posDef ?_ (by norm_num) (by norm_num)⟩
  intro i hi
  have : i < 2 := by omega
  interval_cases i <;> simp [chainKV]

/-- Additive Schwarz on the chain with overlap 1. -/
example (junk : ℕ → ℕ → ℝ) :
    ∃ models, additiveSchwarz junk chainKV chainAdj (fun s => s.sort (· ≤ ·)) 3 4 1 0 10 5 = .ok models ∧
      Solves 3 chainKV (blockMatvec models) := by
  obtain ⟨h1, h2, h3⟩ := chain_adj
  exact C160_schwarz_exact junk chainKV chainAdj _ 3 4 1 5 10 h1 h2 h3 (by simp) (by norm_num) chain_symm chain_posDef

/-- Single-point blocks with overlap 2 cover the whole chain. -/
example (junk : ℕ → ℕ → ℝ) :
    ∃ models, additiveSchwarz junk chainKV chainAdj (fun s => s.sort (· ≤ ·)) 3 1 2 0 10 5 = .ok models ∧
      ∀ x, ∀ i < 3, ∑ j ∈ range 3, chainKV i j * blockMatvec models x j = (graphBlocks chainAdj 3 1).length * x i := by
  obtain ⟨h1, h2, h3⟩ := chain_adj
  refine C160_whole_overlap junk chainKV chainAdj _ 3 1 2 5 10 h1 (by simp) ?_ chain_symm chain_posDef
  intro b hb i hi
  have hne : b ≠ [] := (C18_block_sizes chainAdj 3 1 h1 b hb).1
  obtain ⟨y, hy⟩ := List.exists_mem_of_ne_nil b hne
  refine ⟨y, hy, ?_⟩
  have hy3 : y < 3 := List.mem_range.1 ((C18_blocks_partition chainAdj 3 1 h1).mem_iff.1 (List.mem_flatten.2 ⟨b, hb, hy⟩))
  have step1 : ∀ a, a < 3 → Within chainAdj 1 a 1 := by
    intro a ha
    refine Within.step (Within.refl 0 a) ?_
    simp [chainAdj]
    omega
  refine Within.step (step1 y hy3) ?_
  simp [chainAdj]
  omega

/-- The chain has no fill-in: incomplete Cholesky is exact. -/
example : ∃ rows diag, ic0 (fun i => if i = 0 then [(0, 2)] else if i = 1 then [(0, 1), (1, 2)] else [(1, 1), (2, 2)]) 3 0 10 5
      = .ok ((rows, diag), 0) ∧ Solves 3 chainKV (cholSolve 3 (icFactor rows diag)) := by
  refine C160_incomplete_cholesky_builds chainKV chain_symm _ 3 10 5 ?_ ?_ ?_ chain_posDef
  · intro i hi
    interval_cases i <;> simp
  · intro i hi
    refine ⟨?_, ?_⟩
    · interval_cases i <;> simp [chainKV]
    · intro j hj
      interval_cases i <;> interval_cases j <;> simp [chainKV]
  · intro i hi j hj k hk
    interval_cases i <;> interval_cases j <;> interval_cases k <;> simp

/-- Two right-hand sides on the chain, one iteration allowed. -/
example (op : (ℕ → ℝ) → ℕ → ℝ) (hop : Solves 3 chainKV op) (cg : (Fin 3 → ℝ) → Option (Fin 3 → ℝ) → (Fin 3 → ℝ) × ℤ) :
    ∃ X, blockCG cg (toMat 3 chainKV) (some (onFin 3 op)) (exactSolve 2) 0 !![1, 0; 0, 1; 0, 0] none (some 1) = .ok (X, 0) ∧
      toMat 3 chainKV * X = !![1, 0; 0, 1; 0, 0] := by
  refine C160_exact_one_iteration chainKV chain_posDef op hop cg (exactSolve 2) (exactSolve_contract 2) 0 le_rfl _ le_rfl ?_ _ ?_
  · rw [← Matrix.mulVec_injective_iff]
    intro u v huv
    have h0 := congrFun huv 0
    have h1 := congrFun huv 1
    simp [Matrix.mulVec, dotProduct, Fin.sum_univ_two] at h0 h1
    ext i
    fin_cases i <;> assumption
  · intro h
    have hc : colNorm !![(1 : ℝ), 0; 0, 1; 0, 0] 0 = 1 := by
      have e : ∑ i, (!![(1 : ℝ), 0; 0, 1; 0, 0] : Matrix (Fin 3) (Fin 2) ℝ) i 0 ^ 2 = 1 := by
        rw [Fin.sum_univ_three]
        simp
      rw [colNorm, e, Real.sqrt_one]
    have := h 0
    rw [rhsNorm, hc] at this
    norm_num at this

end Verif.LinAlg
