import Verif.LinAlg.GraphModel

/-! Properties C18 and C19: blocks partition the indices; overlap is the k-hop neighbourhood. -/

namespace Verif.LinAlg

/-! ## Lemmas -/

theorem enqueue_queue_mem (assigned : Finset ℕ) (node : ℕ) (nbs : List ℕ) :
    ∀ st : Finset ℕ × List ℕ, ∀ x ∈ (enqueue assigned node nbs st).2, x ∈ st.2 ∨ x ∈ nbs := by
  induction nbs with
  | nil => intro st x h; exact Or.inl h
  | cons nb rest ih =>
    rintro ⟨q, l⟩ x h
    rw [enqueue] at h
    split at h
    · rcases ih _ x h with h | h
      · exact Or.inl h
      · exact Or.inr (List.mem_cons_of_mem _ h)
    · rcases ih _ x h with h | h
      · rcases List.mem_append.1 h with h | h
        · exact Or.inl h
        · rw [List.mem_singleton] at h; subst h; exact Or.inr (List.mem_cons_self)
      · exact Or.inr (List.mem_cons_of_mem _ h)

/-- Queue invariant inside one search: the queue holds distinct, unassigned nodes, all of them registered as
queued. -/
def QInv (assigned queued : Finset ℕ) (queue : List ℕ) : Prop :=
  queue.Nodup ∧ (∀ x ∈ queue, x ∉ assigned) ∧ ∀ x ∈ queue, x ∈ queued

theorem enqueue_qinv (assigned : Finset ℕ) (node : ℕ) (nbs : List ℕ) :
    ∀ st : Finset ℕ × List ℕ, QInv assigned st.1 st.2 →
      QInv assigned (enqueue assigned node nbs st).1 (enqueue assigned node nbs st).2
        ∧ st.1 ⊆ (enqueue assigned node nbs st).1 := by
  induction nbs with
  | nil => intro st h; exact ⟨h, Finset.Subset.refl _⟩
  | cons nb rest ih =>
    rintro ⟨q, l⟩ h
    rw [enqueue]
    split
    · exact ih _ h
    · rename_i hn
      push Not at hn
      have := ih (insert nb q, l ++ [nb]) (by
        refine ⟨?_, ?_, ?_⟩
        · rw [List.nodup_append]
          refine ⟨h.1, List.nodup_singleton _, ?_⟩
          rintro a ha b hb rfl
          rw [List.mem_singleton] at hb; subst hb
          exact hn.2.2 (h.2.2 _ ha)
        · intro x hx
          rcases List.mem_append.1 hx with hx | hx
          · exact h.2.1 x hx
          · rw [List.mem_singleton] at hx; subst hx; exact hn.2.1
        · intro x hx
          rcases List.mem_append.1 hx with hx | hx
          · exact Finset.mem_insert_of_mem (h.2.2 x hx)
          · rw [List.mem_singleton] at hx; subst hx; exact Finset.mem_insert_self _ _)
      exact ⟨this.1, (Finset.subset_insert _ _).trans this.2⟩

/-- What one search guarantees: it extends the block by distinct nodes that were unassigned and in range, and
exactly these become assigned; the block never exceeds the limit. -/
theorem bfs_spec (adj : ℕ → List ℕ) (bs n : ℕ) (hadj : ∀ i < n, ∀ j ∈ adj i, j < n) :
    ∀ (assigned queued : Finset ℕ) (queue block : List ℕ),
      (∀ x ∈ queue, x < n) → (∀ x ∈ block, x ∈ assigned) → block.length ≤ bs →
      ∃ new : List ℕ, bfs adj bs assigned queued queue block = (assigned ∪ new.toFinset, block ++ new)
        ∧ new.Nodup ∧ (∀ x ∈ new, x ∉ assigned ∧ x < n) ∧ (block ++ new).length ≤ bs := by
  intro assigned queued queue block
  induction assigned, queued, queue, block using bfs.induct adj bs with
  | case1 assigned queued block =>
    intro _ _ hlen
    rw [bfs]
    exact ⟨[], by simp, by simp, by simp, by simpa using hlen⟩
  | case2 assigned queued block node queue' hlt hmem ih =>
    intro hq hb hlen
    rw [bfs]
    simp only [hlt, hmem, if_true]
    exact ih (fun x hx => hq x (List.mem_cons_of_mem _ hx)) hb hlen
  | case3 assigned queued block node queue' hlt hmem st ih =>
    intro hq hb hlen
    rw [bfs]
    simp only [hlt, hmem, if_true, if_false]
    have hnode : node < n := hq node List.mem_cons_self
    obtain ⟨new, h1, h2, h3, h4⟩ := ih (by
        intro x hx
        rcases enqueue_queue_mem _ _ _ _ x hx with h | h
        · exact hq x (List.mem_cons_of_mem _ h)
        · exact hadj node hnode x h)
      (by
        intro x hx
        rcases List.mem_append.1 hx with hx | hx
        · exact Finset.mem_insert_of_mem (hb x hx)
        · rw [List.mem_singleton] at hx; subst hx; exact Finset.mem_insert_self _ _)
      (by simp only [List.length_append, List.length_cons, List.length_nil]; omega)
    refine ⟨node :: new, ?_, ?_, ?_, ?_⟩
    · rw [h1]
      ext1
      · simp only
        ext x
        simp only [Finset.mem_union, Finset.mem_insert, List.mem_toFinset, List.mem_cons]
        tauto
      · simp
    · rw [List.nodup_cons]
      exact ⟨fun h => (h3 node h).1 (Finset.mem_insert_self _ _), h2⟩
    · intro x hx
      rcases List.mem_cons.1 hx with rfl | hx
      · exact ⟨hmem, hnode⟩
      · exact ⟨fun h => (h3 x hx).1 (Finset.mem_insert_of_mem h), (h3 x hx).2⟩
    · simpa using h4
  | case4 assigned queued block node queue' hlt =>
    intro _ _ hlen
    rw [bfs]
    simp only [hlt, if_false]
    exact ⟨[], by simp, by simp, by simp, by simpa using hlen⟩

/-- Starting from a fresh seed the search assigns the seed. -/
theorem bfs_seed (adj : ℕ → List ℕ) (bs n : ℕ) (hbs : 0 < bs) (hadj : ∀ i < n, ∀ j ∈ adj i, j < n)
    (assigned : Finset ℕ) (seed : ℕ) (hs : seed ∉ assigned) (hn : seed < n) :
    ∃ new : List ℕ, bfs adj bs assigned {seed} [seed] [] = (assigned ∪ new.toFinset, new)
      ∧ new.Nodup ∧ (∀ x ∈ new, x ∉ assigned ∧ x < n) ∧ new.length ≤ bs ∧ seed ∈ new := by
  have step : bfs adj bs assigned {seed} [seed] []
      = bfs adj bs (insert seed assigned) (enqueue (insert seed assigned) seed (adj seed) ({seed}, [])).1
          (enqueue (insert seed assigned) seed (adj seed) ({seed}, [])).2 [seed] := by
    rw [bfs]
    simp [hbs, hs]
  obtain ⟨new, h1, h2, h3, h4⟩ := bfs_spec adj bs n hadj (insert seed assigned) _ _ [seed] (by
      intro x hx
      rcases enqueue_queue_mem (insert seed assigned) seed (adj seed) ({seed}, []) x hx with h | h
      · simp at h
      · exact hadj seed hn x h) (by simp) (by simpa using Nat.succ_le_of_lt hbs)
  refine ⟨seed :: new, ?_, ?_, ?_, ?_, List.mem_cons_self⟩
  · rw [step, h1]
    ext1
    · simp only
      ext x
      simp only [Finset.mem_union, Finset.mem_insert, List.mem_toFinset, List.mem_cons]
      tauto
    · simp
  · rw [List.nodup_cons]
    exact ⟨fun h => (h3 seed h).1 (Finset.mem_insert_self _ _), h2⟩
  · intro x hx
    rcases List.mem_cons.1 hx with rfl | hx
    · exact ⟨hs, hn⟩
    · exact ⟨fun h => (h3 x hx).1 (Finset.mem_insert_of_mem h), (h3 x hx).2⟩
  · simpa using h4

theorem seedLoop_spec (adj : ℕ → List ℕ) (bs n : ℕ) (hbs : 0 < bs) (hadj : ∀ i < n, ∀ j ∈ adj i, j < n) :
    ∀ (seeds : List ℕ) (assigned : Finset ℕ) (blocks : List (List ℕ)),
      (∀ s ∈ seeds, s < n) → blocks.flatten.Nodup → (∀ x, x ∈ assigned ↔ x ∈ blocks.flatten) →
      (∀ x ∈ blocks.flatten, x < n) → (∀ b ∈ blocks, b ≠ [] ∧ b.length ≤ bs) →
      let r := seedLoop adj bs seeds assigned blocks
      r.flatten.Nodup ∧ (∀ x ∈ r.flatten, x < n) ∧ (∀ b ∈ r, b ≠ [] ∧ b.length ≤ bs)
        ∧ (∀ s ∈ seeds, s ∈ r.flatten) ∧ ∀ x ∈ blocks.flatten, x ∈ r.flatten := by
  intro seeds
  induction seeds with
  | nil =>
    intro assigned blocks _ h1 _ h3 h4
    exact ⟨h1, h3, h4, by simp, fun x hx => hx⟩
  | cons seed rest ih =>
    intro assigned blocks hs h1 h2 h3 h4
    simp only [seedLoop]
    by_cases hmem : seed ∈ assigned
    · simp only [hmem, if_true]
      obtain ⟨a, b, c, d, e⟩ := ih assigned blocks (fun s h => hs s (List.mem_cons_of_mem _ h)) h1 h2 h3 h4
      refine ⟨a, b, c, ?_, e⟩
      intro s h
      rcases List.mem_cons.1 h with rfl | h
      · exact e _ ((h2 _).1 hmem)
      · exact d s h
    · simp only [hmem, if_false]
      obtain ⟨new, e1, e2, e3, e4, e5⟩ :=
        bfs_seed adj bs n hbs hadj assigned seed hmem (hs seed List.mem_cons_self)
      rw [e1]
      simp only
      obtain ⟨a, b, c, d, e⟩ := ih (assigned ∪ new.toFinset) (blocks ++ [new])
        (fun s h => hs s (List.mem_cons_of_mem _ h))
        (by
          rw [List.flatten_append, List.nodup_append]
          refine ⟨h1, by simpa using e2, ?_⟩
          rintro x hx y hy rfl
          simp only [List.flatten_cons, List.flatten_nil, List.append_nil] at hy
          exact (e3 x hy).1 ((h2 x).2 hx))
        (by
          intro x
          simp only [Finset.mem_union, List.mem_toFinset, h2 x, List.flatten_append, List.mem_append,
            List.flatten_cons, List.flatten_nil, List.append_nil])
        (by
          intro x hx
          simp only [List.flatten_append, List.mem_append, List.flatten_cons, List.flatten_nil,
            List.append_nil] at hx
          rcases hx with hx | hx
          · exact h3 x hx
          · exact (e3 x hx).2)
        (by
          intro b hb
          rcases List.mem_append.1 hb with hb | hb
          · exact h4 b hb
          · rw [List.mem_singleton] at hb; subst hb
            exact ⟨fun h => by rw [h] at e5; simp at e5, e4⟩)
      refine ⟨a, b, c, ?_, ?_⟩
      · intro s h
        rcases List.mem_cons.1 h with rfl | h
        · exact e _ (by simp [e5])
        · exact d s h
      · intro x hx
        exact e x (by simp only [List.flatten_append, List.mem_append]; exact Or.inl hx)

theorem graphBlocks_spec (adj : ℕ → List ℕ) (n : ℕ) (blockSize : ℤ)
    (hadj : ∀ i < n, ∀ j ∈ adj i, j < n) :
    (graphBlocks adj n blockSize).flatten.Nodup ∧ (∀ x ∈ (graphBlocks adj n blockSize).flatten, x < n)
      ∧ (∀ b ∈ graphBlocks adj n blockSize, b ≠ [] ∧ b.length ≤ (max blockSize 1).toNat)
      ∧ ∀ s < n, s ∈ (graphBlocks adj n blockSize).flatten := by
  obtain ⟨a, b, c, d, _⟩ := seedLoop_spec adj (max blockSize 1).toNat n (by omega) hadj (List.range n) ∅ []
    (by simp) (by simp) (by simp) (by simp) (by simp)
  exact ⟨a, b, c, fun s hs => d s (List.mem_range.2 hs)⟩

/-! ## C18 -/

/-- C18: the blocks together hold each of the indices `0..n-1` exactly once, for every sparsity pattern whose
column indices are in range. -/
theorem C18_blocks_partition (adj : ℕ → List ℕ) (n : ℕ) (blockSize : ℤ)
    (hadj : ∀ i < n, ∀ j ∈ adj i, j < n) :
    (graphBlocks adj n blockSize).flatten.Perm (List.range n) := by
  obtain ⟨a, b, _, d⟩ := graphBlocks_spec adj n blockSize hadj
  rw [List.perm_ext_iff_of_nodup a List.nodup_range]
  intro x
  rw [List.mem_range]
  exact ⟨b x, d x⟩

/-- C18: every index lies in exactly one block. -/
theorem C18_unique_block (adj : ℕ → List ℕ) (n : ℕ) (blockSize : ℤ)
    (hadj : ∀ i < n, ∀ j ∈ adj i, j < n) (i : ℕ) (hi : i < n) :
    ∃! k : Fin (graphBlocks adj n blockSize).length, i ∈ (graphBlocks adj n blockSize)[k] := by
  obtain ⟨a, _, _, d⟩ := graphBlocks_spec adj n blockSize hadj
  obtain ⟨b, hb, hib⟩ := List.mem_flatten.1 (d i hi)
  obtain ⟨k, hk, rfl⟩ := List.getElem_of_mem hb
  refine ⟨⟨k, hk⟩, hib, ?_⟩
  rintro ⟨k', hk'⟩ h'
  rw [List.nodup_flatten] at a
  by_contra hne
  have hne' : k' ≠ k := fun h => hne (Fin.ext h)
  have hp := List.pairwise_iff_getElem.1 a.2
  rcases Nat.lt_or_gt_of_ne hne' with h | h
  · exact (hp k' k hk' hk h) h' hib
  · exact (hp k k' hk hk' h) hib h'

/-- C18: no block is empty and none exceeds the configured size (at least 1). -/
theorem C18_block_sizes (adj : ℕ → List ℕ) (n : ℕ) (blockSize : ℤ)
    (hadj : ∀ i < n, ∀ j ∈ adj i, j < n) (b : List ℕ) (hb : b ∈ graphBlocks adj n blockSize) :
    b ≠ [] ∧ (b.length : ℤ) ≤ max 1 blockSize := by
  obtain ⟨_, _, c, _⟩ := graphBlocks_spec adj n blockSize hadj
  refine ⟨(c b hb).1, ?_⟩
  have := (c b hb).2
  omega

/-- C18: with block size 1 (or less) the blocks are the single indices in order: block Jacobi becomes plain
Jacobi. -/
theorem C18_size_one (adj : ℕ → List ℕ) (n : ℕ) (blockSize : ℤ) (hbs : blockSize ≤ 1) :
    graphBlocks adj n blockSize = (List.range n).map fun i => [i] := by
  have h1 : (max blockSize 1).toNat = 1 := by omega
  have hb : ∀ (assigned : Finset ℕ) (seed : ℕ), seed ∉ assigned →
      bfs adj 1 assigned {seed} [seed] [] = (insert seed assigned, [seed]) := by
    intro assigned seed hs
    rw [bfs]
    simp only [List.length_nil, hs, if_false, List.nil_append, Nat.lt_one_iff, if_true]
    rw [bfs.eq_def]
    split
    · rfl
    · simp
  have key : ∀ (seeds : List ℕ) (assigned : Finset ℕ) (blocks : List (List ℕ)), seeds.Nodup →
      (∀ s ∈ seeds, s ∉ assigned) →
      seedLoop adj 1 seeds assigned blocks = blocks ++ seeds.map fun i => [i] := by
    intro seeds
    induction seeds with
    | nil => intro a b _ _; simp [seedLoop]
    | cons s rest ih =>
      intro a b hn hs
      rw [List.nodup_cons] at hn
      have hsa := hs s List.mem_cons_self
      simp only [seedLoop, hsa, if_false, hb a s hsa]
      rw [ih _ _ hn.2]
      · simp
      · intro x hx
        rw [Finset.mem_insert]
        rintro (rfl | h)
        · exact hn.1 hx
        · exact hs x (List.mem_cons_of_mem _ hx) h
  rw [graphBlocks, h1, key _ _ _ List.nodup_range (by simp), List.nil_append]

/-- C18: the `if assigned[node]: continue` branch (gp_lin_alg.py:552) is never taken; removing it gives the
same search from every fresh seed. -/
theorem C18_continue_branch_dead (adj : ℕ → List ℕ) (bs : ℕ) (assigned : Finset ℕ) (seed : ℕ)
    (hs : seed ∉ assigned) :
    bfs adj bs assigned {seed} [seed] [] = bfsNoCheck adj bs assigned {seed} [seed] [] := by
  have key : ∀ (assigned queued : Finset ℕ) (queue block : List ℕ), QInv assigned queued queue →
      bfs adj bs assigned queued queue block = bfsNoCheck adj bs assigned queued queue block := by
    intro assigned queued queue block
    induction assigned, queued, queue, block using bfs.induct adj bs with
    | case1 assigned queued block => intro _; rw [bfs, bfsNoCheck]
    | case2 assigned queued block node queue' hlt hmem ih =>
      intro h
      exact absurd hmem (h.2.1 node List.mem_cons_self)
    | case3 assigned queued block node queue' hlt hmem st ih =>
      intro h
      rw [bfs, bfsNoCheck]
      simp only [hlt, hmem, if_true, if_false]
      apply ih
      have hnd := List.nodup_cons.1 h.1
      exact (enqueue_qinv (insert node assigned) node (adj node) (queued, queue') ⟨hnd.2, by
        intro x hx hmem'
        rcases Finset.mem_insert.1 hmem' with rfl | h'
        · exact hnd.1 hx
        · exact h.2.1 x (List.mem_cons_of_mem _ hx) h',
        fun x hx => h.2.2 x (List.mem_cons_of_mem _ hx)⟩).1
    | case4 assigned queued block node queue' hlt =>
      intro _
      rw [bfs, bfsNoCheck]
      simp only [hlt, if_false]
  apply key
  exact ⟨List.nodup_singleton _, by simpa using hs, by simp⟩

/-! ## C19 -/

/-- Specification: `Within adj k i j` holds when `j` can be reached from `i` along at most `k` edges. -/
inductive Within (adj : ℕ → List ℕ) : ℕ → ℕ → ℕ → Prop
  | refl (k i) : Within adj k i i
  | step {k i j l} : Within adj k i j → l ∈ adj j → Within adj (k + 1) i l

theorem sweepNode_spec (nbs : List ℕ) : ∀ st : Finset ℕ × Finset ℕ, st.2 ⊆ st.1 →
    (∀ x, x ∈ (sweepNode nbs st).1 ↔ x ∈ st.1 ∨ x ∈ nbs)
    ∧ (∀ x, x ∈ (sweepNode nbs st).2 ↔ x ∈ st.2 ∨ (x ∈ nbs ∧ x ∉ st.1)) := by
  induction nbs with
  | nil => intro st _; simp [sweepNode]
  | cons nb rest ih =>
    rintro ⟨e, f⟩ hsub
    rw [sweepNode]
    split
    · rename_i hnb
      obtain ⟨a, b⟩ := ih (insert nb e, insert nb f) (Finset.insert_subset_insert _ hsub)
      constructor
      · intro x; rw [a x]; simp only [Finset.mem_insert, List.mem_cons]; tauto
      · intro x; rw [b x]; simp only [Finset.mem_insert, List.mem_cons]
        constructor
        · rintro ((rfl | h) | ⟨h, h'⟩)
          · exact Or.inr ⟨Or.inl rfl, hnb⟩
          · exact Or.inl h
          · exact Or.inr ⟨Or.inr h, fun h'' => h' (Or.inr h'')⟩
        · rintro (h | ⟨rfl | h, h'⟩)
          · exact Or.inl (Or.inr h)
          · exact Or.inl (Or.inl rfl)
          · by_cases hx : x = nb
            · exact Or.inl (Or.inl hx)
            · exact Or.inr ⟨h, by tauto⟩
    · rename_i hnb
      rw [not_not] at hnb
      obtain ⟨a, b⟩ := ih (e, f) hsub
      constructor
      · intro x; rw [a x]; simp only [List.mem_cons]
        constructor
        · tauto
        · rintro (h | rfl | h)
          · exact Or.inl h
          · exact Or.inl hnb
          · exact Or.inr h
      · intro x; rw [b x]; simp only [List.mem_cons]
        constructor
        · tauto
        · rintro (h | ⟨rfl | h, h'⟩)
          · exact Or.inl h
          · exact absurd hnb h'
          · exact Or.inr ⟨h, h'⟩

theorem sweep_spec (adj : ℕ → List ℕ) (nodes : List ℕ) : ∀ st : Finset ℕ × Finset ℕ, st.2 ⊆ st.1 →
    (∀ x, x ∈ (sweep adj nodes st).1 ↔ x ∈ st.1 ∨ ∃ y ∈ nodes, x ∈ adj y)
    ∧ (∀ x, x ∈ (sweep adj nodes st).2 ↔ x ∈ st.2 ∨ ((∃ y ∈ nodes, x ∈ adj y) ∧ x ∉ st.1)) := by
  induction nodes with
  | nil => intro st _; simp [sweep]
  | cons nd rest ih =>
    intro st hsub
    obtain ⟨a, b⟩ := sweepNode_spec (adj nd) st hsub
    obtain ⟨c, d⟩ := ih (sweepNode (adj nd) st) (by
      intro x hx
      rw [a x]; rcases (b x).1 hx with h | h
      · exact Or.inl (hsub h)
      · exact Or.inr h.1)
    rw [sweep]
    constructor
    · intro x; rw [c x, a x]; simp only [List.mem_cons, exists_eq_or_imp]; tauto
    · intro x; rw [d x, b x, a x]; simp only [List.mem_cons, exists_eq_or_imp]; tauto

/-- Loop invariant of the expansion: nodes of the expanded set that are not in the frontier have all their
neighbours expanded. -/
theorem expandLoop_spec (adj : ℕ → List ℕ) (order : Finset ℕ → List ℕ)
    (horder : ∀ s x, x ∈ order s ↔ x ∈ s) (base : Finset ℕ) :
    ∀ (k done : ℕ) (expanded frontier : Finset ℕ),
      frontier ⊆ expanded →
      (∀ x, x ∈ expanded ↔ ∃ b ∈ base, Within adj done b x) →
      (∀ x ∈ expanded, x ∉ frontier → ∀ y ∈ adj x, y ∈ expanded) →
      ∀ x, x ∈ expandLoop adj order k expanded frontier ↔ ∃ b ∈ base, Within adj (done + k) b x := by
  have mono : ∀ (i : ℕ) {k b x}, Within adj k b x → Within adj (k + i) b x := by
    intro i k b x h
    induction h with
    | refl k j => exact Within.refl _ _
    | step _ hl ih => rw [Nat.add_right_comm]; exact Within.step ih hl
  intro k
  induction k with
  | zero => intro done e f _ h _ x; rw [expandLoop, Nat.add_zero]; exact h x
  | succ k ih =>
    intro done e f hsub he hclosed
    rw [expandLoop]
    split
    · rename_i hf
      subst hf
      have hcl : ∀ j b x, b ∈ base → Within adj j b x → x ∈ e := by
        intro j b x hb h
        induction h with
        | refl k i => exact (he _).2 ⟨i, hb, Within.refl _ _⟩
        | step _ hl ihh => exact hclosed _ (ihh hb) (by simp) _ hl
      intro x
      constructor
      · intro hx
        obtain ⟨b, hb, h⟩ := (he x).1 hx
        exact ⟨b, hb, mono _ h⟩
      · rintro ⟨b, hb, h⟩
        exact hcl _ b x hb h
    · obtain ⟨a, b⟩ := sweep_spec adj (order f) (e, ∅) (by simp)
      simp only [horder] at a b
      have hres := ih (done + 1) (sweep adj (order f) (e, ∅)).1 (sweep adj (order f) (e, ∅)).2
        (by
          intro x hx
          rw [a x]
          rcases (b x).1 hx with h | h
          · simp at h
          · exact Or.inr h.1)
        (by
          intro x
          rw [a x]
          constructor
          · rintro (h | ⟨y, hy, hxy⟩)
            · obtain ⟨b', hb', h'⟩ := (he x).1 h
              exact ⟨b', hb', mono 1 h'⟩
            · obtain ⟨b', hb', h'⟩ := (he y).1 (hsub hy)
              exact ⟨b', hb', Within.step h' hxy⟩
          · rintro ⟨b', hb', h'⟩
            cases h' with
            | refl => exact Or.inl ((he _).2 ⟨_, hb', Within.refl _ _⟩)
            | @step _ _ j _ hj hl =>
              have hje := (he j).2 ⟨b', hb', hj⟩
              by_cases hjf : j ∈ f
              · exact Or.inr ⟨j, hjf, hl⟩
              · exact Or.inl (hclosed j hje hjf x hl))
        (by
          intro x hx hxf y hy
          rw [a y]
          rcases (a x).1 hx with h | ⟨z, hz, hxz⟩
          · by_cases hxf' : x ∈ f
            · exact Or.inr ⟨x, hxf', hy⟩
            · exact Or.inl (hclosed x h hxf' y hy)
          · by_cases hxe : x ∈ e
            · by_cases hxf' : x ∈ f
              · exact Or.inr ⟨x, hxf', hy⟩
              · exact Or.inl (hclosed x hxe hxf' y hy)
            · exact absurd ((b x).2 (Or.inr ⟨⟨z, hz, hxz⟩, hxe⟩)) hxf)
      intro x
      rw [show done + (k + 1) = done + 1 + k by omega]
      exact hres x

/-- C19: the expanded block holds exactly the indices reachable from the block in at most `overlap` steps,
whatever order Python iterates its sets in. -/
theorem C19_overlap_is_neighbourhood (adj : ℕ → List ℕ) (order : Finset ℕ → List ℕ)
    (horder : ∀ s x, x ∈ order s ↔ x ∈ s) (block : List ℕ) (overlap : ℤ) (x : ℕ) :
    x ∈ expandOverlap adj order block overlap ↔ ∃ b ∈ block, Within adj overlap.toNat b x := by
  rw [expandOverlap, Finset.mem_sort]
  have h0 : (max overlap 0).toNat = overlap.toNat := by omega
  have := expandLoop_spec adj order horder block.toFinset (max overlap 0).toNat 0 block.toFinset
    block.toFinset (Finset.Subset.refl _)
    (by
      intro x
      constructor
      · intro h; exact ⟨x, h, Within.refl _ _⟩
      · rintro ⟨b, hb, h⟩
        cases h
        exact hb)
    (by intro x h1 h2; exact absurd h1 h2) x
  rw [this, Nat.zero_add, h0]
  simp only [List.mem_toFinset]

/-- C19: the expanded block is strictly increasing (sorted, without repetitions). -/
theorem C19_overlap_sorted (adj : ℕ → List ℕ) (order : Finset ℕ → List ℕ) (block : List ℕ) (overlap : ℤ) :
    (expandOverlap adj order block overlap).Pairwise (· < ·) :=
  Finset.sortedLT_sort _ |>.pairwise

/-- C19: the block itself is contained in its expansion; with overlap 0 (or negative) nothing is added. -/
theorem C19_overlap_zero (adj : ℕ → List ℕ) (order : Finset ℕ → List ℕ)
    (horder : ∀ s x, x ∈ order s ↔ x ∈ s) (block : List ℕ) (overlap : ℤ) (x : ℕ) :
    (x ∈ block → x ∈ expandOverlap adj order block overlap)
      ∧ (overlap ≤ 0 → x ∈ expandOverlap adj order block overlap → x ∈ block) := by
  rw [C19_overlap_is_neighbourhood adj order horder]
  constructor
  · intro h; exact ⟨x, h, Within.refl _ _⟩
  · rintro h0 ⟨b, hb, h⟩
    rw [show overlap.toNat = 0 by omega] at h
    cases h
    exact hb

/-! ## Concrete case: a path graph 0 - 1 - 2 - 3 - 4 -/

/-- Adjacency of the path graph on five nodes, with the diagonal stored. -/
def pathAdj (i : ℕ) : List ℕ := ([i - 1, i, i + 1].filter fun j => decide (j < 5)).dedup

example : (∀ i < 5, ∀ j ∈ pathAdj i, j < 5) := by
  intro i _ j hj
  simp [pathAdj] at hj
  omega

/-- The expansion of `[2]` by one step along the path reaches 1 and 3 but not 0. -/
example : 3 ∈ expandOverlap pathAdj (fun s => s.sort (· ≤ ·)) [2] 1
    ∧ 0 ∉ expandOverlap pathAdj (fun s => s.sort (· ≤ ·)) [2] 1 := by
  rw [C19_overlap_is_neighbourhood _ _ (fun s x => Finset.mem_sort _),
    C19_overlap_is_neighbourhood _ _ (fun s x => Finset.mem_sort _)]
  constructor
  · exact ⟨2, by simp, Within.step (Within.refl 0 2) (by decide)⟩
  · rintro ⟨b, hb, h⟩
    rw [List.mem_singleton] at hb
    subst hb
    cases h with
    | step hj hl =>
      cases hj
      revert hl
      decide

end Verif.LinAlg
