import Verif.LinAlg.GraphProps

/-! Property C18, second part: how the blocks are grown. -/

namespace Verif.LinAlg

/-- Every index of the list but the first is stored in the row of an earlier one. -/
def Grown (adj : ℕ → List ℕ) (b : List ℕ) : Prop := ∀ pre x post, b = pre ++ x :: post → pre ≠ [] → ∃ y ∈ pre, x ∈ adj y

theorem grown_snoc {adj : ℕ → List ℕ} {b : List ℕ} {x : ℕ} (h : Grown adj b) (hx : b ≠ [] → ∃ y ∈ b, x ∈ adj y) : Grown adj (b ++ [x]) := by
  intro pre z post he hp
  rcases List.eq_nil_or_concat post with rfl | ⟨post', w, rfl⟩
  · obtain ⟨rfl, h2⟩ := List.append_inj' he (by simp)
    simp only [List.cons.injEq, and_true] at h2
    subst h2
    exact hx hp
  · rw [List.concat_eq_append, ← List.cons_append, ← List.append_assoc] at he
    obtain ⟨h1, -⟩ := List.append_inj' he (by simp)
    exact h pre z post' h1 hp

theorem enqueue_complete (assigned : Finset ℕ) (node : ℕ) (nbs : List ℕ) :
    ∀ st : Finset ℕ × List ℕ, (∀ x ∈ st.2, x ∈ (enqueue assigned node nbs st).2) ∧
      (∀ x ∈ st.1, x ∈ (enqueue assigned node nbs st).1) ∧
      (∀ x ∈ nbs, x = node ∨ x ∈ assigned ∨ x ∈ (enqueue assigned node nbs st).1) ∧
      ∀ x ∈ (enqueue assigned node nbs st).1, x ∈ st.1 ∨ x ∈ (enqueue assigned node nbs st).2 := by
  induction nbs with
  | nil => intro st; exact ⟨fun _ h => h, fun _ h => h, by simp, fun _ h => .inl h⟩
  | cons nb rest ih =>
    rintro ⟨q, l⟩
    rw [enqueue]
    split
    · rename_i hn
      obtain ⟨a, b, c, d⟩ := ih (q, l)
      refine ⟨a, b, fun x hx => ?_, d⟩
      rcases List.mem_cons.1 hx with rfl | hx
      · rcases hn with h | h | h
        · exact .inl h
        · exact .inr (.inl h)
        · exact .inr (.inr (b _ h))
      · exact c x hx
    · obtain ⟨a, b, c, d⟩ := ih (insert nb q, l ++ [nb])
      refine ⟨fun x hx => a x (by simp [hx]), fun x hx => b x (by simp [hx]), fun x hx => ?_, fun x hx => ?_⟩
      · rcases List.mem_cons.1 hx with rfl | hx
        · exact .inr (.inr (b _ (by simp)))
        · exact c x hx
      · rcases d x hx with h | h
        · rcases Finset.mem_insert.1 h with rfl | h
          · exact .inr (a _ (by simp))
          · exact .inl h
        · exact .inr h

theorem bfs_grown (adj : ℕ → List ℕ) (bs : ℕ) : ∀ (assigned queued : Finset ℕ) (queue block : List ℕ),
    block.length ≤ bs → Grown adj block → (∀ x ∈ block, ∀ y ∈ adj x, y ∈ assigned ∨ y ∈ queue) → (∀ x ∈ queued, x ∈ assigned ∨ x ∈ queue) →
      (∀ x ∈ queue, block ≠ [] → ∃ y ∈ block, x ∈ adj y) → (block = [] → queue.length ≤ 1) →
      Grown adj (bfs adj bs assigned queued queue block).2 ∧
        ((bfs adj bs assigned queued queue block).2.length = bs ∨
          ∀ x ∈ (bfs adj bs assigned queued queue block).2, ∀ y ∈ adj x, y ∈ (bfs adj bs assigned queued queue block).1) := by
  intro assigned queued queue block
  induction assigned, queued, queue, block using bfs.induct adj bs with
  | case1 assigned queued block =>
    intro _ hg h1 _ _ _
    rw [bfs]
    exact ⟨hg, .inr fun x hx y hy => by simpa using h1 x hx y hy⟩
  | case2 assigned queued block node queue' hlt hmem ih =>
    intro hl hg h1 h2 h3 h4
    rw [bfs]
    simp only [hlt, hmem, if_true]
    refine ih hl hg (fun x hx y hy => ?_) (fun x hx => ?_) (fun x hx => h3 x (List.mem_cons_of_mem _ hx)) (fun h => by have := h4 h; simp at this; simp [this])
    · rcases h1 x hx y hy with h | h
      · exact .inl h
      · rcases List.mem_cons.1 h with rfl | h
        · exact .inl hmem
        · exact .inr h
    · rcases h2 x hx with h | h
      · exact .inl h
      · rcases List.mem_cons.1 h with rfl | h
        · exact .inl hmem
        · exact .inr h
  | case3 assigned queued block node queue' hlt hmem st ih =>
    intro hl hg h1 h2 h3 h4
    rw [bfs]
    simp only [hlt, hmem, if_true, if_false]
    obtain ⟨a, b, c, d⟩ := enqueue_complete (insert node assigned) node (adj node) (queued, queue')
    have hq : ∀ x ∈ st.1, x ∈ insert node assigned ∨ x ∈ st.2 := by
      intro x hx
      rcases d x hx with h | h
      · rcases h2 x h with h | h
        · exact .inl (Finset.mem_insert_of_mem h)
        · rcases List.mem_cons.1 h with rfl | h
          · exact .inl (Finset.mem_insert_self _ _)
          · exact .inr (a x h)
      · exact .inr h
    refine ih (by simp only [List.length_append, List.length_cons, List.length_nil]; omega) (grown_snoc hg (h3 node List.mem_cons_self))
      (fun x hx y hy => ?_) hq (fun x hx _ => ?_) (by simp)
    · rcases List.mem_append.1 hx with hx | hx
      · rcases h1 x hx y hy with h | h
        · exact .inl (Finset.mem_insert_of_mem h)
        · rcases List.mem_cons.1 h with rfl | h
          · exact .inl (Finset.mem_insert_self _ _)
          · exact .inr (a y h)
      · rw [List.mem_singleton] at hx
        subst hx
        rcases c y hy with h | h | h
        · exact .inl (by rw [h]; exact Finset.mem_insert_self _ _)
        · exact .inl h
        · exact hq y h
    · rcases enqueue_queue_mem _ _ _ _ x hx with h | h
      · by_cases hb : block = []
        · have := h4 hb
          have hq0 : queue' = [] := List.length_eq_zero_iff.1 (by simp only [List.length_cons] at this; omega)
          simp [hq0] at h
        · obtain ⟨y, hy, hxy⟩ := h3 x (List.mem_cons_of_mem _ h) hb
          exact ⟨y, by simp [hy], hxy⟩
      · exact ⟨node, by simp, h⟩
  | case4 assigned queued block node queue' hlt =>
    intro hl hg _ _ _ _
    rw [bfs]
    simp only [hlt, if_false]
    exact ⟨hg, .inl (by omega)⟩

theorem bfs_first (adj : ℕ → List ℕ) (bs : ℕ) (hbs : 0 < bs) (assigned : Finset ℕ) (seed : ℕ) (hs : seed ∉ assigned) :
    (bfs adj bs assigned {seed} [seed] []).2.head? = some seed := by
  have key : ∀ (assigned queued : Finset ℕ) (queue block : List ℕ), block.head? = some seed → (bfs adj bs assigned queued queue block).2.head? = some seed := by
    intro assigned queued queue block
    induction assigned, queued, queue, block using bfs.induct adj bs with
    | case1 assigned queued block => intro h; rw [bfs]; exact h
    | case2 assigned queued block node queue' hlt hmem ih => intro h; rw [bfs]; simp only [hlt, hmem, if_true]; exact ih h
    | case3 assigned queued block node queue' hlt hmem st ih =>
      intro h; rw [bfs]; simp only [hlt, hmem, if_true, if_false]; exact ih (by simp [h])
    | case4 assigned queued block node queue' hlt => intro h; rw [bfs]; simp only [hlt, if_false]; exact h
  rw [bfs]
  simp only [List.length_nil, hbs, if_true, hs, if_false]
  exact key _ _ _ _ (by simp)

/-- What is claimed of a block that follows the blocks `pre`. -/
structure GoodBlock (adj : ℕ → List ℕ) (bs : ℕ) (pre : List (List ℕ)) (b : List ℕ) : Prop where
  first : ∃ s, b.head? = some s ∧ s ∉ pre.flatten ∧ ∀ t < s, t ∈ pre.flatten
  grown : Grown adj b
  full : b.length = bs ∨ ∀ x ∈ b, ∀ y ∈ adj x, y ∈ (pre ++ [b]).flatten

theorem seedLoop_grown (adj : ℕ → List ℕ) (bs n : ℕ) (hbs : 0 < bs) (hadj : ∀ i < n, ∀ j ∈ adj i, j < n) :
    ∀ (m a : ℕ) (assigned : Finset ℕ) (blocks : List (List ℕ)), a + m ≤ n → (∀ t < a, t ∈ assigned) → (∀ x, x ∈ assigned ↔ x ∈ blocks.flatten) →
      (∀ pre b post, blocks = pre ++ b :: post → GoodBlock adj bs pre b) →
      ∀ pre b post, seedLoop adj bs (List.range' a m) assigned blocks = pre ++ b :: post → GoodBlock adj bs pre b := by
  intro m
  induction m with
  | zero => intro a assigned blocks _ _ _ h; simpa [seedLoop] using h
  | succ m ih =>
    intro a assigned blocks ham h1 h2 h3
    rw [List.range'_succ, seedLoop]
    by_cases hmem : a ∈ assigned
    · rw [if_pos hmem]
      refine ih (a + 1) assigned blocks (by omega) (fun t ht => ?_) h2 h3
      rcases Nat.lt_succ_iff_lt_or_eq.1 ht with h | rfl
      · exact h1 t h
      · exact hmem
    · rw [if_neg hmem]
      obtain ⟨new, e1, e2, e3, e4, e5⟩ := bfs_seed adj bs n hbs hadj assigned a hmem (by omega)
      have hf := bfs_first adj bs hbs assigned a hmem
      obtain ⟨g1, g2⟩ := bfs_grown adj bs assigned {a} [a] [] (by simp) (by intro pre x post h; simp at h) (by simp)
        (by intro x hx; simp at hx; simp [hx]) (by simp) (by simp)
      rw [e1] at hf g1 g2 ⊢
      simp only at hf g1 g2 ⊢
      refine ih (a + 1) _ _ (by omega) (fun t ht => ?_) (fun x => ?_) ?_
      · rcases Nat.lt_succ_iff_lt_or_eq.1 ht with h | rfl
        · exact Finset.mem_union_left _ (h1 t h)
        · exact Finset.mem_union_right _ (by simp [e5])
      · simp only [Finset.mem_union, List.mem_toFinset, h2 x, List.flatten_append, List.mem_append, List.flatten_cons, List.flatten_nil, List.append_nil]
      · intro pre b post he
        rcases List.eq_nil_or_concat post with rfl | ⟨post', w, rfl⟩
        · obtain ⟨rfl, h'⟩ := List.append_inj' he (by simp)
          simp only [List.cons.injEq, and_true] at h'
          subst h'
          refine ⟨⟨a, hf, fun h => hmem ((h2 a).2 h), fun t ht => (h2 t).1 (h1 t ht)⟩, g1, ?_⟩
          rcases g2 with g2 | g2
          · exact .inl g2
          · refine .inr fun x hx y hy => ?_
            have := g2 x hx y hy
            simpa [h2 y] using this
        · rw [List.concat_eq_append, ← List.cons_append, ← List.append_assoc] at he
          obtain ⟨h', -⟩ := List.append_inj' he (by simp)
          exact h3 pre b post' h'

/-- C18: each block starts with the smallest index that no earlier block holds and grows along the sparsity pattern: every further index of the block is
stored in the row of an earlier one. A block stops growing only when it has the configured size or when all neighbours of its indices are in it or in
earlier blocks. -/
theorem C18_blocks_grown (adj : ℕ → List ℕ) (n : ℕ) (blockSize : ℤ) (hadj : ∀ i < n, ∀ j ∈ adj i, j < n) (pre : List (List ℕ)) (b : List ℕ)
    (post : List (List ℕ)) (h : graphBlocks adj n blockSize = pre ++ b :: post) :
    (∃ s, b.head? = some s ∧ s ∉ pre.flatten ∧ ∀ t < s, t ∈ pre.flatten) ∧
    (∀ l x r, b = l ++ x :: r → l ≠ [] → ∃ y ∈ l, x ∈ adj y) ∧
    ((b.length : ℤ) = max 1 blockSize ∨ ∀ x ∈ b, ∀ y ∈ adj x, y ∈ b ∨ y ∈ pre.flatten) := by
  rw [graphBlocks, List.range_eq_range'] at h
  obtain ⟨h1, h2, h3⟩ := seedLoop_grown adj (max blockSize 1).toNat n (by omega) hadj n 0 ∅ [] (by omega) (by simp) (by simp) (by simp) pre b post h
  refine ⟨h1, h2, ?_⟩
  rcases h3 with h3 | h3
  · exact .inl (by omega)
  · refine .inr fun x hx y hy => ?_
    have := h3 x hx y hy
    simp only [List.flatten_append, List.mem_append, List.flatten_cons, List.flatten_nil, List.append_nil] at this
    exact this.symm

/-- C18: without an effective limit on the size and for a symmetric pattern, the blocks are separated: no row of one block holds an index of another. -/
theorem C18_blocks_separate (adj : ℕ → List ℕ) (n : ℕ) (blockSize : ℤ) (hadj : ∀ i < n, ∀ j ∈ adj i, j < n) (hsym : ∀ i j, j ∈ adj i → i ∈ adj j)
    (hbs : (n : ℤ) < blockSize) (b b' : List ℕ) (hb : b ∈ graphBlocks adj n blockSize) (hb' : b' ∈ graphBlocks adj n blockSize)
    (i j : ℕ) (hi : i ∈ b) (hj : j ∈ b') (hij : j ∈ adj i) : b = b' := by
  have hperm := C18_blocks_partition adj n blockSize hadj
  have hlen : ∀ b ∈ graphBlocks adj n blockSize, b.length ≤ n := by
    intro b hb
    have h1 : b.length ≤ (graphBlocks adj n blockSize).flatten.length := by
      obtain ⟨pre, post, h⟩ := List.append_of_mem hb
      rw [h]; simp; omega
    rw [hperm.length_eq, List.length_range] at h1
    exact h1
  have hnd : (graphBlocks adj n blockSize).flatten.Nodup := hperm.nodup_iff.2 List.nodup_range
  rw [List.nodup_flatten] at hnd
  have closed : ∀ pre b post, graphBlocks adj n blockSize = pre ++ b :: post → ∀ x ∈ b, ∀ y ∈ adj x, y ∈ b ∨ y ∈ pre.flatten := by
    intro pre b post h
    have hm : b ∈ graphBlocks adj n blockSize := by rw [h]; simp
    rcases (C18_blocks_grown adj n blockSize hadj pre b post h).2.2 with h' | h'
    · have := hlen b hm; omega
    · exact h'
  have key : ∀ b b' : List ℕ, ∀ pre mid post, graphBlocks adj n blockSize = pre ++ b :: (mid ++ b' :: post) → ∀ i ∈ b, ∀ j ∈ b', j ∈ adj i → False := by
    intro b b' pre mid post h i hi j hj hij
    have hp := hnd.2
    rw [h, List.pairwise_append] at hp
    obtain ⟨-, hp2, hp3⟩ := hp
    rw [List.pairwise_cons] at hp2
    rcases closed pre b _ h i hi j hij with h' | h'
    · exact hp2.1 b' (by simp) h' hj
    · obtain ⟨c, hc, hjc⟩ := List.mem_flatten.1 h'
      exact hp3 c hc b' (by simp) hjc hj
  by_contra hne
  obtain ⟨pre, post, h⟩ := List.append_of_mem hb
  rw [h] at hb'
  rcases List.mem_append.1 hb' with h' | h'
  · obtain ⟨p1, p2, h''⟩ := List.append_of_mem h'
    rw [h'', List.append_assoc, List.cons_append] at h
    exact key b' b p1 p2 post h j hj i hi (hsym i j hij)
  · rcases List.mem_cons.1 h' with h' | h'
    · exact hne h'.symm
    · obtain ⟨p1, p2, h''⟩ := List.append_of_mem h'
      rw [h''] at h
      exact key b b' pre p1 p2 h i hi j hj hij

/-- A path of three indices and a separate one. -/
def forkAdj : ℕ → List ℕ
  | 0 => [1]
  | 1 => [0, 2]
  | 2 => [1]
  | _ => []

/-- It meets the hypotheses of C18_blocks_grown and C18_blocks_separate, and gives two blocks. -/
example : (∀ i < 4, ∀ j ∈ forkAdj i, j < 4) ∧ (∀ i j, j ∈ forkAdj i → i ∈ forkAdj j) ∧ graphBlocks forkAdj 4 5 = [[0, 1, 2], [3]] := by
  refine ⟨?_, ?_, ?_⟩
  · intro i _ j hj
    rcases i with _ | _ | _ | i <;> simp [forkAdj] at hj <;> omega
  · intro i j hj
    rcases i with _ | _ | _ | i <;> simp [forkAdj] at hj <;> (try rcases hj with rfl | rfl) <;> (try subst hj) <;> simp [forkAdj]
  · simp [graphBlocks, List.range, List.range.loop, seedLoop, bfs, enqueue, forkAdj]

end Verif.LinAlg
