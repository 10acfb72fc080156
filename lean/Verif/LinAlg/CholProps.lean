import Verif.LinAlg.CholLemmas

/-! Properties C11-C16: dense Cholesky, incremental factor, inverse and log-determinant. -/

namespace Verif.LinAlg

open Finset

theorem factor_unique {n : ℕ} {F G A : ℕ → ℕ → ℝ} (hF : IsFactor n F A) (hG : IsFactor n G A) :
    ∀ i < n, ∀ j ≤ i, F i j = G i j := by
  intro i
  induction i using Nat.strong_induction_on with
  | _ i ih =>
    intro hi j
    induction j using Nat.strong_induction_on with
    | _ j ihj =>
      intro hj
      have eF := hF.2 i hi j (by omega)
      have eG := hG.2 i hi j (by omega)
      have cF : ∑ k ∈ range n, low F i k * low F j k
          = ∑ k ∈ range j, F i k * F j k + F i j * F j j := by
        rw [show (∑ k ∈ range n, low F i k * low F j k) = ∑ k ∈ range n, low F j k * low F i k from
          Finset.sum_congr rfl fun k _ => mul_comm _ _, sum_low (by omega : j < n)]
        have hl : ∀ k ≤ j, low F i k = F i k := fun k hk => by rw [low, if_pos (by omega)]
        rw [hl j le_rfl, mul_comm (F j j)]
        congr 1
        apply Finset.sum_congr rfl
        intro k hk
        rw [Finset.mem_range] at hk
        rw [hl k hk.le, mul_comm]
      have cG : ∑ k ∈ range n, low G i k * low G j k
          = ∑ k ∈ range j, G i k * G j k + G i j * G j j := by
        rw [show (∑ k ∈ range n, low G i k * low G j k) = ∑ k ∈ range n, low G j k * low G i k from
          Finset.sum_congr rfl fun k _ => mul_comm _ _, sum_low (by omega : j < n)]
        have hl : ∀ k ≤ j, low G i k = G i k := fun k hk => by rw [low, if_pos (by omega)]
        rw [hl j le_rfl, mul_comm (G j j)]
        congr 1
        apply Finset.sum_congr rfl
        intro k hk
        rw [Finset.mem_range] at hk
        rw [hl k hk.le, mul_comm]
      have hrow : ∀ k < j, F i k = G i k := fun k hk => ihj k hk (by omega)
      rcases Nat.lt_or_eq_of_le hj with hlt | rfl
      · have hjj : F j j = G j j := ih j hlt (by omega) j le_rfl
        have hs : ∑ k ∈ range j, F i k * F j k = ∑ k ∈ range j, G i k * G j k := by
          apply Finset.sum_congr rfl
          intro k hk
          rw [Finset.mem_range] at hk
          rw [hrow k hk, ih j hlt (by omega) k hk.le]
        have : F i j * F j j = G i j * F j j := by
          rw [cF, hs] at eF; rw [cG, ← hjj] at eG; linarith
        exact mul_right_cancel₀ (hF.1 j (by omega)).ne' this
      · have hs : ∑ k ∈ range j, F j k * F j k = ∑ k ∈ range j, G j k * G j k := by
          apply Finset.sum_congr rfl
          intro k hk
          rw [Finset.mem_range] at hk
          rw [hrow k hk]
        have : F j j * F j j = G j j * G j j := by
          rw [cF, hs] at eF; rw [cG] at eG; linarith
        exact (mul_self_inj (hF.1 j hi).le (hG.1 j hi).le).1 this

/-! ## C11, C12 -/

theorem updateChol_self (n : ℕ) (L A : ℕ → ℕ → ℝ) : updateChol n L n A = .ok L := by
  simp [updateChol, rankN]

theorem updateChol_factor {n N : ℕ} {F A : ℕ → ℕ → ℝ} (hnN : n ≤ N)
    (hs : ∀ i < N, ∀ j < N, A i j = A j i) (hF : IsFactor n F A) :
    ∀ m, n + m ≤ N → ∀ F', updateChol n F (n + m) A = .ok F' → IsFactor (n + m) F' A := by
  intro m
  induction m with
  | zero =>
    intro _ F' h
    rw [Nat.add_zero, updateChol_self] at h
    simp only [Except.ok.injEq] at h
    subst h; exact hF
  | succ m ih =>
    intro hm F' h
    rw [← Nat.add_assoc, updateChol_succ hnN hs m (by omega)] at h
    cases hprev : updateChol n F (n + m) A with
    | error e => rw [hprev] at h; simp [bind, Except.bind] at h
    | ok L =>
      rw [hprev] at h
      simp only [bind, Except.bind] at h
      exact rank1_factor (ih (by omega) L hprev) (fun j hj => hs j (by omega) _ (by omega)) h

theorem updateChol_ok_iff {n N : ℕ} {F A : ℕ → ℕ → ℝ} (hnN : n ≤ N)
    (hs : ∀ i < N, ∀ j < N, A i j = A j i) (hF : IsFactor n F A) :
    ∀ m, n + m ≤ N → ((∃ F', updateChol n F (n + m) A = .ok F') ↔ (toMat (n + m) A).PosDef) := by
  intro m
  induction m with
  | zero =>
    intro _
    rw [Nat.add_zero, updateChol_self]
    exact ⟨fun _ => posDef_of_factor hF, fun _ => ⟨_, rfl⟩⟩
  | succ m ih =>
    intro hm
    rw [← Nat.add_assoc, updateChol_succ hnN hs m (by omega)]
    constructor
    · rintro ⟨F', h⟩
      cases hprev : updateChol n F (n + m) A with
      | error e => rw [hprev] at h; simp [bind, Except.bind] at h
      | ok L =>
        rw [hprev] at h
        simp only [bind, Except.bind] at h
        have hL := updateChol_factor hnN hs hF m (by omega) L hprev
        exact (rank1_ok_iff hL (fun j hj => hs j (by omega) _ (by omega))).1 ⟨F', h⟩
    · intro h
      obtain ⟨L, hprev⟩ := (ih (by omega)).2 (posDef_leading h (by omega))
      have hL := updateChol_factor hnN hs hF m (by omega) L hprev
      rw [hprev]
      simp only [bind, Except.bind]
      exact (rank1_ok_iff hL (fun j hj => hs j (by omega) _ (by omega))).2 h

/-- C11: for a symmetric positive definite matrix of size `N` and a factor of its leading `n x n` block, the
rank-n update succeeds and returns a Cholesky factor of the whole matrix. -/
theorem C11_update_gives_factor (n N : ℕ) (F A : ℕ → ℕ → ℝ) (hnN : n ≤ N)
    (hs : ∀ i < N, ∀ j < N, A i j = A j i) (hF : IsFactor n F A) (hpd : (toMat N A).PosDef) :
    ∃ F', updateChol n F N A = .ok F' ∧ IsFactor N F' A := by
  obtain ⟨m, rfl⟩ := Nat.exists_eq_add_of_le hnN
  obtain ⟨F', h⟩ := (updateChol_ok_iff hnN hs hF m le_rfl).2 hpd
  exact ⟨F', h, updateChol_factor hnN hs hF m le_rfl F' h⟩

/-- C11: a Cholesky factor is unique (below and on the diagonal). -/
theorem C11_factor_unique (n : ℕ) (F G A : ℕ → ℕ → ℝ) (hF : IsFactor n F A) (hG : IsFactor n G A) :
    ∀ i < n, ∀ j ≤ i, F i j = G i j := factor_unique hF hG

/-- C11: the update returns, below and on the diagonal, exactly what a factorisation of the whole matrix from
scratch returns, whatever LAPACK leaves above the diagonal. -/
theorem C11_update_equals_from_scratch (n N : ℕ) (F A junk : ℕ → ℕ → ℝ) (hnN : n ≤ N)
    (hs : ∀ i < N, ∀ j < N, A i j = A j i) (hF : IsFactor n F A) (F' G : ℕ → ℕ → ℝ)
    (hF' : updateChol n F N A = .ok F') (hG : cholFactor junk N A = .ok G) :
    ∀ i < N, ∀ j ≤ i, F' i j = G i j := by
  obtain ⟨m, rfl⟩ := Nat.exists_eq_add_of_le hnN
  have h1 := updateChol_factor hnN hs hF m le_rfl F' hF'
  unfold cholFactor at hG
  cases hL : updateChol 0 (fun _ _ => 0) (n + m) A with
  | error e => rw [hL] at hG; simp [bind, Except.bind] at hG
  | ok L =>
    rw [hL] at hG
    simp only [bind, Except.bind, Except.ok.injEq] at hG
    have h2 := updateChol_factor (n := 0) (N := n + m) (F := fun _ _ => 0) (A := A) (by omega) hs
      ⟨by simp, by simp⟩ (n + m) (by omega) L (by rw [Nat.zero_add]; exact hL)
    rw [Nat.zero_add] at h2
    intro i hi j hj
    rw [← hG]
    simp only [hj, if_true]
    exact factor_unique h1 h2 i hi j hj

/-- C11: the lower triangle produced has exact zeros where the block update writes them: above the diagonal
of the appended columns. -/
theorem C11_appended_columns_lower (n N : ℕ) (F A F' : ℕ → ℕ → ℝ) (hnN : n ≤ N)
    (h : updateChol n F N A = .ok F') : ∀ i j, i < j → n ≤ j → j < N → F' i j = 0 := by
  obtain ⟨m, rfl⟩ := Nat.exists_eq_add_of_le hnN
  have key : ∀ m L b c F', rankN n L b c m = .ok F' →
      ∀ i j, i < j → n ≤ j → j < n + m → F' i j = 0 := by
    intro m L b c
    induction m with
    | zero => intro F' _ i j _ h1 h2; omega
    | succ m ih =>
      intro F' h i j hij hj hjm
      rw [rankN] at h
      cases hprev : rankN n L b c m with
      | error e => rw [hprev] at h; simp [bind, Except.bind] at h
      | ok L' =>
        rw [hprev] at h
        simp only [bind, Except.bind, rank1] at h
        split at h
        · simp at h
        · simp only [Except.ok.injEq] at h
          rw [← h]
          by_cases hj' : j < n + m
          · have : i < n + m := by omega
            simp only [this, hj', if_true]
            exact ih L' hprev i j hij hj hj'
          · have : i < n + m := by omega
            simp [this, hj']
  unfold updateChol at h
  intro i j a b c
  exact key _ _ _ _ F' h i j a b (by omega)

/-- C12: given a factor of the leading block, the update raises exactly when the grown symmetric matrix is not
positive definite. -/
theorem C12_rejects_iff_not_posDef (n N : ℕ) (F A : ℕ → ℕ → ℝ) (hnN : n ≤ N)
    (hs : ∀ i < N, ∀ j < N, A i j = A j i) (hF : IsFactor n F A) :
    (∃ e, updateChol n F N A = .error e) ↔ ¬ (toMat N A).PosDef := by
  obtain ⟨m, rfl⟩ := Nat.exists_eq_add_of_le hnN
  rw [← updateChol_ok_iff hnN hs hF m le_rfl]
  cases updateChol n F (n + m) A with
  | error e => simp
  | ok L => simp

/-- C12: a positive definite leading block always has a factor, and factorising from scratch succeeds exactly
for positive definite matrices. -/
theorem C12_from_scratch_iff_posDef (n : ℕ) (A junk : ℕ → ℕ → ℝ) (hs : ∀ i < n, ∀ j < n, A i j = A j i) :
    (∃ F, cholFactor junk n A = .ok F ∧ IsFactor n F A) ↔ (toMat n A).PosDef := by
  constructor
  · rintro ⟨F, _, h⟩
    exact posDef_of_factor h
  · intro h
    obtain ⟨L, hL, hfac⟩ := C11_update_gives_factor 0 n (fun _ _ => 0) A (by omega) hs
      ⟨by simp, by simp⟩ h
    refine ⟨_, by rw [cholFactor, hL]; rfl, ?_, ?_⟩
    · intro i hi
      simp [hfac.1 i hi]
    · intro i hi j hj
      rw [← hfac.2 i hi j hj]
      apply Finset.sum_congr rfl
      intro k _
      unfold low
      by_cases h1 : k ≤ i <;> by_cases h2 : k ≤ j <;> simp [h1, h2]

/-! ## C13 -/

/-- A sequence of appends: each entry is the total size after the append (gp_kv.py:462-508 calls
`update_Chol_factor` once per append with the grown matrix). -/
noncomputable def appendAll (n : ℕ) (F A : ℕ → ℕ → ℝ) : List ℕ → Except String (ℕ → ℕ → ℝ)
  | [] => .ok F
  | N :: rest => do
      let F' ← updateChol n F N A
      appendAll N F' A rest

theorem updateChol_comp {A : ℕ → ℕ → ℝ} {n : ℕ} {F : ℕ → ℕ → ℝ} {N₁ N₂ : ℕ} (h1 : n ≤ N₁) (h2 : N₁ ≤ N₂)
    (hs : ∀ i < N₂, ∀ j < N₂, A i j = A j i) :
    (updateChol n F N₁ A >>= fun F' => updateChol N₁ F' N₂ A) = updateChol n F N₂ A := by
  obtain ⟨a, rfl⟩ := Nat.exists_eq_add_of_le h1
  obtain ⟨b, rfl⟩ := Nat.exists_eq_add_of_le h2
  have key : ∀ b', b' ≤ b → (updateChol n F (n + a) A >>= fun F' => updateChol (n + a) F' (n + a + b') A)
      = updateChol n F (n + a + b') A := by
    intro b'
    induction b' with
    | zero =>
      intro _
      simp only [Nat.add_zero, updateChol_self]
      cases updateChol n F (n + a) A <;> rfl
    | succ b' ih =>
      intro hb
      have e := updateChol_succ (n := n) (N := n + a + b) (L := F) (A := A) (by omega) hs (a + b')
        (by omega)
      rw [show n + a + (b' + 1) = n + (a + b') + 1 by omega, e,
        show n + (a + b') = n + a + b' by omega, ← ih (by omega)]
      cases updateChol n F (n + a) A with
      | error e => rfl
      | ok L =>
        exact updateChol_succ (n := n + a) (N := n + a + b) (L := L) (A := A) (by omega) hs b' (by omega)
  exact key b le_rfl

/-- C13: every way of splitting an append into consecutive batches ends in the same factor (or the same
rejection) as one single append. -/
theorem C13_batching_irrelevant (A : ℕ → ℕ → ℝ) (sizes : List ℕ) :
    ∀ (n : ℕ) (F : ℕ → ℕ → ℝ), (n :: sizes).Pairwise (· ≤ ·) →
      (∀ i < (n :: sizes).getLast (by simp), ∀ j < (n :: sizes).getLast (by simp), A i j = A j i) →
      appendAll n F A sizes = updateChol n F ((n :: sizes).getLast (by simp)) A := by
  induction sizes with
  | nil => intro n F _ _; simp [appendAll, updateChol_self]
  | cons N rest ih =>
    intro n F hp hs
    rw [List.pairwise_cons] at hp
    have hN : n ≤ N := hp.1 N (by simp)
    have hlast : (n :: N :: rest).getLast (by simp) = (N :: rest).getLast (by simp) := by simp
    have hNl : N ≤ (N :: rest).getLast (by simp) := by
      rcases rest with _ | ⟨r, rest⟩
      · simp
      · have := (List.pairwise_cons.1 hp.2).1 ((r :: rest).getLast (by simp)) (List.getLast_mem _)
        simpa using this
    rw [hlast] at hs ⊢
    rw [appendAll, ← updateChol_comp hN hNl hs]
    congr 1
    funext F'
    exact ih N F' hp.2 hs

/-- C13: two different ways of splitting the same append agree. -/
theorem C13_two_splits_agree (A : ℕ → ℕ → ℝ) (n N : ℕ) (F : ℕ → ℕ → ℝ) (s t : List ℕ)
    (hs : (n :: (s ++ [N])).Pairwise (· ≤ ·)) (ht : (n :: (t ++ [N])).Pairwise (· ≤ ·))
    (hA : ∀ i < N, ∀ j < N, A i j = A j i) :
    appendAll n F A (s ++ [N]) = appendAll n F A (t ++ [N]) := by
  have e : ∀ l : List ℕ, (n :: (l ++ [N])).getLast (by simp) = N := by
    intro l
    rw [List.getLast_cons (by simp), List.getLast_append_of_ne_nil (by simp) (by simp)]; rfl
  rw [C13_batching_irrelevant A _ n F hs (by rw [e]; exact hA),
    C13_batching_irrelevant A _ n F ht (by rw [e]; exact hA), e, e]

/-! ## C16 -/

theorem bsub_eq (n : ℕ) (L : ℕ → ℕ → ℝ) (y : ℕ → ℝ) (i : ℕ) (hi : i < n) :
    bsub n L y i = (y i - ∑ j ∈ Finset.Ico (i + 1) n, L j i * bsub n L y j) / L i i := by
  rw [bsub, if_pos hi, Finset.sum_Ico_eq_sum_range, Finset.sum_range]

theorem bsub_spec {n : ℕ} {L : ℕ → ℕ → ℝ} {y : ℕ → ℝ} {i : ℕ} (hi : i < n) (h : L i i ≠ 0) :
    ∑ k ∈ range n, low L k i * bsub n L y k = y i := by
  have hsplit : ∑ k ∈ range n, low L k i * bsub n L y k
      = L i i * bsub n L y i + ∑ k ∈ Finset.Ico (i + 1) n, L k i * bsub n L y k := by
    have h0 : ∑ k ∈ range n, low L k i * bsub n L y k
        = ∑ k ∈ Finset.Ico i n, low L k i * bsub n L y k := by
      symm
      apply Finset.sum_subset
      · intro k hk
        simp only [Finset.mem_Ico, Finset.mem_range] at *; omega
      · intro k hk hk'
        simp only [Finset.mem_Ico, Finset.mem_range] at *
        rw [low, if_neg (by omega), zero_mul]
    rw [h0, Finset.sum_eq_sum_Ico_succ_bot hi]
    congr 1
    · rw [low, if_pos le_rfl]
    · apply Finset.sum_congr rfl
      intro k hk
      simp only [Finset.mem_Ico] at hk
      rw [low, if_pos (by omega)]
  rw [hsplit, bsub_eq n L y i hi]
  field_simp
  ring

/-- C16: with a Cholesky factor of `A`, the solve returns a solution of `A x = b`. -/
theorem C16_solve_exact (n : ℕ) (F A : ℕ → ℕ → ℝ) (hF : IsFactor n F A) (b : ℕ → ℝ) :
    ∀ i < n, ∑ j ∈ range n, A i j * cholSolve n F b j = b i := by
  intro i hi
  have h1 : ∀ j ∈ range n, A i j * cholSolve n F b j
      = ∑ k ∈ range n, low F i k * (low F j k * cholSolve n F b j) := by
    intro j hj
    rw [Finset.mem_range] at hj
    rw [← hF.2 i hi j hj, Finset.sum_mul]
    exact Finset.sum_congr rfl fun k _ => by ring
  rw [Finset.sum_congr rfl h1, Finset.sum_comm]
  have h2 : ∀ k ∈ range n, ∑ j ∈ range n, low F i k * (low F j k * cholSolve n F b j)
      = low F i k * fsub F b k := by
    intro k hk
    rw [Finset.mem_range] at hk
    rw [← Finset.mul_sum]
    congr 1
    exact bsub_spec hk (hF.1 k hk).ne'
  rw [Finset.sum_congr rfl h2]
  exact fsub_low hi (hF.1 i hi).ne'

/-- C16: the solution returned is the only one. -/
theorem C16_solve_unique (n : ℕ) (F A : ℕ → ℕ → ℝ) (hF : IsFactor n F A) (b x : ℕ → ℝ)
    (hx : ∀ i < n, ∑ j ∈ range n, A i j * x j = b i) : ∀ i < n, x i = cholSolve n F b i := by
  have hpd := posDef_of_factor hF
  have hinj := Matrix.mulVec_injective_of_isUnit hpd.isUnit
  have : (fun i : Fin n => x i) = fun i : Fin n => cholSolve n F b i := by
    apply hinj
    funext i
    have e1 := hx i i.2
    have e2 := C16_solve_exact n F A hF b i i.2
    rw [Finset.sum_range] at e1 e2
    simp only [Matrix.mulVec, dotProduct, toMat, Matrix.of_apply]
    rw [e1, e2]
  intro i hi
  exact congrFun this ⟨i, hi⟩

/-- C16: twice the sum of the logarithms of the factor's diagonal is `log det A`. -/
theorem C16_logdet_exact (n : ℕ) (F A : ℕ → ℕ → ℝ) (hF : IsFactor n F A) :
    cholLogdet n F = Real.log (toMat n A).det := by
  rw [toMat_eq_mul hF, Matrix.det_mul, Matrix.det_transpose, det_toMat_low]
  have hp := prod_diag_pos hF
  rw [Real.log_mul hp.ne' hp.ne', ← two_mul, cholLogdet, Finset.sum_range,
    Real.log_prod (fun (i : Fin n) _ => (hF.1 i i.2).ne')]
  congr 1
  exact Finset.sum_congr rfl fun i _ => by rw [abs_of_pos (hF.1 i i.2)]

/-- C16: the inverse computed from the factor is the matrix inverse. -/
theorem C16_inverse_exact (n : ℕ) (F A : ℕ → ℕ → ℝ) (hF : IsFactor n F A) :
    toMat n (invFromChol n F) = (toMat n A)⁻¹ := by
  symm
  apply Matrix.inv_eq_right_inv
  ext i j
  rw [Matrix.mul_apply]
  have := C16_solve_exact n F A hF (fun k => if k = (j : ℕ) then 1 else 0) i i.2
  rw [Finset.sum_range] at this
  simp only [toMat, Matrix.of_apply, invFromChol]
  rw [this, Matrix.one_apply]
  simp [Fin.ext_iff]

/-! ## C14, C15 -/

section Blocks

variable {m n : Type} [Fintype m] [DecidableEq m] [Fintype n] [DecidableEq n]

theorem blocks_of_symm {KV : Matrix (m ⊕ n) (m ⊕ n) ℝ} (hs : KV.transpose = KV) :
    KV.toBlocks₂₁.transpose = KV.toBlocks₁₂ ∧ KV.toBlocks₁₁.transpose = KV.toBlocks₁₁ := by
  constructor
  · ext i j
    have := congrFun (congrFun hs (Sum.inl i)) (Sum.inr j)
    simpa [Matrix.toBlocks₂₁, Matrix.toBlocks₁₂] using this
  · ext i j
    have := congrFun (congrFun hs (Sum.inl i)) (Sum.inl j)
    simpa [Matrix.toBlocks₁₁] using this

theorem det_schur {KV : Matrix (m ⊕ n) (m ⊕ n) ℝ} (hs : KV.transpose = KV)
    (hA : KV.toBlocks₁₁.det ≠ 0) :
    KV.det = KV.toBlocks₁₁.det *
      (KV.toBlocks₂₂ - KV.toBlocks₂₁ * KV.toBlocks₁₁⁻¹ * KV.toBlocks₂₁.transpose).det := by
  haveI : Invertible KV.toBlocks₁₁ := Matrix.invertibleOfIsUnitDet _ hA.isUnit
  conv_lhs => rw [← Matrix.fromBlocks_toBlocks KV]
  rw [Matrix.det_fromBlocks₁₁, Matrix.invOf_eq_nonsing_inv, (blocks_of_symm hs).1]

/-- C14: with the inverse of the leading block stored, the update of an invertible symmetric matrix returns
its inverse. -/
theorem C14_update_inv_exact (KV : Matrix (m ⊕ n) (m ⊕ n) ℝ) (hs : KV.transpose = KV)
    (hA : KV.toBlocks₁₁.det ≠ 0) (hdet : KV.det ≠ 0) :
    updateInv KV.toBlocks₁₁⁻¹ KV = .ok KV⁻¹ := by
  have hS : (KV.toBlocks₂₂ - KV.toBlocks₂₁ * KV.toBlocks₁₁⁻¹ * KV.toBlocks₂₁.transpose).det ≠ 0 := by
    rw [det_schur hs hA] at hdet
    exact right_ne_zero_of_mul hdet
  obtain ⟨h12, h11⟩ := blocks_of_symm hs
  have hAinv : (KV.toBlocks₁₁⁻¹).transpose = KV.toBlocks₁₁⁻¹ := by
    rw [Matrix.transpose_nonsing_inv, h11]
  have h22 : KV.toBlocks₂₂.transpose = KV.toBlocks₂₂ := by
    ext i j
    have := congrFun (congrFun hs (Sum.inr i)) (Sum.inr j)
    simpa [Matrix.toBlocks₂₂] using this
  unfold updateInv npInv
  simp only [hS, ne_eq, not_false_eq_true, if_true, bind, Except.bind, Except.ok.injEq]
  set P := KV.toBlocks₁₁⁻¹ with hP
  set k := KV.toBlocks₂₁ with hk
  set S := KV.toBlocks₂₂ - k * P * k.transpose with hSdef
  have hSsymm : S.transpose = S := by
    rw [hSdef, Matrix.transpose_sub, h22, Matrix.transpose_mul, Matrix.transpose_mul, hAinv,
      Matrix.transpose_transpose, Matrix.mul_assoc]
  have hX : (S⁻¹).transpose = S⁻¹ := by rw [Matrix.transpose_nonsing_inv, hSsymm]
  have hPA : KV.toBlocks₁₁ * P = 1 := Matrix.mul_nonsing_inv _ hA.isUnit
  have hSX : S * S⁻¹ = 1 := Matrix.mul_nonsing_inv _ (isUnit_iff_ne_zero.2 hS)
  symm
  apply Matrix.inv_eq_right_inv
  have hFt : (-P * k.transpose * S⁻¹).transpose = -(S⁻¹ * k * P) := by
    rw [Matrix.transpose_mul, Matrix.transpose_mul, Matrix.transpose_neg, hX, hAinv,
      Matrix.transpose_transpose]
    simp [Matrix.mul_assoc]
  rw [hFt]
  conv_lhs => rw [← Matrix.fromBlocks_toBlocks KV]
  rw [Matrix.fromBlocks_multiply, ← Matrix.fromBlocks_one, ← h12, ← hk]
  have hkk : KV.toBlocks₂₂ = S + k * P * k.transpose := by rw [hSdef]; abel
  congr 1
  · have : KV.toBlocks₁₁ * (P + P * k.transpose * S⁻¹ * k * P)
        = KV.toBlocks₁₁ * P + KV.toBlocks₁₁ * P * (k.transpose * S⁻¹ * k * P) := by
      simp only [Matrix.mul_add, Matrix.mul_assoc]
    rw [this, hPA]
    simp only [Matrix.one_mul, Matrix.mul_neg, Matrix.mul_assoc]
    abel
  · have : KV.toBlocks₁₁ * (-P * k.transpose * S⁻¹) = -(KV.toBlocks₁₁ * P * (k.transpose * S⁻¹)) := by
      simp only [Matrix.neg_mul, Matrix.mul_neg, Matrix.mul_assoc]
    rw [this, hPA]
    simp
  · have e1 : k * (P + P * k.transpose * S⁻¹ * k * P) = k * P + k * P * k.transpose * (S⁻¹ * k * P) := by
      simp only [Matrix.mul_add, Matrix.mul_assoc]
    have e2 : (S + k * P * k.transpose) * -(S⁻¹ * k * P)
        = -(S * S⁻¹ * (k * P)) - k * P * k.transpose * (S⁻¹ * k * P) := by
      simp only [Matrix.mul_neg, Matrix.add_mul, Matrix.mul_assoc]
      abel
    rw [hkk, e1, e2, hSX]
    simp only [Matrix.one_mul]
    abel
  · have e1 : k * (-P * k.transpose * S⁻¹) = -(k * P * k.transpose * S⁻¹) := by
      simp only [Matrix.neg_mul, Matrix.mul_neg, Matrix.mul_assoc]
    rw [hkk, e1, Matrix.add_mul, hSX]
    abel

/-- C14: with an invertible leading block the update raises exactly when the whole matrix is singular. -/
theorem C14_update_inv_rejects_iff_singular (KV : Matrix (m ⊕ n) (m ⊕ n) ℝ) (hs : KV.transpose = KV)
    (hA : KV.toBlocks₁₁.det ≠ 0) :
    (∃ e, updateInv KV.toBlocks₁₁⁻¹ KV = .error e) ↔ KV.det = 0 := by
  constructor
  · rintro ⟨e, h⟩
    by_contra hd
    rw [C14_update_inv_exact KV hs hA hd] at h
    simp at h
  · intro hd
    rw [det_schur hs hA] at hd
    have hS := (mul_eq_zero.1 hd).resolve_left hA
    refine ⟨"Singular matrix", ?_⟩
    unfold updateInv npInv
    simp only [hS, ne_eq, not_true_eq_false, if_false, bind, Except.bind]

/-- C15: the updated log-determinant is the log-determinant of the grown positive definite matrix. -/
theorem C15_update_logdet_exact (KV : Matrix (m ⊕ n) (m ⊕ n) ℝ) (hpd : KV.PosDef) (old : ℝ)
    (hold : old = Real.log KV.toBlocks₁₁.det) :
    updateLogdet old KV.toBlocks₁₁⁻¹ KV = Real.log KV.det := by
  have hs : KV.transpose = KV := by
    have := hpd.isHermitian
    rwa [Matrix.IsHermitian, Matrix.conjTranspose_eq_transpose_of_trivial] at this
  have h11 : KV.toBlocks₁₁.PosDef := by
    have := hpd.submatrix (e := (Sum.inl : m → m ⊕ n)) Sum.inl_injective
    exact this
  have hA := h11.det_pos
  have hK := hpd.det_pos
  have hdet := det_schur hs hA.ne'
  have hS : 0 < (KV.toBlocks₂₂ - KV.toBlocks₂₁ * KV.toBlocks₁₁⁻¹ * KV.toBlocks₂₁.transpose).det := by
    rw [hdet] at hK
    exact pos_of_mul_pos_right hK hA.le
  unfold updateLogdet slogdet
  simp only
  rw [hdet, Real.log_mul hA.ne' hS.ne', abs_of_pos hS, hold]

/-- C15: `slogdet` itself is the log-determinant of a positive definite matrix, so a stored value computed
from scratch can be used as the start of a chain of updates. -/
theorem C15_slogdet_posDef (A : Matrix m m ℝ) (hpd : A.PosDef) : slogdet A = Real.log A.det := by
  rw [slogdet, abs_of_pos hpd.det_pos]

end Blocks

/-! ## Concrete cases -/

/-- The matrix `[[4, 2, 2], [2, 10, 4], [2, 4, 6]]` used in the examples. -/
def exA : ℕ → ℕ → ℝ := fun i j =>
  match i, j with
  | 0, 0 => 4 | 0, 1 => 2 | 0, 2 => 2
  | 1, 0 => 2 | 1, 1 => 10 | 1, 2 => 4
  | 2, 0 => 2 | 2, 1 => 4 | 2, 2 => 6
  | _, _ => 0

/-- Its leading 2 x 2 factor, with junk above the diagonal. -/
def exF : ℕ → ℕ → ℝ := fun i j =>
  match i, j with
  | 0, 0 => 2 | 1, 0 => 1 | 1, 1 => 3 | 0, 1 => 77
  | _, _ => 0

theorem exF_factor : IsFactor 2 exF exA := by
  refine ⟨?_, ?_⟩
  · intro i hi
    interval_cases i <;> simp [exF]
  · intro i hi j hj
    interval_cases i <;> interval_cases j <;> simp [Finset.sum_range_succ, low, exF, exA] <;> norm_num

theorem exA_symm : ∀ i < 3, ∀ j < 3, exA i j = exA j i := by
  intro i hi j hj
  interval_cases i <;> interval_cases j <;> simp [exA]

/-- C11, C12, C13, C16 hypotheses are met: appending the third row succeeds. -/
example : ∃ F', updateChol 2 exF 3 exA = .ok F' ∧ IsFactor 3 F' exA := by
  have hrank : ∃ F', updateChol 2 exF 3 exA = .ok F' := by
    have h := updateChol_succ (n := 2) (N := 3) (L := exF) (A := exA) (by omega) exA_symm 0 (by omega)
    simp only [Nat.add_zero] at h
    rw [h, updateChol_self]
    simp only [bind, Except.bind, rank1]
    rw [if_neg]
    · exact ⟨_, rfl⟩
    · have v0 : fsub exF (exA 2) 0 = 1 := by
        rw [fsub_eq]; simp [exF, exA]
      have v1 : fsub exF (exA 2) 1 = 1 := by
        rw [fsub_eq]; simp [Finset.sum_range_succ, v0, exF, exA]; norm_num
      simp [Finset.sum_range_succ, v0, v1, exA]
      norm_num
  obtain ⟨F', h⟩ := hrank
  exact ⟨F', h, updateChol_factor (n := 2) (N := 3) (by omega) exA_symm exF_factor 1 (by omega) F' h⟩

/-- C12, the rejecting side: appending a row that duplicates the first is rejected. -/
example : ∃ e, updateChol 1 (fun _ _ => 1) 2 (fun _ _ => 1) = .error e := by
  refine ⟨"NonPositiveDefiniteError", ?_⟩
  have v0 : ∀ b : ℕ → ℝ, fsub (fun _ _ => 1) b 0 = b 0 := by
    intro b; rw [fsub_eq]; simp
  simp only [updateChol, rankN, rank1, bind, Except.bind]
  rw [if_pos]
  simp [v0]

/-- `[[2, 1], [1, 2]]` split into 1 x 1 blocks. -/
def exKV : Matrix (Fin 1 ⊕ Fin 1) (Fin 1 ⊕ Fin 1) ℝ :=
  Matrix.fromBlocks (Matrix.of fun _ _ => 2) (Matrix.of fun _ _ => 1)
    (Matrix.of fun _ _ => 1) (Matrix.of fun _ _ => 2)

theorem exKV_posDef : exKV.PosDef := by
  apply Matrix.PosDef.of_dotProduct_mulVec_pos
  · ext i j
    rcases i with i | i <;> rcases j with j | j <;> simp [exKV]
  · intro x hx
    have : x (Sum.inl 0) ≠ 0 ∨ x (Sum.inr 0) ≠ 0 := by
      by_contra h
      push Not at h
      apply hx
      funext i
      rcases i with i | i <;> (have := Subsingleton.elim i 0; subst this)
      · exact h.1
      · exact h.2
    simp only [exKV, dotProduct, Matrix.mulVec, Fintype.sum_sum_type, Pi.star_apply, star_trivial,
      Finset.univ_unique, Finset.sum_singleton, Matrix.fromBlocks_apply₁₁, Matrix.fromBlocks_apply₁₂,
      Matrix.fromBlocks_apply₂₁, Matrix.fromBlocks_apply₂₂, Matrix.of_apply, Fin.default_eq_zero]
    rcases this with h | h
    · have := sq_pos_of_ne_zero h
      nlinarith [sq_nonneg (x (Sum.inl 0) + x (Sum.inr 0)), sq_nonneg (x (Sum.inr 0))]
    · have := sq_pos_of_ne_zero h
      nlinarith [sq_nonneg (x (Sum.inl 0) + x (Sum.inr 0)), sq_nonneg (x (Sum.inl 0))]

/-- C14 and C15 apply to it. -/
example : updateInv exKV.toBlocks₁₁⁻¹ exKV = .ok exKV⁻¹
    ∧ updateLogdet (Real.log exKV.toBlocks₁₁.det) exKV.toBlocks₁₁⁻¹ exKV = Real.log exKV.det :=
  ⟨C14_update_inv_exact exKV (by
      have := exKV_posDef.isHermitian
      rwa [Matrix.IsHermitian, Matrix.conjTranspose_eq_transpose_of_trivial] at this)
      (by simp [exKV]) exKV_posDef.det_pos.ne',
    C15_update_logdet_exact exKV exKV_posDef _ rfl⟩

end Verif.LinAlg
