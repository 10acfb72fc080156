import Verif.LinAlg.KrylovModel
import Mathlib.Tactic.Linarith
import Mathlib.Tactic.FieldSimp
import Mathlib.Tactic.Positivity
import Mathlib.Tactic.IntervalCases

/-! Properties C17 and C21: warm starts and reported convergence of (block) conjugate gradients. -/

namespace Verif.LinAlg

open Matrix

/-! ## C17 -/

/-- Number of rows and columns of a guess seen as a table; a vector is one column. -/
def Arr.shape2 : Arr → ℕ × ℕ
  | .d1 len _ => (len, 1)
  | .d2 r c _ => (r, c)

/-- Entry of a guess seen as a table. -/
def Arr.entry : Arr → ℕ → ℕ → ℝ
  | .d1 _ v, i, _ => v i
  | .d2 _ _ v, i, j => v i j

/-- C17: an accepted guess has exactly the shape of the right-hand side; old rows are kept, new rows are zero,
surplus rows are dropped, and a single column is copied to all columns. -/
theorem C17_guess_reshaped (a : Arr) (shape : ℕ × ℕ) (g : Option Arr2)
    (h : normalizeGuess (some a) shape = .ok g) :
    ∃ b, g = some b ∧ b.rows = shape.1 ∧ b.cols = shape.2 ∧
      ∀ i < shape.1, ∀ j < shape.2, b.val i j =
        if i < a.shape2.1 then a.entry i (if a.shape2.2 = 1 then 0 else j) else 0 := by
  have hs : a.as2.rows = a.shape2.1 ∧ a.as2.cols = a.shape2.2 ∧ ∀ i j, a.as2.val i j = a.entry i j := by
    cases a <;> simp [Arr.as2, Arr.shape2, Arr.entry]
  obtain ⟨h1, h2, h3⟩ := hs
  unfold normalizeGuess at h
  simp only at h
  by_cases hc : a.as2.cols = 1 ∧ 1 < shape.2
  · have hc' : a.shape2.2 = 1 := by rw [← h2]; exact hc.1
    rw [if_pos hc] at h
    simp only [ne_eq, not_true_eq_false, if_false] at h
    simp only [hc', if_true]
    split at h
    · rename_i hlt
      simp only [Except.ok.injEq] at h
      refine ⟨_, h.symm, rfl, rfl, ?_⟩
      intro i _ j _
      simp only [h1, h3]
    · rename_i hlt
      split at h
      · simp only [Except.ok.injEq] at h
        refine ⟨_, h.symm, rfl, rfl, ?_⟩
        intro i hi j _
        rw [if_pos (by omega)]; exact h3 i 0
      · simp only [Except.ok.injEq] at h
        refine ⟨_, h.symm, by simp only; omega, rfl, ?_⟩
        intro i hi j _
        rw [if_pos (by omega)]; exact h3 i 0
  · rw [if_neg hc] at h
    split at h
    · simp at h
    · rename_i hcols
      rw [ne_eq, not_not] at hcols
      have hj : ∀ i j, j < shape.2 → a.as2.val i j = a.entry i (if a.shape2.2 = 1 then 0 else j) := by
        intro i j hj
        rw [h3]
        by_cases hone : a.shape2.2 = 1
        · have : ¬ 1 < shape.2 := fun hh => hc ⟨by rw [h2]; exact hone, hh⟩
          have : j = 0 := by omega
          simp [this]
        · simp [hone]
      split at h
      · simp only [Except.ok.injEq] at h
        refine ⟨_, h.symm, rfl, hcols, ?_⟩
        intro i _ j hjj
        simp only [h1]
        split
        · exact hj i j hjj
        · rfl
      · split at h
        · simp only [Except.ok.injEq] at h
          refine ⟨_, h.symm, rfl, hcols, ?_⟩
          intro i hi j hjj
          rw [if_pos (by omega)]; exact hj i j hjj
        · simp only [Except.ok.injEq] at h
          refine ⟨_, h.symm, by omega, hcols, ?_⟩
          intro i hi j hjj
          rw [if_pos (by omega)]; exact hj i j hjj

/-- C17: a guess is rejected exactly when its number of columns differs from the right-hand side's, unless it
is one column and the right-hand side has more. -/
theorem C17_rejected_iff (a : Arr) (shape : ℕ × ℕ) :
    (∃ e, normalizeGuess (some a) shape = .error e) ↔
      a.shape2.2 ≠ shape.2 ∧ ¬ (a.shape2.2 = 1 ∧ 1 < shape.2) := by
  have h2 : a.as2.cols = a.shape2.2 := by cases a <;> rfl
  unfold normalizeGuess
  simp only
  by_cases hc : a.as2.cols = 1 ∧ 1 < shape.2
  · rw [if_pos hc]
    simp only [ne_eq, not_true_eq_false, if_false]
    rw [h2] at hc
    simp only [hc, and_self, not_true_eq_false, and_false, iff_false]
    rintro ⟨e, he⟩
    split at he
    · simp at he
    · split at he <;> simp at he
  · rw [if_neg hc]
    rw [h2] at hc ⊢
    constructor
    · rintro ⟨e, he⟩
      split at he
      · rename_i h; exact ⟨h, hc⟩
      · split at he
        · simp at he
        · split at he <;> simp at he
    · rintro ⟨h, _⟩
      exact ⟨_, by rw [if_pos h]⟩

/-- C17: with at least one right-hand-side column, only guesses with several (or no) columns are rejected. -/
theorem C17_single_column_never_rejected (a : Arr) (shape : ℕ × ℕ) (hs : 1 ≤ shape.2)
    (ha : a.shape2.2 = 1) : ∃ g, normalizeGuess (some a) shape = .ok g := by
  cases h : normalizeGuess (some a) shape with
  | ok g => exact ⟨g, rfl⟩
  | error e =>
    obtain ⟨h1, h2⟩ := (C17_rejected_iff a shape).1 ⟨e, h⟩
    omega

/-- C17: without a guess nothing is invented. -/
theorem C17_none (shape : ℕ × ℕ) : normalizeGuess none shape = .ok none := rfl

/-- A vector of length 2 for a 3 x 2 right-hand side is padded and copied. -/
example : ∃ b, normalizeGuess (some (.d1 2 fun i => i + 5)) (3, 2) = .ok (some b)
    ∧ b.val 1 1 = 6 ∧ b.val 2 0 = 0 := by
  refine ⟨_, rfl, ?_, ?_⟩
  · norm_num [Arr.as2]
  · norm_num [Arr.as2]

/-! ## C21 -/

section CG

variable {n k : ℕ}

/-- Specification of convergence for one column: the true residual is within the tolerance relative to the
right-hand side (absolute when the right-hand side is zero). -/
def ColumnSolved (tol : ℝ) (A : Matrix (Fin n) (Fin n) ℝ) (b x : Fin n → ℝ) : Prop :=
  let r := Real.sqrt (∑ i, (b i - ∑ l, A i l * x l) ^ 2)
  let bn := Real.sqrt (∑ i, b i ^ 2)
  (bn ≠ 0 → r ≤ tol * bn) ∧ (bn = 0 → r ≤ tol)

theorem solved_of_small {tol : ℝ} {A : Matrix (Fin n) (Fin n) ℝ} {B X : Matrix (Fin n) (Fin k) ℝ}
    (h : smallResidual tol B (B - A * X)) (j : Fin k) :
    ColumnSolved tol A (fun i => B i j) (fun i => X i j) := by
  have hj := h j
  have hr : colNorm (B - A * X) j = Real.sqrt (∑ i, (B i j - ∑ l, A i l * X l j) ^ 2) := rfl
  have hb : colNorm B j = Real.sqrt (∑ i, B i j ^ 2) := rfl
  unfold rhsNorm at hj
  constructor
  · intro hne
    have hpos : 0 < colNorm B j := lt_of_le_of_ne (Real.sqrt_nonneg _) (Ne.symm hne)
    rw [if_neg hpos.ne', div_le_iff₀ hpos] at hj
    exact hj
  · intro he
    have he' : colNorm B j = 0 := he
    rw [if_pos he', div_one] at hj
    exact hj

/-- The running residual of a state equals the true residual of its iterate. -/
def ResidualExact (A : Matrix (Fin n) (Fin n) ℝ) (B : Matrix (Fin n) (Fin k) ℝ) (s : CGState n k) : Prop :=
  s.R = B - A * s.X

theorem cgStep_more {A : Matrix (Fin n) (Fin n) ℝ} {M : Option ((Fin n → ℝ) → Fin n → ℝ)}
    {solve : Matrix (Fin k) (Fin k) ℝ → Matrix (Fin k) (Fin k) ℝ → Option (Matrix (Fin k) (Fin k) ℝ)}
    {tol : ℝ} {B : Matrix (Fin n) (Fin k) ℝ} {s s' : CGState n k} (hs : ResidualExact A B s)
    (h : cgStep A M solve tol B s = .more s') : ResidualExact A B s' := by
  unfold cgStep at h
  simp only at h
  split at h
  · simp at h
  · split at h
    · simp at h
    · split at h
      · simp at h
      · simp only [CGStep.more.injEq] at h
        subst h
        unfold ResidualExact at *
        simp only
        rw [hs, Matrix.mul_add, Matrix.mul_assoc]
        abel

theorem cgStep_done {A : Matrix (Fin n) (Fin n) ℝ} {M : Option ((Fin n → ℝ) → Fin n → ℝ)}
    {solve : Matrix (Fin k) (Fin k) ℝ → Matrix (Fin k) (Fin k) ℝ → Option (Matrix (Fin k) (Fin k) ℝ)}
    {tol : ℝ} {B : Matrix (Fin n) (Fin k) ℝ} {s : CGState n k} {X : Matrix (Fin n) (Fin k) ℝ}
    (hs : ResidualExact A B s)
    (h : cgStep A M solve tol B s = .done X 0) : smallResidual tol B (B - A * X) := by
  unfold cgStep at h
  simp only at h
  split at h
  · simp at h
  · split at h
    · rename_i hsmall
      simp only [CGStep.done.injEq, and_true] at h
      subst h
      unfold ResidualExact at hs
      rw [hs] at hsmall
      rw [Matrix.mul_add, ← Matrix.mul_assoc, ← sub_sub]
      exact hsmall
    · split at h <;> simp at h

theorem cgLoop_zero {A : Matrix (Fin n) (Fin n) ℝ} {M : Option ((Fin n → ℝ) → Fin n → ℝ)}
    {solve : Matrix (Fin k) (Fin k) ℝ → Matrix (Fin k) (Fin k) ℝ → Option (Matrix (Fin k) (Fin k) ℝ)}
    {tol : ℝ} {B : Matrix (Fin n) (Fin k) ℝ} :
    ∀ (fuel : ℕ) (s : CGState n k), ResidualExact A B s →
      (cgLoop A M solve tol B fuel s).2 = 0 →
      smallResidual tol B (B - A * (cgLoop A M solve tol B fuel s).1) := by
  intro fuel
  induction fuel with
  | zero => intro s _ h; simp [cgLoop] at h
  | succ fuel ih =>
    intro s hs h
    rw [cgLoop] at h ⊢
    split at h
    · rename_i X code hd
      simp only at h ⊢
      subst h
      exact cgStep_done hs hd
    · rename_i s' hm
      exact ih s' (cgStep_more hs hm) h

/-- C21: the residual carried through the loop is the true residual of the current iterate, after any number
of iterations. -/
theorem C21_running_residual_exact (A : Matrix (Fin n) (Fin n) ℝ) (M : Option ((Fin n → ℝ) → Fin n → ℝ))
    (solve : Matrix (Fin k) (Fin k) ℝ → Matrix (Fin k) (Fin k) ℝ → Option (Matrix (Fin k) (Fin k) ℝ))
    (tol : ℝ) (B X : Matrix (Fin n) (Fin k) ℝ) (states : ℕ → CGState n k)
    (h0 : states 0 = cgInit A M B X)
    (hstep : ∀ t, cgStep A M solve tol B (states t) = .more (states (t + 1))) (t : ℕ) :
    (states t).R = B - A * (states t).X := by
  induction t with
  | zero => rw [h0]; rfl
  | succ t ih => exact cgStep_more ih (hstep t)

/-- scipy's contract for `cg(..., rtol=tol)`: exit code 0 means the column is solved. -/
def CGContract (tol : ℝ) (A : Matrix (Fin n) (Fin n) ℝ)
    (cg : (Fin n → ℝ) → Option (Fin n → ℝ) → (Fin n → ℝ) × ℤ) : Prop :=
  ∀ b x0, (cg b x0).2 = 0 → ColumnSolved tol A b (cg b x0).1

/-- C21: exit code 0 of the block solver means that every column of the returned solution has a true residual
within the tolerance, for every preconditioner, start, small-solve behaviour and iteration limit. -/
theorem C21_success_means_solved (cg : (Fin n → ℝ) → Option (Fin n → ℝ) → (Fin n → ℝ) × ℤ)
    (A : Matrix (Fin n) (Fin n) ℝ) (M : Option ((Fin n → ℝ) → Fin n → ℝ))
    (solve : Matrix (Fin k) (Fin k) ℝ → Matrix (Fin k) (Fin k) ℝ → Option (Matrix (Fin k) (Fin k) ℝ))
    (tol : ℝ) (hcg : CGContract tol A cg) (B : Matrix (Fin n) (Fin k) ℝ)
    (x0 : Option (Matrix (Fin n) (Fin k) ℝ)) (maxiter : Option ℤ) (X : Matrix (Fin n) (Fin k) ℝ)
    (h : blockCG cg A M solve tol B x0 maxiter = .ok (X, 0)) (j : Fin k) :
    ColumnSolved tol A (fun i => B i j) (fun i => X i j) := by
  unfold blockCG at h
  split at h
  · rename_i h1
    simp only [Except.ok.injEq, Prod.mk.injEq] at h
    have hj : j = ⟨0, by omega⟩ := by ext; simp; omega
    rw [← h.1, hj]
    exact hcg _ _ h.2
  · split at h
    · simp at h
    · simp only at h
      split at h
      · rename_i hs
        simp only [Except.ok.injEq, Prod.mk.injEq, and_true] at h
        rw [h] at hs
        exact solved_of_small hs j
      · simp only [Except.ok.injEq, Prod.mk.injEq, Nat.cast_eq_zero] at h
        apply solved_of_small
        rw [← h.1]
        exact cgLoop_zero _ _ rfl h.2

/-- C21: the block solver only ever reports the documented codes when it iterates. -/
theorem C21_exit_codes (A : Matrix (Fin n) (Fin n) ℝ) (M : Option ((Fin n → ℝ) → Fin n → ℝ))
    (solve : Matrix (Fin k) (Fin k) ℝ → Matrix (Fin k) (Fin k) ℝ → Option (Matrix (Fin k) (Fin k) ℝ))
    (tol : ℝ) (B : Matrix (Fin n) (Fin k) ℝ) : ∀ (fuel : ℕ) (s : CGState n k),
    (cgLoop A M solve tol B fuel s).2 ≤ 3 := by
  intro fuel
  induction fuel with
  | zero => intro s; simp [cgLoop]
  | succ fuel ih =>
    intro s
    rw [cgLoop]
    cases hs : cgStep A M solve tol B s with
    | more s' => exact ih s'
    | done X code =>
      simp only
      unfold cgStep at hs
      simp only at hs
      split at hs
      · simp only [CGStep.done.injEq] at hs; omega
      · split at hs
        · simp only [CGStep.done.injEq] at hs; omega
        · split at hs
          · simp only [CGStep.done.injEq] at hs; omega
          · simp at hs

theorem cgOneBlock_solved {cg : (Fin n → ℝ) → Option (Fin n → ℝ) → (Fin n → ℝ) × ℤ}
    {A : Matrix (Fin n) (Fin n) ℝ} {M : Option ((Fin n → ℝ) → Fin n → ℝ)}
    {solve : ∀ k, Matrix (Fin k) (Fin k) ℝ → Matrix (Fin k) (Fin k) ℝ → Option (Matrix (Fin k) (Fin k) ℝ)}
    {tol : ℝ} (hcg : CGContract tol A cg) {maxiter : Option ℤ} {V : ℕ → Fin n → ℝ}
    {x0 : Option (ℕ → Fin n → ℝ)} {start w : ℕ}
    (h : (cgOneBlock cg A M solve tol maxiter V x0 start w).2 = 0) (j : Fin w) :
    ColumnSolved tol A (V (start + j))
      (fun i => (cgOneBlock cg A M solve tol maxiter V x0 start w).1 i j) := by
  unfold cgOneBlock at h ⊢
  split at h
  · rename_i r hr
    obtain ⟨X, c⟩ := r
    simp only at h ⊢
    subst h
    exact C21_success_means_solved cg A M (solve w) tol hcg _ _ _ X hr j
  · simp at h

theorem writeBlock_in {w : ℕ} (res : ℕ → Fin n → ℝ) (start : ℕ) (S : Matrix (Fin n) (Fin w) ℝ) (j : Fin w) :
    writeBlock res start S (start + j) = fun i => S i j := by
  unfold writeBlock
  rw [dif_pos ⟨by omega, by omega⟩]
  funext i
  congr 1
  ext; simp

theorem writeBlock_out {w : ℕ} (res : ℕ → Fin n → ℝ) (start : ℕ) (S : Matrix (Fin n) (Fin w) ℝ) (j : ℕ)
    (h : ¬ (start ≤ j ∧ j - start < w)) : writeBlock res start S j = res j := by
  unfold writeBlock
  rw [dif_neg h]

theorem cgBlocks_solved {cg : (Fin n → ℝ) → Option (Fin n → ℝ) → (Fin n → ℝ) × ℤ}
    {A : Matrix (Fin n) (Fin n) ℝ} {M : Option ((Fin n → ℝ) → Fin n → ℝ)}
    {solve : ∀ k, Matrix (Fin k) (Fin k) ℝ → Matrix (Fin k) (Fin k) ℝ → Option (Matrix (Fin k) (Fin k) ℝ)}
    {tol : ℝ} (hcg : CGContract tol A cg) {maxiter : Option ℤ} {V : ℕ → Fin n → ℝ}
    {x0 : Option (ℕ → Fin n → ℝ)} {cols bs : ℕ} :
    ∀ (starts : List ℕ) (st : (ℕ → Fin n → ℝ) × List ℤ),
      let r := cgBlocks cg A M solve tol maxiter V x0 cols bs starts st
      (∀ c ∈ r.2, c = 0) →
      (∀ c ∈ st.2, c = 0) ∧
      ∀ j, (ColumnSolved tol A (V j) (st.1 j) ∨ ∃ s ∈ starts, s ≤ j ∧ j < min (s + bs) cols) →
        ColumnSolved tol A (V j) (r.1 j) := by
  intro starts
  induction starts with
  | nil =>
    intro st r h
    exact ⟨h, fun j hj => by rcases hj with hj | ⟨s, hs, _⟩; exact hj; simp at hs⟩
  | cons start rest ih =>
    intro st r h
    have hi := ih (writeBlock st.1 start
      (cgOneBlock cg A M solve tol maxiter V x0 start (min (start + bs) cols - start)).1,
      st.2 ++ [(cgOneBlock cg A M solve tol maxiter V x0 start (min (start + bs) cols - start)).2]) h
    obtain ⟨h1, h2⟩ := hi
    have hcode := h1 _ (List.mem_append.2 (Or.inr (List.mem_singleton.2 rfl)))
    refine ⟨fun c hc => h1 c (List.mem_append.2 (Or.inl hc)), ?_⟩
    intro j hj
    apply h2 j
    by_cases hin : start ≤ j ∧ j - start < min (start + bs) cols - start
    · left
      simp only
      have := writeBlock_in st.1 start
        (cgOneBlock cg A M solve tol maxiter V x0 start (min (start + bs) cols - start)).1
        ⟨j - start, hin.2⟩
      simp only at this
      rw [show start + (j - start) = j by omega] at this
      rw [this]
      have hsol := cgOneBlock_solved hcg hcode ⟨j - start, hin.2⟩
      simp only at hsol
      rw [show start + (j - start) = j by omega] at hsol
      exact hsol
    · rcases hj with hj | ⟨s, hs, hsj⟩
      · left
        simp only
        rw [writeBlock_out _ _ _ _ hin]
        exact hj
      · rcases List.mem_cons.1 hs with rfl | hs
        · exfalso; apply hin; omega
        · exact Or.inr ⟨s, hs, hsj⟩

theorem blockStarts_cover {cols bs j : ℕ} (hbs : 0 < bs) (hj : j < cols) :
    ∃ s ∈ blockStarts cols bs, s ≤ j ∧ j < min (s + bs) cols := by
  refine ⟨j / bs * bs, ?_, Nat.div_mul_le_self j bs, ?_⟩
  · unfold blockStarts
    rw [List.mem_map]
    refine ⟨j / bs, ?_, rfl⟩
    rw [List.mem_range, Nat.lt_iff_add_one_le, Nat.le_div_iff_mul_le hbs, Nat.add_mul]
    have := Nat.div_mul_le_self j bs
    omega
  · have := Nat.lt_div_mul_add (a := j) hbs
    omega

/-- C21: when `calculate_sparse_conj_grad` issues no warning, every column of its result solves its system
within the tolerance: block mode of any block size or columnwise mode. -/
theorem C21_no_warning_means_solved (cg : (Fin n → ℝ) → Option (Fin n → ℝ) → (Fin n → ℝ) × ℤ)
    (A : Matrix (Fin n) (Fin n) ℝ) (M : Option ((Fin n → ℝ) → Fin n → ℝ))
    (solve : ∀ k, Matrix (Fin k) (Fin k) ℝ → Matrix (Fin k) (Fin k) ℝ → Option (Matrix (Fin k) (Fin k) ℝ))
    (tol : ℝ) (hcg : CGContract tol A cg) (maxiter : Option ℤ) (block : Bool) (blockSize : Option ℤ)
    (V : ℕ → Fin n → ℝ) (x0 : Option (ℕ → Fin n → ℝ)) (cols : ℕ)
    (h : (sparseConjGrad cg A M solve tol maxiter block blockSize V x0 cols).2 = false) :
    ∀ j < cols, ColumnSolved tol A (V j)
      ((sparseConjGrad cg A M solve tol maxiter block blockSize V x0 cols).1 j) := by
  intro j hj
  unfold sparseConjGrad at h ⊢
  split at h
  · rename_i hb
    rw [if_pos hb]
    simp only at h ⊢
    rw [List.any_eq_false] at h
    refine (cgBlocks_solved hcg _ _ ?_).2 j (Or.inr (blockStarts_cover (by omega) hj))
    intro c hc
    have := h c hc
    simpa using this
  · rename_i hb
    rw [if_neg hb]
    simp only [hj, if_true] at h ⊢
    rw [List.any_eq_false] at h
    have := h j (List.mem_range.2 hj)
    apply hcg
    simpa using this

end CG

/-- Non-trivial instance: solving with `A = 2 I` by one exact block step, two right-hand sides; the returned
code is 0 and the theorem applies. The scipy contract is met by the exact solver. -/
example : CGContract (n := 2) 0 (2 • (1 : Matrix (Fin 2) (Fin 2) ℝ)) (fun b _ => (fun i => b i / 2, 0)) := by
  intro b x0 _
  have : ∀ i, b i - ∑ l, (2 • (1 : Matrix (Fin 2) (Fin 2) ℝ)) i l * (b l / 2) = 0 := by
    intro i
    simp [Matrix.smul_apply, Matrix.one_apply]
    ring
  constructor <;> intro _ <;> simp only [this] <;> simp

end Verif.LinAlg
