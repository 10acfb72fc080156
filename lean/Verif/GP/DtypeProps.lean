import Verif.GP.DtypeModel
import Verif.GP.FdProps
import Verif.MCMC.StopProps

/-! Property C125: hyperparameters in integer (or single precision) arrays. -/

namespace Verif.GP

open Finset Verif.LinAlg Matrix Verif.MCMC

variable {α : Type} {p : ℕ}

/-- **C125**. If the array type can represent the moved numbers (arrays of type `float64`, in exact arithmetic), all differences are those of the numbers. -/
theorem C125_representable_partial (t : Dtype) (h : Fin p → ℝ) (i : Fin p) :
    (t.store (h i + 1e-8) = h i + 1e-8 → t.store (h i - 1e-8) = h i - 1e-8 →
      ∀ (k : (Fin p → ℝ) → α → α → ℝ) (a b : α), dKernelDhT t k h i a b = dKernelDh k h i a b) ∧
    (t.store (h i + 1e-6) = h i + 1e-6 → t.store (h i - 1e-6) = h i - 1e-6 →
      (∀ (m : (Fin p → ℝ) → α → ℝ) (a : α), finiteDiffDmT t m h i a = finiteDiffDm m h i a) ∧
      ∀ (f : (Fin p → ℝ) → List α → Noise) (xs : List α), finiteDiffDnoiseT t f h i xs = finiteDiffDnoise f h i xs) := by
  refine ⟨fun h1 h2 k a b => ?_, fun h1 h2 => ⟨fun m a => ?_, fun f xs => ?_⟩⟩
  · rw [dKernelDhT, moved, moved, h1, ← sub_eq_add_neg, h2]; rfl
  · rw [finiteDiffDmT, moved, moved, h1, ← sub_eq_add_neg, h2]; rfl
  · rw [finiteDiffDnoiseT, moved, moved, h1, ← sub_eq_add_neg, h2]; rfl

theorem float64_grads (c : Config α (Fin p → ℝ)) (s : Supplied α p) (hk : s.kernelGiven = true) (g1 : s.kernelGrad = none)
    (g2 : s.noiseGrad = none) (g3 : s.meanGrad = none) : s.grads c = .ok (typedGrads .float64 c) := by
  have he : s.economy = s.ramEconomy := by simp [Supplied.economy, hk]
  have e1 : dKernelDhT .float64 c.kernel = dKernelDh c.kernel := by
    funext h i a b; exact (C125_representable_partial .float64 h i).1 rfl rfl c.kernel a b
  have e2 : ∀ f : (Fin p → ℝ) → List α → Noise, finiteDiffDnoiseT .float64 f = finiteDiffDnoise f := by
    intro f; funext h i xs; exact ((C125_representable_partial .float64 h i).2 rfl rfl).2 f xs
  have e3 : ∀ f : (Fin p → ℝ) → α → ℝ, finiteDiffDmT .float64 f = finiteDiffDm f := by
    intro f; funext h i xs; exact ((C125_representable_partial .float64 h i).2 rfl rfl).1 f xs
  have hk' : (s.dk c).call s.ramEconomy = .ok (dKernelDh c.kernel) := by
    cases hr : s.ramEconomy <;> simp [Supplied.dk, g1, hk, hr, GradFn.call]
  cases hn : c.noise <;> cases hm : c.mean <;> cases hr : s.ramEconomy <;> rw [hr] at hk' <;>
    simp only [Supplied.grads, he, hr, hk', bind, Except.bind] <;>
    simp [he, hr, Supplied.dV, g2, hn, GradFn.call, Supplied.dm, g3, hm, typedGrads, e1, e2, e3]

/-- The whole gradient for arrays of type `float64` is that of C124. -/
theorem C125_float64_gradient (gp : GP α (Fin p → ℝ)) (s : Supplied α p) (hk : s.kernelGiven = true) (g1 : s.kernelGrad = none)
    (g2 : s.noiseGrad = none) (g3 : s.meanGrad = none) (lstsq : {n m : Type} → Matrix n n ℝ → Matrix n m ℝ → Matrix n m ℝ)
    (h : Option (Fin p → ℝ)) (j : ℕ) : gradientOf gp s lstsq h j = gradient gp (typedGrads .float64 gp.cfg) lstsq h j := by
  rw [gradientOf, float64_grads gp.cfg s hk g1 g2 g3]
  rfl

/-! ## Integers -/

theorem store_int_add (z : ℤ) (e : ℝ) (h0 : 0 < e) (h1 : e < 1) (hz : 0 ≤ z) : Dtype.int64.store (z + e) = z := by
  have : (0 : ℝ) ≤ z + e := by positivity
  rw [Dtype.store, if_pos this]
  congr 1
  rw [Int.floor_eq_iff]
  exact ⟨by linarith, by linarith⟩

theorem store_int_sub (z : ℤ) (e : ℝ) (h0 : 0 < e) (h1 : e < 1) (hz : 1 ≤ z) : Dtype.int64.store (z - e) = z - 1 := by
  have hz' : (1 : ℝ) ≤ z := by exact_mod_cast hz
  rw [Dtype.store, if_pos (by linarith)]
  have : ⌊(z : ℝ) - e⌋ = z - 1 := by
    rw [Int.floor_eq_iff]
    push_cast
    exact ⟨by linarith, by linarith⟩
  rw [this]
  push_cast
  rfl

/-- **C125** is violated for integer arrays: the derivative of the kernel with respect to a positive integer hyperparameter is the difference of the kernel to the
*preceding integer*, times fifty million; similarly for mean (times half a million). -/
theorem C125_integer_differences_violated (h : Fin p → ℝ) (i : Fin p) (z : ℤ) (hz : 1 ≤ z) (hi : h i = z) :
    (∀ (k : (Fin p → ℝ) → α → α → ℝ) (a b : α),
      dKernelDhT .int64 k h i a b = (k h a b - k (Function.update h i (h i - 1)) a b) * 50000000) ∧
    ∀ (m : (Fin p → ℝ) → α → ℝ) (a : α), finiteDiffDmT .int64 m h i a = (m h a - m (Function.update h i (h i - 1)) a) * 500000 := by
  have up : ∀ e : ℝ, 0 < e → e < 1 → moved .int64 h i e = h := by
    intro e h0 h1
    rw [moved, hi, store_int_add z e h0 h1 (by omega), ← hi, Function.update_eq_self]
  have down : ∀ e : ℝ, 0 < e → e < 1 → moved .int64 h i (-e) = Function.update h i (h i - 1) := by
    intro e h0 h1
    rw [moved, hi, ← sub_eq_add_neg, store_int_sub z e h0 h1 hz]
  constructor
  · intro k a b
    rw [dKernelDhT, up _ (by norm_num) (by norm_num), down _ (by norm_num) (by norm_num)]
    norm_num
    ring
  · intro m a
    rw [finiteDiffDmT, up _ (by norm_num) (by norm_num), down _ (by norm_num) (by norm_num)]
    norm_num
    ring

/-- A signal variance of 3, given as an integer: the derivative of `3 k(a,b)` is fifty million times `k(a,b)`. -/
example (k : ℝ → ℝ → ℝ) (a b : ℝ) :
    dKernelDhT (p := 1) .int64 (fun h a b => h 0 * k a b) (fun _ => 3) 0 a b = k a b * 50000000 ∧
    dKernelDhT (p := 1) .float64 (fun h a b => h 0 * k a b) (fun _ => 3) 0 a b = k a b := by
  constructor
  · rw [(C125_integer_differences_violated (p := 1) (fun _ => 3) 0 3 (by norm_num) (by norm_num)).1 (fun h a b => h 0 * k a b) a b]
    simp only [Function.update_self]
    ring
  · rw [(C125_representable_partial .float64 (fun _ : Fin 1 => (3 : ℝ)) 0).1 rfl rfl, dKernelDh, centralDiff]
    simp only [Function.update_self]
    ring

/-- **C125** is violated for integer arrays: a Hessian at nonnegative integers is zero, and so are the finite differences of the gradient check, whatever
likelihood and gradient are. -/
theorem C125_integer_hessian_violated (h : Fin p → ℝ) (hz : ∀ i, ∃ z : ℤ, 0 ≤ z ∧ h i = z) :
    (∀ (G : (Fin p → ℝ) → Fin p → ℝ), hessianT .int64 (fun h => .ok (G h)) h = .ok 0) ∧
    ∀ (L : (Fin p → ℝ) → ℝ) (e : ℝ), 0 < e → e < 1 → testGradientT .int64 (fun h => .ok (L h)) h e = .ok 0 := by
  have up : ∀ (i : Fin p) (e : ℝ), 0 < e → e < 1 → moved .int64 h i e = h := by
    intro i e h0 h1
    obtain ⟨z, z0, hi⟩ := hz i
    rw [moved, hi, store_int_add z e h0 h1 z0, ← hi, Function.update_eq_self]
  constructor
  · intro G
    have fold : ∀ l : List (Fin p), l.foldlM (m := Except String) (fun (d2 : Matrix (Fin p) (Fin p) ℝ) i => do
        let gi ← (Except.ok (G (moved .int64 h i 1e-6)) : Except String _)
        .ok (Matrix.of fun a b => if a = i ∧ i ≤ b then (gi b - G h b) / 1e-6 else d2 a b)) 0 = .ok 0 := by
      intro l
      induction l with
      | nil => rfl
      | cons i l ih =>
        rw [List.foldlM_cons]
        simp only [bind, Except.bind, up i 1e-6 (by norm_num) (by norm_num), sub_self, zero_div] at ih ⊢
        have : (Matrix.of fun a b => if a = i ∧ i ≤ b then (0 : ℝ) else (0 : Matrix (Fin p) (Fin p) ℝ) a b) = 0 := by
          ext a b; simp
        rw [this]
        exact ih
    have := fold (List.finRange p)
    simp only [hessianT, bind, Except.bind] at this ⊢
    rw [this]
    simp
  · intro L e h0 h1
    refine collect_ok fun i => ?_
    simp only [bind, Except.bind, up i e h0 h1, sub_self, zero_div]
    rfl

/-- The gradient `2x` of a parabola at 3, given as an integer. -/
example : hessianT (p := 1) .int64 (fun h => .ok fun _ => 2 * h 0) (fun _ => 3) = .ok 0 :=
  (C125_integer_hessian_violated (fun _ => 3) fun _ => ⟨3, by norm_num, by norm_num⟩).1 fun h _ => 2 * h 0

/-- **C125** is violated for integer arrays: the likelihood gradient of a GP. (Kernel `h₀`, one data point of value 3, noise 1, `h₀ = 1` given as an
integer: the entry returned is `-43750000`, for a float it is the derivative `-7/8`.) -/
theorem C125_integer_gradient_violated (lstsq : {n m : Type} → Matrix n n ℝ → Matrix n m ℝ → Matrix n m ℝ) :
    ∃ gp, init (gCfg fun _ _ => 0) (gData [3]) (fun _ => 1) = .ok gp ∧
      gradient gp (typedGrads .int64 gp.cfg) lstsq (some fun _ => 1) 0 = .ok (fun _ => -43750000) ∧
      gradient gp (typedGrads .float64 gp.cfg) lstsq (some fun _ => 1) 0 = .ok (fun _ => -(7 / 8)) := by
  have h1 : (0 : ℝ) < (fun _ : Fin 1 => (1 : ℝ)) 0 := one_pos
  have key : ∀ (t : Dtype) (q : ℝ), (∀ a b, (typedGrads t (gCfg fun _ _ => 0)).dk (fun _ => 1) 0 a b = q) →
      ∃ gp, init (gCfg fun _ _ => 0) (gData [3]) (fun _ => 1) = .ok gp ∧
        gradient gp (typedGrads t gp.cfg) lstsq (some fun _ => 1) 0 = .ok (fun _ => -(7 / 8) * q) := by
    intro t q hq
    obtain ⟨gp, hgp, hcfg, hdata, hsome, -⟩ := gradient_eq_fits (gCfg fun _ _ => 0) (gData [3]) (fun _ => 1)
      (typedGrads t (gCfg fun _ _ => 0)) lstsq cholExt_contract rfl (gAdm _ _ _ h1) 0
    refine ⟨gp, hgp, ?_⟩
    rw [hcfg, hsome _ (gAdm _ _ _ h1) fun i => rfl]
    congr 1
    funext i
    obtain rfl := Subsingleton.elim i 0
    have z : (fun a : Fin (gData [3]).x.length => (typedGrads t (gCfg fun _ _ => 0)).dm (fun _ => 1) 0 (gData [3]).x[a]) = 0 := by
      funext a
      simp [typedGrads, gCfg, finiteDiffDmT]
    rw [z, zero_dotProduct, if_pos rfl, neg_zero, add_zero]
    have hD : dKVmat (typedGrads t (gCfg fun _ _ => 0)) (fun _ => 1) (gData [3]).x 0 = Matrix.diagonal fun _ => q := by
      ext a b
      obtain rfl := Subsingleton.elim a default
      obtain rfl := Subsingleton.elim b default
      simp only [dKVmat, Matrix.add_apply, Kmat, Matrix.of_apply, hq, Matrix.diagonal_apply_eq]
      simp [typedGrads, gCfg, Noise.mat]
    have htr : ((KVmat (gCfg fun _ _ => 0) (gData [3]) fun _ => 1)⁻¹ * Matrix.diagonal fun _ => q).trace = (1 + 1)⁻¹ * q := by
      rw [gKV, gInv (by norm_num), Matrix.diagonal_mul_diagonal, Matrix.trace, Fintype.sum_unique, Matrix.diag_apply, Matrix.diagonal_apply_eq]
    rw [hD, htr, gAlpha _ _ _ h1]
    simp only [dotProduct, Matrix.mulVec_diagonal, Fintype.sum_unique, List.getD_cons_zero]
    ring
  obtain ⟨gp, hgp, e1⟩ := key .int64 50000000 fun a b => by
    have := (C125_integer_differences_violated (α := ℝ) (fun _ : Fin 1 => (1 : ℝ)) 0 1 le_rfl (by simp)).1
      (gCfg fun _ _ => 0).kernel a b
    rw [show (typedGrads .int64 (gCfg fun _ _ => 0)).dk = dKernelDhT .int64 (gCfg fun _ _ => 0).kernel from rfl, this]
    simp [gCfg]
  obtain ⟨gp', hgp', e2⟩ := key .float64 1 fun a b => by
    simp only [typedGrads, dKernelDhT, moved, Dtype.store, gCfg, Function.update_self]
    norm_num
  rw [hgp] at hgp'
  obtain rfl := Except.ok.inj hgp'
  refine ⟨gp, hgp, ?_, ?_⟩
  · rw [e1]; norm_num
  · rw [e2]; norm_num

/-! ## Single precision -/

/-- **C125** is violated for `float32` arrays: at 1 the kernel derivative is zero whatever the kernel. -/
theorem C125_single_violated (h : Fin p → ℝ) (i : Fin p) (hi : h i = 1) (k : (Fin p → ℝ) → α → α → ℝ) (a b : α) :
    dKernelDhT .float32 k h i a b = 0 := by
  have l1 : Int.log 2 |(1 : ℝ) + 1e-8| = 0 := by
    rw [abs_of_pos (by norm_num), Int.log_of_one_le_right _ (by norm_num)]
    have : ⌊(1 : ℝ) + 1e-8⌋₊ = 1 := by
      rw [Nat.floor_eq_iff (by norm_num)]; norm_num
    rw [this]; simp
  have l2 : Int.log 2 |(1 : ℝ) + -1e-8| = -1 := by
    rw [abs_of_pos (by norm_num), Int.log_of_right_le_one _ (by norm_num)]
    have : ⌈((1 : ℝ) + -1e-8)⁻¹⌉₊ = 2 := by
      rw [Nat.ceil_eq_iff (by norm_num)]; norm_num
    rw [this, show Nat.clog 2 2 = 1 by decide +kernel]
    norm_num
  have up : Dtype.float32.store (1 + 1e-8) = 1 := by
    rw [Dtype.store, if_neg (by norm_num), l1]
    have : round (((1 : ℝ) + 1e-8) * 2 ^ ((23 : ℤ) - 0)) = 8388608 := by
      rw [round_eq, Int.floor_eq_iff]
      norm_num
    rw [this]
    norm_num
  have down : Dtype.float32.store (1 + -1e-8) = 1 := by
    rw [Dtype.store, if_neg (by norm_num), l2]
    have : round (((1 : ℝ) + -1e-8) * 2 ^ ((23 : ℤ) - -1)) = 16777216 := by
      rw [round_eq, Int.floor_eq_iff]
      norm_num
    rw [this]
    norm_num
  rw [dKernelDhT, moved, moved, hi, up, down, sub_self, zero_div]

/-! ## MCMC -/

theorem store_int_integer (r : ℝ) : ∃ z : ℤ, Dtype.int64.store r = z := by
  rw [Dtype.store]
  split_ifs
  · exact ⟨_, rfl⟩
  · exact ⟨_, rfl⟩

theorem integer_sweep {d : ℕ} {f : Pos d → Option ℝ} {prior : Pos d → WithBot ℝ} {w : Draws d} {i : ℕ} {xs : List (Pos d)} :
    ∀ (os : List (Proposal d)) (j : ℕ) (s s' : Chain d) (os' : List (Proposal d)),
      sweep f prior (storedDraws .int64 w) i xs j s os = .ok (s', os') → (∀ k, ∃ z : ℤ, s.x k = z) → ∀ k, ∃ z : ℤ, s'.x k = z := by
  intro os
  induction os with
  | nil => intro j s s' os' h hs; simp only [sweep, Except.ok.injEq, Prod.mk.injEq] at h; rw [← h.1]; exact hs
  | cons o os ih =>
    intro j s s' os' h hs
    obtain ⟨xStar, s1, jt, o1, os1, h1, h2, -, h4, -⟩ := sweep_cons h
    refine ih _ _ _ _ h4 ?_
    have hx : ∀ k, ∃ z : ℤ, xStar k = z := by
      intro k
      simp only [propose] at h1
      split_ifs at h1
      · cases hS : o.Sigma with
        | none => rw [hS] at h1; simp at h1
        | some S =>
          rw [hS] at h1
          simp only [Except.ok.injEq] at h1
          rw [← h1]
          simp only
          split_ifs
          · exact store_int_integer _
          · exact hs k
      · simp only [Except.ok.injEq] at h1
        rw [← h1]
        simp only
        split_ifs
        · exact store_int_integer _
        · exact hs k
    simp only [jump] at h2
    split at h2
    · simp only [Except.ok.injEq, Prod.mk.injEq] at h2; rw [← h2.1]; exact hs
    · split at h2
      · simp at h2
      · split_ifs at h2 <;> simp only [Except.ok.injEq, Prod.mk.injEq] at h2 <;> rw [← h2.1]
        · exact hx
        · exact hs

/-- **C125** A run that starts from an array of double precision is not affected: it takes the proposals as they are drawn. -/
theorem C125_float_chain {d : ℕ} (f : Pos d → Option ℝ) (prior : Pos d → WithBot ℝ) (w : Draws d) (brk : Trace d → Bool)
    (objs : List (Proposal d)) (x0 : Pos d) (n : ℕ) :
    runMCMC f prior (storedDraws .float64 w) brk objs x0 n = runMCMC f prior w brk objs x0 n := rfl

/-- **C125** is violated for MCMC from an integer array: every position of the chain is a vector of integers, for all likelihoods, priors, proposals and draws. -/
theorem C125_integer_chain_violated {d : ℕ} (f : Pos d → Option ℝ) (prior : Pos d → WithBot ℝ) (w : Draws d) (brk : Trace d → Bool)
    (objs : List (Proposal d)) (x0 : Pos d) (hx : ∀ k, ∃ z : ℤ, x0 k = z) (n : ℕ) (r : Run d)
    (h : runMCMC f prior (storedDraws .int64 w) brk objs x0 n = .ok r) : ∀ x ∈ r.trace.xs, ∀ k, ∃ z : ℤ, x k = z := by
  obtain ⟨j, -, -, h3, -⟩ := loop_invariant
    (P := fun _ (r : Run d) => (∀ k, ∃ z : ℤ, r.chain.x k = z) ∧ ∀ x ∈ r.trace.xs, ∀ k, ∃ z : ℤ, x k = z)
    (fun i r r' hp hi => by
      obtain ⟨s, objs, h1, rfl⟩ := iteration_ok hi
      have := integer_sweep _ _ _ _ _ h1 hp.1
      refine ⟨this, fun x hx => ?_⟩
      rcases List.mem_append.1 hx with hx | hx
      · exact hp.2 x hx
      · rw [List.mem_singleton.1 hx]; exact this)
    (fun i r0 r _ hp => hp) _ _ _ _ h ⟨hx, fun x hx' => by
      simp only [start, List.mem_singleton] at hx'; rw [hx']; exact hx⟩
  exact h3.2

/-- **C125** is violated for MCMC from an integer array: if the start is the only vector of integers inside the bounds, training with the default prior never leaves
it, whatever likelihood and draws. -/
theorem C125_integer_stuck_violated {d : ℕ} (f : Pos d → Option ℝ) (lo hi : Pos d) (w : Draws d) (brk : Trace d → Bool)
    (objs : List (Proposal d)) (x0 : Pos d) (hx : ∀ k, ∃ z : ℤ, x0 k = z) (hin : ∀ k, lo k ≤ x0 k ∧ x0 k ≤ hi k)
    (hlo : ∀ k, x0 k - 1 < lo k) (hhi : ∀ k, hi k < x0 k + 1) (n : ℕ) (r : Run d)
    (h : runMCMC f (boxPrior lo hi) (storedDraws .int64 w) brk objs x0 n = .ok r) : ∀ x ∈ r.trace.xs, x = x0 := by
  intro x hxr
  have h1 := C52_in_bounds lo hi objs x0 hin n r h x hxr
  have h2 := C125_integer_chain_violated f _ w brk objs x0 hx n r h x hxr
  funext k
  obtain ⟨a, ha⟩ := h2 k
  obtain ⟨b, hb⟩ := hx k
  have l1 : (b : ℝ) - 1 < a := by rw [← ha, ← hb]; linarith [hlo k, (h1 k).1]
  have l2 : (a : ℝ) < b + 1 := by rw [← ha, ← hb]; linarith [hhi k, (h1 k).2]
  have : a = b := by
    have l1' : b - 1 < a := by exact_mod_cast l1
    have l2' : a < b + 1 := by exact_mod_cast l2
    omega
  rw [ha, hb, this]

/-- Bounds `[0.1, 1.9]` for all hyperparameters, start at ones: a run of the default proposal completes and never moves. -/
example {d : ℕ} (F : Pos d → ℝ) (w : Draws d) (hd : 0 < d) : ∃ r,
    runMCMC (fun x => some (F x)) (boxPrior (fun _ : Fin d => 0.1) fun _ => 1.9) (storedDraws .int64 w) defaultBreak
      [defaultProposal (fun _ => 0.1) fun _ => 1.9] (fun _ => 1) 1000 = .ok r ∧ ∀ x ∈ r.trace.xs, x = fun _ => 1 := by
  obtain ⟨r, hr⟩ := C53_completes (prior := boxPrior (fun _ : Fin d => 0.1) fun _ => 1.9) (w := storedDraws .int64 w) (brk := defaultBreak) F
    [defaultProposal (fun _ => 0.1) fun _ => 1.9] (fun _ => 1) 1000 (defaultProposal_ok _ _ hd)
  exact ⟨r, hr, C125_integer_stuck_violated _ _ _ w _ _ _ (fun _ => ⟨1, by norm_num⟩) (fun _ => by norm_num) (fun _ => by norm_num)
    (fun _ => by norm_num) 1000 r hr⟩

end Verif.GP
