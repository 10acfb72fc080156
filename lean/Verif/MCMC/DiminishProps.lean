import Verif.MCMC.AdaptProps
import Mathlib.Analysis.SpecialFunctions.Pow.Asymptotics
import Mathlib.Analysis.PSeries

/-!
C148: the adaptation of the proposals dies out and keeps the covariances positive definite.
-/

namespace Verif.MCMC

open Verif.LinAlg Filter Topology

variable {d : ℕ} {f : Pos d → Option ℝ} {prior : Pos d → WithBot ℝ} {w : Draws d} {brk : Trace d → Bool}

/-! ## One adaptation -/

/-- The covariance after an adaptation that is not skipped. -/
theorem adapt_sigma {o o' : Proposal d} {i : ℕ} {xs : List (Pos d)} {jt : ℝ} (hi : 1 ≤ i) (hxs : xs.length = i) (hK : 3 ≤ o.K)
    (S : ℕ → ℕ → ℝ) (hS : o.Sigma = some S) (h : adapt { o with jumpTrace := o.jumpTrace ++ [jt] } i xs = .ok o') :
    o'.idx = o.idx ∧ o'.K = o.K ∧ o'.c1 = o.c1 ∧ o'.adaptive = o.adaptive ∧ o'.adaptCov = o.adaptCov ∧
      ((o'.Sigma = some S ∧ ¬(o.adaptive = true ∧ o.adaptCov = true ∧ o.K ∣ i)) ∨
       (o.adaptive = true ∧ o.adaptCov = true ∧ o.K ∣ i ∧ ∃ C, cov o.idx (slice xs (i - o.K + 1) i) = some C ∧
        (slice xs (i - o.K + 1) i).length = o.K - 1 ∧
        o'.Sigma = some fun a b => S a b + gamma2 o.K o.c1 i * (C a b - S a b))) := by
  unfold adapt at h
  by_cases h1 : o.adaptive = true
  · rw [if_neg (by simp [h1]), if_neg (by simp; omega)] at h
    by_cases h2 : i % o.K ≠ 0
    · rw [if_pos h2] at h
      simp only [Except.ok.injEq] at h
      rw [← h]
      refine ⟨rfl, rfl, rfl, rfl, rfl, .inl ⟨hS, fun hc => h2 (Nat.mod_eq_zero_of_dvd hc.2.2)⟩⟩
    · rw [if_neg h2] at h
      have hdvd := Nat.dvd_of_mod_eq_zero (not_not.1 h2)
      have hKi : o.K ≤ i := Nat.le_of_dvd hi hdvd
      have hl : (slice xs (i - o.K + 1) i).length = o.K - 1 := by
        simp only [slice, List.length_drop, List.length_take]; omega
      obtain ⟨C, hC, -⟩ := cov_eq o.idx (slice xs (i - o.K + 1) i) (by omega)
      simp only [newCov, hS, hC, Except.ok.injEq] at h
      rw [← h]
      refine ⟨rfl, rfl, rfl, rfl, rfl, ?_⟩
      by_cases hac : o.adaptCov = true
      · exact .inr ⟨h1, hac, hdvd, C, hC, hl, by simp only [hac, if_true]⟩
      · have hac' : o.adaptCov = false := by simpa using hac
        exact .inl ⟨by simp only [hac', Bool.false_eq_true, if_false], fun hc => hac hc.2.1⟩
  · rw [if_pos (by simpa using h1)] at h
    simp only [Except.ok.injEq] at h
    rw [← h]
    exact ⟨rfl, rfl, rfl, rfl, rfl, .inl ⟨hS, fun hc => h1 hc.1⟩⟩

/-- A list of numbers in an interval has its mean there. -/
theorem mean_mem {l : List ℝ} {a b : ℝ} (hl : l ≠ []) (h : ∀ x ∈ l, a ≤ x ∧ x ≤ b) :
    a ≤ l.sum / l.length ∧ l.sum / l.length ≤ b := by
  have hpos : (0 : ℝ) < l.length := by exact_mod_cast List.length_pos_of_ne_nil hl
  constructor
  · rw [le_div_iff₀ hpos]
    have := List.card_nsmul_le_sum l a fun x hx => (h x hx).1
    rw [nsmul_eq_mul] at this
    linarith
  · rw [div_le_iff₀ hpos]
    have := List.sum_le_card_nsmul l b fun x hx => (h x hx).2
    rw [nsmul_eq_mul] at this
    linarith

/-- The covariances of at least two points of a box of width at most `R` are at most `2 R²`. -/
theorem cov_bound {idx : List (Fin d)} {samples : List (Pos d)} {C : ℕ → ℕ → ℝ} (hC : cov idx samples = some C) {lo hi : Pos d}
    {R : ℝ} (hR : ∀ k, hi k - lo k ≤ R) (hR0 : 0 ≤ R) (hbox : ∀ x ∈ samples, ∀ k, lo k ≤ x k ∧ x k ≤ hi k) (a b : ℕ) :
    |C a b| ≤ 2 * R ^ 2 := by
  unfold cov at hC
  split_ifs at hC with hl
  simp only [Option.some.injEq] at hC
  have hl2 : 2 ≤ samples.length := by omega
  have hne : samples ≠ [] := by intro h; rw [h] at hl2; simp at hl2
  have hdev : ∀ (c : ℕ), ∀ x ∈ samples, |coord idx c x - (samples.map (coord idx c)).sum / samples.length| ≤ R := by
    intro c x hx
    unfold coord
    cases hc : idx[c]? with
    | none => simp [hR0]
    | some k =>
      simp only
      have := mean_mem (l := samples.map fun x => x k) (by simpa using hne) (a := lo k) (b := hi k) (by
        intro y hy
        obtain ⟨x, hx, rfl⟩ := List.mem_map.1 hy
        exact hbox x hx k)
      rw [List.length_map] at this
      have h2 := hbox x hx k
      rw [abs_le]
      constructor <;> linarith [hR k, this.1, this.2, h2.1, h2.2]
  rw [← hC]
  have hm : (2 : ℝ) ≤ samples.length := by exact_mod_cast hl2
  rw [abs_div, abs_of_pos (by linarith : (0 : ℝ) < samples.length - 1), div_le_iff₀ (by linarith)]
  have habs : ∀ l : List (Pos d), (∀ x ∈ l, x ∈ samples) →
      |(l.map fun x => (coord idx a x - (samples.map (coord idx a)).sum / samples.length) *
        (coord idx b x - (samples.map (coord idx b)).sum / samples.length)).sum| ≤ l.length * R ^ 2 := by
    intro l
    induction l with
    | nil => intro _; simp
    | cons x l ih =>
      intro hl
      simp only [List.map_cons, List.sum_cons, List.length_cons, Nat.cast_add, Nat.cast_one]
      have h1 := ih fun y hy => hl y (List.mem_cons_of_mem _ hy)
      have hx := hl x List.mem_cons_self
      have h2 : |(coord idx a x - (samples.map (coord idx a)).sum / samples.length) *
          (coord idx b x - (samples.map (coord idx b)).sum / samples.length)| ≤ R ^ 2 := by
        rw [abs_mul, sq]
        exact mul_le_mul (hdev a x hx) (hdev b x hx) (abs_nonneg _) hR0
      calc _ ≤ _ := abs_add_le _ _
        _ ≤ _ := add_le_add h2 h1
        _ = _ := by ring
  have := habs samples fun _ h => h
  nlinarith [sq_nonneg R]

theorem cov_const {idx : List (Fin d)} {samples : List (Pos d)} {C : ℕ → ℕ → ℝ} (hC : cov idx samples = some C) {x0 : Pos d}
    (hbox : ∀ x ∈ samples, x = x0) (a b : ℕ) : C a b = 0 := by
  have := cov_bound hC (lo := x0) (hi := x0) (R := 0) (by simp) le_rfl (fun x hx k => by rw [hbox x hx]; simp) a b
  simpa using this

/-! ## Boundedness and diminishing changes -/

/-- Entries of the covariance of an object are at most `M`. -/
def SigmaBound (M : ℝ) (o : Proposal d) : Prop :=
  3 ≤ o.K ∧ 0 ≤ o.c1 ∧ ∃ S, o.Sigma = some S ∧ ∀ a b, |S a b| ≤ M

theorem adapt_bound {o o' : Proposal d} {i : ℕ} {xs : List (Pos d)} {jt : ℝ} (hi : 1 ≤ i) (hxs : xs.length = i) {lo hi' : Pos d}
    {R M : ℝ} (hR : ∀ k, hi' k - lo k ≤ R) (hR0 : 0 ≤ R) (hM : 2 * R ^ 2 ≤ M) (hbox : ∀ x ∈ xs, ∀ k, lo k ≤ x k ∧ x k ≤ hi' k)
    (ho : SigmaBound M o) (h : adapt { o with jumpTrace := o.jumpTrace ++ [jt] } i xs = .ok o') :
    SigmaBound M o' ∧ o'.K = o.K ∧ o'.c1 = o.c1 ∧ ∃ S S', o.Sigma = some S ∧ o'.Sigma = some S' ∧
      ∀ a b, |S' a b - S a b| ≤ gamma2 o.K o.c1 i * (M + 2 * R ^ 2) := by
  obtain ⟨hK, hc, S, hS, hb⟩ := ho
  obtain ⟨hg0, hg1⟩ := gamma2_mem o.K o.c1 hc i
  obtain ⟨-, h2, h3, -, -, ⟨h5, -⟩ | ⟨-, -, -, C, hC, -, h5⟩⟩ := adapt_sigma hi hxs hK S hS h
  · refine ⟨⟨h2 ▸ hK, h3 ▸ hc, S, h5, hb⟩, h2, h3, S, S, hS, h5, fun a b => ?_⟩
    rw [sub_self, abs_zero]
    have : 0 ≤ M := (abs_nonneg _).trans (hb 0 0)
    positivity
  · have hCb : ∀ a b, |C a b| ≤ 2 * R ^ 2 := fun a b => cov_bound hC hR hR0 (fun x hx => hbox x
      (List.mem_of_mem_take (List.mem_of_mem_drop hx))) a b
    refine ⟨⟨h2 ▸ hK, h3 ▸ hc, _, h5, fun a b => ?_⟩, h2, h3, S, _, hS, h5, fun a b => ?_⟩
    · have h1 := abs_le.1 (hb a b)
      have h2 := abs_le.1 ((hCb a b).trans hM)
      have e : S a b + gamma2 o.K o.c1 i * (C a b - S a b) = (1 - gamma2 o.K o.c1 i) * S a b + gamma2 o.K o.c1 i * C a b := by ring
      rw [e, abs_le]
      constructor <;> nlinarith
    · rw [add_sub_cancel_left, abs_mul, abs_of_pos hg0]
      refine mul_le_mul_of_nonneg_left ?_ hg0.le
      calc |C a b - S a b| ≤ |C a b| + |S a b| := abs_sub _ _
        _ ≤ M + 2 * R ^ 2 := by linarith [hb a b, hCb a b]

/-- What holds at the start of iteration `i`. -/
theorem run_bounded {lo hi : Pos d} {R M : ℝ} (hR : ∀ k, hi k - lo k ≤ R) (hR0 : 0 ≤ R) (hM : 2 * R ^ 2 ≤ M)
    (objs : List (Proposal d)) (hobjs : ∀ o ∈ objs, SigmaBound M o) (x0 : Pos d) (hx0 : ∀ k, lo k ≤ x0 k ∧ x0 k ≤ hi k)
    (nUpdates : ℕ) (r : Run d) (h : runMCMC f (boxPrior lo hi) w brk objs x0 nUpdates = .ok r) :
    1 ≤ r.trace.xs.length ∧ (∀ x ∈ r.trace.xs, ∀ k, lo k ≤ x k ∧ x k ≤ hi k) ∧ (∀ o ∈ r.objs, SigmaBound M o) ∧
      List.Forall₂ (fun o o' : Proposal d => o'.K = o.K ∧ o'.c1 = o.c1) objs r.objs := by
  obtain ⟨j, hj1, -, ⟨h1, h2, h3, h4, h5⟩, -⟩ := loop_invariant (f := f) (prior := boxPrior lo hi) (w := w) (brk := brk)
    (fun i r => r.trace.xs.length = i ∧ boxPrior lo hi r.chain.x ≠ ⊥ ∧ (∀ x ∈ r.trace.xs, boxPrior lo hi x ≠ ⊥) ∧
      (∀ o ∈ r.objs, 1 ≤ i ∧ SigmaBound M o) ∧ (1 ≤ i ∧ List.Forall₂ (fun o o' : Proposal d => o'.K = o.K ∧ o'.c1 = o.c1) objs r.objs))
    (by
      rintro i r r' ⟨hx, hc, ht, hv, hi1, hf⟩ he
      obtain ⟨s, objs', hs, rfl⟩ := iteration_ok he
      have hc' : boxPrior lo hi s.x ≠ ⊥ := sweep_chain (fun s => boxPrior lo hi s.x ≠ ⊥) (by
        intro auto s xStar u s' jt hs hj
        rcases jump_cases hj with ⟨rfl, -⟩ | ⟨ps, ls, hp, -, rfl, -⟩
        · exact hs
        · simp only [hp]; exact fun hc => by cases hc) _ _ _ _ _ hs hc
      have hbox : ∀ x ∈ r.trace.xs, ∀ k, lo k ≤ x k ∧ x k ≤ hi k := by
        intro x hx
        by_contra hcon
        exact ht x hx (by rw [boxPrior, if_neg hcon])
      have h2 := sweep_forall₂ (fun o o' => SigmaBound M o → SigmaBound M o' ∧ o'.K = o.K ∧ o'.c1 = o.c1)
        (fun o jt o' _ ha hv => ⟨(adapt_bound hi1 hx hR hR0 hM hbox hv ha).1, (adapt_bound hi1 hx hR hR0 hM hbox hv ha).2.1,
          (adapt_bound hi1 hx hR hR0 hM hbox hv ha).2.2.1⟩) _ _ _ _ _ hs
      have h3 : List.Forall₂ (fun o o' => SigmaBound M o' ∧ o'.K = o.K ∧ o'.c1 = o.c1) r.objs objs' := by
        rw [List.forall₂_iff_get] at h2 ⊢
        exact ⟨h2.1, fun k hk hk' => h2.2 k hk hk' (hv _ (List.get_mem _ _)).2⟩
      refine ⟨by simp [hx], hc', ?_, ?_, by omega, ?_⟩
      · intro x hx
        rcases List.mem_append.1 hx with hx | hx
        · exact ht x hx
        · rw [List.mem_singleton.1 hx]; exact hc'
      · intro o ho
        obtain ⟨k, hk, rfl⟩ := List.mem_iff_getElem.1 ho
        rw [List.forall₂_iff_get] at h3
        exact ⟨by omega, (h3.2 k (by rw [h3.1]; exact hk) hk).1⟩
      · rw [List.forall₂_iff_get] at h3 hf ⊢
        refine ⟨hf.1.trans h3.1, fun k hk hk' => ?_⟩
        have a := hf.2 k hk (by rw [h3.1]; exact hk')
        have b := h3.2 k (by rw [h3.1]; exact hk') hk'
        exact ⟨b.2.1.trans a.1, b.2.2.trans a.2⟩)
    (fun _ _ _ _ h => h) _ _ _ _ h
    ⟨rfl, by simp [start, boxPrior, hx0], by simp [start, boxPrior, hx0], fun o ho => ⟨le_rfl, hobjs o ho⟩, le_rfl, by
      change List.Forall₂ _ objs objs
      rw [List.forall₂_iff_get]
      exact ⟨rfl, fun k _ _ => ⟨rfl, rfl⟩⟩⟩
  refine ⟨by omega, ?_, fun o ho => (h4 o ho).2, h5.2⟩
  intro x hx
  by_contra hcon
  exact h3 x hx (by rw [boxPrior, if_neg hcon])

/-- **C148** (size of a change). Within bounds of width at most `R` and with initial covariances of entries at most `M`, the
covariances of all proposals stay bounded by `M`, and the iteration after `i - 1` finished ones changes them by at most
`(M + 2 R²) / (i / K + 3) ^ c₁`, whatever the likelihood, the draws and the start. -/
theorem C148_change {lo hi : Pos d} {R M : ℝ} (hR : ∀ k, hi k - lo k ≤ R) (hR0 : 0 ≤ R) (hM : 2 * R ^ 2 ≤ M)
    (objs : List (Proposal d)) (hobjs : ∀ o ∈ objs, 3 ≤ o.K ∧ 0 ≤ o.c1 ∧ ∃ S, o.Sigma = some S ∧ ∀ a b, |S a b| ≤ M)
    (x0 : Pos d) (hx0 : ∀ k, lo k ≤ x0 k ∧ x0 k ≤ hi k) (nUpdates : ℕ) (r r' : Run d)
    (h : runMCMC f (boxPrior lo hi) w brk objs x0 nUpdates = .ok r)
    (hnext : iteration f (boxPrior lo hi) w r.trace.xs.length r = .ok r') :
    List.Forall₂ (fun o o' => ∃ S S', o.Sigma = some S ∧ o'.Sigma = some S' ∧ (∀ a b, |S a b| ≤ M) ∧
      ∀ a b, |S' a b - S a b| ≤ (M + 2 * R ^ 2) / (((r.trace.xs.length : ℕ) : ℝ) / o.K + 3) ^ o.c1) r.objs r'.objs := by
  obtain ⟨h1, h2, h3, -⟩ := run_bounded hR hR0 hM objs hobjs x0 hx0 nUpdates r h
  obtain ⟨s, objs', hs, rfl⟩ := iteration_ok hnext
  have h4 := sweep_forall₂ (fun o o' => SigmaBound M o → ∃ S S', o.Sigma = some S ∧ o'.Sigma = some S' ∧ (∀ a b, |S a b| ≤ M) ∧
      ∀ a b, |S' a b - S a b| ≤ (M + 2 * R ^ 2) / (((r.trace.xs.length : ℕ) : ℝ) / o.K + 3) ^ o.c1)
    (fun o jt o' _ ha hv => by
      obtain ⟨-, -, -, S, S', hS, hS', hd⟩ := adapt_bound h1 rfl hR hR0 hM h2 hv ha
      obtain ⟨-, -, T, hT, hb⟩ := hv
      rw [hS] at hT
      cases hT
      refine ⟨S, S', hS, hS', hb, fun a b => (hd a b).trans (le_of_eq ?_)⟩
      rw [gamma2]
      ring) _ _ _ _ _ hs
  rw [List.forall₂_iff_get] at h4 ⊢
  exact ⟨h4.1, fun k hk hk' => h4.2 k hk hk' (h3 _ (List.get_mem _ _))⟩

theorem gamma2_tendsto {K : ℕ} (hK : 0 < K) {c1 : ℝ} (hc : 0 < c1) : Tendsto (fun i : ℕ => gamma2 K c1 i) atTop (𝓝 0) := by
  have hK' : (0 : ℝ) < K := by exact_mod_cast hK
  have h1 : Tendsto (fun i : ℕ => (i : ℝ) / K + 3) atTop atTop :=
    tendsto_atTop_add_const_right _ _ (tendsto_natCast_atTop_atTop.atTop_div_const hK')
  have h2 := (tendsto_rpow_atTop hc).comp h1
  have h3 := h2.inv_tendsto_atTop
  refine h3.congr fun i => ?_
  simp [gamma2]

/-- **C148** (diminishing adaptation). For bounded parameters and a positive decay exponent, the change of the proposals from
one iteration to the next tends to zero uniformly: after some number of iterations that depends on the bounds and the proposal
objects only, no likelihood, no draws and no start can change a covariance entry by more than `ε` in one iteration. -/
theorem C148_diminishing (lo hi : Pos d) (objs : List (Proposal d))
    (hobjs : ∀ o ∈ objs, 3 ≤ o.K ∧ 0 < o.c1 ∧ ∃ S M, o.Sigma = some S ∧ ∀ a b, |S a b| ≤ M) (ε : ℝ) (hε : 0 < ε) :
    ∃ N, ∀ (f : Pos d → Option ℝ) (w : Draws d) (brk : Trace d → Bool) (x0 : Pos d) (nUpdates : ℕ) (r r' : Run d),
      (∀ k, lo k ≤ x0 k ∧ x0 k ≤ hi k) → runMCMC f (boxPrior lo hi) w brk objs x0 nUpdates = .ok r →
      N ≤ r.trace.xs.length → iteration f (boxPrior lo hi) w r.trace.xs.length r = .ok r' →
      List.Forall₂ (fun o o' => ∃ S S', o.Sigma = some S ∧ o'.Sigma = some S' ∧ ∀ a b, |S' a b - S a b| ≤ ε) r.objs r'.objs := by
  classical
  obtain ⟨R, hR0, hR⟩ : ∃ R : ℝ, 0 ≤ R ∧ ∀ k, hi k - lo k ≤ R :=
    ⟨∑ k, |hi k - lo k|, Finset.sum_nonneg fun _ _ => abs_nonneg _, fun k => (le_abs_self _).trans
      (Finset.single_le_sum (f := fun k => |hi k - lo k|) (fun _ _ => abs_nonneg _) (Finset.mem_univ k))⟩
  obtain ⟨M, hM, hMo⟩ : ∃ M, 2 * R ^ 2 ≤ M ∧ ∀ o ∈ objs, SigmaBound M o := by
    clear hε
    induction objs with
    | nil => exact ⟨_, le_rfl, by simp⟩
    | cons o os ih =>
      obtain ⟨M, hM, hMo⟩ := ih fun o ho => hobjs o (List.mem_cons_of_mem _ ho)
      obtain ⟨hK, hc, S, M', hS, hb⟩ := hobjs o List.mem_cons_self
      refine ⟨max M M', hM.trans (le_max_left _ _), fun o' ho' => ?_⟩
      rcases List.mem_cons.1 ho' with rfl | ho'
      · exact ⟨hK, hc.le, S, hS, fun a b => (hb a b).trans (le_max_right _ _)⟩
      · obtain ⟨h1, h2, S, h3, h4⟩ := hMo o' ho'
        exact ⟨h1, h2, S, h3, fun a b => (h4 a b).trans (le_max_left _ _)⟩
  have hN : ∃ N, ∀ o ∈ objs, ∀ i ≥ N, gamma2 o.K o.c1 i * (M + 2 * R ^ 2) ≤ ε := by
    have : ∀ os : List (Proposal d), (∀ o ∈ os, 3 ≤ o.K ∧ 0 < o.c1) →
        ∃ N, ∀ o ∈ os, ∀ i ≥ N, gamma2 o.K o.c1 i * (M + 2 * R ^ 2) ≤ ε := by
      intro os
      induction os with
      | nil => intro _; exact ⟨0, by simp⟩
      | cons o os ih =>
        intro ho
        obtain ⟨N, hN⟩ := ih fun o h => ho o (List.mem_cons_of_mem _ h)
        have ho' := ho o List.mem_cons_self
        have ht := (gamma2_tendsto (K := o.K) (by omega) ho'.2).mul_const (M + 2 * R ^ 2)
        rw [zero_mul] at ht
        obtain ⟨N', hN'⟩ := eventually_atTop.1 (ht.eventually (gt_mem_nhds hε))
        refine ⟨max N N', fun o' h i hi => ?_⟩
        rcases List.mem_cons.1 h with rfl | h
        · exact (hN' i ((le_max_right _ _).trans hi)).le
        · exact hN o' h i ((le_max_left _ _).trans hi)
    exact this objs fun o ho => ⟨(hobjs o ho).1, (hobjs o ho).2.1⟩
  obtain ⟨N, hN⟩ := hN
  refine ⟨N, fun f w brk x0 nUpdates r r' hx0 h hlen hnext => ?_⟩
  have h1 := C148_change hR hR0 hM objs hMo x0 hx0 nUpdates r r' h hnext
  obtain ⟨-, -, -, hp⟩ := run_bounded hR hR0 hM objs hMo x0 hx0 nUpdates r h
  rw [List.forall₂_iff_get] at h1 hp ⊢
  refine ⟨h1.1, fun k hk hk' => ?_⟩
  obtain ⟨S, S', hS, hS', -, hd⟩ := h1.2 k hk hk'
  refine ⟨S, S', hS, hS', fun a b => (hd a b).trans ?_⟩
  have hk0 : k < objs.length := by rw [hp.1]; exact hk
  have hpar := hp.2 k hk0 hk
  have := hN _ (List.get_mem objs ⟨k, hk0⟩) _ hlen
  rw [← hpar.1, ← hpar.2, gamma2] at this
  calc _ = 1 / (((r.trace.xs.length : ℕ) : ℝ) / (r.objs.get ⟨k, hk⟩).K + 3) ^ (r.objs.get ⟨k, hk⟩).c1 * (M + 2 * R ^ 2) := by ring
    _ ≤ ε := this

/-! ## The weight of the initial covariance -/

/-- Product of the factors `1 - γ₂` of the adaptations among the first `n` iterations. -/
noncomputable def startWeight (K : ℕ) (c1 : ℝ) (n : ℕ) : ℝ := ∏ j ∈ Finset.range (n / K), (1 - 1 / ((j : ℝ) + 4) ^ c1)

theorem startWeight_succ {K : ℕ} (hK : 0 < K) (c1 : ℝ) (n : ℕ) :
    startWeight K c1 (n + 1) = if K ∣ n + 1 then (1 - gamma2 K c1 (n + 1)) * startWeight K c1 n else startWeight K c1 n := by
  have hK' : (K : ℝ) ≠ 0 := by exact_mod_cast hK.ne'
  unfold startWeight
  rw [Nat.succ_div]
  split_ifs with h
  · rw [Finset.prod_range_succ, mul_comm]
    congr 2
    obtain ⟨m, hm⟩ := h
    have hm1 : 1 ≤ m := by
      rcases Nat.eq_zero_or_pos m with rfl | h
      · simp at hm
      · exact h
    have hn : n / K = m - 1 := by
      have : n = K * m - 1 := by omega
      rw [this, Nat.mul_sub_div 0 K m (by nlinarith)]
      simp
    have e : ((n + 1 : ℕ) : ℝ) / K = m := by
      rw [hm]; push_cast; field_simp
    rw [gamma2, e, hn]
    have : ((m - 1 : ℕ) : ℝ) + 4 = (m : ℝ) + 3 := by
      rw [Nat.cast_sub hm1]; push_cast; ring
    rw [this]
  · rw [add_zero]

theorem start_factor_pos {c1 : ℝ} (hc : 0 < c1) (j : ℕ) : 0 < 1 - 1 / ((j : ℝ) + 4) ^ c1 := by
  have hb : (1 : ℝ) < (j : ℝ) + 4 := by
    have : (0 : ℝ) ≤ j := Nat.cast_nonneg j
    linarith
  have := Real.one_lt_rpow hb hc
  rw [sub_pos, div_lt_one (by linarith)]
  exact this

theorem startWeight_pos {K : ℕ} {c1 : ℝ} (hc : 0 < c1) (n : ℕ) : 0 < startWeight K c1 n :=
  Finset.prod_pos fun j _ => start_factor_pos hc j

/-- The state of an object after `n` iterations relative to its initial state. -/
structure Grown (n : ℕ) (moved : Prop) (o o' : Proposal d) : Prop where
  idx : o'.idx = o.idx
  K : o'.K = o.K
  c1 : o'.c1 = o.c1
  adaptive : o'.adaptive = o.adaptive
  adaptCov : o'.adaptCov = o.adaptCov
  sigma : 3 ≤ o.K → 0 ≤ o.c1 → o.adaptive = true → o.adaptCov = true → ∀ S₀, o.Sigma = some S₀ →
    ∃ S P, o'.Sigma = some S ∧ (toMat o.idx.length P).PosSemidef ∧ (¬ moved → P = 0) ∧
      ∀ a b, S a b = startWeight o.K o.c1 n * S₀ a b + P a b

theorem grown_step {n : ℕ} {moved : Prop} {o o₁ o₂ : Proposal d} {xs : List (Pos d)} {jt : ℝ} (hg : Grown n moved o o₁)
    (hxs : xs.length = n + 1) (hK3 : 3 ≤ o.K) (hS0 : ∃ S, o₁.Sigma = some S) {x0 : Pos d}
    (hstill : ¬ moved → ∀ x ∈ xs, x = x0)
    (h : adapt { o₁ with jumpTrace := o₁.jumpTrace ++ [jt] } (n + 1) xs = .ok o₂) :
    Grown (n + 1) moved o o₂ ∧ ∃ S, o₂.Sigma = some S := by
  obtain ⟨S₁, hS₁⟩ := hS0
  have hK1 : 3 ≤ o₁.K := by rw [hg.K]; exact hK3
  obtain ⟨h1, h2, h3, h4, h5, h6⟩ := adapt_sigma (Nat.le_add_left 1 n) hxs hK1 S₁ hS₁ h
  refine ⟨⟨h1.trans hg.idx, h2.trans hg.K, h3.trans hg.c1, h4.trans hg.adaptive, h5.trans hg.adaptCov, ?_⟩, ?_⟩
  · intro hK hc ha hac S₀ hS₀
    obtain ⟨S, P, hS, hP, hP0, he⟩ := hg.sigma hK hc ha hac S₀ hS₀
    rw [hS₁] at hS
    cases hS
    rw [startWeight_succ (by omega)]
    rcases h6 with ⟨h6, hno⟩ | ⟨-, -, hd, C, hC, hl, h6⟩
    · have : ¬ o.K ∣ n + 1 := fun hd => hno ⟨hg.adaptive.trans ha, hg.adaptCov.trans hac, hg.K ▸ hd⟩
      rw [if_neg this]
      exact ⟨S₁, P, h6, hP, hP0, he⟩
    · rw [if_pos (hg.K ▸ hd)]
      have hgam : gamma2 o₁.K o₁.c1 (n + 1) = gamma2 o.K o.c1 (n + 1) := by rw [hg.K, hg.c1]
      rw [hgam] at h6
      obtain ⟨hg0, hg1⟩ := gamma2_mem o.K o.c1 hc (n + 1)
      have hCp := cov_posSemidef _ _ _ hC o.idx.length
      refine ⟨_, fun a b => (1 - gamma2 o.K o.c1 (n + 1)) * P a b + gamma2 o.K o.c1 (n + 1) * C a b, h6, ?_, ?_, ?_⟩
      · have e : toMat o.idx.length (fun a b => (1 - gamma2 o.K o.c1 (n + 1)) * P a b + gamma2 o.K o.c1 (n + 1) * C a b)
            = (1 - gamma2 o.K o.c1 (n + 1)) • toMat o.idx.length P + gamma2 o.K o.c1 (n + 1) • toMat o.idx.length C := by
          ext a b
          simp only [toMat, Matrix.of_apply, Matrix.add_apply, Matrix.smul_apply, smul_eq_mul]
        rw [e]
        exact (hP.smul (by linarith)).add (hCp.smul hg0.le)
      · intro hm
        funext a b
        have hc0 := cov_const hC (x0 := x0) (fun x hx => hstill hm x (List.mem_of_mem_take (List.mem_of_mem_drop hx))) a b
        simp [hP0 hm, hc0]
      · intro a b
        rw [he a b]
        ring
  · rcases h6 with ⟨h6, -⟩ | ⟨-, -, -, C, -, -, h6⟩ <;> exact ⟨_, h6⟩

theorem run_grown (objs : List (Proposal d)) (hobjs : ∀ o ∈ objs, 3 ≤ o.K ∧ ∃ S, o.Sigma = some S) (x0 : Pos d)
    (nUpdates : ℕ) (r : Run d) (h : runMCMC f prior w brk objs x0 nUpdates = .ok r) :
    1 ≤ r.trace.xs.length ∧ List.Forall₂ (Grown (r.trace.xs.length - 1) (∃ x ∈ r.trace.xs, x ≠ x0)) objs r.objs := by
  obtain ⟨j, hj1, -, ⟨h1, h2, h3⟩, -⟩ := loop_invariant (f := f) (prior := prior) (w := w) (brk := brk)
    (fun i r => r.trace.xs.length = i ∧ 1 ≤ i ∧
      List.Forall₂ (fun o o' => ∀ moved : Prop, ((∃ x ∈ r.trace.xs, x ≠ x0) → moved) →
        Grown (i - 1) moved o o' ∧ ∃ S, o'.Sigma = some S) objs r.objs)
    (by
      rintro i r r' ⟨hx, hi1, hf⟩ he
      obtain ⟨s, objs', hs, rfl⟩ := iteration_ok he
      refine ⟨by simp [hx], by omega, ?_⟩
      have h2 := sweep_forall₂ (fun o₁ o₂ => ∀ o ∈ objs, (∀ moved : Prop, ((∃ x ∈ r.trace.xs, x ≠ x0) → moved) →
          Grown (i - 1) moved o o₁ ∧ ∃ S, o₁.Sigma = some S) → ∀ moved : Prop, ((∃ x ∈ r.trace.xs, x ≠ x0) → moved) →
          Grown i moved o o₂ ∧ ∃ S, o₂.Sigma = some S)
        (by
          intro o₁ jt o₂ _ ha o ho hg moved hm
          obtain ⟨n, rfl⟩ : ∃ n, i = n + 1 := ⟨i - 1, by omega⟩
          exact grown_step (x0 := x0) (hg moved hm).1 hx (hobjs o ho).1 (hg moved hm).2 (fun hnm x hxm => by
            by_contra hne
            exact hnm (hm ⟨x, hxm, hne⟩)) ha) _ _ _ _ _ hs
      rw [List.forall₂_iff_get] at h2 hf ⊢
      refine ⟨hf.1.trans h2.1, fun k hk hk' => ?_⟩
      intro moved hm
      have hk1 : k < r.objs.length := by rw [← hf.1]; exact hk
      have := h2.2 k hk1 hk' (objs.get ⟨k, hk⟩) (List.get_mem _ _) (hf.2 k hk hk1) moved
        (fun ⟨x, hx, hne⟩ => hm ⟨x, List.mem_append_left _ hx, hne⟩)
      rw [Nat.add_sub_cancel]
      exact this)
    (fun _ _ _ _ h => h) _ _ _ _ h
    ⟨rfl, le_rfl, by
      change List.Forall₂ _ objs objs
      rw [List.forall₂_iff_get]
      refine ⟨rfl, fun k hk _ moved _ => ⟨⟨rfl, rfl, rfl, rfl, rfl, ?_⟩, (hobjs _ (List.get_mem _ _)).2⟩⟩
      intro _ _ _ _ S₀ hS₀
      refine ⟨S₀, 0, hS₀, ?_, fun _ => rfl, fun a b => by simp [startWeight]⟩
      have : toMat (objs.get ⟨k, hk⟩).idx.length 0 = 0 := by ext a b; rfl
      rw [this]
      exact Matrix.PosSemidef.zero⟩
  refine ⟨by omega, ?_⟩
  rw [List.forall₂_iff_get] at h3 ⊢
  refine ⟨h3.1, fun k hk hk' => ?_⟩
  have := (h3.2 k hk hk' _ id).1
  rw [h1]
  exact this

/-- **C148** (weight of the initial covariance). After `n` iterations of any run, the covariance of an adaptive proposal is the
initial one with weight `∏ (1 - (j + 4) ^ -c₁)`, over the `⌊n / K⌋` adaptations, plus a positive semidefinite matrix; this
matrix is zero if the chain has not moved. -/
theorem C148_initial_weight (objs : List (Proposal d)) (hobjs : ∀ o ∈ objs, 3 ≤ o.K ∧ 0 ≤ o.c1 ∧ o.adaptive = true ∧
      o.adaptCov = true ∧ ∃ S, o.Sigma = some S) (x0 : Pos d) (nUpdates : ℕ) (r : Run d)
    (h : runMCMC f prior w brk objs x0 nUpdates = .ok r) :
    List.Forall₂ (fun o o' => ∃ S₀ S P, o.Sigma = some S₀ ∧ o'.Sigma = some S ∧ (toMat o.idx.length P).PosSemidef ∧
      ((∀ x ∈ r.trace.xs, x = x0) → P = 0) ∧
      ∀ a b, S a b = (∏ j ∈ Finset.range ((r.trace.xs.length - 1) / o.K), (1 - 1 / ((j : ℝ) + 4) ^ o.c1)) * S₀ a b + P a b)
      objs r.objs := by
  obtain ⟨-, hg⟩ := run_grown objs (fun o ho => ⟨(hobjs o ho).1, (hobjs o ho).2.2.2.2⟩) x0 nUpdates r h
  rw [List.forall₂_iff_get] at hg ⊢
  refine ⟨hg.1, fun k hk hk' => ?_⟩
  obtain ⟨h1, h2, h3, h4, S₀, hS₀⟩ := hobjs _ (List.get_mem objs ⟨k, hk⟩)
  obtain ⟨S, P, hS, hP, hP0, he⟩ := (hg.2 k hk hk').sigma h1 h2 h3 h4 S₀ hS₀
  exact ⟨S₀, S, P, hS₀, hS, hP, fun hst => hP0 (by rintro ⟨x, hx, hne⟩; exact hne (hst x hx)), he⟩

/-- **C148** (definiteness). A positive definite covariance stays positive definite over every run, so the proposals never
lose a direction, even if the chain does not move. -/
theorem C148_posDef (objs : List (Proposal d)) (hobjs : ∀ o ∈ objs, 3 ≤ o.K ∧ 0 < o.c1 ∧ o.adaptive = true ∧
      o.adaptCov = true ∧ ∃ S, o.Sigma = some S ∧ (toMat o.idx.length S).PosDef) (x0 : Pos d) (nUpdates : ℕ) (r : Run d)
    (h : runMCMC f prior w brk objs x0 nUpdates = .ok r) :
    List.Forall₂ (fun o o' => o'.idx = o.idx ∧ ∃ S, o'.Sigma = some S ∧ (toMat o.idx.length S).PosDef) objs r.objs := by
  obtain ⟨-, hg⟩ := run_grown objs (fun o ho => ⟨(hobjs o ho).1, (hobjs o ho).2.2.2.2.imp fun S h => h.1⟩) x0 nUpdates r h
  rw [List.forall₂_iff_get] at hg ⊢
  refine ⟨hg.1, fun k hk hk' => ?_⟩
  obtain ⟨h1, h2, h3, h4, S₀, hS₀, hpd⟩ := hobjs _ (List.get_mem objs ⟨k, hk⟩)
  obtain ⟨S, P, hS, hP, -, he⟩ := (hg.2 k hk hk').sigma h1 h2.le h3 h4 S₀ hS₀
  refine ⟨(hg.2 k hk hk').idx, S, hS, ?_⟩
  have e : toMat (objs.get ⟨k, hk⟩).idx.length S = startWeight (objs.get ⟨k, hk⟩).K (objs.get ⟨k, hk⟩).c1 (r.trace.xs.length - 1) •
      toMat (objs.get ⟨k, hk⟩).idx.length S₀ + toMat (objs.get ⟨k, hk⟩).idx.length P := by
    ext a b
    simp only [toMat, Matrix.of_apply, Matrix.add_apply, Matrix.smul_apply, smul_eq_mul, he]
  rw [e]
  exact (hpd.smul (startWeight_pos h2 _)).add_posSemidef hP

/-- **C148** (forgetting). With a decay exponent up to one, as by default, the weight of the initial covariance tends to zero. -/
theorem C148_forgotten {K : ℕ} (hK : 0 < K) {c1 : ℝ} (h0 : 0 < c1) (h1 : c1 ≤ 1) :
    Tendsto (fun n : ℕ => ∏ j ∈ Finset.range (n / K), (1 - 1 / ((j : ℝ) + 4) ^ c1)) atTop (𝓝 0) := by
  have hm : Tendsto (fun m : ℕ => ∏ j ∈ Finset.range m, (1 - 1 / ((j : ℝ) + 4) ^ c1)) atTop (𝓝 0) := by
    have hsum : Tendsto (fun m : ℕ => ∑ j ∈ Finset.range m, 1 / ((j : ℝ) + 4) ^ c1) atTop atTop := by
      have hns : ¬ Summable fun j : ℕ => 1 / ((j : ℝ) + 4) ^ c1 := by
        intro hs
        have hs' : Summable fun j : ℕ => 1 / (((j + 4 : ℕ) : ℝ)) ^ c1 := by
          refine hs.congr fun j => ?_
          push_cast
          rfl
        have := (summable_nat_add_iff (f := fun j : ℕ => 1 / ((j : ℕ) : ℝ) ^ c1) 4).1 hs'
        exact absurd (Real.summable_one_div_nat_rpow.1 this) (not_lt.2 h1)
      refine (not_summable_iff_tendsto_nat_atTop_of_nonneg fun j => ?_).1 hns
      positivity
    have hexp : Tendsto (fun m : ℕ => Real.exp (-∑ j ∈ Finset.range m, 1 / ((j : ℝ) + 4) ^ c1)) atTop (𝓝 0) :=
      Real.tendsto_exp_neg_atTop_nhds_zero.comp hsum
    refine tendsto_of_tendsto_of_tendsto_of_le_of_le tendsto_const_nhds hexp (fun m => ?_) fun m => ?_
    · exact Finset.prod_nonneg fun j _ => (start_factor_pos h0 j).le
    · simp only [← Finset.sum_neg_distrib, Real.exp_sum]
      refine Finset.prod_le_prod (fun j _ => (start_factor_pos h0 j).le) fun j _ => ?_
      have := Real.add_one_le_exp (-(1 / ((j : ℝ) + 4) ^ c1))
      linarith
  exact hm.comp (Nat.tendsto_div_const_atTop hK.ne')

/-- With an exponent above one the initial covariance is never forgotten: its weight stays above a positive number. -/
theorem C148_never_forgotten {K : ℕ} {c1 : ℝ} (h1 : 1 < c1) :
    ∃ δ : ℝ, 0 < δ ∧ ∀ n : ℕ, δ ≤ ∏ j ∈ Finset.range (n / K), (1 - 1 / ((j : ℝ) + 4) ^ c1) := by
  have h0 : 0 < c1 := by linarith
  have hs : Summable fun j : ℕ => 1 / ((j : ℝ) + 4) ^ c1 := by
    have := (summable_nat_add_iff (f := fun j : ℕ => 1 / ((j : ℕ) : ℝ) ^ c1) 4).2 (Real.summable_one_div_nat_rpow.2 h1)
    refine this.congr fun j => ?_
    push_cast
    rfl
  refine ⟨Real.exp (-(2 * ∑' j : ℕ, 1 / ((j : ℝ) + 4) ^ c1)), Real.exp_pos _, fun n => ?_⟩
  have hle : ∑ j ∈ Finset.range (n / K), 1 / ((j : ℝ) + 4) ^ c1 ≤ ∑' j : ℕ, 1 / ((j : ℝ) + 4) ^ c1 :=
    hs.sum_le_tsum _ fun j _ => by positivity
  calc Real.exp (-(2 * ∑' j : ℕ, 1 / ((j : ℝ) + 4) ^ c1))
      ≤ Real.exp (-(2 * ∑ j ∈ Finset.range (n / K), 1 / ((j : ℝ) + 4) ^ c1)) := Real.exp_le_exp.2 (by linarith)
    _ = ∏ j ∈ Finset.range (n / K), Real.exp (-(2 * (1 / ((j : ℝ) + 4) ^ c1))) := by
        rw [← Real.exp_sum, Finset.mul_sum, Finset.sum_neg_distrib]
    _ ≤ _ := by
        refine Finset.prod_le_prod (fun j _ => (Real.exp_pos _).le) fun j _ => ?_
        have hj : (2 : ℝ) ≤ ((j : ℝ) + 4) ^ c1 := by
          have hb : (4 : ℝ) ≤ (j : ℝ) + 4 := by
            have : (0 : ℝ) ≤ j := Nat.cast_nonneg j
            linarith
          calc (2 : ℝ) ≤ (j : ℝ) + 4 := by linarith
            _ = ((j : ℝ) + 4) ^ (1 : ℝ) := (Real.rpow_one _).symm
            _ ≤ _ := Real.rpow_le_rpow_of_exponent_le (by linarith) h1.le
        set t := ((j : ℝ) + 4) ^ c1 with ht
        have hpos : 0 < 1 - 1 / t := start_factor_pos h0 j
        have hlog := Real.one_sub_inv_le_log_of_pos hpos
        rw [← Real.le_log_iff_exp_le hpos]
        refine le_trans ?_ hlog
        have e : 1 - (1 - 1 / t)⁻¹ = -(1 / (t - 1)) := by
          have h1 : t ≠ 0 := by linarith
          have h2 : t - 1 ≠ 0 := by linarith
          have h3 : 1 - 1 / t = (t - 1) / t := by field_simp
          rw [h3, inv_div]
          field_simp
          ring
        rw [e, neg_le_neg_iff, mul_one_div, div_le_div_iff₀ (by linarith) (by linarith)]
        linarith

/-- The default proposals in two dimensions meet the hypotheses. -/
example : ∀ o ∈ [defaultProposal (d := 2) (fun _ => 0) (fun _ => 1)], 3 ≤ o.K ∧ 0 < o.c1 ∧ o.adaptive = true ∧
    o.adaptCov = true ∧ ∃ S, o.Sigma = some S ∧ (toMat o.idx.length S).PosDef := by
  intro o ho
  rw [List.mem_singleton.1 ho]
  refine ⟨by simp [defaultProposal], by simp only [defaultProposal]; norm_num, rfl, rfl, _, rfl, ?_⟩
  have : toMat (defaultProposal (d := 2) (fun _ => 0) (fun _ => 1)).idx.length (fun a b => if a = b then
      (if h : a < 2 then (((1 : ℝ) - 0) * 0.2 / Real.sqrt 12) ^ 2 else 0) else 0) =
      Matrix.diagonal fun _ => (((1 : ℝ) - 0) * 0.2 / Real.sqrt 12) ^ 2 := by
    ext a b
    have hl : (defaultProposal (d := 2) (fun _ => 0) (fun _ => 1)).idx.length = 2 := by simp [defaultProposal]
    have ha : (a : ℕ) < 2 := lt_of_lt_of_eq a.2 hl
    simp only [toMat, Matrix.of_apply, Matrix.diagonal_apply, Fin.ext_iff, ha, dif_pos]
  rw [this]
  refine Matrix.PosDef.diagonal fun i => ?_
  positivity

end Verif.MCMC
