import Verif.MCMC.Props
import Verif.LinAlg.CholLemmas

/-! C56: adaptation of the proposals. -/

namespace Verif.MCMC

open Verif.LinAlg

variable {d : ℕ} {f : Pos d → Option ℝ} {prior : Pos d → WithBot ℝ} {w : Draws d} {brk : Trace d → Bool}

/-- An iteration treats the proposal objects one by one. -/
theorem sweep_forall₂ (R : Proposal d → Proposal d → Prop) {i : ℕ} {xs : List (Pos d)}
    (hR : ∀ o jt o', (jt = 0 ∨ jt = 1) → adapt { o with jumpTrace := o.jumpTrace ++ [jt] } i xs = .ok o' → R o o') :
    ∀ (os : List (Proposal d)) (j : ℕ) (s s' : Chain d) (os' : List (Proposal d)),
      sweep f prior w i xs j s os = .ok (s', os') → List.Forall₂ R os os' := by
  intro os
  induction os with
  | nil =>
    intro j s s' os' h
    simp only [sweep, Except.ok.injEq, Prod.mk.injEq] at h
    rw [← h.2]; exact .nil
  | cons o os ih =>
    intro j s s' os' h
    obtain ⟨xStar, s1, jt, o1, os1, -, h2, h3, h4, rfl⟩ := sweep_cons h
    have hjt : jt = 0 ∨ jt = 1 := by
      rcases jump_cases h2 with ⟨-, h⟩ | ⟨_, _, _, _, _, h, _⟩
      · exact .inl h
      · exact .inr h
    exact .cons (hR _ _ _ hjt h3) (ih _ _ _ _ h4)

/-- C56: between adaptations nothing changes. In an iteration whose number is not a multiple of `K` every proposal keeps
covariance and scale. -/
theorem C56_only_every_K (i : ℕ) (r r' : Run d) (h : iteration f prior w i r = .ok r') :
    List.Forall₂ (fun o o' => (o.adaptive = false ∨ ¬ o.K ∣ i) → o'.Sigma = o.Sigma ∧ o'.sigmaM = o.sigmaM) r.objs r'.objs := by
  obtain ⟨s, objs, hs, rfl⟩ := iteration_ok h
  refine sweep_forall₂ _ ?_ _ _ _ _ _ hs
  intro o jt o' _ ha hk
  unfold adapt at ha
  simp only at ha
  by_cases h1 : o.adaptive = true
  · rw [if_neg (by simp [h1])] at ha
    by_cases h2 : o.K = 0
    · rw [if_pos h2] at ha; simp at ha
    · rw [if_neg h2, if_pos] at ha
      · simp only [Except.ok.injEq] at ha
        rw [← ha]; exact ⟨rfl, rfl⟩
      · rcases hk with hk | hk
        · rw [h1] at hk; simp at hk
        · exact fun e => hk (Nat.dvd_of_mod_eq_zero e)
  · rw [if_pos (by simpa using h1)] at ha
    simp only [Except.ok.injEq] at ha
    rw [← ha]; exact ⟨rfl, rfl⟩

/-- The mean of coordinate `k` over the samples. -/
noncomputable def sampleMean (samples : List (Pos d)) (k : Fin d) : ℝ := (samples.map fun x => x k).sum / samples.length

/-- The unbiased sample covariance of the coordinates `k` and `l`. -/
noncomputable def sampleCov (samples : List (Pos d)) (k l : Fin d) : ℝ :=
  (samples.map fun x => (x k - sampleMean samples k) * (x l - sampleMean samples l)).sum / (samples.length - 1)

theorem cov_eq (idx : List (Fin d)) (samples : List (Pos d)) (hs : 2 ≤ samples.length) :
    ∃ C, cov idx samples = some C ∧ ∀ a b (ha : a < idx.length) (hb : b < idx.length),
      C a b = sampleCov samples idx[a] idx[b] := by
  refine ⟨fun a b => (samples.map fun x => (coord idx a x - (samples.map (coord idx a)).sum / samples.length)
    * (coord idx b x - (samples.map (coord idx b)).sum / samples.length)).sum / (samples.length - 1),
    by rw [cov, if_neg (by omega)], ?_⟩
  intro a b ha hb
  have e1 : coord idx a = fun x => x idx[a] := by funext x; simp only [coord, List.getElem?_eq_getElem ha]
  have e2 : coord idx b = fun x => x idx[b] := by funext x; simp only [coord, List.getElem?_eq_getElem hb]
  simp only [e1, e2, sampleCov, sampleMean]

/-- C56: in an iteration whose number is a multiple of `K ≥ 3`, the new covariance is a weighted average of the old one
and the sample covariance of the `K - 1` latest recorded positions, the new scale is the old one times a power of `e`
that grows with the rate at which the latest proposals were accepted. -/
theorem C56_adaptation_step (o : Proposal d) (i : ℕ) (xs : List (Pos d)) (S : ℕ → ℕ → ℝ) (s : ℝ)
    (had : o.adaptive = true) (hK : 3 ≤ o.K) (hi : o.K ∣ i) (hpos : 1 ≤ i) (hxs : xs.length = i)
    (hj : o.jumpTrace.length = i) (hcov : o.adaptCov = true) (hS : o.Sigma = some S) (hs : o.sigmaM = some s) (hs0 : 0 < s) :
    let γ := 1 / ((i : ℝ) / o.K + 3) ^ o.c1
    let recent := xs.drop (i - o.K + 1)
    ∃ o' S' s', adapt o i xs = .ok o' ∧ o'.Sigma = some S' ∧ o'.sigmaM = some s' ∧ recent.length = o.K - 1 ∧
      (∀ a b (ha : a < o.idx.length) (hb : b < o.idx.length),
        S' a b = (1 - γ) * S a b + γ * sampleCov recent o.idx[a] o.idx[b]) ∧
      s' = s * Real.exp (o.c0 * γ * ((o.jumpTrace.drop (i - o.K + 1)).sum / (o.K - 1) - o.rOpt)) := by
  intro γ recent
  have hKi : o.K ≤ i := Nat.le_of_dvd hpos hi
  have hrec : slice xs (i - o.K + 1) i = recent := by
    simp only [slice, recent]
    rw [List.take_of_length_le (by omega)]
  have hjr : slice o.jumpTrace (i - o.K + 1) i = o.jumpTrace.drop (i - o.K + 1) := by
    simp only [slice]
    rw [List.take_of_length_le (by omega)]
  have hl : recent.length = o.K - 1 := by simp only [recent, List.length_drop]; omega
  have hlj : (o.jumpTrace.drop (i - o.K + 1)).length = o.K - 1 := by simp only [List.length_drop]; omega
  obtain ⟨C, hC, hCe⟩ := cov_eq o.idx recent (by omega)
  have hm : mean (o.jumpTrace.drop (i - o.K + 1)) = some ((o.jumpTrace.drop (i - o.K + 1)).sum / (o.K - 1)) := by
    rw [mean, if_neg (by omega), hlj, Nat.cast_sub (by omega), Nat.cast_one]
  refine ⟨{ o with Sigma := newCov o i xs, sigmaM := newScale o i },
    fun a b => S a b + gamma2 o.K o.c1 i * (C a b - S a b),
    Real.exp (Real.log s + o.c0 * gamma2 o.K o.c1 i * ((o.jumpTrace.drop (i - o.K + 1)).sum / (o.K - 1) - o.rOpt)),
    ?_, ?_, ?_, hl, ?_, ?_⟩
  · unfold adapt
    rw [if_neg (by simp [had]), if_neg (by omega), if_neg (by simpa using Nat.mod_eq_zero_of_dvd hi)]
  · simp only [newCov, hcov, hS, hrec, hC, if_true]
  · simp only [newScale, hs, hjr, hm]
  · intro a b ha hb
    simp only [hCe a b ha hb, γ, gamma2]
    ring
  · simp only [gamma2, γ]
    rw [Real.exp_add, Real.exp_log hs0]

/-- Sums of outer products are positive semidefinite. -/
theorem outer_posSemidef (n : ℕ) (l : List (ℕ → ℝ)) :
    (toMat n fun a b => (l.map fun v => v a * v b).sum).PosSemidef := by
  induction l with
  | nil =>
    have : toMat n (fun a b => (([] : List (ℕ → ℝ)).map fun v => v a * v b).sum) = 0 := by
      ext a b; simp [toMat]
    rw [this]; exact Matrix.PosSemidef.zero
  | cons v l ih =>
    have : toMat n (fun a b => ((v :: l).map fun v => v a * v b).sum)
        = Matrix.vecMulVec (fun a : Fin n => v a) (star fun a : Fin n => v a)
          + toMat n fun a b => (l.map fun v => v a * v b).sum := by
      ext a b; simp [toMat, Matrix.vecMulVec_apply]
    rw [this]
    exact (Matrix.posSemidef_vecMulVec_self_star _).add ih

theorem cov_posSemidef (idx : List (Fin d)) (samples : List (Pos d)) (C : ℕ → ℕ → ℝ) (h : cov idx samples = some C) (n : ℕ) :
    (toMat n C).PosSemidef := by
  unfold cov at h
  split_ifs at h with hl
  · simp only [Option.some.injEq] at h
    have hC : toMat n C = ((samples.length : ℝ) - 1)⁻¹ •
        toMat n fun a b => ((samples.map fun x (a : ℕ) => coord idx a x - (samples.map (coord idx a)).sum / samples.length).map fun v => v a * v b).sum := by
      ext a b
      simp only [toMat, Matrix.of_apply, Matrix.smul_apply, smul_eq_mul, ← h, List.map_map, Function.comp_def]
      rw [div_eq_inv_mul]
    rw [hC]
    refine (outer_posSemidef n _).smul (inv_nonneg.2 ?_)
    have : (2 : ℝ) ≤ samples.length := by exact_mod_cast (by omega : 2 ≤ samples.length)
    linarith

/-- A proposal object whose adaptation is well set up: at least three iterations between adaptations, a non-negative
decay exponent, a positive semidefinite covariance, a positive scale, and a recorded jump for every iteration. -/
structure Valid (i : ℕ) (o : Proposal d) : Prop where
  K : 3 ≤ o.K
  c1 : 0 ≤ o.c1
  jumps : i ≤ o.jumpTrace.length + 1
  psd : ∃ S, o.Sigma = some S ∧ (toMat o.idx.length S).PosSemidef
  scale : ∃ s, o.sigmaM = some s ∧ 0 < s

theorem gamma2_mem (K : ℕ) (c1 : ℝ) (hc : 0 ≤ c1) (i : ℕ) : 0 < gamma2 K c1 i ∧ gamma2 K c1 i ≤ 1 := by
  have hb : (1 : ℝ) ≤ (i : ℝ) / K + 3 := by
    have : (0 : ℝ) ≤ (i : ℝ) / K := by positivity
    linarith
  have h1 := Real.one_le_rpow hb hc
  refine ⟨?_, ?_⟩
  · unfold gamma2; positivity
  · unfold gamma2; rw [div_le_one (by linarith)]; exact h1

theorem adapt_valid {o o' : Proposal d} {i : ℕ} {xs : List (Pos d)} {jt : ℝ} (hi : 1 ≤ i) (hxs : xs.length = i)
    (hv : Valid i o) (h : adapt { o with jumpTrace := o.jumpTrace ++ [jt] } i xs = .ok o') : Valid (i + 1) o' := by
  obtain ⟨hK, hc, hj, ⟨S, hS, hpsd⟩, s, hs, hs0⟩ := hv
  have hkeep : ∀ o2 : Proposal d, o2 = { o with jumpTrace := o.jumpTrace ++ [jt] } → Valid (i + 1) o2 := by
    rintro o2 rfl
    exact ⟨hK, hc, by simp; omega, ⟨S, hS, hpsd⟩, s, hs, hs0⟩
  unfold adapt at h
  by_cases h1 : o.adaptive = true
  · rw [if_neg (by simp [h1]), if_neg (by simp; omega)] at h
    by_cases h2 : i % o.K ≠ 0
    · rw [if_pos h2] at h
      simp only [Except.ok.injEq] at h
      exact hkeep _ h.symm
    · rw [if_neg h2] at h
      have hKi : o.K ≤ i := Nat.le_of_dvd hi (Nat.dvd_of_mod_eq_zero (not_not.1 h2))
      have hl : (slice xs (i - o.K + 1) i).length = o.K - 1 := by
        simp only [slice, List.length_drop, List.length_take]; omega
      have hlj : (slice (o.jumpTrace ++ [jt]) (i - o.K + 1) i).length = o.K - 1 := by
        simp only [slice, List.length_drop, List.length_take, List.length_append, List.length_singleton]; omega
      obtain ⟨C, hC, -⟩ := cov_eq o.idx (slice xs (i - o.K + 1) i) (by omega)
      have hCp := cov_posSemidef _ _ _ hC o.idx.length
      obtain ⟨r, hr⟩ : ∃ r, mean (slice (o.jumpTrace ++ [jt]) (i - o.K + 1) i) = some r :=
        ⟨_, by rw [mean, if_neg (by omega)]⟩
      simp only [newCov, newScale, hS, hs, hC, hr, Except.ok.injEq] at h
      obtain ⟨hg0, hg1⟩ := gamma2_mem o.K o.c1 hc i
      refine ⟨by rw [← h]; exact hK, by rw [← h]; exact hc, by rw [← h]; simp; omega, ?_, ?_⟩
      · by_cases hac : o.adaptCov = true
        · simp only [hac, if_true] at h
          refine ⟨fun a b => S a b + gamma2 o.K o.c1 i * (C a b - S a b), by rw [← h], ?_⟩
          have he : toMat o.idx.length (fun a b => S a b + gamma2 o.K o.c1 i * (C a b - S a b))
              = (1 - gamma2 o.K o.c1 i) • toMat o.idx.length S + gamma2 o.K o.c1 i • toMat o.idx.length C := by
            ext a b
            simp only [toMat, Matrix.of_apply, Matrix.add_apply, Matrix.smul_apply, smul_eq_mul]
            ring
          have hidx : o'.idx = o.idx := by rw [← h]
          rw [hidx, he]
          exact (hpsd.smul (by linarith)).add (hCp.smul (le_of_lt hg0))
        · have hac' : o.adaptCov = false := by simpa using hac
          simp only [hac', Bool.false_eq_true, if_false] at h
          exact ⟨S, by rw [← h], by rw [← h]; exact hpsd⟩
      · exact ⟨_, by rw [← h], Real.exp_pos _⟩
  · rw [if_pos (by simpa using h1)] at h
    simp only [Except.ok.injEq] at h
    exact hkeep _ h.symm

/-- C56: over every run, with every likelihood, prior, draw and break condition, proposal covariances stay symmetric
positive semidefinite (and numbers) and scales stay positive, provided adaptation happens every `K ≥ 3` iterations. -/
theorem C56_valid_covariance_partial (objs : List (Proposal d)) (x0 : Pos d) (nUpdates : ℕ) (r : Run d)
    (hobjs : ∀ o ∈ objs, 3 ≤ o.K ∧ 0 ≤ o.c1 ∧ (∃ S, o.Sigma = some S ∧ (toMat o.idx.length S).PosSemidef) ∧
      ∃ s, o.sigmaM = some s ∧ 0 < s)
    (h : runMCMC f prior w brk objs x0 nUpdates = .ok r) :
    ∀ o ∈ r.objs, (∃ S, o.Sigma = some S ∧ (toMat o.idx.length S).PosSemidef) ∧ ∃ s, o.sigmaM = some s ∧ 0 < s := by
  obtain ⟨j, -, -, hj, -⟩ := loop_invariant (f := f) (prior := prior) (w := w) (brk := brk)
    (fun i r => 1 ≤ i ∧ r.trace.xs.length = i ∧ ∀ o ∈ r.objs, Valid i o)
    (by
      rintro i r r' ⟨hi, hx, hv⟩ he
      obtain ⟨s, objs, hs, rfl⟩ := iteration_ok he
      refine ⟨by omega, by simp [hx], ?_⟩
      intro o' ho'
      have h2 := sweep_forall₂ (fun o o' => Valid i o → Valid (i + 1) o')
        (fun o jt o' _ ha hv => adapt_valid hi hx hv ha) _ _ _ _ _ hs
      obtain ⟨k, hk, rfl⟩ := List.mem_iff_getElem.1 ho'
      have hlen := h2.length_eq
      rw [List.forall₂_iff_get] at h2
      have hk' : k < objs.length := hk
      have := h2.2 k (by omega) hk
      simp only [List.get_eq_getElem] at this
      exact this (hv _ (List.getElem_mem _)))
    (fun _ _ _ _ h => h) _ _ _ _ h
    ⟨le_refl _, rfl, fun o ho => ⟨(hobjs o ho).1, (hobjs o ho).2.1, by omega, (hobjs o ho).2.2.1, (hobjs o ho).2.2.2⟩⟩
  exact fun o ho => ⟨(hj.2.2 o ho).psd, (hj.2.2 o ho).scale⟩

theorem sweep_total (F : Pos d → ℝ) {i : ℕ} {xs : List (Pos d)} : ∀ (os : List (Proposal d)) (j : ℕ) (s : Chain d),
    (∀ o ∈ os, Valid i o) → ∃ p, sweep (fun x => some (F x)) prior w i xs j s os = .ok p := by
  intro os
  induction os with
  | nil => intro j s _; exact ⟨_, rfl⟩
  | cons o os ih =>
    intro j s hv
    have ho := hv o (by simp)
    obtain ⟨S, hS, -⟩ := ho.psd
    obtain ⟨xStar, h1⟩ : ∃ x, propose w i j o s.x = .ok x := by
      unfold propose
      split_ifs
      · rw [hS]; exact ⟨_, rfl⟩
      · exact ⟨_, rfl⟩
    obtain ⟨q, h2⟩ : ∃ q, jump (fun x => some (F x)) prior o.autoAccept s xStar (w.u i j) = .ok q := by
      unfold jump
      cases prior xStar with
      | bot => exact ⟨_, rfl⟩
      | coe p =>
        simp only
        by_cases hm : metrRatio p (F xStar) s.prior s.lik > w.u i j ∨ o.autoAccept = true
        · exact ⟨_, if_pos hm⟩
        · exact ⟨_, if_neg hm⟩
    obtain ⟨o1, h3⟩ : ∃ o1, adapt { o with jumpTrace := o.jumpTrace ++ [q.2] } i xs = .ok o1 := by
      have hK := ho.K
      unfold adapt
      by_cases ha : o.adaptive = false
      · exact ⟨_, if_pos ha⟩
      · rw [if_neg ha, if_neg (show ¬ o.K = 0 by omega)]
        by_cases hm : i % o.K ≠ 0
        · exact ⟨_, if_pos hm⟩
        · exact ⟨_, if_neg hm⟩
    obtain ⟨t, h4⟩ := ih (j + 1) q.1 fun o ho => hv o (by simp [ho])
    exact ⟨(t.1, o1 :: t.2), by simp only [sweep, bind, Except.bind, h1, h2, h3, h4]⟩

/-- C53: a run with a likelihood that is never NaN and well set up proposals completes. -/
theorem C53_completes (F : Pos d → ℝ) (objs : List (Proposal d)) (x0 : Pos d) (nUpdates : ℕ)
    (hobjs : ∀ o ∈ objs, 3 ≤ o.K ∧ 0 ≤ o.c1 ∧ (∃ S, o.Sigma = some S ∧ (toMat o.idx.length S).PosSemidef) ∧
      ∃ s, o.sigmaM = some s ∧ 0 < s) :
    ∃ r, runMCMC (fun x => some (F x)) prior w brk objs x0 nUpdates = .ok r := by
  have key : ∀ (fuel i : ℕ) (r : Run d), 1 ≤ i → r.trace.xs.length = i → (∀ o ∈ r.objs, Valid i o) →
      ∃ r', loop (fun x => some (F x)) prior w brk fuel i r = .ok r' := by
    intro fuel
    induction fuel with
    | zero => intro i r _ _ _; exact ⟨_, rfl⟩
    | succ fuel ih =>
      intro i r hi hx hv
      obtain ⟨p, hp⟩ := sweep_total (prior := prior) (w := w) F (xs := r.trace.xs) r.objs 0 r.chain hv
      have hit : iteration (fun x => some (F x)) prior w i r
          = .ok ⟨⟨r.trace.xs ++ [p.1.x], r.trace.fs ++ [p.1.lik], r.trace.ts ++ [w.clock i]⟩, p.1, p.2, r.info⟩ := by
        simp only [iteration, hp, bind, Except.bind]
      simp only [loop, hit, bind, Except.bind]
      split_ifs
      · exact ⟨_, rfl⟩
      · refine ih (i + 1) _ (by omega) (by simp [hx]) ?_
        intro o' ho'
        have h2 := sweep_forall₂ (fun o o' => Valid i o → Valid (i + 1) o')
          (fun o jt o' _ ha hv => adapt_valid hi hx hv ha) _ _ _ _ _ hp
        have ho'' : o' ∈ p.2 := ho'
        obtain ⟨k, hk, rfl⟩ := List.mem_iff_getElem.1 ho''
        have hlen := h2.length_eq
        rw [List.forall₂_iff_get] at h2
        have := h2.2 k (by omega) hk
        simp only [List.get_eq_getElem] at this
        exact this (hv _ (List.getElem_mem _))
  exact key _ _ _ (le_refl _) rfl
    fun o ho => ⟨(hobjs o ho).1, (hobjs o ho).2.1, by omega, (hobjs o ho).2.2.1, (hobjs o ho).2.2.2⟩

theorem defaultProposal_ok (lo hi : Pos d) (hd : 0 < d) : ∀ o ∈ [defaultProposal lo hi], 3 ≤ o.K ∧ 0 ≤ o.c1 ∧
    (∃ S, o.Sigma = some S ∧ (toMat o.idx.length S).PosSemidef) ∧ ∃ s, o.sigmaM = some s ∧ 0 < s := by
  intro o ho
  rw [List.mem_singleton.1 ho]
  refine ⟨by simp only [defaultProposal]; omega, by simp only [defaultProposal]; norm_num, ⟨_, rfl, ?_⟩, _, rfl, ?_⟩
  · have : toMat (defaultProposal lo hi).idx.length (fun a b => if a = b then
        (if h : a < d then ((hi ⟨a, h⟩ - lo ⟨a, h⟩) * 0.2 / Real.sqrt 12) ^ 2 else 0) else 0)
        = Matrix.diagonal fun a : Fin (defaultProposal lo hi).idx.length => (if h : (a : ℕ) < d then ((hi ⟨a, h⟩ - lo ⟨a, h⟩) * 0.2 / Real.sqrt 12) ^ 2 else 0) := by
      ext a b
      simp only [toMat, Matrix.of_apply, Matrix.diagonal_apply, Fin.ext_iff]
    rw [this]
    refine Matrix.PosSemidef.diagonal fun a => ?_
    simp only [Pi.zero_apply]
    split_ifs
    · positivity
    · exact le_refl _
  · have : (0 : ℝ) < d := by exact_mod_cast hd
    positivity

/-- The default proposal meets the hypotheses: a default run completes, stays inside the bounds and keeps a valid
covariance. -/
example (F : Pos d → ℝ) (lo hi : Pos d) (hd : 0 < d) (x0 : Pos d) (hx0 : ∀ k, lo k ≤ x0 k ∧ x0 k ≤ hi k) (nUpdates : ℕ) :
    ∃ r inf, runMCMC (fun x => some (F x)) (boxPrior lo hi) w defaultBreak [defaultProposal lo hi] x0 nUpdates = .ok r ∧
      r.info = some inf ∧ (∀ k, lo k ≤ inf.medianX k ∧ inf.medianX k ≤ hi k) ∧
      (∀ x ∈ r.trace.xs, ∀ k, lo k ≤ x k ∧ x k ≤ hi k) ∧
      (∀ o ∈ r.objs, (∃ S, o.Sigma = some S ∧ (toMat o.idx.length S).PosSemidef) ∧ ∃ s, o.sigmaM = some s ∧ 0 < s) ∧
      ∃ v, inf.maxF = some v := by
  obtain ⟨r, hr⟩ := C53_completes (prior := boxPrior lo hi) (w := w) (brk := defaultBreak) F [defaultProposal lo hi] x0
    nUpdates (defaultProposal_ok lo hi hd)
  obtain ⟨inf, h1, h2⟩ := C49_mcmc_in_bounds lo hi _ x0 hx0 nUpdates r hr
  obtain ⟨v, hv, -⟩ := C55_max_f_partial F _ x0 nUpdates r inf hr h1
  exact ⟨r, inf, hr, h1, h2, C52_in_bounds lo hi _ x0 hx0 nUpdates r hr,
    C56_valid_covariance_partial _ x0 nUpdates r (defaultProposal_ok lo hi hd) hr, v, hv⟩

/-- C56 is violated for `K = 1` and `K = 2` (allowed values): the first adaptation averages over no or one sample,
`np.cov` divides by zero, the covariance becomes NaN and the next normal proposal raises. -/
theorem C56_small_block_violated (o : Proposal d) (hK : o.K = 1 ∨ o.K = 2) (had : o.adaptive = true) (hcov : o.adaptCov = true)
    (hn : o.normal = true) (i : ℕ) (hi : o.K ∣ i) (hpos : 1 ≤ i) (xs : List (Pos d)) (hxs : xs.length = i) :
    ∃ o', adapt o i xs = .ok o' ∧ o'.Sigma = none ∧ ∀ w j x, ∃ e, propose w (i + 1) j o' x = .error e := by
  have hKi : o.K ≤ i := Nat.le_of_dvd hpos hi
  have hC : cov o.idx (slice xs (i - o.K + 1) i) = none := by
    rw [cov, if_pos]
    simp only [slice, List.length_drop, List.length_take]
    omega
  have hN : newCov o i xs = none := by
    simp only [newCov, hcov, if_true, hC]
    cases o.Sigma <;> rfl
  refine ⟨{ o with Sigma := newCov o i xs, sigmaM := newScale o i }, ?_, ?_, ?_⟩
  · unfold adapt
    rw [if_neg (by simp [had]), if_neg (by omega), if_neg (by simpa using Nat.mod_eq_zero_of_dvd hi)]
  · exact hN
  · intro w j x
    refine ⟨"LinAlgError: SVD did not converge", ?_⟩
    simp only [propose, hn, if_true, hN]

/-- The object with its scale factor forgotten. -/
def forgetScale (o : Proposal d) : Proposal d := { o with sigmaM := none }

theorem adapt_forget (o : Proposal d) (i : ℕ) (xs : List (Pos d)) :
    adapt (forgetScale o) i xs = (adapt o i xs).map forgetScale := by
  have h1 : newScale (forgetScale o) i = none := by simp only [newScale, forgetScale]
  have h2 : newCov (forgetScale o) i xs = newCov o i xs := rfl
  unfold adapt
  rw [h1, h2]
  by_cases ha : o.adaptive = false
  · rw [if_pos ha, if_pos (show (forgetScale o).adaptive = false from ha)]; rfl
  · rw [if_neg ha, if_neg (show ¬ (forgetScale o).adaptive = false from ha)]
    by_cases hk : o.K = 0
    · rw [if_pos hk, if_pos (show (forgetScale o).K = 0 from hk)]; rfl
    · rw [if_neg hk, if_neg (show ¬ (forgetScale o).K = 0 from hk)]
      by_cases hm : i % o.K ≠ 0
      · rw [if_pos hm, if_pos (show i % (forgetScale o).K ≠ 0 from hm)]; rfl
      · rw [if_neg hm, if_neg (show ¬ i % (forgetScale o).K ≠ 0 from hm)]; rfl

theorem sweep_forget {i : ℕ} {xs : List (Pos d)} : ∀ (os : List (Proposal d)) (j : ℕ) (s : Chain d),
    (∀ o ∈ os, o.normal = true) →
    sweep f prior w i xs j s (os.map forgetScale) = (sweep f prior w i xs j s os).map fun p => (p.1, p.2.map forgetScale) := by
  intro os
  induction os with
  | nil => intro j s _; rfl
  | cons o os ih =>
    intro j s hn
    have hno := hn o (by simp)
    have hp : propose w i j (forgetScale o) s.x = propose w i j o s.x := by
      simp only [propose, forgetScale, hno, if_true]
    simp only [List.map_cons, sweep, hp, bind, Except.bind]
    cases propose w i j o s.x with
    | error e => rfl
    | ok xStar =>
      simp only
      rw [show (forgetScale o).autoAccept = o.autoAccept from rfl]
      cases jump f prior o.autoAccept s xStar (w.u i j) with
      | error e => rfl
      | ok q =>
        simp only
        have hf := adapt_forget { o with jumpTrace := o.jumpTrace ++ [q.2] } i xs
        simp only [forgetScale] at hf ⊢
        rw [hf]
        cases adapt { o with jumpTrace := o.jumpTrace ++ [q.2] } i xs with
        | error e => rfl
        | ok o1 =>
          simp only [Except.map, ih (j + 1) q.1 fun o ho => hn o (by simp [ho])]
          cases sweep f prior w i xs (j + 1) q.1 os with
          | error e => rfl
          | ok t => rfl

def Run.forget (r : Run d) : Run d := { r with objs := r.objs.map forgetScale }

theorem iteration_forget (i : ℕ) (r : Run d) (hn : ∀ o ∈ r.objs, o.normal = true) :
    iteration f prior w i r.forget = (iteration f prior w i r).map Run.forget := by
  simp only [iteration, Run.forget, sweep_forget _ _ _ hn, bind, Except.bind]
  cases sweep f prior w i r.trace.xs 0 r.chain r.objs <;> rfl

theorem adapt_normal {o o' : Proposal d} {i : ℕ} {xs : List (Pos d)} (h : adapt o i xs = .ok o') : o'.normal = o.normal := by
  unfold adapt at h
  split_ifs at h <;> simp only [Except.ok.injEq] at h <;> rw [← h]

theorem loop_forget : ∀ (fuel i : ℕ) (r : Run d), (∀ o ∈ r.objs, o.normal = true) →
    loop f prior w brk fuel i r.forget = (loop f prior w brk fuel i r).map Run.forget := by
  intro fuel
  induction fuel with
  | zero => intro i r _; rfl
  | succ fuel ih =>
    intro i r hn
    simp only [loop, iteration_forget i r hn, bind, Except.bind]
    cases h1 : iteration f prior w i r with
    | error e => rfl
    | ok r1 =>
      simp only [Except.map]
      rw [show r1.forget.trace = r1.trace from rfl]
      split_ifs
      · rfl
      · have hn1 : ∀ o ∈ r1.objs, o.normal = true := by
          obtain ⟨s, objs, hs, rfl⟩ := iteration_ok h1
          exact sweep_objs (fun o => o.normal = true) (fun o jt o' ho _ ha => (adapt_normal ha).trans ho) _ _ _ _ _ hs hn
        exact ih (i + 1) { r1 with info := some (collect r1.trace) } hn1

/-- What a caller of `run_mcmc` sees. -/
def Run.seen (r : Run d) : Trace d × Chain d × Option (Info d) := (r.trace, r.chain, r.info)

/-- C56: what the sampler's own proposals do. In every tenth iteration `i` the covariance of `"normal"` proposals, which
starts at `(0.2 (hi - lo))² / 12` on the diagonal, moves by the fraction `(i/10 + 3)^(-0.8)` towards the sample covariance of
the nine latest positions. -/
theorem C56_default_step (lo hi : Pos d) (xs : List (Pos d)) (jt : List ℝ) (S : ℕ → ℕ → ℝ) (s : ℝ) (hs0 : 0 < s) (k : ℕ)
    (hk : 1 ≤ k) (hxs : xs.length = 10 * k) (hj : jt.length = 10 * k) :
    (∀ a b (ha : a < d), ∃ S₀, (defaultProposal lo hi).Sigma = some S₀ ∧
      S₀ a b = if a = b then (0.2 * (hi ⟨a, ha⟩ - lo ⟨a, ha⟩)) ^ 2 / 12 else 0) ∧
    ∃ o' S', adapt { defaultProposal lo hi with jumpTrace := jt, Sigma := some S, sigmaM := some s } (10 * k) xs = .ok o' ∧
      o'.Sigma = some S' ∧ ∀ a b : Fin d, S' a b = S a b +
        ((k : ℝ) + 3) ^ (-0.8 : ℝ) * (sampleCov (xs.drop (10 * k - 9)) a b - S a b) := by
  constructor
  · intro a b ha
    refine ⟨_, rfl, ?_⟩
    by_cases hab : a = b
    · subst hab
      have h12 : Real.sqrt 12 ^ 2 = 12 := Real.sq_sqrt (by norm_num)
      simp only [if_true, dif_pos ha]
      rw [div_pow, h12]
      ring
    · simp [hab]
  · obtain ⟨o', S', s', h1, h2, -, -, h5, -⟩ := C56_adaptation_step
      { defaultProposal lo hi with jumpTrace := jt, Sigma := some S, sigmaM := some s } (10 * k) xs S s rfl
      (by simp [defaultProposal]) (by simp [defaultProposal]) (by omega) hxs hj rfl rfl rfl hs0
    refine ⟨o', S', h1, h2, fun a b => ?_⟩
    have := h5 a b (by simp [defaultProposal]) (by simp [defaultProposal])
    rw [this]
    have e1 : 10 * k - 10 + 1 = 10 * k - 9 := by omega
    simp only [defaultProposal, List.getElem_finRange, e1]
    have e2 : (((10 * k : ℕ) : ℝ) / (10 : ℕ) + 3) = (k : ℝ) + 3 := by push_cast; ring
    rw [e2, Real.rpow_neg (by positivity)]
    simp only [Fin.cast_mk, Fin.eta, one_div]
    ring

/-- C56 is violated: the adapted scale factor is never used. Two runs with normal proposals that differ only in the
scale factors give the same trace and the same result, for the same draws. -/
theorem C56_scale_unused_violated (objs objs' : List (Proposal d)) (hn : ∀ o ∈ objs, o.normal = true)
    (heq : objs'.map forgetScale = objs.map forgetScale) (x0 : Pos d) (nUpdates : ℕ) :
    (runMCMC f prior w brk objs x0 nUpdates).map Run.seen = (runMCMC f prior w brk objs' x0 nUpdates).map Run.seen := by
  have hn' : ∀ o ∈ objs', o.normal = true := by
    intro o ho
    have : forgetScale o ∈ objs.map forgetScale := heq ▸ List.mem_map_of_mem ho
    obtain ⟨o2, ho2, he⟩ := List.mem_map.1 this
    have h1 : (forgetScale o).normal = (forgetScale o2).normal := by rw [he]
    exact h1.trans (hn o2 ho2)
  have key : ∀ objs : List (Proposal d), (∀ o ∈ objs, o.normal = true) →
      (runMCMC f prior w brk (objs.map forgetScale) x0 nUpdates).map Run.seen
        = (runMCMC f prior w brk objs x0 nUpdates).map Run.seen := by
    intro objs hn
    have := loop_forget (f := f) (prior := prior) (w := w) (brk := brk) (max nUpdates 2 - 1) 1 (start f prior objs x0) hn
    simp only [runMCMC]
    rw [show start f prior (objs.map forgetScale) x0 = (start f prior objs x0).forget from rfl, this]
    cases loop f prior w brk (max nUpdates 2 - 1) 1 (start f prior objs x0) <;> rfl
  rw [← key objs hn, ← key objs' hn', heq]

/-- Two different scale factors to which the theorem applies. -/
example (lo hi : Pos d) (a : ℝ) (x0 : Pos d) (nUpdates : ℕ) :
    (runMCMC f prior w brk [defaultProposal lo hi] x0 nUpdates).map Run.seen
      = (runMCMC f prior w brk [{ defaultProposal lo hi with sigmaM := some a }] x0 nUpdates).map Run.seen :=
  C56_scale_unused_violated [defaultProposal lo hi] [{ defaultProposal lo hi with sigmaM := some a }] (by intro o ho; rw [List.mem_singleton.1 ho]; rfl) rfl x0 nUpdates

end Verif.MCMC
