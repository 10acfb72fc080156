import Verif.Ggmp.EmModel
import Mathlib.Algebra.BigOperators.Field
import Mathlib.Analysis.Convex.Jensen
import Mathlib.Analysis.Convex.SpecificFunctions.Basic

/-!
C69 and C70: the EM iterations for the mixture weights.
-/

namespace Verif.Ggmp

open Finset

variable {K : ℕ}

/-- Specification: a probability vector. -/
def Simplex (w : Fin K → ℝ) : Prop := (∀ k, 0 ≤ w k) ∧ ∑ k, w k = 1

/-- Specification: the mixture log likelihood `∑ c log ∑ w_k p_k` of the observations. -/
noncomputable def mixtureLogLik (rows : List (Row K)) (w : Fin K → ℝ) : ℝ :=
  (rows.map fun r => r.c * Real.log (∑ k, w k * Real.exp (r.l k))).sum

/-- Specification: factors are not negative and not all zero. -/
def Proper (rows : List (Row K)) : Prop := (∀ r ∈ rows, 0 ≤ r.c) ∧ 0 < (rows.map Row.c).sum

theorem tiny_pos : 0 < tiny := by unfold tiny; positivity

/-- The weights actually used by an iteration. -/
noncomputable def clamped (w : Fin K → ℝ) (k : Fin K) : ℝ := max (w k) tiny

theorem clamped_pos (w : Fin K → ℝ) (k : Fin K) : 0 < clamped w k := lt_max_of_lt_right tiny_pos

theorem exp_num (w : Fin K → ℝ) (r : Row K) (k : Fin K) : Real.exp (r.l k + logW w k) = clamped w k * Real.exp (r.l k) := by
  rw [Real.exp_add, logW, Real.exp_log (lt_max_of_lt_right tiny_pos), mul_comm]
  rfl

theorem objective_eq (rows : List (Row K)) (w : Fin K → ℝ) : objective rows w = mixtureLogLik rows (clamped w) := by
  simp only [objective, mixtureLogLik, logDen, exp_num]

theorem den_pos [NeZero K] (u : Fin K → ℝ) (hu : ∀ k, 0 < u k) (r : Row K) : 0 < ∑ k, u k * Real.exp (r.l k) :=
  sum_pos (fun k _ => mul_pos (hu k) (Real.exp_pos _)) ⟨0, mem_univ _⟩

theorem resp_eq [NeZero K] (w : Fin K → ℝ) (r : Row K) (k : Fin K) :
    resp w r k = clamped w k * Real.exp (r.l k) / ∑ k, clamped w k * Real.exp (r.l k) := by
  rw [resp, Real.exp_sub, exp_num, logDen]
  simp only [exp_num]
  rw [Real.exp_log (den_pos _ (clamped_pos w) r)]

theorem resp_pos [NeZero K] (w : Fin K → ℝ) (r : Row K) (k : Fin K) : 0 < resp w r k := Real.exp_pos _

theorem resp_sum [NeZero K] (w : Fin K → ℝ) (r : Row K) : ∑ k, resp w r k = 1 := by
  simp only [resp_eq]
  rw [← sum_div, div_self (den_pos _ (clamped_pos w) r).ne']

theorem list_sum_comm (rows : List (Row K)) (f : Row K → Fin K → ℝ) :
    ∑ k, (rows.map fun r => f r k).sum = (rows.map fun r => ∑ k, f r k).sum := by
  induction rows with
  | nil => simp
  | cons r rs ih => simp [sum_add_distrib, ih]

theorem counts_sum [NeZero K] (rows : List (Row K)) (w : Fin K → ℝ) : ∑ k, counts rows w k = (rows.map Row.c).sum := by
  simp only [counts]
  rw [list_sum_comm rows fun r k => r.c * resp w r k]
  congr 1
  exact List.map_congr_left fun r _ => by rw [← mul_sum, resp_sum, mul_one]

theorem counts_pos [NeZero K] {rows : List (Row K)} (h : Proper rows) (w : Fin K → ℝ) (k : Fin K) : 0 < counts rows w k := by
  obtain ⟨h0, h1⟩ := h
  have hn : 0 ≤ counts rows w k := List.sum_nonneg (by
    intro x hx
    obtain ⟨r, hr, rfl⟩ := List.mem_map.1 hx
    exact mul_nonneg (h0 r hr) (resp_pos w r k).le)
  refine hn.lt_of_ne fun he => ?_
  have hz : ∀ r ∈ rows, r.c = 0 := by
    have : ∀ l : List (Row K), (∀ r ∈ l, 0 ≤ r.c) → counts l w k = 0 → ∀ r ∈ l, r.c = 0 := by
      intro l
      induction l with
      | nil => simp
      | cons r l ih =>
        intro hl hc r' hr'
        have a : 0 ≤ r.c * resp w r k := mul_nonneg (hl r (by simp)) (resp_pos w r k).le
        have b : 0 ≤ counts l w k := List.sum_nonneg (by
          intro x hx
          obtain ⟨r, hr, rfl⟩ := List.mem_map.1 hx
          exact mul_nonneg (hl r (List.mem_cons_of_mem _ hr)) (resp_pos w r k).le)
        have c : r.c * resp w r k + counts l w k = 0 := by simpa [counts] using hc
        rcases List.mem_cons.1 hr' with rfl | hr'
        · have : r'.c * resp w r' k = 0 := by linarith
          exact (mul_eq_zero.1 this).resolve_right (resp_pos w r' k).ne'
        · exact ih (fun r hr => hl r (List.mem_cons_of_mem _ hr)) (by linarith) r' hr'
    exact this rows h0 he.symm
  have : (rows.map Row.c).sum = 0 := List.sum_eq_zero (by
    intro x hx
    obtain ⟨r, hr, rfl⟩ := List.mem_map.1 hx
    exact hz r hr)
  linarith

/-- What an iteration computes: the counts in proportion, raised to the floor, rescaled by `S ≥ 1`. -/
theorem emStep_eq [NeZero K] (ver : Version) (floor : ℝ) {rows : List (Row K)} (h : Proper rows) (w : Fin K → ℝ) :
    ∃ (v : Fin K → ℝ) (w' : Fin K → ℝ), emStep ver floor rows w = some w' ∧ (∀ k, 0 < v k) ∧ (∑ k, v k) ≤ 1 ∧
      (∀ k, v k = counts rows w k / (∑ k, counts rows w k) * ∑ k, v k) ∧
      w' = (fun k => max (v k) floor / ∑ k, max (v k) floor) ∧ (ver = .density → ∑ k, v k = 1) := by
  have hN := h.2
  have hs := counts_sum rows w
  have key : ∀ t : ℝ, 0 ≤ t → ∃ w', floorNormalize floor (fun k => counts rows w k / (∑ k, counts rows w k + t)) = some w' ∧
      w' = (fun k => max (counts rows w k / (∑ k, counts rows w k + t)) floor /
        ∑ k, max (counts rows w k / (∑ k, counts rows w k + t)) floor) := by
    intro t ht
    refine ⟨_, ?_, rfl⟩
    unfold floorNormalize normalize
    rw [if_neg]
    refine ne_of_gt (sum_pos (fun k _ => lt_max_of_lt_left (div_pos (counts_pos h w k) ?_)) ⟨0, mem_univ _⟩)
    rw [hs]; linarith
  have key2 : ∀ t : ℝ, 0 ≤ t → (∀ k, 0 < counts rows w k / (∑ k, counts rows w k + t)) ∧
      (∑ k, counts rows w k / (∑ k, counts rows w k + t)) ≤ 1 ∧
      (∀ k, counts rows w k / (∑ k, counts rows w k + t) = counts rows w k / (∑ k, counts rows w k) *
        ∑ k, counts rows w k / (∑ k, counts rows w k + t)) := by
    intro t ht
    have hd : 0 < ∑ k, counts rows w k + t := by rw [hs]; linarith
    have hn : 0 < ∑ k, counts rows w k := by rw [hs]; exact hN
    refine ⟨fun k => div_pos (counts_pos h w k) hd, ?_, fun k => ?_⟩
    · rw [← sum_div, div_le_one hd]; linarith
    · rw [← sum_div]
      field_simp
  cases ver with
  | density =>
    obtain ⟨w', h1, h2⟩ := key 0 le_rfl
    obtain ⟨a, b, c⟩ := key2 0 le_rfl
    refine ⟨_, w', ?_, a, b, c, h2, fun _ => ?_⟩
    swap
    · rw [← sum_div, add_zero, div_self (by rw [hs]; exact hN.ne')]
    have : normalize (counts rows w) = some fun k => counts rows w k / (∑ k, counts rows w k + 0) := by
      unfold normalize
      rw [if_neg (by rw [hs]; exact hN.ne')]
      simp only [add_zero]
    simp only [emStep, this, Option.bind_some, h1]
  | samples =>
    obtain ⟨w', h1, h2⟩ := key tiny tiny_pos.le
    obtain ⟨a, b, c⟩ := key2 tiny tiny_pos.le
    exact ⟨_, w', h1, a, b, c, h2, fun h => by cases h⟩

/-- C69, one iteration: the new weights are a probability vector with positive entries, none below
`floor / (1 + K floor)`. -/
theorem C69_step [NeZero K] (ver : Version) (floor : ℝ) (rows : List (Row K)) (h : Proper rows) (w : Fin K → ℝ) :
    ∃ w', emStep ver floor rows w = some w' ∧ Simplex w' ∧ (∀ k, 0 < w' k) ∧
      (0 ≤ floor → ∀ k, floor / (1 + K * floor) ≤ w' k) := by
  obtain ⟨v, w', h1, h2, h3, h4, rfl, -⟩ := emStep_eq ver floor h w
  have hp : ∀ k, 0 < max (v k) floor := fun k => lt_max_of_lt_left (h2 k)
  have hS : 0 < ∑ k, max (v k) floor := sum_pos (fun k _ => hp k) ⟨0, mem_univ _⟩
  refine ⟨_, h1, ⟨fun k => (div_pos (hp k) hS).le, ?_⟩, fun k => div_pos (hp k) hS, fun hf k => ?_⟩
  · rw [← sum_div, div_self hS.ne']
  · have hle : ∑ k, max (v k) floor ≤ 1 + K * floor := by
      calc ∑ k, max (v k) floor ≤ ∑ k, (v k + floor) :=
            sum_le_sum fun k _ => max_le (by linarith) (by linarith [h2 k])
        _ = ∑ k, v k + K * floor := by rw [sum_add_distrib]; simp
        _ ≤ 1 + K * floor := by linarith
    exact div_le_div₀ (hp k).le (le_max_right _ _) hS hle

theorem C69_start [NeZero K] (w0 : Option (Fin K → ℝ)) : ∃ w, start w0 = some w ∧ Simplex w ∧ ∀ k, 0 < w k := by
  have hK : (0 : ℝ) < K := by exact_mod_cast Nat.pos_of_ne_zero (NeZero.ne K)
  cases w0 with
  | none =>
    refine ⟨_, rfl, ⟨fun k => by positivity, ?_⟩, fun k => by positivity⟩
    simp [hK.ne']
  | some w =>
    have hp : ∀ k, 0 < max (w k) (1 / (10 : ℝ) ^ 12) := fun k => lt_max_of_lt_right (by positivity)
    have hS : 0 < ∑ k, max (w k) (1 / (10 : ℝ) ^ 12) := sum_pos (fun k _ => hp k) ⟨0, mem_univ _⟩
    refine ⟨fun k => max (w k) (1 / (10 : ℝ) ^ 12) / ∑ k, max (w k) (1 / (10 : ℝ) ^ 12), ?_,
      ⟨fun k => (div_pos (hp k) hS).le, ?_⟩, fun k => div_pos (hp k) hS⟩
    · simp only [start, normalize]
      rw [if_neg hS.ne']
    · rw [← sum_div, div_self hS.ne']

/-- The run as a sequence of weights: `ws` are the weights before and after each iteration. -/
theorem emLoop_trace [NeZero K] (ver : Version) (floor tol : ℝ) {rows : List (Row K)} (h : Proper rows) (n : ℕ)
    (w : Fin K → ℝ) :
    ∃ ws : List (Fin K → ℝ), (w :: ws).length ≤ n + 1 ∧
      emLoop ver floor tol rows n (some w) = (some ((w :: ws).getLast (by simp)), ws.map some,
        ((w :: ws).dropLast).map fun w => some (objective rows w)) ∧
      (w :: ws).IsChain (fun a b => emStep ver floor rows a = some b) ∧
      (ws.length = n ∨ ∃ pre a b, w :: ws = pre ++ [a, b] ∧ l1 b a < tol) := by
  induction n generalizing w with
  | zero => exact ⟨[], by simp, by simp [emLoop], by simp, Or.inl rfl⟩
  | succ n ih =>
    obtain ⟨w', h1, -⟩ := C69_step ver floor rows h w
    by_cases hd : l1 w' w < tol
    · refine ⟨[w'], by simp, ?_, by simp [h1], Or.inr ⟨[], w, w', rfl, hd⟩⟩
      simp [emLoop, h1, hd]
    · obtain ⟨ws, a, b, c, d⟩ := ih w'
      refine ⟨w' :: ws, by simpa using a, ?_, List.isChain_cons_cons.2 ⟨h1, c⟩, ?_⟩
      · simp only [emLoop, h1, hd, if_false, b]
        simp
      · rcases d with d | ⟨pre, x, y, e, f⟩
        · exact Or.inl (by simp [d])
        · exact Or.inr ⟨w :: pre, x, y, by simp [e], f⟩

/-- C69: the optimisation returns a probability vector with positive entries; every entry of the weight history is one;
at most `max_iter` iterations are done, and fewer only if the last change was below the tolerance; the returned weights
are the last of the history (the start weights if there is none). -/
theorem C69_em [NeZero K] (ver : Version) (floor tol : ℝ) (maxIter : ℕ) (w0 : Option (Fin K → ℝ)) (rows : List (Row K))
    (h : Proper rows) :
    ∃ (w : Fin K → ℝ) (ws : List (Fin K → ℝ)), (em ver floor tol maxIter w0 rows).1 = some w ∧
      (em ver floor tol maxIter w0 rows).2.1 = ws.map some ∧ (em ver floor tol maxIter w0 rows).2.2.length = ws.length ∧
      Simplex w ∧ (∀ k, 0 < w k) ∧ (∀ u ∈ ws, Simplex u ∧ (0 ≤ floor → ∀ k, floor / (1 + K * floor) ≤ u k)) ∧
      ws.length ≤ maxIter ∧ (some w = ws.getLast? ∨ ws = [] ∧ some w = start w0) := by
  obtain ⟨s, hs, hs1, hs2⟩ := C69_start w0
  obtain ⟨ws, h1, h2, h3, h4⟩ := emLoop_trace ver floor tol h maxIter s
  have hall : ∀ (l : List (Fin K → ℝ)) (a : Fin K → ℝ), (a :: l).IsChain (fun a b => emStep ver floor rows a = some b) →
      ∀ u ∈ l, Simplex u ∧ (∀ k, 0 < u k) ∧ (0 ≤ floor → ∀ k, floor / (1 + K * floor) ≤ u k) := by
    intro l
    induction l with
    | nil => simp
    | cons b l ih =>
      intro a hc u hu
      obtain ⟨h1, h2⟩ := List.isChain_cons_cons.1 hc
      rcases List.mem_cons.1 hu with rfl | hu
      · obtain ⟨w', e, f⟩ := C69_step ver floor rows h a
        rw [h1] at e
        injection e with e
        rw [e]; exact f
      · exact ih b h2 u hu
  refine ⟨(s :: ws).getLast (by simp), ws, ?_, ?_, ?_, ?_, ?_, fun u hu => ⟨(hall ws s h3 u hu).1, (hall ws s h3 u hu).2.2⟩,
    by simpa using h1, ?_⟩
  · rw [em, hs, h2]
  · rw [em, hs, h2]
  · rw [em, hs, h2]; simp
  · rcases List.mem_cons.1 (List.getLast_mem (l := s :: ws) (by simp)) with e | e
    · rw [e]; exact hs1
    · exact (hall ws s h3 _ e).1
  · rcases List.mem_cons.1 (List.getLast_mem (l := s :: ws) (by simp)) with e | e
    · rw [e]; exact hs2
    · exact (hall ws s h3 _ e).2.1
  · cases ws with
    | nil => exact Or.inr ⟨rfl, by simp [hs]⟩
    | cons b l =>
      left
      rw [List.getLast_cons (by simp), List.getLast?_eq_some_getLast (by simp)]

/-- C69, the reason of an early end. -/
theorem C69_stop [NeZero K] (ver : Version) (floor tol : ℝ) (maxIter : ℕ) (w0 : Option (Fin K → ℝ)) (rows : List (Row K))
    (h : Proper rows) (hlt : (em ver floor tol maxIter w0 rows).2.1.length < maxIter) :
    ∃ (s : Fin K → ℝ) (ws pre : List (Fin K → ℝ)) (a b : Fin K → ℝ), start w0 = some s ∧
      (em ver floor tol maxIter w0 rows).2.1 = ws.map some ∧ s :: ws = pre ++ [a, b] ∧ ∑ k, |b k - a k| < tol := by
  obtain ⟨s, hs, -, -⟩ := C69_start w0
  obtain ⟨ws, h1, h2, h3, h4⟩ := emLoop_trace ver floor tol h maxIter s
  rw [em, hs, h2] at hlt
  simp only [List.length_map] at hlt
  rcases h4 with h4 | ⟨pre, a, b, e, f⟩
  · omega
  · exact ⟨s, ws, pre, a, b, hs, by rw [em, hs, h2], e, f⟩

/-! ### C70 -/

theorem list_sum_le (rows : List (Row K)) (f g : Row K → ℝ) (h : ∀ r ∈ rows, f r ≤ g r) :
    (rows.map f).sum ≤ (rows.map g).sum := by
  induction rows with
  | nil => simp
  | cons r rs ih =>
    simp only [List.map_cons, List.sum_cons]
    exact add_le_add (h r (by simp)) (ih fun r hr => h r (List.mem_cons_of_mem _ hr))

theorem list_sum_sub (rows : List (Row K)) (f g : Row K → ℝ) :
    (rows.map fun r => f r - g r).sum = (rows.map f).sum - (rows.map g).sum := by
  induction rows with
  | nil => simp
  | cons r rs ih => simp only [List.map_cons, List.sum_cons, ih]; ring

/-- Jensen's inequality for one observation. -/
theorem row_ascent [NeZero K] (u v : Fin K → ℝ) (hu : ∀ k, 0 < u k) (hv : ∀ k, 0 < v k) (r : Row K) :
    ∑ k, u k * Real.exp (r.l k) / (∑ k, u k * Real.exp (r.l k)) * Real.log (v k / u k)
      ≤ Real.log (∑ k, v k * Real.exp (r.l k)) - Real.log (∑ k, u k * Real.exp (r.l k)) := by
  have hD := den_pos u hu r
  have h := strictConcaveOn_log_Ioi.concaveOn.le_map_sum (t := univ)
    (w := fun k => u k * Real.exp (r.l k) / ∑ k, u k * Real.exp (r.l k)) (p := fun k => v k / u k)
    (fun k _ => (div_pos (mul_pos (hu k) (Real.exp_pos _)) hD).le) (by rw [← sum_div, div_self hD.ne'])
    (fun k _ => div_pos (hv k) (hu k))
  refine h.trans_eq ?_
  rw [← Real.log_div (den_pos v hv r).ne' hD.ne']
  congr 1
  rw [sum_div]
  refine sum_congr rfl fun k _ => ?_
  have := (hu k).ne'
  simp only [smul_eq_mul]
  field_simp

/-- Gibbs' inequality. -/
theorem gibbs [NeZero K] (n u : Fin K → ℝ) (hn : ∀ k, 0 < n k) (hu : ∀ k, 0 < u k) :
    -(∑ k, n k) * Real.log (∑ k, u k) ≤ ∑ k, n k * Real.log (n k / (∑ k, n k) / u k) := by
  have hN : 0 < ∑ k, n k := sum_pos (fun k _ => hn k) ⟨0, mem_univ _⟩
  have hS : 0 < ∑ k, u k := sum_pos (fun k _ => hu k) ⟨0, mem_univ _⟩
  have h : ∀ k, n k * (Real.log (u k) - Real.log (n k / ∑ k, n k) - Real.log (∑ k, u k))
      ≤ u k * (∑ k, n k) / (∑ k, u k) - n k := by
    intro k
    have hx : 0 < u k / (n k / ∑ k, n k) / ∑ k, u k := div_pos (div_pos (hu k) (div_pos (hn k) hN)) hS
    have := Real.log_le_sub_one_of_pos hx
    rw [Real.log_div (div_pos (hu k) (div_pos (hn k) hN)).ne' hS.ne', Real.log_div (hu k).ne' (div_pos (hn k) hN).ne'] at this
    have h2 := mul_le_mul_of_nonneg_left this (hn k).le
    refine h2.trans_eq ?_
    have := (hn k).ne'
    field_simp
  have hsum := sum_le_sum fun k (_ : k ∈ univ) => h k
  have e : ∑ k, (u k * (∑ k, n k) / (∑ k, u k) - n k) = 0 := by
    rw [sum_sub_distrib, ← sum_div, ← sum_mul]
    field_simp
    ring
  rw [e] at hsum
  have e2 : ∑ k, n k * Real.log (n k / (∑ k, n k) / u k) + (∑ k, n k) * Real.log (∑ k, u k)
      = -∑ k, n k * (Real.log (u k) - Real.log (n k / ∑ k, n k) - Real.log (∑ k, u k)) := by
    rw [sum_mul, ← sum_add_distrib, ← sum_neg_distrib]
    refine sum_congr rfl fun k _ => ?_
    rw [Real.log_div (div_pos (hn k) hN).ne' (hu k).ne']
    ring
  linarith

/-- The proportions of the counts are at least as likely as the weights they were computed from, up to the sum of the
latter. -/
theorem ascent [NeZero K] {rows : List (Row K)} (h : Proper rows) (w : Fin K → ℝ) :
    mixtureLogLik rows (clamped w) - (rows.map Row.c).sum * Real.log (∑ k, clamped w k)
      ≤ mixtureLogLik rows fun k => counts rows w k / ∑ k, counts rows w k := by
  have hs := counts_sum rows w
  have hN : 0 < ∑ k, counts rows w k := by rw [hs]; exact h.2
  have hv : ∀ k, 0 < counts rows w k / ∑ k, counts rows w k := fun k => div_pos (counts_pos h w k) hN
  have g := gibbs (counts rows w) (clamped w) (counts_pos h w) (clamped_pos w)
  rw [hs] at g
  have j : ∑ k, counts rows w k * Real.log (counts rows w k / (∑ k, counts rows w k) / clamped w k)
      ≤ (mixtureLogLik rows fun k => counts rows w k / ∑ k, counts rows w k) - mixtureLogLik rows (clamped w) := by
    have e : ∑ k, counts rows w k * Real.log (counts rows w k / (∑ k, counts rows w k) / clamped w k)
        = (rows.map fun r => ∑ k, r.c * resp w r k * Real.log (counts rows w k / (∑ k, counts rows w k) / clamped w k)).sum := by
      rw [← list_sum_comm rows fun r k => r.c * resp w r k * Real.log (counts rows w k / (∑ k, counts rows w k) / clamped w k)]
      refine sum_congr rfl fun k _ => ?_
      nth_rw 1 [counts]
      rw [← List.sum_map_mul_right]
    have e2 : (mixtureLogLik rows fun k => counts rows w k / ∑ k, counts rows w k) - mixtureLogLik rows (clamped w)
        = (rows.map fun r => r.c * (Real.log (∑ k, counts rows w k / (∑ k, counts rows w k) * Real.exp (r.l k))
            - Real.log (∑ k, clamped w k * Real.exp (r.l k)))).sum := by
      unfold mixtureLogLik
      rw [← list_sum_sub]
      congr 1
      exact List.map_congr_left fun r _ => by ring
    rw [e, e2]
    refine list_sum_le rows _ _ fun r hr => ?_
    have := mul_le_mul_of_nonneg_left (row_ascent (clamped w) _ (clamped_pos w) hv r) (h.1 r hr)
    refine le_trans (le_of_eq ?_) this
    rw [mul_sum]
    refine sum_congr rfl fun k _ => ?_
    rw [resp_eq]
    ring
  rw [hs] at j
  rw [hs]
  linarith

theorem mixtureLogLik_mono [NeZero K] {rows : List (Row K)} (h : Proper rows) (u v : Fin K → ℝ) (hu : ∀ k, 0 < u k)
    (huv : ∀ k, u k ≤ v k) : mixtureLogLik rows u ≤ mixtureLogLik rows v := by
  refine list_sum_le rows _ _ fun r hr => mul_le_mul_of_nonneg_left ?_ (h.1 r hr)
  exact Real.log_le_log (den_pos u hu r) (sum_le_sum fun k _ => mul_le_mul_of_nonneg_right (huv k) (Real.exp_pos _).le)

theorem mixtureLogLik_scale [NeZero K] {rows : List (Row K)} (u : Fin K → ℝ) (hu : ∀ k, 0 < u k) (t : ℝ) (ht : 0 < t) :
    (mixtureLogLik rows fun k => t * u k) = mixtureLogLik rows u + (rows.map Row.c).sum * Real.log t := by
  unfold mixtureLogLik
  rw [← List.sum_map_mul_right, ← List.sum_map_add]
  congr 1
  refine List.map_congr_left fun r _ => ?_
  have : ∑ k, t * u k * Real.exp (r.l k) = t * ∑ k, u k * Real.exp (r.l k) := by
    rw [mul_sum]; exact sum_congr rfl fun k _ => by ring
  rw [this, Real.log_mul ht.ne' (den_pos u hu r).ne']
  ring

/-- C70 in general, both versions and every floor: an iteration loses at most the logarithm of the factor by which the
floor enlarges the proportions, times the number of observations, plus the same for the bound `1e-300`. -/
theorem C70_decrease_bound [NeZero K] (ver : Version) (floor : ℝ) (rows : List (Row K)) (h : Proper rows) (w w' : Fin K → ℝ)
    (hw : ∀ k, 0 < w k) (hs : emStep ver floor rows w = some w') :
    ∃ v : Fin K → ℝ, (∀ k, 0 < v k) ∧ ∑ k, v k ≤ 1 ∧ (ver = .density → ∑ k, v k = 1) ∧
      mixtureLogLik rows w ≤ mixtureLogLik rows w' +
        (rows.map Row.c).sum * (Real.log (∑ k, max (w k) tiny) + Real.log ((∑ k, max (v k) floor) / ∑ k, v k)) := by
  obtain ⟨v, w'', e, h2, h3, h4, rfl, h5⟩ := emStep_eq ver floor h w
  rw [hs] at e
  injection e with e
  subst e
  have hsum : 0 < ∑ k, v k := sum_pos (fun k _ => h2 k) ⟨0, mem_univ _⟩
  have hS : 0 < ∑ k, max (v k) floor := sum_pos (fun k _ => lt_max_of_lt_left (h2 k)) ⟨0, mem_univ _⟩
  refine ⟨v, h2, h3, h5, ?_⟩
  · have a := ascent h w
    have b := mixtureLogLik_mono h w (clamped w) hw fun k => le_max_left _ _
    have hN : 0 < ∑ k, counts rows w k := by rw [counts_sum]; exact h.2
    have c := mixtureLogLik_scale (rows := rows) (fun k => counts rows w k / ∑ k, counts rows w k)
      (fun k => div_pos (counts_pos h w k) hN) ((∑ k, v k) / ∑ k, max (v k) floor) (div_pos hsum hS)
    have d := mixtureLogLik_mono h (fun k => (∑ k, v k) / (∑ k, max (v k) floor) * (counts rows w k / ∑ k, counts rows w k))
      (fun k => max (v k) floor / ∑ k, max (v k) floor)
      (fun k => mul_pos (div_pos hsum hS) (div_pos (counts_pos h w k) hN)) (fun k => by
        rw [div_mul_eq_mul_div]
        refine div_le_div_of_nonneg_right ?_ hS.le
        rw [mul_comm, ← h4 k]
        exact le_max_left _ _)
    rw [c] at d
    have e : Real.log ((∑ k, v k) / ∑ k, max (v k) floor) = -Real.log ((∑ k, max (v k) floor) / ∑ k, v k) := by
      rw [← Real.log_inv, inv_div]
    rw [e] at d
    have f : ∑ k, max (w k) tiny = ∑ k, clamped w k := rfl
    rw [f]
    linarith

theorem sum_max_tiny {w : Fin K → ℝ} (hs : Simplex w) (ht : ∀ k, tiny ≤ w k) : ∑ k, max (w k) tiny = 1 := by
  rw [← hs.2]
  exact sum_congr rfl fun k _ => max_eq_left (ht k)

theorem sum_max_tiny_le {w : Fin K → ℝ} (hs : Simplex w) : ∑ k, max (w k) tiny ≤ 1 + K * tiny := by
  calc ∑ k, max (w k) tiny ≤ ∑ k, (w k + tiny) :=
        sum_le_sum fun k _ => max_le (by linarith [tiny_pos]) (by linarith [hs.1 k])
    _ = 1 + K * tiny := by rw [sum_add_distrib, hs.2]; simp

/-- C70: without a floor an iteration from positive weights does not decrease the mixture log likelihood. Partial: no
weight may be below `1e-300`, where the code replaces it by that value. -/
theorem C70_step_partial [NeZero K] (ver : Version) (floor : ℝ) (hf : floor ≤ 0) (rows : List (Row K)) (h : Proper rows)
    (w w' : Fin K → ℝ) (hw : Simplex w) (ht : ∀ k, tiny ≤ w k) (hs : emStep ver floor rows w = some w') :
    mixtureLogLik rows w ≤ mixtureLogLik rows w' := by
  obtain ⟨v, h1, h2, h3, h4⟩ := C70_decrease_bound ver floor rows h w w' (fun k => tiny_pos.trans_le (ht k)) hs
  have e : ∑ k, max (v k) floor = ∑ k, v k := sum_congr rfl fun k _ => max_eq_left (hf.trans (h1 k).le)
  have hsum : 0 < ∑ k, v k := sum_pos (fun k _ => h1 k) ⟨0, mem_univ _⟩
  rw [sum_max_tiny hw ht, e, div_self hsum.ne', Real.log_one] at h4
  linarith

/-- C70 with a floor (the default of `GGMP.train` is `1e-9`): an iteration loses at most `N log (1 + K floor)`. -/
theorem C70_floor [NeZero K] (floor : ℝ) (hf : 0 ≤ floor) (rows : List (Row K)) (h : Proper rows)
    (w w' : Fin K → ℝ) (hw : Simplex w) (ht : ∀ k, tiny ≤ w k) (hs : emStep .density floor rows w = some w') :
    mixtureLogLik rows w ≤ mixtureLogLik rows w' + (rows.map Row.c).sum * Real.log (1 + K * floor) := by
  obtain ⟨v, h1, h2, h3, h4⟩ := C70_decrease_bound .density floor rows h w w' (fun k => tiny_pos.trans_le (ht k)) hs
  rw [sum_max_tiny hw ht, h3 rfl, div_one, Real.log_one, zero_add] at h4
  refine h4.trans (add_le_add le_rfl (mul_le_mul_of_nonneg_left ?_ h.2.le))
  have hS : 0 < ∑ k, max (v k) floor := sum_pos (fun k _ => lt_max_of_lt_left (h1 k)) ⟨0, mem_univ _⟩
  refine Real.log_le_log hS ?_
  calc ∑ k, max (v k) floor ≤ ∑ k, (v k + floor) :=
        sum_le_sum fun k _ => max_le (by linarith) (by linarith [h1 k])
    _ = ∑ k, v k + K * floor := by rw [sum_add_distrib]; simp
    _ = 1 + K * floor := by rw [h3 rfl]

/-- C70 for the reported objectives: without a floor each entry of the objective history is at least the one before, up to
`N log (1 + K 1e-300)`, which is less than `N K 1e-300`. -/
theorem C70_history [NeZero K] (ver : Version) (floor tol : ℝ) (hf : floor ≤ 0) (maxIter : ℕ) (w0 : Option (Fin K → ℝ))
    (rows : List (Row K)) (h : Proper rows) :
    ∃ os : List ℝ, (em ver floor tol maxIter w0 rows).2.2 = os.map some ∧
      os.IsChain fun a b => a ≤ b + (rows.map Row.c).sum * (K * tiny) := by
  obtain ⟨s, hs, hs1, hs2⟩ := C69_start w0
  obtain ⟨ws, h1, h2, h3, h4⟩ := emLoop_trace ver floor tol h maxIter s
  refine ⟨((s :: ws).dropLast).map (objective rows), ?_, ?_⟩
  · rw [em, hs, h2, List.map_map]
    rfl
  · have hstep : ∀ a b, Simplex a → (∀ k, 0 < a k) → emStep ver floor rows a = some b →
        objective rows a ≤ objective rows b + (rows.map Row.c).sum * (K * tiny) := by
      intro a b ha ha2 hab
      obtain ⟨v, w'', e, q2, q3, q4, rfl, -⟩ := emStep_eq ver floor h a
      rw [hab] at e
      injection e with e
      subst e
      rw [objective_eq, objective_eq]
      have g1 := ascent h a
      have hN : 0 < ∑ k, counts rows a k := by rw [counts_sum]; exact h.2
      have hsum : 0 < ∑ k, v k := sum_pos (fun k _ => q2 k) ⟨0, mem_univ _⟩
      have e1 : ∀ k, max (v k) floor = v k := fun k => max_eq_left (hf.trans (q2 k).le)
      have g2 := mixtureLogLik_mono h (fun k => counts rows a k / ∑ k, counts rows a k)
        (clamped fun k => max (v k) floor / ∑ k, max (v k) floor) (fun k => div_pos (counts_pos h a k) hN) (fun k => by
          refine le_trans ?_ (le_max_left _ _)
          simp only [e1]
          rw [le_div_iff₀ hsum, ← q4 k])
      have g3 : Real.log (∑ k, clamped a k) ≤ K * tiny := by
        have hS : 0 < ∑ k, clamped a k := sum_pos (fun k _ => clamped_pos a k) ⟨0, mem_univ _⟩
        have := Real.log_le_sub_one_of_pos hS
        have h5 : ∑ k, clamped a k ≤ 1 + K * tiny := sum_max_tiny_le ha
        linarith
      have g4 := mul_le_mul_of_nonneg_left g3 h.2.le
      linarith
    have key : ∀ (l : List (Fin K → ℝ)) (a : Fin K → ℝ), Simplex a → (∀ k, 0 < a k) →
        (a :: l).IsChain (fun a b => emStep ver floor rows a = some b) →
        (((a :: l).dropLast).map (objective rows)).IsChain fun a b => a ≤ b + (rows.map Row.c).sum * (K * tiny) := by
      intro l
      induction l with
      | nil => intro a _ _ _; simp
      | cons b l ih =>
        intro a ha ha2 hc
        obtain ⟨c1, c2⟩ := List.isChain_cons_cons.1 hc
        obtain ⟨w', e, f1, f2, -⟩ := C69_step ver floor rows h a
        rw [c1] at e
        injection e with e
        subst e
        have := ih b f1 f2 c2
        cases l with
        | nil => simp
        | cons c l =>
          simp only [List.dropLast_cons_cons, List.map_cons] at this ⊢
          exact List.isChain_cons_cons.2 ⟨hstep a b ha ha2 c1, this⟩
    exact key ws s hs1 hs2 h3

/-- One observation, twice as likely under the second component. -/
noncomputable def exRow : Row 2 := ⟨1, ![0, Real.log 2]⟩

theorem exRow_proper : Proper [exRow] := by simp [Proper, exRow]

/-- C70 without the restriction to weights of at least `1e-300` is false, by an amount of the order of `1e-300`. -/
theorem C70_clamp_violated : ∃ w w' : Fin 2 → ℝ, Simplex w ∧ (∀ k, 0 < w k) ∧ emStep .density 0 [exRow] w = some w' ∧
    mixtureLogLik [exRow] w' < mixtureLogLik [exRow] w := by
  have ht := tiny_pos
  have ht1 : tiny ≤ 1 / 10 := by
    unfold tiny
    rw [div_le_div_iff₀ (by positivity) (by norm_num), one_mul, one_mul]
    exact le_self_pow₀ (by norm_num) (by norm_num)
  set w : Fin 2 → ℝ := ![tiny / 100, 1 - tiny / 100] with hw
  have hsim : Simplex w := by
    refine ⟨fun k => ?_, by simp [hw]⟩
    fin_cases k
    · simp [hw]; positivity
    · simp [hw]; linarith
  have hpos : ∀ k, 0 < w k := by
    intro k
    fin_cases k
    · simp [hw]; positivity
    · simp [hw]; linarith
  obtain ⟨v, w', e, h2, h3, h4, h5, h6⟩ := emStep_eq .density 0 exRow_proper w
  refine ⟨w, w', hsim, hpos, e, ?_⟩
  have c0 : clamped w 0 = tiny := by
    simp only [clamped, hw, Matrix.cons_val_zero]
    exact max_eq_right (by linarith)
  have c1 : clamped w 1 = 1 - tiny / 100 := by
    simp only [clamped, hw, Matrix.cons_val_one, Matrix.cons_val_fin_one]
    exact max_eq_left (by linarith)
  have hl2 : Real.exp (Real.log 2) = 2 := Real.exp_log (by norm_num)
  have k0 : counts [exRow] w 0 = tiny / (tiny + (1 - tiny / 100) * 2) := by
    simp [counts, resp_eq, exRow, Fin.sum_univ_two, c0, c1, hl2]
  have hv1 := h6 rfl
  have hcs : ∑ k, counts [exRow] w k = 1 := by rw [counts_sum]; simp [exRow]
  have v0 : v 0 = tiny / (tiny + (1 - tiny / 100) * 2) := by
    rw [h4 0, hv1, hcs, k0]; ring
  have v1 : v 1 = 1 - v 0 := by
    rw [Fin.sum_univ_two] at hv1; linarith
  have hm : ∀ k, max (v k) 0 = v k := fun k => max_eq_left (h2 k).le
  have w0 : w' 0 = v 0 := by rw [h5]; simp only [hm, hv1, div_one]
  have w1 : w' 1 = 1 - v 0 := by rw [h5]; simp only [hm, hv1, div_one]; exact v1
  have lt : tiny / 100 < v 0 := by
    rw [v0, div_lt_div_iff₀ (by norm_num) (by linarith)]
    nlinarith
  have v0' : v 0 < 1 := by have := h2 1; linarith
  simp only [mixtureLogLik, exRow, List.map_cons, List.map_nil, List.sum_cons, List.sum_nil, add_zero, one_mul, Fin.sum_univ_two,
    Matrix.cons_val_zero, Matrix.cons_val_one, Real.exp_zero, hl2, w0, w1]
  refine Real.log_lt_log (by linarith [h2 0]) ?_
  simp only [hw, Matrix.cons_val_zero, Matrix.cons_val_one, Matrix.cons_val_fin_one]
  linarith

/-- C69 fails without observations (or if all factors are zero): the density version returns NaN, whatever the start
weights. -/
theorem C69_no_observation_violated [NeZero K] (floor tol : ℝ) (maxIter : ℕ) (hm : 0 < maxIter) (w0 : Option (Fin K → ℝ))
    (rows : List (Row K)) (h : ∀ r ∈ rows, r.c = 0) : (em .density floor tol maxIter w0 rows).1 = none := by
  obtain ⟨s, hs, -⟩ := C69_start w0
  have hn : ∀ n, (emLoop .density floor tol rows n none).1 = none := by
    intro n
    induction n with
    | zero => rfl
    | succ n ih => simpa [emLoop] using ih
  have hc : normalize (counts rows s) = none := by
    unfold normalize
    rw [if_pos]
    rw [counts_sum]
    exact List.sum_eq_zero (by
      intro x hx
      obtain ⟨r, hr, rfl⟩ := List.mem_map.1 hx
      exact h r hr)
  obtain ⟨n, rfl⟩ := Nat.exists_eq_succ_of_ne_zero hm.ne'
  rw [em, hs]
  simp only [Nat.succ_eq_add_one, emLoop, emStep, hc, Option.bind_none]
  exact hn n

/-- The version for samples returns equal weights in that case, if the floor is positive. -/
theorem C69_no_sample [NeZero K] (floor : ℝ) (hf : 0 < floor) (rows : List (Row K)) (h : ∀ r ∈ rows, r.c = 0)
    (w : Fin K → ℝ) : emStep .samples floor rows w = some fun _ => 1 / (K : ℝ) := by
  have hK : (0 : ℝ) < K := by exact_mod_cast Nat.pos_of_ne_zero (NeZero.ne K)
  have hc : ∀ k, counts rows w k = 0 := fun k => List.sum_eq_zero (by
      intro x hx
      obtain ⟨r, hr, rfl⟩ := List.mem_map.1 hx
      rw [h r hr, zero_mul])
  simp only [emStep, floorNormalize, normalize, hc, zero_div, max_eq_right hf.le]
  rw [if_neg (by simp [hK.ne', hf.ne', NeZero.ne K])]
  congr 1
  funext k
  simp only [sum_const, card_univ, Fintype.card_fin, nsmul_eq_mul]
  field_simp

/-- Two observations and two components: the hypotheses hold and an iteration from equal weights exists. -/
example : ∃ w', emStep .density 0 [exRow, ⟨1 / 2, ![1, 0]⟩] (fun _ => 1 / 2) = some w' ∧
    mixtureLogLik [exRow, ⟨1 / 2, ![1, 0]⟩] (fun _ => 1 / 2) ≤ mixtureLogLik [exRow, ⟨1 / 2, ![1, 0]⟩] w' := by
  have hp : Proper [exRow, ⟨1 / 2, ![1, 0]⟩] := by
    constructor
    · intro r hr
      simp only [List.mem_cons, List.not_mem_nil, or_false] at hr
      rcases hr with rfl | rfl <;> norm_num [exRow]
    · norm_num [exRow]
  obtain ⟨w', h, -⟩ := C69_step .density 0 _ hp (fun _ : Fin 2 => 1 / 2)
  refine ⟨w', h, C70_step_partial .density 0 le_rfl _ hp _ _ ⟨fun _ => by norm_num, by norm_num [Fin.sum_univ_two]⟩ (fun k => ?_) h⟩
  unfold tiny
  exact one_div_le_one_div_of_le (by norm_num) (le_trans (by norm_num) (le_self_pow₀ (a := (10 : ℝ)) (by norm_num) (by norm_num)))

end Verif.Ggmp
