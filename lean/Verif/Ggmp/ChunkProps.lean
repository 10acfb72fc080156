import Verif.Ggmp.ChunkModel
import Mathlib.Tactic.Linarith
import Mathlib.Data.List.Induction
import Mathlib.Data.List.Perm.Basic
import Mathlib.Analysis.InnerProductSpace.PiL2

/-!
C115: training in chunks until the hyperparameters settle; parallel component training.
-/

namespace Verif.Ggmp

variable {D : ℕ}

/-- The change from `a` to `b` relative to the size of `a`, in Euclidean distance; `1e-12` guards against division by zero. -/
noncomputable def specRel (a b : Fin D → ℝ) : ℝ :=
  dist (WithLp.toLp 2 a) (WithLp.toLp 2 b) / (‖WithLp.toLp 2 a‖ + 1 / 10 ^ 12)

theorem relChange_eq (a b : Fin D → ℝ) : relChange a b = specRel a b := by
  unfold relChange specRel hpNorm
  rw [EuclideanSpace.dist_eq, EuclideanSpace.norm_eq]
  have h1 : ∀ i, (b - a) i ^ 2 = dist (a i) (b i) ^ 2 := fun i => by
    rw [Real.dist_eq, sq_abs, Pi.sub_apply]
    ring
  simp only [h1, Real.norm_eq_abs, sq_abs]

/-- The start vectors of the chunks. -/
noncomputable def traj (train : ℕ → (Fin D → ℝ) → Except String (Fin D → ℝ)) (init : Fin D → ℝ) : ℕ → Fin D → ℝ
  | 0 => init
  | t + 1 => (train t (traj train init t)).toOption.getD (traj train init t)

/-- After `t` chunks: the last `p` chunks changed the hyperparameters by less than `tol` relatively. -/
def Settled (x : ℕ → Fin D → ℝ) (tol : ℝ) (p t : ℕ) : Prop := p ≤ t ∧ ∀ j, t - p ≤ j → j < t → specRel (x j) (x (j + 1)) < tol

theorem settled_succ (x : ℕ → Fin D → ℝ) (tol : ℝ) (p t : ℕ) :
    Settled x tol (p + 1) (t + 1) ↔ specRel (x t) (x (t + 1)) < tol ∧ Settled x tol p t := by
  unfold Settled
  constructor
  · rintro ⟨h1, h2⟩
    exact ⟨h2 t (by omega) (by omega), by omega, fun j hj hjt => h2 j (by omega) (by omega)⟩
  · rintro ⟨h1, h2, h3⟩
    refine ⟨by omega, fun j hj hjt => ?_⟩
    rcases Nat.lt_or_ge j t with h | h
    · exact h3 j (by omega) h
    · obtain rfl : j = t := by omega
      exact h1

/-- The entry of the history for chunk `t`. -/
noncomputable def record (x : ℕ → Fin D → ℝ) (c t : ℕ) : ChunkRecord D := ⟨(t + 1) * c, specRel (x t) (x (t + 1)), x (t + 1)⟩

/-- What holds at the head of the loop after `t` chunks. -/
structure ChunkInv (train : ℕ → (Fin D → ℝ) → Except String (Fin D → ℝ)) (init : Fin D → ℝ) (c N : ℕ) (tol : ℝ) (p t : ℕ)
    (s : ChunkState D) : Prop where
  hps : s.hps = traj train init t
  hist : s.hist = (List.range t).map (record (traj train init) c)
  total : s.total = t * c
  stable : ∀ q, q ≤ s.stable ↔ Settled (traj train init) tol q t
  ran : ∀ j < t, train j (traj train init j) = .ok (traj train init (j + 1))
  budget : ∀ j < t, j * c < N
  going : ∀ j < t, 0 < j → ¬ Settled (traj train init) tol p j

theorem chunkLoop_spec (train : ℕ → (Fin D → ℝ) → Except String (Fin D → ℝ)) (init : Fin D → ℝ) (c N : ℕ) (hc : 1 ≤ c) (tol : ℝ) (p : ℕ)
    (fuel t : ℕ) (s : ChunkState D) (hi : ChunkInv train init c N tol p t s) (hf : N ≤ s.total + fuel)
    (hg : 0 < t → ¬ Settled (traj train init) tol p t) :
    (∃ t' s', chunkLoop train c N tol p fuel s = .ok s' ∧ ChunkInv train init c N tol p t' s' ∧
      (N ≤ t' * c ∨ (t < t' ∧ Settled (traj train init) tol p t'))) ∨
    (∃ t' e, chunkLoop train c N tol p fuel s = .error e ∧ train t' (traj train init t') = .error e ∧
      (∀ j < t', train j (traj train init j) = .ok (traj train init (j + 1))) ∧ t' * c < N) := by
  induction fuel generalizing t s with
  | zero => exact Or.inl ⟨t, s, rfl, hi, Or.inl (by rw [← hi.total]; omega)⟩
  | succ fuel ih =>
      simp only [chunkLoop]
      by_cases hb : s.total < N
      · rw [if_pos hb]
        have hlen : s.hist.length = t := by rw [hi.hist]; simp
        rw [hlen, hi.hps]
        cases htr : train t (traj train init t) with
        | error e => exact Or.inr ⟨t, e, rfl, htr, hi.ran, by rw [← hi.total]; exact hb⟩
        | ok new =>
            have hx : traj train init (t + 1) = new := by simp [traj, htr, Except.toOption]
            simp only [relChange_eq]
            set st := (open Classical in if specRel (traj train init t) new < tol then s.stable + 1 else 0) with hst
            have hi' : ChunkInv train init c N tol p (t + 1)
                ⟨new, s.hist ++ [⟨s.total + c, specRel (traj train init t) new, new⟩], st, s.total + c⟩ := by
              refine ⟨hx.symm, ?_, ?_, ?_, ?_, ?_, ?_⟩
              · simp only
                rw [hi.hist, List.range_succ, List.map_append, hi.total]
                simp only [List.map_cons, List.map_nil, record, hx]
                congr 3
                ring
              · simp only
                rw [hi.total]; ring
              · intro q
                simp only
                cases q with
                | zero => simp [Settled]; omega
                | succ q =>
                    rw [settled_succ, hx, ← hi.stable q, hst]
                    split_ifs with h
                    · simp [h]
                    · simp [h]
              · intro j hj
                rcases Nat.lt_or_ge j t with h | h
                · exact hi.ran j h
                · obtain rfl : j = t := by omega
                  rw [hx]; exact htr
              · intro j hj
                rcases Nat.lt_or_ge j t with h | h
                · exact hi.budget j h
                · obtain rfl : j = t := by omega
                  rw [← hi.total]; exact hb
              · intro j hj h0
                rcases Nat.lt_or_ge j t with h | h
                · exact hi.going j h h0
                · obtain rfl : j = t := by omega
                  exact hg h0
            by_cases hp : st ≥ p
            · rw [if_pos hp]
              exact Or.inl ⟨t + 1, _, rfl, hi', Or.inr ⟨by omega, (hi'.stable p).1 hp⟩⟩
            · rw [if_neg hp]
              rcases ih (t + 1) _ hi' (by simp only; omega) (fun _ h => hp ((hi'.stable p).2 h)) with ⟨t', s', h1, h2, h3⟩ | h
              · exact Or.inl ⟨t', s', h1, h2, h3.imp id fun h => ⟨by omega, h.2⟩⟩
              · exact Or.inr h
      · rw [if_neg hb]
        exact Or.inl ⟨t, s, rfl, hi, Or.inl (by rw [← hi.total]; omega)⟩

/-- A run that returns: chunk after chunk starts where the one before ended; the history records it; the run ends with the first
chunk after which the last `patience` chunks are settled or `max_total` iterations are reached. -/
theorem C115_stop (train : ℕ → (Fin D → ℝ) → Except String (Fin D → ℝ)) (chunk maxTotal : ℤ) (tol : ℝ) (patience : ℤ)
    (init h : Fin D → ℝ) (hist : List (ChunkRecord D)) (hr : trainUntilConverged train chunk maxTotal tol patience init = .ok (h, hist)) :
    ∃ (T : ℕ) (x : ℕ → Fin D → ℝ), 0 < T ∧ x 0 = init ∧ x T = h ∧ (∀ t < T, train t (x t) = .ok (x (t + 1))) ∧
      hist = (List.range T).map (fun t => ⟨(t + 1) * (max chunk 1).toNat, specRel (x t) (x (t + 1)), x (t + 1)⟩) ∧
      (∀ t, 0 < t → t < T → t * max chunk 1 < max maxTotal (max chunk 1) ∧ ¬ Settled x tol (max patience 1).toNat t) ∧
      (max maxTotal (max chunk 1) ≤ T * max chunk 1 ∨ Settled x tol (max patience 1).toNat T) := by
  unfold trainUntilConverged at hr
  simp only at hr
  set c := (max chunk 1).toNat with hc
  set N := (max maxTotal (max chunk 1)).toNat with hN
  set p := (max patience 1).toNat with hp
  have hc1 : 1 ≤ c := by omega
  have hcz : (c : ℤ) = max chunk 1 := by omega
  have hNz : (N : ℤ) = max maxTotal (max chunk 1) := by omega
  have hi0 : ChunkInv train init c N tol p 0 ⟨init, [], 0, 0⟩ := by
    refine ⟨rfl, by simp, by simp, ?_, by simp, by simp, by simp⟩
    intro q
    simp only [Settled, nonpos_iff_eq_zero]
    constructor
    · rintro rfl; simp
    · rintro ⟨h, -⟩; exact h
  rcases chunkLoop_spec train init c N hc1 tol p N 0 _ hi0 (by simp) (by simp) with ⟨T, s, h1, h2, h3⟩ | ⟨t', e, h1, -⟩
  · rw [h1] at hr
    simp only [Except.ok.injEq, Prod.mk.injEq] at hr
    have hT : 0 < T := by
      rcases h3 with h | h
      · rcases Nat.eq_zero_or_pos T with rfl | h0
        · exfalso; omega
        · exact h0
      · exact h.1
    refine ⟨T, traj train init, hT, rfl, by rw [← hr.1, h2.hps], h2.ran, by rw [← hr.2, h2.hist]; rfl, ?_, ?_⟩
    · intro t h0 hlt
      refine ⟨?_, h2.going t hlt h0⟩
      have := h2.budget t hlt
      rw [← hNz, ← hcz]
      exact_mod_cast this
    · rcases h3 with h | h
      · left
        rw [← hNz, ← hcz]
        exact_mod_cast h
      · exact Or.inr h.2
  · rw [h1] at hr
    simp at hr

/-- The run fails only with an exception of one of its chunks, within the budget. -/
theorem C115_failure (train : ℕ → (Fin D → ℝ) → Except String (Fin D → ℝ)) (chunk maxTotal : ℤ) (tol : ℝ) (patience : ℤ)
    (init : Fin D → ℝ) (e : String) (hr : trainUntilConverged train chunk maxTotal tol patience init = .error e) :
    ∃ (t : ℕ) (x : ℕ → Fin D → ℝ), x 0 = init ∧ (∀ j < t, train j (x j) = .ok (x (j + 1))) ∧ train t (x t) = .error e ∧
      t * max chunk 1 < max maxTotal (max chunk 1) := by
  unfold trainUntilConverged at hr
  simp only at hr
  set c := (max chunk 1).toNat with hc
  set N := (max maxTotal (max chunk 1)).toNat with hN
  set p := (max patience 1).toNat with hp
  have hc1 : 1 ≤ c := by omega
  have hcz : (c : ℤ) = max chunk 1 := by omega
  have hNz : (N : ℤ) = max maxTotal (max chunk 1) := by omega
  have hi0 : ChunkInv train init c N tol p 0 ⟨init, [], 0, 0⟩ := by
    refine ⟨rfl, by simp, by simp, ?_, by simp, by simp, by simp⟩
    intro q
    simp only [Settled, nonpos_iff_eq_zero]
    constructor
    · rintro rfl; simp
    · rintro ⟨h, -⟩; exact h
  rcases chunkLoop_spec train init c N hc1 tol p N 0 _ hi0 (by simp) (by simp) with ⟨T, s, h1, h2, h3⟩ | ⟨t', e', h1, h2, h3, h4⟩
  · rw [h1] at hr
    simp at hr
  · rw [h1] at hr
    simp only [Except.error.injEq] at hr
    subst hr
    refine ⟨t', traj train init, rfl, h3, h2, ?_⟩
    rw [← hNz, ← hcz]
    exact_mod_cast h4

/-- The number of iterations is below `max_total + chunk` (for a positive `chunk` up to `max_total`); with a multiple of `chunk`
the limit is kept. -/
theorem C115_budget_partial (train : ℕ → (Fin D → ℝ) → Except String (Fin D → ℝ)) (chunk maxTotal : ℤ) (hc : 1 ≤ chunk)
    (hm : chunk ≤ maxTotal) (tol : ℝ) (patience : ℤ) (init h : Fin D → ℝ) (hist : List (ChunkRecord D))
    (hr : trainUntilConverged train chunk maxTotal tol patience init = .ok (h, hist)) :
    ∀ r ∈ hist, (r.iters : ℤ) < maxTotal + chunk ∧ (chunk ∣ maxTotal → (r.iters : ℤ) ≤ maxTotal) := by
  obtain ⟨T, x, h0, -, -, -, rfl, hgo, -⟩ := C115_stop train chunk maxTotal tol patience init h hist hr
  rw [max_eq_left hc, max_eq_left hm] at hgo
  intro r hr
  obtain ⟨t, ht, rfl⟩ := List.mem_map.1 hr
  rw [List.mem_range] at ht
  simp only
  rw [max_eq_left hc]
  have hcz : (chunk.toNat : ℤ) = chunk := by omega
  push_cast
  rw [hcz]
  have hlt : (t : ℤ) * chunk < maxTotal := by
    rcases Nat.eq_zero_or_pos t with rfl | hp
    · push_cast; omega
    · exact (hgo t hp ht).1
  refine ⟨by nlinarith, ?_⟩
  rintro ⟨k, rfl⟩
  have : (t : ℤ) < k := by nlinarith
  nlinarith

/-- `max_total` may be exceeded: chunks of 100 and a limit of 150 give 200 iterations. -/
theorem C115_budget_violated : ∃ (train : ℕ → (Fin 1 → ℝ) → Except String (Fin 1 → ℝ)) (h : Fin 1 → ℝ) (hist : List (ChunkRecord 1)),
    trainUntilConverged train 100 150 0 3 0 = .ok (h, hist) ∧ ∃ r ∈ hist, 150 < r.iters := by
  refine ⟨fun _ x => .ok x, ?_⟩
  have hneg : ∀ a b : Fin 1 → ℝ, ¬ specRel a b < 0 := by
    intro a b
    rw [not_lt]
    unfold specRel
    positivity
  refine ⟨0, [⟨100, specRel (D := 1) 0 0, 0⟩, ⟨200, specRel (D := 1) 0 0, 0⟩], ?_, ⟨200, specRel (D := 1) 0 0, 0⟩, by simp, by norm_num⟩
  have e1 : (max (100 : ℤ) 1).toNat = 100 := rfl
  have e2 : (max (150 : ℤ) (max 100 1)).toNat = 150 := rfl
  have e3 : (max (3 : ℤ) 1).toNat = 3 := rfl
  simp only [trainUntilConverged, e1, e2, e3]
  rw [show (150 : ℕ) = 147 + 1 + 1 + 1 from rfl]
  simp [chunkLoop, relChange_eq, hneg]

/-- The chain stands still: with `patience = 2` the run ends after two of its ten chunks. -/
example (h : Fin 1 → ℝ) (hist : List (ChunkRecord 1)) (hr : trainUntilConverged (fun _ x => .ok x) 10 100 1 2 0 = .ok (h, hist)) :
    hist.length = 2 := by
  obtain ⟨T, x, h0, -, -, hx, rfl, hgo, hend⟩ := C115_stop _ 10 100 1 2 0 h hist hr
  have hrel : ∀ t < T, specRel (x t) (x (t + 1)) < 1 := by
    intro t ht
    have : x t = x (t + 1) := by simpa using hx t ht
    rw [← this]
    simp [specRel]
  have e1 : (max (10 : ℤ) 1) = 10 := rfl
  have e2 : (max (100 : ℤ) 10) = 100 := rfl
  have e3 : (max (2 : ℤ) 1).toNat = 2 := rfl
  rw [e1, e2, e3] at hend
  rw [e1, e2, e3] at hgo
  simp only [List.length_map, List.length_range]
  rcases Nat.lt_trichotomy T 2 with h | h | h
  · obtain rfl : T = 1 := by omega
    rcases hend with h | h
    · norm_num at h
    · exact absurd h.1 (by norm_num)
  · exact h
  · exact absurd ⟨le_refl 2, fun j _ hj => hrel j (by omega)⟩ (hgo 2 (by omega) h).2

/-! ### parallel training -/

theorem collect_ok {α : Type} (task : ℕ → Except String α) (order : List ℕ) (d : ℕ → Option α) (f : ℕ → α)
    (h : ∀ k ∈ order, task k = .ok (f k)) :
    collect task order d = .ok fun j => if j ∈ order then some (f j) else d j := by
  induction order generalizing d with
  | nil => simp [collect]
  | cons k ks ih =>
      simp only [collect, h k List.mem_cons_self]
      rw [ih _ fun j hj => h j (List.mem_cons_of_mem _ hj)]
      congr 1
      funext j
      by_cases h1 : j ∈ ks
      · simp [h1]
      · by_cases h2 : j = k
        · subst h2; simp [h1]
        · simp [h1, h2]

theorem collect_error {α : Type} (task : ℕ → Except String α) (order : List ℕ) (d : ℕ → Option α) (k : ℕ) (hk : k ∈ order) (e : String)
    (h : task k = .error e) : ∃ e', collect task order d = .error e' ∧ ∃ j ∈ order, task j = .error e' := by
  induction order generalizing d with
  | nil => simp at hk
  | cons a ks ih =>
      simp only [collect]
      cases ha : task a with
      | error e' => exact ⟨e', rfl, a, List.mem_cons_self, ha⟩
      | ok v =>
          rcases List.mem_cons.1 hk with rfl | hk
          · rw [h] at ha; cases ha
          · obtain ⟨e', h1, j, hj, h2⟩ := ih (fun j => if j = a then some v else d j) hk
            exact ⟨e', h1, j, List.mem_cons_of_mem _ hj, h2⟩

theorem mapM_except_ok {α β : Type} (g : β → Except String α) (f : β → α) (l : List β) (h : ∀ k ∈ l, g k = .ok (f k)) :
    l.mapM g = .ok (l.map f) := by
  induction l with
  | nil => rfl
  | cons a l ih =>
      rw [List.mapM_cons, h a List.mem_cons_self, ih fun k hk => h k (List.mem_cons_of_mem _ hk)]
      rfl

theorem mapM_except_error {α β : Type} (g : β → Except String α) (l : List β) (k : β) (hk : k ∈ l) (e : String) (h : g k = .error e) :
    ∃ e', l.mapM g = .error e' ∧ ∃ j ∈ l, g j = .error e' := by
  induction l with
  | nil => simp at hk
  | cons a l ih =>
      rw [List.mapM_cons]
      cases ha : g a with
      | error e' => exact ⟨e', rfl, a, List.mem_cons_self, ha⟩
      | ok v =>
          rcases List.mem_cons.1 hk with rfl | hk
          · rw [h] at ha; cases ha
          · obtain ⟨e', h1, j, hj, h2⟩ := ih hk
            refine ⟨e', ?_, j, List.mem_cons_of_mem _ hj, h2⟩
            rw [h1]; rfl

/-- In whatever order the components finish, parallel training returns the list that sequential training returns, component `k`
at place `k`; and it fails exactly when one of the components fails. -/
theorem C115_parallel {α : Type} (task : ℕ → Except String α) (K : ℕ) (order : List ℕ) (ho : order.Perm (List.range K)) :
    (∀ f : ℕ → α, (∀ k < K, task k = .ok (f k)) →
      trainParallel task K order = .ok ((List.range K).map f) ∧ trainSequential task K = .ok ((List.range K).map f)) ∧
    (∀ k < K, ∀ e, task k = .error e → (∃ e', trainParallel task K order = .error e' ∧ ∃ j < K, task j = .error e') ∧
      ∃ e', trainSequential task K = .error e' ∧ ∃ j < K, task j = .error e') := by
  constructor
  · intro f hf
    refine ⟨?_, mapM_except_ok task f _ fun k hk => hf k (List.mem_range.1 hk)⟩
    unfold trainParallel
    rw [collect_ok task order _ f fun k hk => hf k (List.mem_range.1 (ho.mem_iff.1 hk))]
    simp only
    refine mapM_except_ok _ f _ fun k hk => ?_
    rw [if_pos (ho.mem_iff.2 hk)]
  · intro k hk e he
    refine ⟨?_, ?_⟩
    · obtain ⟨e', h1, j, hj, h2⟩ := collect_error task order (fun _ => none) k (ho.mem_iff.2 (List.mem_range.2 hk)) e he
      refine ⟨e', ?_, j, List.mem_range.1 (ho.mem_iff.1 hj), h2⟩
      unfold trainParallel
      rw [h1]
    · obtain ⟨e', h1, j, hj, h2⟩ := mapM_except_error task (List.range K) k (List.mem_range.2 hk) e he
      exact ⟨e', h1, j, List.mem_range.1 hj, h2⟩

/-- Three components finishing in the order 2, 0, 1. -/
example : trainParallel (fun k => .ok (10 * k)) 3 [2, 0, 1] = .ok [0, 10, 20] :=
  ((C115_parallel (fun k => .ok (10 * k)) 3 [2, 0, 1] (by decide)).1 (fun k => 10 * k) fun _ _ => rfl).1

end Verif.Ggmp
