import Verif.Actor.AsyncProps

/-!
C122: a stop request ends an asynchronous run with the iteration that sees it.
-/

namespace Verif.Actor

open Verif.Train Verif.MCMC

/-- **C122** (MCMC, stopping). A run whose flag is found cleared after `m` iterations makes no further iteration, and a run that ends before its
budget is used up was stopped or satisfies the default break condition. -/
theorem C122_mcmc_stop {d : ℕ} (f : Pos d → Option ℝ) (prior : Pos d → WithBot ℝ) (w : Draws d) (objs : List (Proposal d)) (x0 : Pos d)
    (maxIter : ℕ) (stopped : ℕ → Bool) (r : Run d) (L : Option (Info d))
    (h : mcmcAsync f prior w stopped objs x0 maxIter = .ok (r, L)) :
    (∀ m, 1 ≤ m → stopped m = true → r.trace.fs.length ≤ m) ∧
      (r.trace.fs.length < max maxIter 2 - 1 → stopped r.trace.fs.length = true ∨ defaultBreak r.trace = true) := by
  obtain ⟨-, s2⟩ := mcmcActorLoop_spec f prior w (actorBreak stopped) (max maxIter 2 - 1) 1 (start f prior objs x0) none
  obtain ⟨h1, -⟩ := (s2 r L).1 h
  obtain ⟨-, -, -, -, -, e6, e7⟩ := loop_break _ _ _ _ h1 rfl rfl rfl
  refine ⟨fun m hm hs => ?_, fun hlt => ?_⟩
  · by_contra hlt
    have := e6 m hm (by omega)
    have hl : (r.trace.upTo m).fs.length = m := by
      simp only [Trace.upTo, List.length_take]
      omega
    rw [actorBreak, hl, if_pos hs] at this
    exact Bool.noConfusion this
  · have := e7 (by omega)
    unfold actorBreak at this
    split_ifs at this with hs
    · exact Or.inl hs
    · exact Or.inr this

/-- A run of the default proposal whose flag is cleared during its third iteration has at most three of them. -/
example {d : ℕ} (f : Pos d → Option ℝ) (w : Draws d) (lo hi : Pos d) (x0 : Pos d) (r : Run d) (L : Option (Info d))
    (h : mcmcAsync f (boxPrior lo hi) w (fun n => decide (3 ≤ n)) [defaultProposal lo hi] x0 100 = .ok (r, L)) :
    r.trace.fs.length ≤ 3 :=
  (C122_mcmc_stop f _ w _ x0 100 _ r L h).1 3 (by norm_num) rfl

theorem adamActorLoop_halts {d : ℕ} (c : AdamCfg) (f : (Fin d → ℝ) → ℝ) (g : (Fin d → ℝ) → Fin d → ℝ) (stop : ℕ → Bool) :
    ∀ (fuel t : ℕ) (theta m v : Fin d → ℝ) (latest : AdamLatest d), latest.iteration < t →
      ∀ j, t ≤ j → stop j = true → (adamActorLoop c f g stop fuel t theta m v latest).2.iteration ≤ j := by
  intro fuel
  induction fuel with
  | zero =>
    intro t theta m v latest hl j hj _
    have : (adamActorLoop c f g stop 0 t theta m v latest).2 = latest := rfl
    rw [this]
    omega
  | succ fuel ih =>
    intro t theta m v latest hl j hj hs
    simp only [adamActorLoop]
    split_ifs with hc
    · exact hj
    · have hne : t ≠ j := by
        rintro rfl
        exact hc (Or.inr hs)
      exact ih (t + 1) _ _ _ _ (by simp [adamCallback]) j (by omega) hs

/-- **C122** (Adam, stopping). A run whose flag is found cleared in iteration `m` reports no later iteration. -/
theorem C122_adam_stop {d : ℕ} (f : (Fin d → ℝ) → ℝ) (g : (Fin d → ℝ) → Fin d → ℝ) (stop : ℕ → Bool) (maxIter : ℕ)
    (theta0 : Fin d → ℝ) (m : ℕ) (hm : 1 ≤ m) (hs : stop m = true) : (adamAsync f g stop maxIter theta0).iteration ≤ m :=
  adamActorLoop_halts asyncAdamCfg f g stop maxIter 1 theta0 _ _ _ (by norm_num) m hm hs

/-- A run of a thousand iterations whose flag is cleared during the second. -/
example (theta0 : Fin 2 → ℝ) :
    (adamAsync (fun θ => θ 0 ^ 2) (fun θ _ => 2 * θ 0) (fun n => decide (2 ≤ n)) 1000 theta0).iteration ≤ 2 :=
  C122_adam_stop _ _ _ _ _ 2 (by norm_num) rfl

end Verif.Actor
