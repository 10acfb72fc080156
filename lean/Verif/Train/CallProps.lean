import Verif.Train.CallModel
import Mathlib.Analysis.Calculus.Gradient.Basic
import Mathlib.Analysis.Calculus.Deriv.Add
import Mathlib.Analysis.Calculus.Deriv.Pow
import Mathlib.Analysis.InnerProductSpace.PiL2

/-!
C118: a `train` call is resolved into a run that optimises what was asked for.
-/

namespace Verif.Train

/-! ### Mode -/

/-- **C118** (gp2Scale). A GP that distributes its covariance trains synchronously, by MCMC or Bayesian optimisation. -/
theorem C118_gp2Scale (c : TrainCall) (h : c.gp2Scale = true) {p : TrainPlan} (hp : resolveTrain c = .ok p) :
    p.asynchronous = false ∧ (p.method = .known .mcmc ∨ p.method = .known .bo) ∧
      (c.method = .known .mcmc ∨ c.method = .known .bo → p.method = c.method) := by
  obtain ⟨g, a, m, cl, oc, uo, ug, uh, un⟩ := c
  simp only at h
  subst h
  have hm : ∀ m : MethodArg, (m = .known .mcmc ∨ m = .known .bo) ∨ ¬ (m = .known .mcmc ∨ m = .known .bo) := fun m => em _
  have e : resolveMode ⟨true, a, m, cl, oc, uo, ug, uh, un⟩ =
      .ok (false, if m = .known .mcmc ∨ m = .known .bo then m else .known .mcmc, cl) := by
    rcases hm m with h | h
    · rcases h with h | h <;> subst h <;> cases a <;> simp [resolveMode]
    · push Not at h
      cases a <;> simp [resolveMode, h.1, h.2]
  unfold resolveTrain at hp
  rw [e] at hp
  simp only [bind, Except.bind] at hp
  split_ifs at hp <;> cases hp <;> simp_all

/-- **C118** (asynchronous runs). A run is asynchronous exactly if it was asked for, the GP does not distribute its covariance and the
method supports it; it then has a client, the one given if one was given. -/
theorem C118_async (c : TrainCall) {p : TrainPlan} (hp : resolveTrain c = .ok p) :
    (p.asynchronous = true ↔ c.asynchronous = true ∧ c.gp2Scale = false ∧
      (c.method = .known .hgdl ∨ c.method = .known .mcmc ∨ c.method = .known .adam ∨ c.method = .known .bo)) ∧
    (p.asynchronous = true → ∃ i, p.client = some i ∧ (c.client = some i ∨ c.client = none ∧ c.ownClient = some i)) ∧
    (c.gp2Scale = false → p.method = c.method) := by
  obtain ⟨g, a, m, cl, oc, uo, ug, uh, un⟩ := c
  unfold resolveTrain at hp
  have hm : asyncMethod m = true ↔ (m = .known .hgdl ∨ m = .known .mcmc ∨ m = .known .adam ∨ m = .known .bo) := by
    cases m with
    | known k => cases k <;> simp [asyncMethod]
    | other s => simp [asyncMethod]
  simp only
  rw [← hm]
  cases g with
  | true =>
    have hg := C118_gp2Scale ⟨true, a, m, cl, oc, uo, ug, uh, un⟩ rfl hp
    simp [hg.1]
  | false =>
    cases a <;> cases hA : asyncMethod m <;> cases cl <;> cases oc <;>
      simp [resolveMode, hA, bind, Except.bind] at hp <;>
      split_ifs at hp <;> cases hp <;> simp

/-- The run needs a client and there is none. -/
def NoClient (c : TrainCall) : Prop :=
  c.asynchronous = true ∧ c.gp2Scale = false ∧ c.client = none ∧ c.ownClient = none ∧
    (c.method = .known .hgdl ∨ c.method = .known .mcmc ∨ c.method = .known .adam ∨ c.method = .known .bo)

/-- An objective of the user without gradient for a method that needs one and is not replaced. -/
def NoGradient (c : TrainCall) : Prop :=
  c.gp2Scale = false ∧ c.userObjective = true ∧ c.userGradient = false ∧ (c.method = .known .localOpt ∨ c.method = .known .hgdl)

/-- **C118** (rejections). A call is rejected exactly when an asynchronous run has no client or an objective of the user has no
gradient for `local` or `hgdl`. -/
theorem C118_rejects (c : TrainCall) : (∃ e, resolveTrain c = .error e) ↔ NoClient c ∨ NoGradient c := by
  obtain ⟨g, a, m, cl, oc, uo, ug, uh, un⟩ := c
  unfold resolveTrain NoClient NoGradient
  have hm : asyncMethod m = true ↔ (m = .known .hgdl ∨ m = .known .mcmc ∨ m = .known .adam ∨ m = .known .bo) := by
    cases m with
    | known k => cases k <;> simp [asyncMethod]
    | other s => simp [asyncMethod]
  simp only
  rw [← hm]
  cases g with
  | true =>
    by_cases h : m = .known .mcmc
    · subst h; cases a <;> simp [resolveMode, bind, Except.bind]
    · by_cases h2 : m = .known .bo
      · subst h2; cases a <;> simp [resolveMode, bind, Except.bind]
      · cases a <;> simp [resolveMode, bind, Except.bind, h, h2]
  | false =>
    by_cases hloc : m = .known .localOpt
    · subst hloc
      cases a <;> cases uo <;> cases ug <;> simp [resolveMode, asyncMethod, bind, Except.bind]
    · by_cases hh : m = .known .hgdl
      · subst hh
        cases a <;> cases cl <;> cases oc <;> cases uo <;> cases ug <;> simp [resolveMode, asyncMethod, bind, Except.bind]
      · cases a <;> cases hA : asyncMethod m <;> cases cl <;> cases oc <;>
          simp [resolveMode, hA, bind, Except.bind, hloc, hh]

/-! ### Objective -/

theorem resolveTrain_ok {c : TrainCall} {p : TrainPlan} (hp : resolveTrain c = .ok p) :
    ∃ a m cl, resolveMode c = .ok (a, m, cl) ∧ p =
      { asynchronous := a, method := m, client := cl,
        objective := if m = .known .mcmc then .logLik else if c.userObjective then .user else .negLogLik,
        gradient := if c.userGradient then .user else .negLogLik,
        hessian := if c.userHessian then .user else .negLogLik,
        estimatorNoise := m = .known .bo && !c.userObjective && !c.userNoise } := by
  unfold resolveTrain at hp
  cases hm : resolveMode c with
  | error e => rw [hm] at hp; simp [bind, Except.bind] at hp
  | ok r =>
    obtain ⟨a, m, cl⟩ := r
    rw [hm] at hp
    simp only [bind, Except.bind] at hp
    by_cases h : (c.userObjective && !c.userGradient && (decide (m = .known .localOpt) || decide (m = .known .hgdl))) = true
    · rw [if_pos h] at hp; cases hp
    · rw [if_neg h] at hp
      injection hp with hp
      exact ⟨a, m, cl, rfl, hp.symm⟩

/-- **C118** (objective). MCMC is given the log likelihood; every other method is given the user's objective if there is one, else
the negative log likelihood. -/
theorem C118_objective (c : TrainCall) {p : TrainPlan} (hp : resolveTrain c = .ok p) :
    (p.method = .known .mcmc → p.objective = .logLik) ∧
    (p.method ≠ .known .mcmc → c.userObjective = true → p.objective = .user) ∧
    (p.method ≠ .known .mcmc → c.userObjective = false → p.objective = .negLogLik) ∧
    (p.estimatorNoise = true ↔ p.method = .known .bo ∧ p.objective = .negLogLik ∧ c.userNoise = false) := by
  obtain ⟨a, m, cl, hm, rfl⟩ := resolveTrain_ok hp
  clear hp
  by_cases h2 : m = .known .mcmc
  · subst h2; simp
  · by_cases h3 : c.userObjective = true
    · simp [h2, h3]
    · simp only [Bool.not_eq_true] at h3
      simp [h2, h3]

section Coherence

variable {E : Type*} [NormedAddCommGroup E] [InnerProductSpace ℝ E] [CompleteSpace E]

/-- The function an objective stands for. -/
def Objective.fn (ll user : E → ℝ) : Objective → E → ℝ
  | .logLik => ll
  | .negLogLik => fun θ => -ll θ
  | .user => user

/-- The function a derivative stands for. -/
def Deriv.fn {F : Type*} (nll user : E → F) : Deriv → E → F
  | .negLogLik => nll
  | .user => user

/-- **C118** (gradient, part). If the gradient of the negative log likelihood and, where given, the user's gradient are gradients, then
the gradient handed to the optimizer is that of its objective, provided the user gave objective and gradient or neither. -/
theorem C118_gradient_partial (c : TrainCall) {p : TrainPlan} (hp : resolveTrain c = .ok p) (hb : c.userObjective = c.userGradient)
    (hu : usesGradient p.method = true) (ll user : E → ℝ) (gradNll gradUser : E → E) (θ : E)
    (h1 : HasGradientAt (fun θ => -ll θ) (gradNll θ) θ) (h2 : HasGradientAt user (gradUser θ) θ) :
    HasGradientAt (p.objective.fn ll user) (p.gradient.fn gradNll gradUser θ) θ := by
  obtain ⟨a, m, cl, hm, rfl⟩ := resolveTrain_ok hp
  clear hp
  simp only at hu ⊢
  have hne : m ≠ .known .mcmc := by rintro rfl; simp [usesGradient] at hu
  rw [if_neg hne]
  cases hg : c.userGradient with
  | true =>
    rw [hg] at hb
    simpa [hb, Objective.fn, Deriv.fn] using h2
  | false =>
    rw [hg] at hb
    simpa [hb, Objective.fn, Deriv.fn] using h1

/-- **C118** (Hessian, part). Same for the Hessian, as derivative of the gradient. -/
theorem C118_hessian_partial (c : TrainCall) {p : TrainPlan} (hp : resolveTrain c = .ok p) (hb : c.userGradient = c.userHessian)
    (gradNll gradUser : E → E) (hessNll hessUser : E → E →L[ℝ] E) (θ : E)
    (h1 : HasFDerivAt gradNll (hessNll θ) θ) (h2 : HasFDerivAt gradUser (hessUser θ) θ) :
    HasFDerivAt (p.gradient.fn gradNll gradUser) (p.hessian.fn hessNll hessUser θ) θ := by
  obtain ⟨a, m, cl, hm, rfl⟩ := resolveTrain_ok hp
  clear hp
  simp only
  cases hg : c.userHessian with
  | true => rw [hg] at hb; simpa [hb, Deriv.fn] using h2
  | false => rw [hg] at hb; simpa [hb, Deriv.fn] using h1

end Coherence

/-- **C118** is violated by `method="adam"` with an objective of the user and no gradient: the call is accepted and Adam is handed
the user's objective with the gradient of the negative log likelihood. -/
theorem C118_gradient_violated (c : TrainCall) (hg : c.gp2Scale = false) (hm : c.method = .known .adam) (ha : c.asynchronous = false)
    (ho : c.userObjective = true) (hn : c.userGradient = false) :
    ∃ p, resolveTrain c = .ok p ∧ usesGradient p.method = true ∧
      ∃ (ll user : ℝ → ℝ) (gradNll : ℝ → ℝ), (∀ θ, HasGradientAt (fun θ => -ll θ) (gradNll θ) θ) ∧
        ∀ gradUser θ, ¬ HasGradientAt (p.objective.fn ll user) (p.gradient.fn gradNll gradUser θ) θ := by
  cases hp : resolveTrain c with
  | error e =>
    rcases (C118_rejects c).1 ⟨e, hp⟩ with h | h
    · rw [h.1] at ha; cases ha
    · rcases h.2.2.2 with h | h <;> rw [hm] at h <;> cases h
  | ok p =>
    have hmeth : p.method = .known .adam := ((C118_async c hp).2.2 hg).trans hm
    refine ⟨p, rfl, by rw [hmeth]; rfl, fun θ => θ, fun θ => θ, fun _ => -1, fun θ => ?_, fun gradUser θ h => ?_⟩
    · exact HasDerivAt.hasGradientAt' (hasDerivAt_neg θ)
    · have hob : p.objective = .user := (C118_objective c hp).2.1 (by rw [hmeth]; simp) ho
      obtain ⟨a, m, cl, -, hpe⟩ := resolveTrain_ok hp
      have hgr : p.gradient = .negLogLik := by rw [hpe]; simp [hn]
      rw [hob, hgr] at h
      have h1 := HasGradientAt.hasDerivAt' h
      have h2 := h1.unique (hasDerivAt_id θ)
      norm_num [Deriv.fn] at h2

/-- What Adam returns depends on the gradient only: in the case of `C118_gradient_violated` the user's objective has no influence on
the trained hyperparameters. -/
theorem adam_ignores_objective {d : ℕ} (c : AdamCfg) (f f' : (Fin d → ℝ) → ℝ) (g : (Fin d → ℝ) → Fin d → ℝ) (stop : ℕ → Bool)
    (maxIter : ℕ) (θ : Fin d → ℝ) : (adamOptimize c f g stop maxIter θ).1 = (adamOptimize c f' g stop maxIter θ).1 := by
  have key : ∀ fuel t θ m v (h h' : AdamHist d), (adamLoop c f g stop fuel t θ m v h).1 = (adamLoop c f' g stop fuel t θ m v h').1 := by
    intro fuel
    induction fuel with
    | zero => intros; rfl
    | succ k ih =>
      intro t θ m v h h'
      simp only [adamLoop]
      split_ifs
      · rfl
      · exact ih _ _ _ _ _ _
  exact key _ _ _ _ _ _ _

/-- **C118** is violated by `local` and `hgdl` with objective and gradient of the user and no Hessian: the optimizer is handed the
Hessian of the negative log likelihood. -/
theorem C118_hessian_violated (c : TrainCall) (hg : c.gp2Scale = false) (hm : c.method = .known .localOpt ∨ c.method = .known .hgdl)
    (ha : c.asynchronous = false) (ho : c.userGradient = true) (hn : c.userHessian = false) :
    ∃ p, resolveTrain c = .ok p ∧ usesHessian p.method = true ∧
      ∃ (gradNll gradUser : ℝ → ℝ) (hessNll : ℝ → ℝ →L[ℝ] ℝ), (∀ θ, HasFDerivAt gradNll (hessNll θ) θ) ∧
        ∀ hessUser θ, ¬ HasFDerivAt (p.gradient.fn gradNll gradUser) (p.hessian.fn hessNll hessUser θ) θ := by
  cases hp : resolveTrain c with
  | error e =>
    rcases (C118_rejects c).1 ⟨e, hp⟩ with h | h
    · rw [h.1] at ha; cases ha
    · rw [h.2.2.1] at ho; cases ho
  | ok p =>
    have hmeth : p.method = c.method := (C118_async c hp).2.2 hg
    refine ⟨p, rfl, ?_, fun _ => 0, fun θ => θ, fun _ => 0, fun θ => hasFDerivAt_const 0 θ, fun hessUser θ h => ?_⟩
    · rw [hmeth]; rcases hm with h | h <;> rw [h] <;> rfl
    · obtain ⟨a, m, cl, -, hpe⟩ := resolveTrain_ok hp
      have h1 : p.gradient = .user := by rw [hpe]; simp [ho]
      have h2 : p.hessian = .negLogLik := by rw [hpe]; simp [hn]
      rw [h1, h2] at h
      have h3 := h.unique (hasFDerivAt_id θ)
      have h4 := congrArg (fun L : ℝ →L[ℝ] ℝ => L 1) h3
      simp [Deriv.fn] at h4

/-- **C118** (result). What a synchronous run hands to the GP is the vector its optimizer returned; anything else raises, and so
does a method that does not exist. -/
theorem C118_result (m : MethodArg) (r : Except String Entry) (v : List ℝ) :
    trainerResult m r = .ok v ↔ (∃ k, m = .known k) ∧ r = .ok (.vector v) := by
  cases m with
  | other s => simp [trainerResult]
  | known k =>
    cases r with
    | error e => simp [trainerResult, bind, Except.bind]
    | ok e => cases e <;> simp [trainerResult, bind, Except.bind]

/-! ### Examples -/

/-- An asynchronous MCMC run on the client of the GP, with an objective that is ignored. -/
example : resolveTrain ⟨false, true, .known .mcmc, none, some 7, true, false, false, false⟩
    = .ok ⟨true, .known .mcmc, some 7, .logLik, .negLogLik, .negLogLik, false⟩ := rfl

/-- Asynchronous global search with gp2Scale becomes synchronous MCMC. -/
example : resolveTrain ⟨true, true, .known .global, none, none, false, false, false, false⟩
    = .ok ⟨false, .known .mcmc, none, .logLik, .negLogLik, .negLogLik, false⟩ := rfl

example : NoGradient ⟨false, false, .known .localOpt, none, none, true, false, false, false⟩ :=
  ⟨rfl, rfl, rfl, .inl rfl⟩

/-- Gradients of an objective of the user are used. -/
example (θ : ℝ) : HasGradientAt (Objective.fn (fun θ : ℝ => θ) (fun θ => θ ^ 2) .user) (2 * θ) θ := by
  have h := C118_gradient_partial (E := ℝ) ⟨false, false, .known .adam, none, none, true, true, false, false⟩ rfl rfl rfl (fun θ => θ)
    (fun θ => θ ^ 2) (fun _ => -1) (fun θ => 2 * θ) θ (HasDerivAt.hasGradientAt' (hasDerivAt_neg θ))
    (HasDerivAt.hasGradientAt' (by simpa using hasDerivAt_pow 2 θ))
  exact h

end Verif.Train
