import Verif.GP.FdModel
import Verif.GP.GradProps
import Mathlib.Analysis.Calculus.MeanValue
import Mathlib.Analysis.Calculus.Deriv.Pow

/-! Property C124: the derivatives used when none are supplied. -/

namespace Verif.GP

open Finset Verif.LinAlg Matrix

variable {α : Type} {p : ℕ}

/-! ## Errors of finite differences -/

/-- Specification: within `e` of `x`, the function has three derivatives and the third one is bounded by `M`. -/
def Smooth3 (f : ℝ → ℝ) (x e M : ℝ) : Prop :=
  ∃ f1 f2 f3 : ℝ → ℝ, ∀ s, |s - x| ≤ e → HasDerivAt f (f1 s) s ∧ HasDerivAt f1 (f2 s) s ∧ HasDerivAt f2 (f3 s) s ∧ |f3 s| ≤ M

/-- Specification: from `x` to `x + e`, the function has two derivatives and the second one is bounded by `M`. -/
def Smooth2 (f : ℝ → ℝ) (x e M : ℝ) : Prop :=
  ∃ f1 f2 : ℝ → ℝ, ∀ s, x ≤ s → s ≤ x + e → HasDerivAt f (f1 s) s ∧ HasDerivAt f1 (f2 s) s ∧ |f2 s| ≤ M

/-- A function that starts at zero is bounded by the bound of its derivative, integrated. -/
theorem growth {f f' B B' : ℝ → ℝ} {e : ℝ} (hf : ∀ s, 0 ≤ s → s ≤ e → HasDerivAt f (f' s) s) (h0 : f 0 = 0) (hB0 : B 0 = 0)
    (hB : ∀ s, HasDerivAt B (B' s) s) (hb : ∀ s, 0 ≤ s → s ≤ e → |f' s| ≤ B' s) : ∀ s, 0 ≤ s → s ≤ e → |f s| ≤ B s := by
  intro s h1 h2
  have := image_norm_le_of_norm_deriv_right_le_deriv_boundary (f := f) (f' := f') (a := 0) (b := e) (B := B) (B' := B')
    (fun x hx => (hf x hx.1 hx.2).continuousAt.continuousWithinAt)
    (fun x hx => (hf x hx.1 hx.2.le).hasDerivWithinAt) (by rw [h0, hB0]; simp) hB
    (fun x hx => by rw [Real.norm_eq_abs]; exact hb x hx.1 hx.2.le) ⟨h1, h2⟩
  rwa [Real.norm_eq_abs] at this

theorem hasDerivAt_monomial (c : ℝ) (n : ℕ) (s : ℝ) : HasDerivAt (fun s : ℝ => c * s ^ (n + 1)) (c * ((n + 1 : ℕ) * s ^ n)) s := by
  simpa using (hasDerivAt_pow (n + 1) s).const_mul c

/-- A central difference is off by at most `M e² / 6`. -/
theorem Smooth3.central {f : ℝ → ℝ} {x e M : ℝ} (he : 0 < e) (h : Smooth3 f x e M) :
    HasDerivAt f (deriv f x) x ∧ |(f (x + e) - f (x - e)) / (2 * e) - deriv f x| ≤ M * e ^ 2 / 6 := by
  obtain ⟨f1, f2, f3, H⟩ := h
  have hx : HasDerivAt f (f1 x) x := (H x (by simp [he.le])).1
  refine ⟨hx.differentiableAt.hasDerivAt, ?_⟩
  rw [hx.deriv]
  have inP : ∀ s, 0 ≤ s → s ≤ e → |x + s - x| ≤ e := fun s h0 h1 => by rw [add_sub_cancel_left, abs_of_nonneg h0]; exact h1
  have inM : ∀ s, 0 ≤ s → s ≤ e → |x - s - x| ≤ e := fun s h0 h1 => by
    rw [sub_sub_cancel_left, abs_neg, abs_of_nonneg h0]; exact h1
  have plus : ∀ {g g' : ℝ → ℝ} {s : ℝ}, HasDerivAt g (g' (x + s)) (x + s) → HasDerivAt (fun s => g (x + s)) (g' (x + s)) s :=
    fun hg => hg.comp_const_add x _
  have minus : ∀ {g g' : ℝ → ℝ} {s : ℝ}, HasDerivAt g (g' (x - s)) (x - s) → HasDerivAt (fun s => g (x - s)) (-g' (x - s)) s :=
    fun hg => hg.comp_const_sub x _
  have b2 := growth (f := fun s => f2 (x + s) - f2 (x - s)) (f' := fun s => f3 (x + s) - -f3 (x - s))
    (B := fun s => 2 * M * s ^ (0 + 1)) (B' := fun s => 2 * M * ((0 + 1 : ℕ) * s ^ 0)) (e := e)
    (fun s h0 h1 => (plus (H _ (inP s h0 h1)).2.2.1).sub (minus (H _ (inM s h0 h1)).2.2.1))
    (by simp) (by simp) (hasDerivAt_monomial _ 0)
    (fun s h0 h1 => by
      have a1 := abs_le.1 (H _ (inP s h0 h1)).2.2.2
      have a2 := abs_le.1 (H _ (inM s h0 h1)).2.2.2
      simp only [zero_add, Nat.cast_one, pow_zero, mul_one]
      exact abs_le.2 ⟨by linarith [a1.1, a2.1], by linarith [a1.2, a2.2]⟩)
  have b1 := growth (f := fun s => f1 (x + s) + f1 (x - s) - 2 * f1 x) (f' := fun s => f2 (x + s) + -f2 (x - s))
    (B := fun s => M * s ^ (1 + 1)) (B' := fun s => M * ((1 + 1 : ℕ) * s ^ 1)) (e := e)
    (fun s h0 h1 => ((plus (H _ (inP s h0 h1)).2.1).add (minus (H _ (inM s h0 h1)).2.1)).sub_const _)
    (by simp; ring) (by simp) (hasDerivAt_monomial _ 1)
    (fun s h0 h1 => by
      have := b2 s h0 h1
      rw [← sub_eq_add_neg]
      refine this.trans (le_of_eq ?_)
      push_cast
      ring)
  have b0 := growth (f := fun s => f (x + s) - f (x - s) - 2 * f1 x * s ^ (0 + 1))
    (f' := fun s => f1 (x + s) - -f1 (x - s) - 2 * f1 x * ((0 + 1 : ℕ) * s ^ 0))
    (B := fun s => M / 3 * s ^ (2 + 1)) (B' := fun s => M / 3 * ((2 + 1 : ℕ) * s ^ 2)) (e := e)
    (fun s h0 h1 => ((plus (H _ (inP s h0 h1)).1).sub (minus (H _ (inM s h0 h1)).1)).sub (hasDerivAt_monomial _ 0 s))
    (by simp) (by simp) (hasDerivAt_monomial _ 2)
    (fun s h0 h1 => by
      have := b1 s h0 h1
      simp only [sub_neg_eq_add, zero_add, Nat.cast_one, pow_zero, mul_one]
      refine this.trans (le_of_eq ?_)
      push_cast
      ring) e he.le le_rfl
  have e1 : (f (x + e) - f (x - e)) / (2 * e) - f1 x = (f (x + e) - f (x - e) - 2 * f1 x * e ^ (0 + 1)) / (2 * e) := by
    field_simp
    ring
  rw [e1, abs_div, abs_of_pos (by positivity : (0 : ℝ) < 2 * e), div_le_iff₀ (by positivity)]
  refine b0.trans (le_of_eq ?_)
  ring

/-- A forward difference is off by at most `M e / 2`. -/
theorem Smooth2.forward {f : ℝ → ℝ} {x e M : ℝ} (he : 0 < e) (h : Smooth2 f x e M) :
    HasDerivAt f (deriv f x) x ∧ |(f (x + e) - f x) / e - deriv f x| ≤ M * e / 2 := by
  obtain ⟨f1, f2, H⟩ := h
  have hx : HasDerivAt f (f1 x) x := (H x le_rfl (by linarith)).1
  refine ⟨hx.differentiableAt.hasDerivAt, ?_⟩
  rw [hx.deriv]
  have b1 := growth (f := fun s => f1 (x + s) - f1 x) (f' := fun s => f2 (x + s))
    (B := fun s => M * s ^ (0 + 1)) (B' := fun s => M * ((0 + 1 : ℕ) * s ^ 0)) (e := e)
    (fun s h0 h1 => ((H (x + s) (by linarith) (by linarith)).2.1.comp_const_add x s).sub_const _)
    (by simp) (by simp) (hasDerivAt_monomial _ 0)
    (fun s h0 h1 => by simpa using (H (x + s) (by linarith) (by linarith)).2.2)
  have b0 := growth (f := fun s => f (x + s) - f x - f1 x * s ^ (0 + 1)) (f' := fun s => f1 (x + s) - f1 x * ((0 + 1 : ℕ) * s ^ 0))
    (B := fun s => M / 2 * s ^ (1 + 1)) (B' := fun s => M / 2 * ((1 + 1 : ℕ) * s ^ 1)) (e := e)
    (fun s h0 h1 => (((H (x + s) (by linarith) (by linarith)).1.comp_const_add x s).sub_const _).sub (hasDerivAt_monomial _ 0 s))
    (by simp) (by simp) (hasDerivAt_monomial _ 1)
    (fun s h0 h1 => by
      have := b1 s h0 h1
      simp only [zero_add, Nat.cast_one, pow_zero, mul_one]
      refine this.trans (le_of_eq ?_)
      push_cast
      ring) e he.le le_rfl
  have e1 : (f (x + e) - f x) / e - f1 x = (f (x + e) - f x - f1 x * e ^ (0 + 1)) / e := by
    field_simp
    ring
  rw [e1, abs_div, abs_of_pos he, div_le_iff₀ he]
  refine b0.trans (le_of_eq ?_)
  ring

/-! ## C124: finite differences -/

/-- Specification: two noise arrays of the same kind, both of the size of the data and not stored sparse. -/
def SameForm (n : ℕ) (a b : Noise) : Prop :=
  (∃ u v, a = .diag n u ∧ b = .diag n v) ∨ ∃ U V, a = .dense n n U ∧ b = .dense n n V

theorem noiseDiff_mat {n : ℕ} {a b : Noise} (h : SameForm n a b) :
    (match noiseDiff a b with
      | .diag len _ => len = n
      | .dense r c _ => r = n ∧ c = n
      | .sparse _ _ _ => False) ∧
    ∀ k l : Fin n, (noiseDiff a b).mat n k l = (a.mat n k l - b.mat n k l) / 2e-6 := by
  rcases h with ⟨u, v, rfl, rfl⟩ | ⟨U, V, rfl, rfl⟩
  · refine ⟨by simp [noiseDiff], fun k l => ?_⟩
    simp only [noiseDiff, if_true, Noise.mat, Matrix.diagonal_apply]
    split_ifs <;> simp
  · exact ⟨by simp [noiseDiff], fun k l => by simp [noiseDiff, Noise.mat]⟩

theorem central8 {f : ℝ → ℝ} {x M : ℝ} (h : Smooth3 f x 1e-8 M) :
    |(f (x + 1e-8) - f (x - 1e-8)) / (2 * 1e-8) - deriv f x| ≤ M * 1e-16 / 6 :=
  (h.central (by norm_num)).2.trans (le_of_eq (by norm_num))

theorem central6 {f : ℝ → ℝ} {x M : ℝ} (h : Smooth3 f x 1e-6 M) :
    |(f (x + 1e-6) - f (x - 1e-6)) / 2e-6 - deriv f x| ≤ M * 1e-12 / 6 := by
  have := (h.central (by norm_num)).2.trans (le_of_eq (show M * (1e-6 : ℝ) ^ 2 / 6 = M * 1e-12 / 6 by norm_num))
  rwa [show (2 * 1e-6 : ℝ) = 2e-6 by norm_num] at this

/-- **C124** (the differences themselves). Kernel, mean and noise derivatives taken by default are off by at most `1e-16/6` (kernel) and
`1e-12/6` (mean, noise) times the bound of the third derivative along the hyperparameter. -/
theorem C124_differences (h : Fin p → ℝ) (i : Fin p) (M : ℝ) :
    (∀ (k : (Fin p → ℝ) → α → α → ℝ) (a b : α), Smooth3 (fun t => k (Function.update h i t) a b) (h i) 1e-8 M →
      |dKernelDh k h i a b - deriv (fun t => k (Function.update h i t) a b) (h i)| ≤ M * 1e-16 / 6) ∧
    (∀ (m : (Fin p → ℝ) → α → ℝ) (a : α), Smooth3 (fun t => m (Function.update h i t) a) (h i) 1e-6 M →
      |finiteDiffDm m h i a - deriv (fun t => m (Function.update h i t) a) (h i)| ≤ M * 1e-12 / 6) ∧
    ∀ (F : (Fin p → ℝ) → List α → Noise) (xs : List α) (n : ℕ),
      SameForm n (F (Function.update h i (h i + 1e-6)) xs) (F (Function.update h i (h i - 1e-6)) xs) → ∀ a b : Fin n,
      Smooth3 (fun t => (F (Function.update h i t) xs).mat n a b) (h i) 1e-6 M →
      |(finiteDiffDnoise F h i xs).mat n a b - deriv (fun t => (F (Function.update h i t) xs).mat n a b) (h i)| ≤ M * 1e-12 / 6 := by
  refine ⟨fun k a b hs => central8 hs, fun m a hs => central6 hs, fun F xs n hf a b hs => ?_⟩
  rw [finiteDiffDnoise, (noiseDiff_mat hf).2]
  exact central6 hs

/-- **C124** (quadratic dependence). For functions that are at most quadratic in a hyperparameter (a signal variance, an amplitude, a linear
mean) the differences are exact. -/
theorem C124_exact (h : Fin p → ℝ) (i : Fin p) (f : (Fin p → ℝ) → ℝ) (q0 q1 q2 : ℝ)
    (hf : ∀ t, f (Function.update h i t) = q0 + q1 * t + q2 * t ^ 2) (e : ℝ) (he : e ≠ 0) :
    centralDiff e f h i = q1 + 2 * q2 * h i ∧ HasDerivAt (fun t => f (Function.update h i t)) (centralDiff e f h i) (h i) := by
  have e1 : centralDiff e f h i = q1 + 2 * q2 * h i := by
    rw [centralDiff, hf, hf]
    field_simp
    ring
  refine ⟨e1, ?_⟩
  rw [e1]
  simp only [hf]
  have := (((hasDerivAt_id (h i)).const_mul q1).const_add q0).add ((hasDerivAt_pow 2 (h i)).const_mul q2)
  simp only [id_eq, mul_one, Nat.cast_ofNat, Nat.add_one_sub_one, pow_one] at this
  exact this.congr_deriv (by ring)

/-- The kernel `σ² k(a, b)` of a signal standard deviation. -/
example (k : ℝ → ℝ → ℝ) (a b : ℝ) :
    dKernelDh (p := 1) (fun h a b => h 0 ^ 2 * k a b) (fun _ => 3) 0 a b = 6 * k a b := by
  have := (C124_exact (p := 1) (fun _ => 3) 0 (fun h => h 0 ^ 2 * k a b) 0 0 (k a b)
    (fun t => by simp only [Function.update_self]; ring) 1e-8 (by norm_num)).1
  rw [dKernelDh, this]
  ring

/-- **C124** is violated at the bounds: the differences evaluate the user's functions outside of the bounds. A kernel or noise function that is
a number everywhere in `[0, 1]` (a square root, say) has derivative NaN at the lower bound, although it is differentiable from the right there. -/
theorem C124_bounds_violated (e : ℝ) (he : 0 < e) : ∃ f : (Fin 1 → ℝ) → Option ℝ,
    (∀ h, 0 ≤ h 0 → f h = some (h 0 ^ 2)) ∧ centralDiffNaN e f (fun _ => 0) 0 = none := by
  classical
  refine ⟨fun h => if 0 ≤ h 0 then some (h 0 ^ 2) else none, fun h hh => if_pos hh, ?_⟩
  have h2 : ¬ (0 : ℝ) ≤ 0 - e := by linarith
  simp [centralDiffNaN, he.le, he]

/-- Away from the bounds all evaluations are inside. -/
theorem C124_inside_partial (e : ℝ) (he : 0 ≤ e) (f : (Fin p → ℝ) → Option ℝ) (F : (Fin p → ℝ) → ℝ) (lo hi h : Fin p → ℝ)
    (hf : ∀ h, (∀ k, lo k ≤ h k ∧ h k ≤ hi k) → f h = some (F h)) (hh : ∀ k, lo k ≤ h k ∧ h k ≤ hi k) (i : Fin p)
    (h1 : lo i ≤ h i - e) (h2 : h i + e ≤ hi i) : centralDiffNaN e f h i = some (centralDiff e F h i) := by
  have in1 : ∀ t, lo i ≤ t → t ≤ hi i → f (Function.update h i t) = some (F (Function.update h i t)) := by
    intro t a b
    apply hf
    intro k
    by_cases hk : k = i
    · subst hk; rw [Function.update_self]; exact ⟨a, b⟩
    · rw [Function.update_of_ne hk]; exact hh k
  simp only [centralDiffNaN, in1 (h i + e) (by linarith [(hh i).1]) h2, in1 (h i - e) h1 (by linarith [(hh i).2])]
  rfl

/-- A square root away from its lower bound. -/
example : centralDiffNaN 1e-8 (fun h : Fin 1 → ℝ => some (Real.sqrt (h 0))) (fun _ => 1) 0
    = some (centralDiff 1e-8 (fun h : Fin 1 → ℝ => Real.sqrt (h 0)) (fun _ => 1) 0) :=
  C124_inside_partial 1e-8 (by norm_num) _ _ (fun _ => 0) (fun _ => 2) _ (fun _ _ => rfl) (by norm_num) 0 (by norm_num) (by norm_num)

/-! ## C124: which derivatives are used -/

/-- A derivative function tailored, as documented, to a value of `ram_economy`. -/
def GradFn.Tailored {β : Type} (economy : Bool) : GradFn p β → Prop
  | .all _ => economy = false
  | .one _ => economy = true

/-- The values of a derivative function, however they are called for. -/
def GradFn.val {β : Type} : GradFn p β → (Fin p → ℝ) → Fin p → β
  | .all f => f
  | .one f => f

theorem GradFn.call_tailored {β : Type} {e : Bool} {g : GradFn p β} (h : g.Tailored e) : g.call e = .ok g.val := by
  cases g <;> cases e <;> simp_all [GradFn.Tailored, GradFn.call, GradFn.val]

/-- **C124** (selection). With a kernel function, and derivative functions tailored to `ram_economy`, the gradient uses: the supplied derivatives
where supplied; finite differences where only the function was supplied; zeros for default mean and noise. This holds for both values of
`ram_economy`, which therefore makes no difference to the derivatives. -/
theorem C124_selection (c : Config α (Fin p → ℝ)) (s : Supplied α p) (hk : s.kernelGiven = true)
    (h1 : ∀ g, s.kernelGrad = some g → g.Tailored s.ramEconomy) (h2 : ∀ g, s.noiseGrad = some g → g.Tailored s.ramEconomy) :
    ∃ g, s.grads c = .ok g ∧
      (∀ f, s.kernelGrad = some f → g.dk = f.val) ∧ (s.kernelGrad = none → g.dk = dKernelDh c.kernel) ∧
      (∀ f, s.noiseGrad = some f → g.dV = f.val) ∧
      (s.noiseGrad = none → ∀ F, c.noise = .user F → g.dV = finiteDiffDnoise F) ∧
      (s.noiseGrad = none → c.noise = .measured ∨ c.noise = .default → ∀ h i xs, g.dV h i xs = .diag xs.length fun _ => 0) ∧
      (∀ f, s.meanGrad = some f → g.dm = f) ∧
      (s.meanGrad = none → ∀ f, c.mean = some f → g.dm = finiteDiffDm f) ∧
      (s.meanGrad = none → c.mean = none → ∀ h i a, g.dm h i a = 0) := by
  obtain ⟨kg, an, kG, nG, mG, ram⟩ := s
  simp only at hk h1 h2
  subst hk
  have he : (Supplied.mk true an kG nG mG ram : Supplied α p).economy = ram := by simp [Supplied.economy]
  have hdk : ∃ dk, ((Supplied.mk true an kG nG mG ram : Supplied α p).dk c).call ram = .ok dk ∧
      (∀ f, kG = some f → dk = f.val) ∧ (kG = none → dk = dKernelDh c.kernel) := by
    cases kG with
    | some g => exact ⟨_, GradFn.call_tailored (h1 g rfl), fun f hf => by cases hf; rfl, by simp⟩
    | none =>
      refine ⟨dKernelDh c.kernel, ?_, by simp, fun _ => rfl⟩
      cases ram <;> simp [Supplied.dk, GradFn.call]
  have hdV : ∃ dV, ((Supplied.mk true an kG nG mG ram : Supplied α p).dV c).call ram = .ok dV ∧
      (∀ f, nG = some f → dV = f.val) ∧ (nG = none → ∀ F, c.noise = .user F → dV = finiteDiffDnoise F) ∧
      (nG = none → c.noise = .measured ∨ c.noise = .default → ∀ h i xs, dV h i xs = .diag xs.length fun _ => 0) := by
    cases nG with
    | some g => exact ⟨_, GradFn.call_tailored (h2 g rfl), fun f hf => by cases hf; rfl, by simp, by simp⟩
    | none =>
      cases hn : c.noise with
      | user F =>
        refine ⟨finiteDiffDnoise F, ?_, by simp, fun _ F' hF => by rw [NoiseSpec.user.inj hF], fun _ h => by simp at h⟩
        simp only [Supplied.dV, hn, he]
        cases ram <;> simp [GradFn.call]
      | measured =>
        refine ⟨fun _ _ xs => .diag xs.length fun _ => 0, ?_, by simp, fun _ F' hF => by simp at hF, fun _ _ _ _ _ => rfl⟩
        simp only [Supplied.dV, hn, he]
        cases ram <;> simp [GradFn.call]
      | default =>
        refine ⟨fun _ _ xs => .diag xs.length fun _ => 0, ?_, by simp, fun _ F' hF => by simp at hF, fun _ _ _ _ _ => rfl⟩
        simp only [Supplied.dV, hn, he]
        cases ram <;> simp [GradFn.call]
  obtain ⟨dk, k1, k2, k3⟩ := hdk
  obtain ⟨dV, v1, v2, v3, v4⟩ := hdV
  refine ⟨⟨dk, dV, (Supplied.mk true an kG nG mG ram : Supplied α p).dm c⟩, ?_, k2, k3, v2, v3, v4, ?_, ?_, ?_⟩
  · simp only [Supplied.grads, he, k1, v1, bind, Except.bind]
  · intro f hf
    simp only at hf
    simp [Supplied.dm, hf]
  · intro hm f hf
    simp only at hm
    simp [Supplied.dm, hm, hf]
  · intro hm hf h i a
    simp only at hm
    simp [Supplied.dm, hm, hf]

/-- **C124** (selection, default kernel). Without kernel function `ram_economy` is turned off and the analytical derivative is used, with a
noise derivative for all hyperparameters at once. -/
theorem C124_default_kernel_partial (c : Config α (Fin p → ℝ)) (s : Supplied α p) (hk : s.kernelGiven = false) (hg : s.kernelGrad = none)
    (h2 : ∀ g, s.noiseGrad = some g → g.Tailored false) :
    ∃ g, s.grads c = .ok g ∧ s.economy = false ∧ g.dk = s.analytic ∧ ∀ f, s.noiseGrad = some f → g.dV = f.val := by
  have he : s.economy = false := by simp [Supplied.economy, hk, hg]
  have hdk : (s.dk c).call false = .ok s.analytic := by simp [Supplied.dk, hg, hk, GradFn.call]
  have hdV : ∃ dV, (s.dV c).call false = .ok dV ∧ ∀ f, s.noiseGrad = some f → dV = f.val := by
    cases hn : s.noiseGrad with
    | some g =>
      refine ⟨g.val, ?_, fun f hf => by cases hf; rfl⟩
      have : s.dV c = g := by simp [Supplied.dV, hn]
      rw [this]
      exact GradFn.call_tailored (h2 g hn)
    | none =>
      cases hc : c.noise with
      | user F => exact ⟨finiteDiffDnoise F, by simp [Supplied.dV, hn, hc, he, GradFn.call], by simp⟩
      | measured => exact ⟨fun _ _ xs => .diag xs.length fun _ => 0, by simp [Supplied.dV, hn, hc, he, GradFn.call], by simp⟩
      | default => exact ⟨fun _ _ xs => .diag xs.length fun _ => 0, by simp [Supplied.dV, hn, hc, he, GradFn.call], by simp⟩
  obtain ⟨dV, v1, v2⟩ := hdV
  exact ⟨⟨s.analytic, dV, s.dm c⟩, by simp only [Supplied.grads, he, hdk, v1, bind, Except.bind], he, rfl, v2⟩

/-- **C124** is violated for the default kernel with `ram_economy=True`: the constructor turns `ram_economy` off, after which a noise derivative written,
as documented, for `ram_economy=True` makes every gradient fail. -/
theorem C124_economy_violated (an : (Fin p → ℝ) → Fin p → α → α → ℝ) (f : (Fin p → ℝ) → Fin p → List α → Noise)
    (mG : Option ((Fin p → ℝ) → Fin p → α → ℝ)) (gp : GP α (Fin p → ℝ))
    (lstsq : {n m : Type} → Matrix n n ℝ → Matrix n m ℝ → Matrix n m ℝ) (h : Option (Fin p → ℝ)) (j : ℕ) :
    (GradFn.one f).Tailored true ∧ ∃ e, gradientOf gp ⟨false, an, none, some (.one f), mG, true⟩ lstsq h j = .error e := by
  refine ⟨rfl, "The gradient evaluation dK/dh + dNoise/dh was not successful.", ?_⟩
  simp only [gradientOf, Supplied.grads, Supplied.dk, Supplied.dV, Supplied.economy, Option.isNone_none, Bool.not_false, Bool.and_self, if_true,
    GradFn.call, bind, Except.bind]

/-- A user kernel with everything else left to the default, in both modes. -/
example (c : Config α (Fin p → ℝ)) (an : (Fin p → ℝ) → Fin p → α → α → ℝ) (e : Bool) :
    ∃ g, (Supplied.mk true an none none none e).grads c = .ok g ∧ g.dk = dKernelDh c.kernel := by
  obtain ⟨g, h1, -, h2, -⟩ := C124_selection c (Supplied.mk true an none none none e) rfl (by simp) (by simp)
  exact ⟨g, h1, h2 rfl⟩

/-! ## C124: the gradient of the likelihood -/

/-- The part of the gradient that is linear in the derivative of `K + V`, averaged over the columns. -/
theorem kernelPart_eq {n m : ℕ} (hm : 1 ≤ m) (b : ℕ → Fin n → ℝ) (Ai D : Matrix (Fin n) (Fin n) ℝ) :
    (∑ j ∈ range m, -(1 / 2) * (b j ⬝ᵥ D *ᵥ b j - (Ai * D).trace)) / m
      = -(1 / 2) * ∑ k, ∑ l, ((∑ j ∈ range m, b j k * b j l) / m - Ai k l) * D l k := by
  have hm' : (m : ℝ) ≠ 0 := by positivity
  have e1 : ∀ j, b j ⬝ᵥ D *ᵥ b j = ∑ k, ∑ l, b j k * b j l * D l k := by
    intro j
    rw [Finset.sum_comm]
    simp only [dotProduct, Matrix.mulVec, Finset.mul_sum]
    exact Finset.sum_congr rfl fun i _ => Finset.sum_congr rfl fun k _ => by ring
  have e2 : (Ai * D).trace = ∑ k, ∑ l, Ai k l * D l k := by
    simp only [Matrix.trace, Matrix.diag_apply, Matrix.mul_apply]
  rw [← Finset.mul_sum, Finset.sum_sub_distrib, Finset.sum_const, card_range, nsmul_eq_mul, mul_div_assoc, sub_div,
    mul_div_cancel_left₀ _ hm', e2]
  congr 1
  rw [Finset.sum_congr rfl fun j _ => e1 j, Finset.sum_comm, Finset.sum_div, ← Finset.sum_sub_distrib]
  refine Finset.sum_congr rfl fun k _ => ?_
  rw [Finset.sum_comm, Finset.sum_div, ← Finset.sum_sub_distrib]
  refine Finset.sum_congr rfl fun l _ => ?_
  rw [← Finset.sum_mul]
  ring

theorem kernelPart_le {n m : ℕ} (hm : 1 ≤ m) (b : ℕ → Fin n → ℝ) (Ai D D0 : Matrix (Fin n) (Fin n) ℝ) (E : ℝ)
    (hE : ∀ k l, |D k l - D0 k l| ≤ E) :
    |(∑ j ∈ range m, -(1 / 2) * (b j ⬝ᵥ D *ᵥ b j - (Ai * D).trace)) / m
        - (∑ j ∈ range m, -(1 / 2) * (b j ⬝ᵥ D0 *ᵥ b j - (Ai * D0).trace)) / m|
      ≤ 1 / 2 * ∑ k, ∑ l, |(∑ j ∈ range m, b j k * b j l) / m - Ai k l| * E := by
  rw [kernelPart_eq hm, kernelPart_eq hm, ← mul_sub, abs_mul, abs_neg, abs_of_pos (by norm_num : (0 : ℝ) < 1 / 2)]
  refine mul_le_mul_of_nonneg_left ?_ (by norm_num)
  rw [← Finset.sum_sub_distrib]
  refine (Finset.abs_sum_le_sum_abs _ _).trans (Finset.sum_le_sum fun k _ => ?_)
  rw [← Finset.sum_sub_distrib]
  refine (Finset.abs_sum_le_sum_abs _ _).trans (Finset.sum_le_sum fun l _ => ?_)
  rw [← mul_sub, abs_mul]
  exact mul_le_mul_of_nonneg_left (hE l k) (abs_nonneg _)

theorem meanPart_le {n m : ℕ} (b : ℕ → Fin n → ℝ) (u u0 : Fin n → ℝ) (E : ℝ) (hE : ∀ k, |u k - u0 k| ≤ E) :
    |(∑ j ∈ range m, -(u ⬝ᵥ b j)) / m - (∑ j ∈ range m, -(u0 ⬝ᵥ b j)) / m| ≤ ∑ k, |(∑ j ∈ range m, b j k) / m| * E := by
  have e : ∀ u : Fin n → ℝ, (∑ j ∈ range m, -(u ⬝ᵥ b j)) / m = -∑ k, (∑ j ∈ range m, b j k) / m * u k := by
    intro u
    rw [Finset.sum_neg_distrib, neg_div]
    simp only [dotProduct]
    rw [Finset.sum_comm, Finset.sum_div]
    congr 1
    refine Finset.sum_congr rfl fun k _ => ?_
    rw [← Finset.mul_sum]
    ring
  rw [e, e, neg_sub_neg, ← Finset.sum_sub_distrib]
  refine (Finset.abs_sum_le_sum_abs _ _).trans (Finset.sum_le_sum fun k _ => ?_)
  rw [← mul_sub, abs_mul, abs_sub_comm]
  exact mul_le_mul_of_nonneg_left (hE k) (abs_nonneg _)

/-- The true derivatives of kernel, noise and mean. -/
noncomputable def trueGrads (c : Config α (Fin p → ℝ)) (d : Data α) : Grads α p where
  dk h i a b := deriv (fun t => c.kernel (Function.update h i t) a b) (h i)
  dV h i xs := .dense xs.length xs.length fun k l =>
    if hk : k < xs.length then if hl : l < xs.length then
      deriv (fun t => (calcV c d (Function.update h i t) xs).mat xs.length ⟨k, hk⟩ ⟨l, hl⟩) (h i) else 0 else 0
  dm h i a := deriv (fun t => meanFn c d (Function.update h i t) a) (h i)

/-- **C124** (likelihood gradient). A GP with a user kernel and without any derivative functions: the gradient is returned, in both values of
`ram_economy`, and its average over the columns (for one column: itself) differs from the derivative of the negative log likelihood by at most a multiple of the errors
of the differences, for a hyperparameter that does not enter the prior mean, and for one that enters nothing but the prior mean. `b j` is `(K+V)⁻¹ (y_j - m)`.
What is missing: hyperparameters of both, see `C38_shared_hyperparameter_violated`. -/
theorem C124_gradient_partial (c : Config α (Fin p → ℝ)) (d : Data α) (h0 : Fin p → ℝ) (s : Supplied α p)
    (lstsq : {n m : Type} → Matrix n n ℝ → Matrix n m ℝ → Matrix n m ℝ) (he : SpluContract c.ext) (hs : c.sparseK = false)
    (ha : Admissible c d h0) (hmode : c.mode ≠ .sparseSolve) (hy : d.y.length = d.x.length) (hcols : 1 ≤ d.cols)
    (hk : s.kernelGiven = true) (g1 : s.kernelGrad = none) (g2 : s.noiseGrad = none) (g3 : s.meanGrad = none) :
    ∃ gp, init c d h0 = .ok gp ∧ ∀ h, Admissible c d h →
      (∀ i F, c.noise = .user F →
        SameForm d.x.length (F (Function.update h i (h i + 1e-6)) d.x) (F (Function.update h i (h i - 1e-6)) d.x)) →
      ∃ v : ℕ → Fin p → ℝ, (∀ j, gradientOf gp s lstsq (some h) j = .ok (v j)) ∧
        ∀ i Mk Mv Mm, (∀ᶠ t in nhds (h i), Admissible c d (Function.update h i t)) →
          (∀ a b : Fin d.x.length, Smooth3 (fun t => c.kernel (Function.update h i t) d.x[a] d.x[b]) (h i) 1e-8 Mk) →
          (∀ a b : Fin d.x.length, Smooth3 (fun t => (calcV c d (Function.update h i t) d.x).mat d.x.length a b) (h i) 1e-6 Mv) →
          (∀ a : Fin d.x.length, Smooth3 (fun t => meanFn c d (Function.update h i t) d.x[a]) (h i) 1e-6 Mm) →
          let b := fun j => (KVmat c d h)⁻¹ *ᵥ (yCol d j - meanAt c d h d.x)
          ∃ D, HasDerivAt (fun t => nllValue gp (Function.update h i t)) D (h i) ∧
            ((∀ t a, meanFn c d (Function.update h i t) a = meanFn c d h a) →
              |(∑ j ∈ range d.cols, v j i) / d.cols - D| ≤ 1 / 2 * ∑ k, ∑ l,
                |(∑ j ∈ range d.cols, b j k * b j l) / d.cols - (KVmat c d h)⁻¹ k l| * (Mk * 1e-16 / 6 + Mv * 1e-12 / 6)) ∧
            ((∀ t, c.kernel (Function.update h i t) = c.kernel h ∧ calcV c d (Function.update h i t) = calcV c d h) →
              |(∑ j ∈ range d.cols, v j i) / d.cols - D| ≤ ∑ k, |(∑ j ∈ range d.cols, b j k) / d.cols| * (Mm * 1e-12 / 6)) := by
  obtain ⟨g, hg, -, e1, -, e2, e3, -, e4, e5⟩ := C124_selection c s hk (by simp [g1]) (by simp [g2])
  have e1 := e1 g1
  have e2 := e2 g2
  have e3 := e3 g2
  have e4 := e4 g3
  have e5 := e5 g3
  obtain ⟨gp, hgp, hc, rfl, rfl, rfl⟩ := init_ok c d h0 he ha
  have hall := fun j => gradient_eq_fits gp.cfg gp.data gp.hps g lstsq he hs ha j
  have hgp' : ∀ {gp' : GP α (Fin p → ℝ)}, init gp.cfg gp.data gp.hps = .ok gp' → gp' = gp := by
    intro gp' h'
    rw [hgp] at h'
    exact (Except.ok.inj h').symm
  refine ⟨gp, hgp, fun h hh hform => ?_⟩
  set n := gp.data.x.length with hn
  -- the noise derivative
  have hV : ∀ i, DVFits g h gp.data.x i ∧ ∀ (M : ℝ) (k l : Fin n),
      Smooth3 (fun t => (calcV gp.cfg gp.data (Function.update h i t) gp.data.x).mat n k l) (h i) 1e-6 M →
      |(g.dV h i gp.data.x).mat n k l - deriv (fun t => (calcV gp.cfg gp.data (Function.update h i t) gp.data.x).mat n k l) (h i)|
        ≤ M * 1e-12 / 6 := by
    intro i
    have triv : (g.dV h i gp.data.x = .diag n fun _ => 0) → (∀ t, calcV gp.cfg gp.data (Function.update h i t) = calcV gp.cfg gp.data h) →
        DVFits g h gp.data.x i ∧ ∀ (M : ℝ) (k l : Fin n),
      Smooth3 (fun t => (calcV gp.cfg gp.data (Function.update h i t) gp.data.x).mat n k l) (h i) 1e-6 M →
      |(g.dV h i gp.data.x).mat n k l - deriv (fun t => (calcV gp.cfg gp.data (Function.update h i t) gp.data.x).mat n k l) (h i)|
        ≤ M * 1e-12 / 6 := by
      intro a1 a2
      refine ⟨by simp only [DVFits, a1]; rfl, fun M k l hS => ?_⟩
      obtain ⟨f1, f2, f3, H⟩ := hS
      have hM : 0 ≤ M := (abs_nonneg _).trans (H (h i) (by norm_num)).2.2.2
      have z : (g.dV h i gp.data.x).mat n k l = 0 := by
        rw [a1]; simp [Noise.mat, Matrix.diagonal_apply]
      simp only [z, a2, deriv_const, sub_zero, abs_zero]
      positivity
    cases hnoise : gp.cfg.noise with
    | user F =>
      have hf := hform i F hnoise
      have := noiseDiff_mat hf
      have hcv : ∀ t, calcV gp.cfg gp.data (Function.update h i t) gp.data.x = F (Function.update h i t) gp.data.x := by
        intro t; simp [calcV, hnoise]
      rw [e2 F hnoise]
      refine ⟨by rw [DVFits, e2 F hnoise]; exact this.1, fun M k l hS => ?_⟩
      simp only [hcv] at hS ⊢
      exact (C124_differences h i M).2.2 F gp.data.x n hf k l hS
    | measured => exact triv (e3 (Or.inl hnoise) h i gp.data.x) fun t => by funext xs; simp [calcV, hnoise]
    | default => exact triv (e3 (Or.inr hnoise) h i gp.data.x) fun t => by funext xs; simp [calcV, hnoise]
  -- the mean derivative
  have hm : ∀ i (M : ℝ) (a : α), Smooth3 (fun t => meanFn gp.cfg gp.data (Function.update h i t) a) (h i) 1e-6 M →
      |g.dm h i a - deriv (fun t => meanFn gp.cfg gp.data (Function.update h i t) a) (h i)| ≤ M * 1e-12 / 6 := by
    intro i M a hS
    cases hmean : gp.cfg.mean with
    | some f =>
      rw [e4 f hmean]
      simp only [meanFn, hmean] at hS ⊢
      exact (C124_differences h i M).2.1 f a hS
    | none =>
      obtain ⟨f1, f2, f3, H⟩ := hS
      have hM : 0 ≤ M := (abs_nonneg _).trans (H (h i) (by norm_num)).2.2.2
      rw [e5 hmean]
      simp only [meanFn, hmean, deriv_const, sub_zero, abs_zero]
      positivity
  have hm0 : ∀ i (a : α), (∀ t, meanFn gp.cfg gp.data (Function.update h i t) a = meanFn gp.cfg gp.data h a) → g.dm h i a = 0 := by
    intro i a hc
    cases hmean : gp.cfg.mean with
    | some f =>
      have hc' : ∀ t, f (Function.update h i t) a = f h a := by intro t; simpa [meanFn, hmean] using hc t
      rw [e4 f hmean, finiteDiffDm, hc', hc', sub_self, zero_div]
    | none => exact e5 hmean h i a
  -- the returned value
  set b : ℕ → Fin n → ℝ := fun j => (KVmat gp.cfg gp.data h)⁻¹ *ᵥ (yCol gp.data j - meanAt gp.cfg gp.data h gp.data.x) with hb
  have hval : ∀ j, gradientOf gp s lstsq (some h) j = .ok fun i =>
      (open Classical in if (fun a : Fin n => g.dm h i gp.data.x[a]) ⬝ᵥ b j = 0 then
            -(1 / 2) * (b j ⬝ᵥ dKVmat g h gp.data.x i *ᵥ b j
              - ((KVmat gp.cfg gp.data h)⁻¹ * dKVmat g h gp.data.x i).trace) else 0)
          + -((fun a : Fin n => g.dm h i gp.data.x[a]) ⬝ᵥ b j) := by
    intro j
    obtain ⟨gp', h1, -, -, h4, -⟩ := hall j
    rw [hgp' h1] at h4
    simp only [gradientOf, hg, bind, Except.bind]
    exact h4 h hh fun i => (hV i).1
  refine ⟨_, hval, fun i Mk Mv Mm hev hSk hSv hSm => ?_⟩
  set T := trueGrads gp.cfg gp.data with hT
  have hTV : ∀ k l : Fin n, (T.dV h i gp.data.x).mat n k l
      = deriv (fun t => (calcV gp.cfg gp.data (Function.update h i t) gp.data.x).mat n k l) (h i) := by
    intro k l
    simp only [hT, trueGrads, Noise.mat, Matrix.of_apply]
    rw [dif_pos k.2, dif_pos l.2]
  have hcor : GradsCorrect gp.cfg gp.data T h i :=
    ⟨fun k l => ((hSk k l).central (by norm_num)).1, ⟨rfl, rfl⟩,
      fun k l => by rw [hTV k l]; exact ((hSv k l).central (by norm_num)).1, fun k => ((hSm k).central (by norm_num)).1⟩
  have hD := nll_hasDerivAt gp T he hmode hy hcols h i hh hev hcor
  refine ⟨_, hD, fun hind => ?_, fun hind => ?_⟩
  · have z1 : (fun a : Fin n => g.dm h i gp.data.x[a]) = 0 := funext fun a => hm0 i _ fun t => hind t _
    have z2 : (fun a : Fin n => T.dm h i gp.data.x[a]) = 0 := by
      funext a
      simp only [hT, trueGrads, hind, deriv_const]
      rfl
    have c0 : ∀ j, columnDeriv gp.cfg gp.data T h i j = -(1 / 2) * (b j ⬝ᵥ dKVmat T h gp.data.x i *ᵥ b j
              - ((KVmat gp.cfg gp.data h)⁻¹ * dKVmat T h gp.data.x i).trace) := by
      intro j
      rw [columnDeriv]
      have z3 : (fun a : Fin gp.data.x.length => T.dm h i gp.data.x[a]) = 0 := z2
      rw [z3, zero_dotProduct, neg_zero, add_zero]
      rfl
    simp only [z1, zero_dotProduct, if_true, neg_zero, add_zero]
    rw [Finset.sum_congr rfl fun j _ => c0 j]
    refine kernelPart_le hcols b _ _ _ _ fun k l => ?_
    simp only [dKVmat, Matrix.add_apply]
    have a1 := (C124_differences h i Mk).1 gp.cfg.kernel _ _ (hSk k l)
    have a2 := (hV i).2 Mv k l (hSv k l)
    rw [← hTV k l] at a2
    rw [add_sub_add_comm]
    refine (abs_add_le _ _).trans (add_le_add ?_ a2)
    simp only [Kmat, Matrix.of_apply, e1]
    exact a1
  · have z1 : dKVmat g h gp.data.x i = 0 := by
      ext k l
      have q1 : g.dk h i gp.data.x[k] gp.data.x[l] = 0 := by
        rw [e1, dKernelDh, centralDiff, (hind _).1, (hind _).1, sub_self, zero_div]
      have q2 : (g.dV h i gp.data.x).mat n k l = 0 := by
        have := (hV i).2 0 k l ⟨fun _ => 0, fun _ => 0, fun _ => 0, fun t _ => by
          simp only [(hind _).2]
          exact ⟨hasDerivAt_const _ _, hasDerivAt_const _ _, hasDerivAt_const _ _, by simp⟩⟩
        simp only [(hind _).2, deriv_const, sub_zero, zero_mul, zero_div] at this
        exact abs_nonpos_iff.1 this
      simp only [dKVmat, Matrix.add_apply, Kmat, Matrix.of_apply, Matrix.zero_apply]
      rw [q1]
      simpa using q2
    have z2 : dKVmat T h gp.data.x i = 0 := by
      ext k l
      simp only [dKVmat, Matrix.add_apply, Matrix.zero_apply]
      have q2 := hTV k l
      simp only [(hind _).2, deriv_const] at q2
      have q1 : Kmat (T.dk h i) gp.data.x gp.data.x k l = 0 := by
        simp only [Kmat, Matrix.of_apply, hT, trueGrads, (hind _).1, deriv_const]
      rw [q1, zero_add]
      exact q2
    have c0 : ∀ j, columnDeriv gp.cfg gp.data T h i j = -((fun a : Fin n => T.dm h i gp.data.x[a]) ⬝ᵥ b j) := by
      intro j
      simp only [columnDeriv, z2, Matrix.zero_mulVec, dotProduct_zero, Matrix.mul_zero, Matrix.trace_zero, sub_zero, mul_zero, zero_add]
      rfl
    simp only [z1, Matrix.zero_mulVec, dotProduct_zero, Matrix.mul_zero, Matrix.trace_zero, sub_zero, mul_zero, ite_self, zero_add]
    rw [Finset.sum_congr rfl fun j _ => c0 j]
    exact meanPart_le b _ _ _ fun k => hm i Mm _ (hSm k)

theorem Smooth3.affine (q0 q1 x e : ℝ) : Smooth3 (fun t => q0 + q1 * t) x e 0 :=
  ⟨fun _ => q1, fun _ => 0, fun _ => 0, fun s _ => ⟨by simpa using ((hasDerivAt_id s).const_mul q1).const_add q0,
    hasDerivAt_const _ _, hasDerivAt_const _ _, by simp⟩⟩

theorem Smooth3.const (q x e : ℝ) : Smooth3 (fun _ => q) x e 0 := by simpa using Smooth3.affine q 0 x e

/-- A kernel linear in its hyperparameter, in both modes: the gradient is the derivative. -/
example (lstsq : {n m : Type} → Matrix n n ℝ → Matrix n m ℝ → Matrix n m ℝ) (an : (Fin 1 → ℝ) → Fin 1 → ℝ → ℝ → ℝ) (e : Bool) :
    ∃ gp v, init (gCfg fun _ _ => 0) (gData [3]) (fun _ => 1) = .ok gp ∧
      gradientOf gp ⟨true, an, none, none, none, e⟩ lstsq (some fun _ => 2) 0 = .ok v ∧
      HasDerivAt (fun t => nllValue gp (Function.update (fun _ => 2) 0 t)) (v 0) 2 := by
  have pos : ∀ t : ℝ, 0 < t → (0 : ℝ) < (fun _ : Fin 1 => t) 0 := fun t h => h
  obtain ⟨gp, hgp, H⟩ := C124_gradient_partial (gCfg fun _ _ => 0) (gData [3]) (fun _ => 1) ⟨true, an, none, none, none, e⟩ lstsq
    cholExt_contract rfl (gAdm _ _ _ (pos 1 one_pos)) (by simp [gCfg]) rfl (by simp [gData]) rfl rfl rfl rfl
  obtain ⟨v, hv, H⟩ := H (fun _ => 2) (gAdm _ _ _ (pos 2 two_pos)) (fun i F hF => by simp [gCfg] at hF)
  obtain ⟨D, hD, h1, -⟩ := H 0 0 0 0 (gEv _ _ _ (pos 2 two_pos) 0)
    (fun a b => by
      have : (fun t => (gCfg fun _ _ => 0).kernel (Function.update (fun _ => 2) 0 t) (gData [3]).x[a] (gData [3]).x[b])
          = fun t : ℝ => 0 + 1 * t := by
        funext t; simp [gCfg]
      rw [this]
      exact Smooth3.affine 0 1 _ _)
    (fun a b => Smooth3.const ((calcV (gCfg fun _ _ => 0) (gData [3]) (fun _ => 2) (gData [3]).x).mat _ a b) 2 1e-6)
    (fun a => Smooth3.const 0 2 1e-6)
  have h2 := h1 fun t a => rfl
  simp only [gData, List.length_singleton, Finset.range_one, Finset.sum_singleton, Nat.cast_one, div_one, zero_mul, zero_div, add_zero,
    mul_zero, Finset.sum_const_zero] at h2
  have h3 : v 0 0 = D := sub_eq_zero.1 (abs_nonpos_iff.1 h2)
  exact ⟨gp, v 0, hgp, hv 0, by rw [h3]; exact hD⟩

/-! ## C124: Hessian and gradient check -/

/-- **C124** (Hessian). If the gradient function is the gradient of `L` and its entries have bounded second derivatives along the
hyperparameters, the entries of the returned Hessian on and above the diagonal are the second derivatives of `L` up to `M 1e-6 / 2`, and the
returned matrix is symmetric. -/
theorem C124_hessian (G : (Fin p → ℝ) → Fin p → ℝ) (h : Fin p → ℝ) (M : ℝ)
    (hS : ∀ i j, Smooth2 (fun t => G (Function.update h i t) j) (h i) 1e-6 M) :
    ∃ R, hessian (fun h => .ok (G h)) (some h) = .ok R ∧ Rᵀ = R ∧
      ∀ i j, i ≤ j → |R i j - deriv (fun t => G (Function.update h i t) j) (h i)| ≤ M * 1e-6 / 2 := by
  obtain ⟨R, h1, h2, h3⟩ := C39_hessian_partial (fun h => .ok (G h)) h (G h) rfl (fun i => G (Function.update h i (h i + 1e-6))) fun _ => rfl
  refine ⟨R, h1, h2, fun i j hij => ?_⟩
  rw [h3 i j hij]
  have := ((hS i j).forward (by norm_num)).2
  simp only [Function.update_eq_self] at this
  exact this

/-- **C124** (gradient check). If the likelihood is available at `h` and the shifted points and `G` is minus its gradient there, the two vectors of
`test_log_likelihood_gradient` agree up to `M e / 2`. -/
theorem C124_gradient_check (L : (Fin p → ℝ) → ℝ) (G : Fin p → ℝ) (h : Fin p → ℝ) (e M : ℝ) (he : 0 < e)
    (hG : ∀ i, HasDerivAt (fun t => L (Function.update h i t)) (-G i) (h i))
    (hS : ∀ i, Smooth2 (fun t => L (Function.update h i t)) (h i) e M) :
    ∃ fd an, testGradient (fun h => .ok (L h)) (fun _ => .ok G) h e = .ok (fd, an) ∧ (∀ i, an i = -G i) ∧ ∀ i, |fd i - an i| ≤ M * e / 2 := by
  have hc : collect (p := p) (fun i => (do
      let a ← (Except.ok (L (Function.update h i (h i + e))) : Except String ℝ)
      let b ← (Except.ok (L h) : Except String ℝ)
      .ok ((a - b) / e))) = .ok fun i => (L (Function.update h i (h i + e)) - L h) / e := collect_ok fun i => rfl
  refine ⟨fun i => (L (Function.update h i (h i + e)) - L h) / e, fun i => -G i, ?_, fun i => rfl, fun i => ?_⟩
  · simp only [testGradient, bind, Except.bind] at hc ⊢
    rw [hc]
  · have := ((hS i).forward he).2
    simp only [Function.update_eq_self, (hG i).deriv] at this
    exact this

/-- The likelihood `-x²` at 3, with its gradient. -/
example : ∃ fd an, testGradient (p := 1) (fun h => .ok (-h 0 ^ 2)) (fun _ => .ok fun _ => 6) (fun _ => 3) 1e-6 = .ok (fd, an) ∧
    |fd 0 - an 0| ≤ 2 * 1e-6 / 2 := by
  have q : ∀ s : ℝ, HasDerivAt (fun t : ℝ => -t ^ 2) (-(2 * s)) s := fun s => by simpa using (hasDerivAt_pow 2 s).fun_neg
  obtain ⟨fd, an, h1, -, h2⟩ := C124_gradient_check (p := 1) (fun h => -h 0 ^ 2) (fun _ => 6) (fun _ => 3) 1e-6 2 (by norm_num)
    (fun i => by
      obtain rfl := Subsingleton.elim i 0
      simp only [Function.update_self]
      exact (q 3).congr_deriv (by norm_num))
    (fun i => by
      obtain rfl := Subsingleton.elim i 0
      simp only [Function.update_self]
      exact ⟨fun s => -(2 * s), fun _ => -2, fun s _ _ => ⟨q s, by simpa using ((hasDerivAt_id s).const_mul 2).fun_neg, by norm_num⟩⟩)
  exact ⟨fd, an, h1, h2 0⟩

/-- The gradient `2x` of a parabola. -/
example : ∃ R, hessian (p := 1) (fun h => .ok fun _ => 2 * h 0) (some fun _ => 3) = .ok R ∧ R 0 0 = 2 := by
  obtain ⟨R, h1, -, h3⟩ := C124_hessian (p := 1) (fun h _ => 2 * h 0) (fun _ => 3) 0 (fun i j => by
      obtain rfl := Subsingleton.elim i 0
      simp only [Function.update_self]
      exact ⟨fun _ => 2, fun _ => 0, fun s _ _ => ⟨by simpa using (hasDerivAt_id s).const_mul 2, hasDerivAt_const _ _, by simp⟩⟩)
  refine ⟨R, h1, ?_⟩
  have := h3 0 0 le_rfl
  have d2 : deriv (fun t : ℝ => 2 * Function.update (fun _ : Fin 1 => (3 : ℝ)) 0 t 0) 3 = 2 := by
    simp only [Function.update_self]
    have := ((hasDerivAt_id (3 : ℝ)).const_mul 2).deriv
    simpa using this
  rw [d2] at this
  simpa [sub_eq_zero] using this

end Verif.GP
