import Verif.GP.LayoutProps
import Mathlib.Analysis.Calculus.MeanValue
import Mathlib.Data.List.GetD

/-!
Property C92: the gradients with respect to the prediction point are the derivatives of the posterior mean and variance.

The code uses forward differences, so the statement is an error bound: `Slope f s e C` says that the curve `f` has slope
`s` at zero and that its slope changes by at most `C` within a step of length `e`. A twice differentiable curve with
second derivative at most `B` satisfies it with `C = B * e`.
-/

namespace Verif.GP

open Finset Verif.LinAlg Matrix

variable {α β γ H : Type}

/-- The curve `f` has slope `s` at `0`, and its slope differs from `s` by at most `C` on `[0, e]`. -/
def Slope (f : ℝ → ℝ) (s e C : ℝ) : Prop :=
  ∃ f' : ℝ → ℝ, (∀ t, 0 ≤ t → t ≤ e → HasDerivAt f (f' t) t) ∧ f' 0 = s ∧ ∀ t, 0 ≤ t → t ≤ e → |f' t - s| ≤ C

theorem Slope.hasDerivAt {f : ℝ → ℝ} {s e C : ℝ} (he : 0 ≤ e) (h : Slope f s e C) : HasDerivAt f s 0 := by
  obtain ⟨f', hd, rfl, -⟩ := h
  exact hd 0 le_rfl he

/-- The error of a forward difference. -/
theorem Slope.forward {f : ℝ → ℝ} {s e C : ℝ} (he : 0 < e) (h : Slope f s e C) : |(f e - f 0) / e - s| ≤ C := by
  obtain ⟨f', hd, rfl, hC⟩ := h
  have hder : ∀ t ∈ Set.Icc 0 e, HasDerivWithinAt (fun t => f t - f' 0 * t) (f' t - f' 0) (Set.Icc 0 e) t := by
    intro t ht
    have h1 := (hd t ht.1 ht.2).hasDerivWithinAt (s := Set.Icc 0 e)
    have h2 := ((hasDerivAt_id t).const_mul (f' 0)).hasDerivWithinAt (s := Set.Icc 0 e)
    simpa using h1.fun_sub h2
  have := (convex_Icc (0:ℝ) e).norm_image_sub_le_of_norm_hasDerivWithin_le (C := C) hder
    (fun t ht => hC t ht.1 ht.2) (Set.left_mem_Icc.2 he.le) (Set.right_mem_Icc.2 he.le)
  simp only [Real.norm_eq_abs, mul_zero, sub_zero, abs_of_pos he] at this
  rw [show (f e - f 0) / e - f' 0 = (f e - f' 0 * e - f 0) / e by field_simp; ring, abs_div, abs_of_pos he,
    div_le_iff₀ he]
  exact this

/-- The mean gradient of the code against the derivative of `m(x) + Σ k(x_l, x) α_l`. -/
theorem meanGradCore_error (c : Config γ H) (dat : Data γ) (h : H) (alpha : ℕ → ℝ) (shift : γ → ℕ → ℝ → γ)
    (hsym : ∀ a b, c.kernel h a b = c.kernel h b a) (xs : List γ) (i dir : ℕ) (hi : i < xs.length)
    (h0 : shift xs[i] dir 0 = xs[i]) (m' Cm : ℝ) (k' Ck : ℕ → ℝ)
    (hm : Slope (fun t => meanFn c dat h (shift xs[i] dir t)) m' 1e-6 Cm)
    (hk : ∀ l (hl : l < dat.x.length), Slope (fun t => c.kernel h (shift xs[i] dir t) dat.x[l]) (k' l) 1e-8 (Ck l)) :
    HasDerivAt (fun t => evalAt (meanFn c dat h) (xs.map fun x => shift x dir t) i
        + ∑ l ∈ range dat.x.length, gram (c.kernel h) dat.x (xs.map fun x => shift x dir t) l i * alpha l)
      (m' + ∑ l ∈ range dat.x.length, k' l * alpha l) 0 ∧
    |meanGradCore c dat h alpha shift xs dir i - (m' + ∑ l ∈ range dat.x.length, k' l * alpha l)|
      ≤ Cm + ∑ l ∈ range dat.x.length, Ck l * |alpha l| := by
  have he : ∀ t, evalAt (meanFn c dat h) (xs.map fun x => shift x dir t) i = meanFn c dat h (shift xs[i] dir t) := by
    intro t; simp [evalAt, hi]
  have hg : ∀ t l (hl : l < dat.x.length), gram (c.kernel h) (xs.map fun x => shift x dir t) dat.x i l
      = c.kernel h (shift xs[i] dir t) dat.x[l] := by
    intro t l hl; simp [gram, hi, hl]
  have hg' : ∀ t l (hl : l < dat.x.length), gram (c.kernel h) dat.x (xs.map fun x => shift x dir t) l i
      = c.kernel h (shift xs[i] dir t) dat.x[l] := by
    intro t l hl; simp [gram, hi, hl]; rw [hsym]
  have he0 : evalAt (meanFn c dat h) xs i = meanFn c dat h (shift xs[i] dir 0) := by
    rw [h0]; simp [evalAt, hi]
  have hg0 : ∀ l (hl : l < dat.x.length), gram (c.kernel h) xs dat.x i l
      = c.kernel h (shift xs[i] dir 0) dat.x[l] := by
    intro l hl; rw [h0]; simp [gram, hi, hl]
  constructor
  · refine HasDerivAt.fun_add ?_ (HasDerivAt.fun_sum fun l hl => ?_)
    · simp only [he]; exact hm.hasDerivAt (by norm_num)
    · have hl' := Finset.mem_range.1 hl
      simp only [hg' _ l hl']
      exact ((hk l hl').hasDerivAt (by norm_num)).mul_const _
  · rw [meanGradCore]
    simp only [he, he0]
    have h1 := hm.forward (by norm_num)
    have h2 : |∑ l ∈ range dat.x.length, (gram (c.kernel h) (xs.map fun x => shift x dir 1e-8) dat.x i l
        - gram (c.kernel h) xs dat.x i l) / 1e-8 * alpha l - ∑ l ∈ range dat.x.length, k' l * alpha l|
        ≤ ∑ l ∈ range dat.x.length, Ck l * |alpha l| := by
      rw [← Finset.sum_sub_distrib]
      refine (Finset.abs_sum_le_sum_abs _ _).trans (Finset.sum_le_sum fun l hl => ?_)
      have hl' := Finset.mem_range.1 hl
      rw [hg _ l hl', hg0 l hl', ← sub_mul, abs_mul]
      exact mul_le_mul_of_nonneg_right ((hk l hl').forward (by norm_num)) (abs_nonneg _)
    have := abs_add_le ((meanFn c dat h (shift xs[i] dir 1e-6) - meanFn c dat h (shift xs[i] dir 0)) / 1e-6 - m')
      (∑ l ∈ range dat.x.length, (gram (c.kernel h) (xs.map fun x => shift x dir 1e-8) dat.x i l
        - gram (c.kernel h) xs dat.x i l) / 1e-8 * alpha l - ∑ l ∈ range dat.x.length, k' l * alpha l)
    rw [add_sub_add_comm]
    exact this.trans (add_le_add h1 h2)

/-- **C92** (mean). For a symmetric kernel, `posterior_mean_grad(x, direction, component)` is the derivative of column
`component` of `posterior_mean` when point `i` moves in that direction, up to the change of slope of the prior mean
within 1e-6 and of the covariances within 1e-8. -/
theorem C92_mean_gradient (gp : GP γ H) (shift : γ → ℕ → ℝ → γ)
    (hsym : ∀ a b, gp.cfg.kernel gp.hps a b = gp.cfg.kernel gp.hps b a) (xs : List γ) (i dir component : ℕ)
    (hi : i < xs.length) (h0 : shift xs[i] dir 0 = xs[i]) (m' Cm : ℝ) (k' Ck : ℕ → ℝ)
    (hm : Slope (fun t => meanFn gp.cfg gp.data gp.hps (shift xs[i] dir t)) m' 1e-6 Cm)
    (hk : ∀ l (hl : l < gp.data.x.length),
      Slope (fun t => gp.cfg.kernel gp.hps (shift xs[i] dir t) gp.data.x[l]) (k' l) 1e-8 (Ck l)) :
    ∃ D, HasDerivAt (fun t => posteriorMean gp (xs.map fun x => shift x dir t) i component) D 0 ∧
      |meanGradFlat gp shift component xs dir i - D|
        ≤ Cm + ∑ l ∈ range gp.data.x.length, Ck l * |gp.kv.kvinvY l component| := by
  obtain ⟨h1, h2⟩ := meanGradCore_error gp.cfg gp.data gp.hps (fun l => gp.kv.kvinvY l component) shift hsym xs i dir hi
    h0 m' Cm k' Ck hm hk
  exact ⟨_, h1, h2⟩

/-- **C92** (mean, other hyperparameters). The same for `hyperparameters=h`: whenever `posterior_mean(x, h)` succeeds so
does its gradient, and it is its derivative up to the same kind of error; `a` are the weights of the covariances in
that posterior mean. -/
theorem C92_mean_gradient_hyperparameters (gp : GP γ H) (h : H) (shift : γ → ℕ → ℝ → γ)
    (hsym : ∀ a b, gp.cfg.kernel h a b = gp.cfg.kernel h b a) (xs : List γ) (i dir component : ℕ)
    (hi : i < xs.length) (h0 : shift xs[i] dir 0 = xs[i]) (m' Cm : ℝ) (k' Ck : ℕ → ℝ)
    (hm : Slope (fun t => meanFn gp.cfg gp.data h (shift xs[i] dir t)) m' 1e-6 Cm)
    (hk : ∀ l (hl : l < gp.data.x.length),
      Slope (fun t => gp.cfg.kernel h (shift xs[i] dir t) gp.data.x[l]) (k' l) 1e-8 (Ck l))
    (M : ℝ → NMat) (hM : ∀ t, posteriorMeanAt gp h (xs.map fun x => shift x dir t) = .ok (M t)) :
    ∃ (G a : ℕ → ℝ) (D : ℝ), meanGradFlatAt gp h shift component xs dir = .ok G ∧
      (∀ t, M t i component = meanFn gp.cfg gp.data h (shift xs[i] dir t)
        + ∑ l : Fin gp.data.x.length, gp.cfg.kernel h gp.data.x[l] (shift xs[i] dir t) * a l) ∧
      HasDerivAt (fun t => M t i component) D 0 ∧
      |G i - D| ≤ Cm + ∑ l ∈ range gp.data.x.length, Ck l * |a l| := by
  simp only [posteriorMeanAt, bind, Except.bind] at hM
  simp only [meanGradFlatAt, bind, Except.bind]
  cases hKV : addKV gp.cfg.sparseK gp.data.x.length gp.data.x.length
      (gram (gp.cfg.kernel h) gp.data.x gp.data.x) (diagNoise (calcV gp.cfg gp.data h gp.data.x)) with
  | error e => rw [hKV] at hM; exact absurd (hM 0) (by simp)
  | ok KV =>
    rw [hKV] at hM
    simp only at hM ⊢
    cases hA : computeNewKVinvY gp.cfg.ext gp.cfg.mode gp.data.x.length KV gp.data.yMat
        (evalAt (meanFn gp.cfg gp.data h) gp.data.x) with
    | error e => rw [hA] at hM; exact absurd (hM 0) (by simp)
    | ok a =>
      rw [hA] at hM
      simp only [Except.ok.injEq] at hM ⊢
      obtain ⟨h1, h2⟩ := meanGradCore_error gp.cfg gp.data h (fun l => a l component) shift hsym xs i dir hi
        h0 m' Cm k' Ck hm hk
      refine ⟨_, fun l => a l component, _, rfl, fun t => ?_, ?_, h2⟩
      · rw [← hM t]
        simp [Finset.sum_range, evalAt, hi, gram]
      · have e : (fun t => M t i component) = fun t =>
            evalAt (meanFn gp.cfg gp.data h) (xs.map fun x => shift x dir t) i
            + ∑ l ∈ range gp.data.x.length, gram (gp.cfg.kernel h) gp.data.x (xs.map fun x => shift x dir t) l i
              * a l component := by
          funext t; rw [← hM t]
        rw [e]
        exact h1

/-! A quadratic prior mean and a kernel linear in each argument, moved along the line: the error is at most 2e-6. -/

theorem slope_const (a e : ℝ) : Slope (fun _ => a) 0 e 0 :=
  ⟨fun _ => 0, fun t _ _ => hasDerivAt_const t a, rfl, by simp⟩

theorem slope_linear (a b e : ℝ) : Slope (fun t => a + b * t) b e 0 :=
  ⟨fun _ => b, fun t _ _ => by simpa using ((hasDerivAt_id t).const_mul b).const_add a, rfl, by simp⟩

theorem slope_quadratic (a b c e : ℝ) (he : 0 ≤ e) : Slope (fun t => a + b * t + c * t ^ 2) b e (2 * |c| * e) := by
  refine ⟨fun t => b + c * (2 * t), fun t _ _ => ?_, by simp, fun t h0 h1 => ?_⟩
  · have h1 := ((hasDerivAt_id t).const_mul b).const_add a
    have h2 := (hasDerivAt_pow 2 t).const_mul c
    simpa using h1.fun_add h2
  · rw [add_sub_cancel_left, abs_mul, abs_mul, abs_of_nonneg h0]
    norm_num
    nlinarith [abs_nonneg c, mul_le_mul_of_nonneg_left h1 (abs_nonneg c)]

example (gp : GP ℝ ℝ) (hcfg : gp.cfg = { exCfg .chol with mean := some fun _ a => a ^ 2 }) (hdata : gp.data = exData)
    (hh : gp.hps = 2) : ∃ D, HasDerivAt (fun t => posteriorMean gp ([7, 3].map fun x => x + t) 1 0) D 0 ∧
      |meanGradFlat gp (fun x _ t => x + t) 0 [7, 3] 0 1 - D| ≤ 2e-6 := by
  obtain ⟨D, hD, he⟩ := C92_mean_gradient gp (fun x _ t => x + t)
    (fun a b => by rw [hcfg]; simp [exCfg, mul_comm a b]) [7, 3] 1 0 0 (by simp)
    (by simp) 6 (2 * |1| * 1e-6) (fun l => gp.hps ^ 2 * gp.data.x.getD l 0) (fun _ => 0)
    (by
      have := slope_quadratic 9 6 1 1e-6 (by norm_num)
      convert this using 2 with t
      rw [hcfg]; simp [meanFn]; ring)
    (fun l hl => by
      have := slope_linear (gp.hps ^ 2 * (1 + 3 * gp.data.x[l])) (gp.hps ^ 2 * gp.data.x[l]) 1e-8
      rw [List.getD_eq_getElem _ _ hl]
      convert this using 2 with t
      rw [hcfg]; simp [exCfg]; ring)
  refine ⟨D, hD, he.trans ?_⟩
  simp only [zero_mul, Finset.sum_const_zero]
  norm_num

/-! ## Variance -/

/-- Derivative of `κ(t) - b(t)ᵀ A⁻¹ b(t)` for symmetric `A⁻¹`. -/
theorem quad_hasDerivAt {n : ℕ} {A : Matrix (Fin n) (Fin n) ℝ} (hA : A.PosDef) (b : ℝ → Fin n → ℝ) (b' : Fin n → ℝ)
    (hb : ∀ l, HasDerivAt (fun t => b t l) (b' l) 0) :
    HasDerivAt (fun t => b t ⬝ᵥ A⁻¹ *ᵥ b t) (∑ l, 2 * b' l * (A⁻¹ *ᵥ b 0) l) 0 := by
  have h1 : ∀ l, HasDerivAt (fun t => (A⁻¹ *ᵥ b t) l) ((A⁻¹ *ᵥ b') l) 0 := by
    intro l
    simp only [Matrix.mulVec, dotProduct]
    exact HasDerivAt.fun_sum fun j _ => (hb j).const_mul _
  have h2 : HasDerivAt (fun t => b t ⬝ᵥ A⁻¹ *ᵥ b t) (∑ l, (b' l * (A⁻¹ *ᵥ b 0) l + b 0 l * (A⁻¹ *ᵥ b') l)) 0 := by
    simp only [dotProduct]
    exact HasDerivAt.fun_sum fun l _ => (hb l).fun_mul (h1 l)
  refine h2.congr_deriv ?_
  have h3 : ∑ l, b 0 l * (A⁻¹ *ᵥ b') l = ∑ l, b' l * (A⁻¹ *ᵥ b 0) l :=
    dot_symm (transpose_of_posDef hA.inv) (b 0) b'
  rw [Finset.sum_add_distrib, h3, ← Finset.sum_add_distrib]
  exact Finset.sum_congr rfl fun l _ => by ring

/-- **C92** (variance). For a constructed GP with positive semidefinite kernel and noise, `dv/dx` of
`posterior_covariance_grad(x, direction)` at point `i` is the derivative of the variance returned by
`posterior_covariance` when point `i` moves in that direction, up to the change of slope of the prior variance within
1e-6 and of the covariances within 1e-8. -/
theorem C92_variance_gradient (c : Config γ H) (d : Data γ) (h : H) (he : SpluContract c.ext) (ha : Admissible c d h)
    (hpsd : IsPSDKernel (c.kernel h)) (hV : ((calcV c d h d.x).mat d.x.length).PosSemidef) :
    ∃ gp, init c d h = .ok gp ∧ ∀ (shift : γ → ℕ → ℝ → γ) (xs : List γ) (i : Fin xs.length) (dir : ℕ),
      shift xs[i] dir 0 = xs[i] → ∀ (kk' Ckk : ℝ) (k' Ck : Fin d.x.length → ℝ),
      Slope (fun t => c.kernel h (shift xs[i] dir t) (shift xs[i] dir t)) kk' 1e-6 Ckk →
      (∀ l, Slope (fun t => c.kernel h (shift xs[i] dir t) d.x[l]) (k' l) 1e-8 (Ck l)) →
      ∃ (var : ℝ → ℝ) (D : ℝ),
        (∀ (t : ℝ) (chunk : ℕ) (junk : NMat), ∃ v S,
          posteriorCovariance gp (xs.map fun x => shift x dir t) false false chunk junk = .ok (v, some S) ∧
            v i = var t) ∧
        HasDerivAt var D 0 ∧
        |covGradFlat gp shift xs dir i i - D|
          ≤ Ckk + 2 * ∑ l, Ck l * |((KVmat c d h)⁻¹ *ᵥ fun l => c.kernel h d.x[l] xs[i]) l| := by
  obtain ⟨gp, hgp, hc, rfl, rfl, rfl⟩ := init_ok c d h he ha
  obtain ⟨gp', hgp', hcov⟩ := C27_covariance_psd gp.cfg gp.data gp.hps he ha hpsd hV
  rw [hgp] at hgp'
  obtain rfl := Except.ok.inj hgp'
  refine ⟨gp, hgp, fun shift xs i dir h0 kk' Ckk k' Ck hkk hk => ?_⟩
  set A := KVmat gp.cfg gp.data gp.hps with hA
  let b : ℝ → Fin gp.data.x.length → ℝ := fun t l => gp.cfg.kernel gp.hps gp.data.x[l] (shift xs[i] dir t)
  have hb0 : b 0 = fun l => gp.cfg.kernel gp.hps gp.data.x[l] xs[i] := by funext l; simp only [b, h0]
  have hb : ∀ l, HasDerivAt (fun t => b t l) (k' l) 0 := by
    intro l
    have := (hk l).hasDerivAt (by norm_num)
    simp only [b]
    simpa only [hpsd.1] using this
  refine ⟨fun t => gp.cfg.kernel gp.hps (shift xs[i] dir t) (shift xs[i] dir t) - b t ⬝ᵥ A⁻¹ *ᵥ b t,
    kk' - ∑ l, 2 * k' l * (A⁻¹ *ᵥ b 0) l, fun t chunk junk => ?_, ?_, ?_⟩
  · obtain ⟨v, S, hvS, -, -, hv, -⟩ := hcov (xs.map fun x => shift x dir t) chunk junk
    have hi : (i : ℕ) < (xs.map fun x => shift x dir t).length := by simp
    refine ⟨v, S, hvS, ?_⟩
    have := hv ⟨i, hi⟩
    simp only at this
    rw [this, specCov, condCov_diag]
    simp [Kmat, b, A]
  · exact (hkk.hasDerivAt (by norm_num)).fun_sub (quad_hasDerivAt ha.posDef b k' hb)
  · have hkkf := hkk.forward (by norm_num)
    have e1 : ∀ t, gram (gp.cfg.kernel gp.hps) (xs.map fun x => shift x dir t) (xs.map fun x => shift x dir t) i i
        = gp.cfg.kernel gp.hps (shift xs[i] dir t) (shift xs[i] dir t) := by
      intro t; simp [gram]
    have e1' : gram (gp.cfg.kernel gp.hps) xs xs i i
        = gp.cfg.kernel gp.hps (shift xs[i] dir 0) (shift xs[i] dir 0) := by
      rw [h0]; simp [gram]
    have e2 : ∀ t (l : Fin gp.data.x.length),
        gram (gp.cfg.kernel gp.hps) (xs.map fun x => shift x dir t) gp.data.x i l
          = gp.cfg.kernel gp.hps (shift xs[i] dir t) gp.data.x[l] := by
      intro t l; simp [gram]
    have e2' : ∀ l : Fin gp.data.x.length,
        gram (gp.cfg.kernel gp.hps) xs gp.data.x i l = gp.cfg.kernel gp.hps (shift xs[i] dir 0) gp.data.x[l] := by
      intro l; rw [h0]; simp [gram]
    have e3 : ∀ l : Fin gp.data.x.length, solve gp.kv.factor
        (fun a => gram (gp.cfg.kernel gp.hps) gp.data.x xs a i) l = (A⁻¹ *ᵥ b 0) l := by
      intro l
      rw [consistent_solve hc ha.posDef, hb0]
      congr 1
      congr 1
      funext a
      simp [gram]
    have e4 : covGradFlat gp shift xs dir i i
        = (gp.cfg.kernel gp.hps (shift xs[i] dir 1e-6) (shift xs[i] dir 1e-6)
            - gp.cfg.kernel gp.hps (shift xs[i] dir 0) (shift xs[i] dir 0)) / 1e-6
          - ∑ l : Fin gp.data.x.length, 2 * ((gp.cfg.kernel gp.hps (shift xs[i] dir 1e-8) gp.data.x[l]
            - gp.cfg.kernel gp.hps (shift xs[i] dir 0) gp.data.x[l]) / 1e-8) * (A⁻¹ *ᵥ b 0) l := by
      simp only [covGradFlat, Finset.sum_range, e1, e1', e2, e2', e3]
    rw [e4, ← hb0, sub_sub_sub_comm, ← Finset.sum_sub_distrib]
    refine (abs_sub _ _).trans (add_le_add hkkf ?_)
    rw [Finset.mul_sum]
    refine (Finset.abs_sum_le_sum_abs _ _).trans (Finset.sum_le_sum fun l _ => ?_)
    rw [← sub_mul, ← mul_sub, abs_mul, abs_mul, abs_of_pos (by norm_num : (0:ℝ) < 2), mul_assoc]
    exact mul_le_mul_of_nonneg_left (mul_le_mul_of_nonneg_right ((hk l).forward (by norm_num)) (abs_nonneg _))
      (by norm_num)

/-- The model of the examples (kernel `4 (1 + a b)`): here the covariances are linear, so the error is that of the prior
variance alone. -/
example (mode : Mode) : ∃ gp, init (exCfg mode) exData 2 = .ok gp ∧ ∀ (xs : List ℝ) (i : Fin xs.length),
    ∃ (var : ℝ → ℝ) (D : ℝ),
      (∀ (t : ℝ) (chunk : ℕ) (junk : NMat), ∃ v S,
        posteriorCovariance gp (xs.map fun x => x + t) false false chunk junk = .ok (v, some S) ∧ v i = var t) ∧
      HasDerivAt var D 0 ∧ |covGradFlat gp (fun x _ t => x + t) xs 0 i i - D| ≤ 8e-6 := by
  obtain ⟨gp, hgp, H⟩ := C92_variance_gradient (exCfg mode) exData 2 cholExt_contract (exAdmissible mode 2)
    (exKernel_psd 2) (exNoise_posDef mode 2).posSemidef
  refine ⟨gp, hgp, fun xs i => ?_⟩
  obtain ⟨var, D, h1, h2, h3⟩ := H (fun x _ t => x + t) xs i 0 (by simp) (8 * xs[i]) (2 * |4| * 1e-6)
    (fun l => 4 * exData.x[l]) (fun _ => 0)
    (by
      have := slope_quadratic (4 * (1 + xs[i] * xs[i])) (8 * xs[i]) 4 1e-6 (by norm_num)
      convert this using 2 with t
      simp [exCfg]; ring)
    (fun l => by
      have := slope_linear (4 * (1 + xs[i] * exData.x[l])) (4 * exData.x[l]) 1e-8
      convert this using 2 with t
      simp [exCfg]; ring)
  refine ⟨var, D, h1, h2, h3.trans ?_⟩
  simp only [zero_mul, Finset.sum_const_zero]
  norm_num

/-! ## Off-diagonal entries -/

/-- **C92** (disagreement: `dS/dx` off the diagonal). The posterior covariance is symmetric for all positions of the
points, so its derivative is symmetric; the returned `dS/dx` is not: `2 k_gᵀ (K+V)⁻¹ k` takes the derivative of the
first factor only and doubles it. One data point at 1 with unit noise, kernel `1 + a b`, prediction points 0 and 1
moved together: the entries `(0,1)` and `(1,0)` differ by 2/3. -/
theorem C92_covariance_gradient_violated :
    ∃ (c : Config ℝ ℝ) (d : Data ℝ) (gp : GP ℝ ℝ), init c d 1 = .ok gp ∧ IsPSDKernel (c.kernel 1) ∧
      (∀ (xs : List ℝ) (chunk : ℕ) (junk : NMat), ∃ v S,
        posteriorCovariance gp xs false false chunk junk = .ok (v, some S) ∧
          ∀ i j : Fin xs.length, S i j = S j i) ∧
      covGradFlat gp (fun x _ t => x + t) [0, 1] 0 0 1 = covGradFlat gp (fun x _ t => x + t) [0, 1] 0 1 0 - 2 / 3 := by
  let d : Data ℝ := ⟨[1], [[1]], 1, some [1]⟩
  have hpd : ((calcV (exCfg .chol) d 1 d.x).mat d.x.length).PosDef := by
    have : (calcV (exCfg .chol) d 1 d.x).mat d.x.length = Matrix.diagonal fun _ => (1 : ℝ) := by
      ext i j
      fin_cases i; fin_cases j
      simp [calcV, exCfg, d, Noise.mat]
    rw [this]
    exact Matrix.PosDef.diagonal fun _ => one_pos
  have ha : Admissible (exCfg .chol) d 1 :=
    ⟨by simp [calcV, exCfg, d, Noise.Fits], KVmat_posDef (exKernel_psd 1) hpd⟩
  obtain ⟨gp, hgp, hc, h1, h2, h3⟩ := init_ok (exCfg .chol) d 1 cholExt_contract ha
  obtain ⟨gp', hgp', hcov⟩ := C27_covariance_psd (exCfg .chol) d 1 cholExt_contract ha (exKernel_psd 1) hpd.posSemidef
  rw [hgp] at hgp'
  obtain rfl := Except.ok.inj hgp'
  refine ⟨exCfg .chol, d, gp, hgp, exKernel_psd 1, fun xs chunk junk => ?_, ?_⟩
  · obtain ⟨v, S, hS, -, hp, -, -⟩ := hcov xs chunk junk
    refine ⟨v, S, hS, fun i j => ?_⟩
    exact congrFun (congrFun (transpose_of_posSemidef hp) j) i
  · have hKV : KVmat gp.cfg gp.data gp.hps = Matrix.diagonal fun _ => (3 : ℝ) := by
      rw [h1, h2, h3]
      ext i j
      fin_cases i; fin_cases j
      simp [KVmat, Kmat, calcV, exCfg, d, Noise.mat]
      norm_num
    have hs : ∀ b : ℕ → ℝ, solve gp.kv.factor b 0 = b 0 / 3 := by
      intro b
      have h0 : 0 < gp.data.x.length := by rw [h2]; simp [d]
      have := consistent_solve hc (by rw [h1, h2, h3]; exact ha.posDef) b ⟨0, h0⟩
      simp only at this
      have hinv : (KVmat gp.cfg gp.data gp.hps)⁻¹ = Matrix.diagonal fun _ => (3 : ℝ)⁻¹ := by
        apply Matrix.inv_eq_right_inv
        rw [hKV, Matrix.diagonal_mul_diagonal]
        norm_num
      rw [this, hinv, Matrix.mulVec_diagonal]
      ring
    have hr : range gp.data.x.length = {0} := by rw [h2]; rfl
    simp only [covGradFlat, hr, Finset.sum_singleton, hs]
    rw [h1, h2, h3]
    simp [gram, exCfg, d]
    norm_num

end Verif.GP
