import Verif.GP.SeqProps
import Verif.Kernels.Model

/-! Properties C151 (observations out of reach) and C152 (the influence of one observation). -/

namespace Verif.GP

open Finset Verif.LinAlg Matrix

variable {α H : Type}

/-- The kernel vanishes between the points of two lists. -/
def Apart (k : α → α → ℝ) (xs ys : List α) : Prop := ∀ a ∈ xs, ∀ b ∈ ys, k a b = 0

theorem Apart.kmat {k : α → α → ℝ} {xs ys : List α} (h : Apart k xs ys) : Kmat k xs ys = 0 := by
  ext i j
  exact h _ (List.getElem_mem _) _ (List.getElem_mem _)

theorem Apart.symm {k : α → α → ℝ} (hs : ∀ a b, k a b = k b a) {xs ys : List α} (h : Apart k xs ys) : Apart k ys xs :=
  fun a ha b hb => by rw [hs]; exact h b hb a ha

section Matrices

variable {n q p : Type*} [Fintype n] [DecidableEq n] [Fintype q] [DecidableEq q]

theorem condMean_zero (A : Matrix n n ℝ) (mx : p → ℝ) (m y : n → ℝ) : condMean A 0 mx m y = mx := by
  rw [condMean, Matrix.transpose_zero, Matrix.zero_mulVec, add_zero]

theorem condCov_zero (A : Matrix n n ℝ) (kk : Matrix p p ℝ) : condCov A 0 kk = kk := by
  rw [condCov, Matrix.transpose_zero, Matrix.zero_mul, Matrix.zero_mul, sub_zero]

end Matrices

/-- The second group of observations as a data set of its own. -/
structure Alone (c : Config α H) (h : H) (d d2 : Data α) (x2 : List α) (y2 : List (List ℝ)) : Prop where
  x : d2.x = x2
  y : d2.y = y2
  cols : d2.cols = d.cols
  mean : ∀ a, meanFn c d2 h a = meanFn c d h a
  fits : (calcV c d2 h d2.x).Fits d2.x.length c.sparseK
  noise : ∀ i j : Fin d2.x.length, ∀ i' j' : Fin x2.length, (i : ℕ) = i' → (j : ℕ) = j' →
    (calcV c d2 h d2.x).mat d2.x.length i j = (calcV c d h x2).mat x2.length i' j'

/-- **C151**. Let the data consist of two groups without correlation between them (kernel and errors). Predictions at points out of
reach of one group are those of a GP of the other group alone, and the log likelihood is the sum of the two. -/
theorem C151_groups (c : Config α H) (d d' d2 : Data α) (h : H) (x2 : List α) (y2 : List (List ℝ)) (he : SpluContract c.ext)
    (hs : ∀ a b, c.kernel h a b = c.kernel h b a) (hd : Appended c h d d' x2 y2) (h2 : Alone c h d d2 x2 y2)
    (hapart : Apart (c.kernel h) d.x x2) (hfit : (calcV c d h d.x).Fits d.x.length c.sparseK) (ha' : Admissible c d' h) :
    ∃ gp gp2 gp', init c d h = .ok gp ∧ init c d2 h = .ok gp2 ∧ init c d' h = .ok gp' ∧
      (∀ xs : List α, Apart (c.kernel h) x2 xs → ∀ (chunk : ℕ) (junk : NMat),
        (∀ (i : Fin xs.length) (j : ℕ), posteriorMean gp' xs i j = posteriorMean gp xs i j) ∧
        ∃ s S t T, posteriorCovariance gp xs false false chunk junk = .ok (s, some S) ∧
          posteriorCovariance gp' xs false false chunk junk = .ok (t, some T) ∧ ∀ i j : Fin xs.length, t i = s i ∧ T i j = S i j) ∧
      (∀ xs : List α, Apart (c.kernel h) d.x xs → ∀ (chunk : ℕ) (junk : NMat),
        (∀ (i : Fin xs.length) (j : ℕ), posteriorMean gp' xs i j = posteriorMean gp2 xs i j) ∧
        ∃ s S t T, posteriorCovariance gp2 xs false false chunk junk = .ok (s, some S) ∧
          posteriorCovariance gp' xs false false chunk junk = .ok (t, some T) ∧ ∀ i j : Fin xs.length, t i = s i ∧ T i j = S i j) ∧
      (c.mode ≠ .sparseSolve → 1 ≤ d.cols → logLikelihood gp' = logLikelihood gp + logLikelihood gp2) := by
  have hj := hd.parts hs ha'.posDef
  have hpd : (KVmat c d h).PosDef := block11_posDef hj
  obtain ⟨x2', y2', cols2, nv2⟩ := d2
  obtain ⟨rfl, rfl, rfl, hmean, hfit2, hnoise⟩ := h2
  set d2 : Data α := ⟨x2', y2', d.cols, nv2⟩ with hd2
  have hKV2 : KVmat c d2 h = Kmat (c.kernel h) x2' x2' + (calcV c d h x2').mat x2'.length := by
    ext i j
    simp only [KVmat, Matrix.add_apply]
    rw [← hnoise i j i j rfl rfl]
  have hB := hapart.kmat
  have hpd2 : (KVmat c d2 h).PosDef := by
    have := schur_posDef hj
    rw [hB, condCov_zero, ← hKV2] at this
    exact this
  obtain ⟨gp, hgp, hc, e1, e2, e3⟩ := init_ok c d h he ⟨hfit, hpd⟩
  obtain ⟨gp2, hgp2, hc2, f1, f2, f3⟩ := init_ok c d2 h he ⟨hfit2, hpd2⟩
  obtain ⟨gp', hgp', hc', e1', e2', e3'⟩ := init_ok c d' h he ha'
  have p : (KVmat gp.cfg gp.data gp.hps).PosDef := by rw [e1, e2, e3]; exact hpd
  have p2 : (KVmat gp2.cfg gp2.data gp2.hps).PosDef := by rw [f1, f2, f3]; exact hpd2
  have p' : (KVmat gp'.cfg gp'.data gp'.hps).PosDef := by rw [e1', e2', e3']; exact ha'.posDef
  -- equal specifications give equal answers
  have hfin : ∀ (g : GP α H) (hg : Consistent g) (pg : (KVmat g.cfg g.data g.hps).PosDef) (xs : List α),
      (∀ j, specMean c d' h xs j = specMean g.cfg g.data g.hps xs j) → specCov c d' h xs = specCov g.cfg g.data g.hps xs →
      ∀ (chunk : ℕ) (junk : NMat), (∀ (i : Fin xs.length) (j : ℕ), posteriorMean gp' xs i j = posteriorMean g xs i j) ∧
        ∃ s S t T, posteriorCovariance g xs false false chunk junk = .ok (s, some S) ∧
          posteriorCovariance gp' xs false false chunk junk = .ok (t, some T) ∧
          ∀ i j : Fin xs.length, t i = s i ∧ T i j = S i j := by
    intro g hg pg xs hm hcov chunk junk
    refine ⟨fun i j => by rw [consistent_mean hc' p', consistent_mean hg pg, e1', e2', e3', hm], ?_⟩
    obtain ⟨s, S, a1, a2, a3, -⟩ := posteriorCovariance_eq hg pg xs false chunk junk
    obtain ⟨t, T, b1, b2, b3, -⟩ := posteriorCovariance_eq hc' p' xs false chunk junk
    obtain ⟨S, rfl, a4⟩ := a3 rfl
    obtain ⟨T, rfl, b4⟩ := b3 rfl
    refine ⟨s, S, t, T, a1, b1, fun i j => ?_⟩
    rw [a2, a4, b2, b4, e1', e2', e3', hcov]
    exact ⟨rfl, rfl⟩
  have hmx : ∀ xs, meanAt c d' h xs = meanAt c d h xs := fun xs => by funext i; exact hd.mean _
  have hmx2 : ∀ xs, meanAt c d2 h xs = meanAt c d h xs := fun xs => by funext i; exact hmean _
  have hsm : ∀ xs j, specMean c d' h xs j = condMean (KVmat c d2 h) (Kmat (c.kernel h) x2' xs) (specMean c d h xs j)
      (meanAt c d h x2') (colOf y2' j) := by
    intro xs j
    rw [specMean, ← condMean_perm hd.equiv (KVmat c d' h), hd.KV hs, hd.cross, hd.means, hd.values, condMean_two_steps hj, hmx]
    simp only [hB, condCov_zero, condMean_zero, Matrix.transpose_zero, Matrix.zero_mul, sub_zero]
    rw [hKV2]
    rfl
  have hsc : ∀ xs, specCov c d' h xs = condCov (KVmat c d2 h) (Kmat (c.kernel h) x2' xs) (specCov c d h xs) := by
    intro xs
    rw [specCov, ← condCov_perm hd.equiv (KVmat c d' h), hd.KV hs, hd.cross, condCov_two_steps hj]
    simp only [hB, condCov_zero, Matrix.transpose_zero, Matrix.zero_mul, sub_zero]
    rw [hKV2]
    rfl
  refine ⟨gp, gp2, gp', hgp, hgp2, hgp', fun xs hx => ?_, fun xs hx => ?_, fun hmode hcols => ?_⟩
  · refine hfin gp hc p xs (fun j => ?_) ?_
    · rw [hsm, hx.kmat, condMean_zero, e1, e2, e3]
    · rw [hsc, hx.kmat, condCov_zero, e1, e2, e3]
  · refine hfin gp2 hc2 p2 xs (fun j => ?_) ?_
    · rw [hsm, f1, f2, f3, specMean, specMean, hx.kmat, condMean_zero, hmx2, hmx2]
      rfl
    · rw [hsc, f1, f2, f3, specCov, specCov, hx.kmat, condCov_zero]
  · rw [consistent_loglik hc p (by rw [e1]; exact hmode) (by rw [e2]; exact hd.len) (by rw [e2]; exact hcols),
      consistent_loglik hc2 p2 (by rw [f1]; exact hmode) (by rw [f2]; exact hd.len2) (by rw [f2]; exact hcols),
      consistent_loglik hc' p' (by rw [e1']; exact hmode)
        (by rw [e2', hd.y, hd.x, List.length_append, List.length_append, hd.len, hd.len2]) (by rw [e2', hd.cols]; exact hcols),
      e1, e2, e3, f1, f2, f3, e1', e2', e3', specLogLik, specLogLik, specLogLik, hd.cols]
    change _ = _ + _ / (d.cols : ℝ)
    rw [← add_div, ← Finset.sum_add_distrib]
    congr 1
    refine Finset.sum_congr rfl fun j _ => ?_
    rw [log_normalDensity ha'.posDef, log_normalDensity hpd, log_normalDensity hpd2, ← logNormal_perm hd.equiv (KVmat c d' h),
      hd.KV hs, hd.means, hd.values, logNormal_two_steps hj]
    congr 1
    rw [hB, condCov_zero, condMean_zero, ← hKV2]
    have : meanAt c d2 h d2.x = meanAt c d h x2' := hmx2 x2'
    rw [this]
    rfl

/-! ## One observation -/

/-- **C152** (gain). One more observation `z` at `b` with noise variance `t` changes the prediction at `x` by the covariance of `x`
and `b` over the variance of the new observation, times its deviation from the prediction. -/
theorem C152_gain (c : Config α H) (d d' : Data α) (h : H) (b : α) (z : List ℝ) (t : ℝ) (he : SpluContract c.ext)
    (hd : Appended c h d d' [b] [z]) (ht : (calcV c d h [b]).mat 1 0 0 = t) (hk : IsPSDKernel (c.kernel h))
    (hfit : (calcV c d h d.x).Fits d.x.length c.sparseK) (hV : ((calcV c d h d.x).mat d.x.length).PosSemidef)
    (hV' : ((calcV c d' h d'.x).mat d'.x.length).PosSemidef) (ha' : Admissible c d' h) :
    ∃ gp gp', init c d h = .ok gp ∧ init c d' h = .ok gp' ∧ ∀ (x : α) (chunk chunk' : ℕ) (junk junk' : NMat),
      ∃ v S v' S', posteriorCovariance gp [b, x] false false chunk junk = .ok (v, some S) ∧
        posteriorCovariance gp' [x] false false chunk' junk' = .ok (v', some S') ∧ 0 ≤ S 0 0 ∧ 0 < S 0 0 + t ∧
        (∀ j, posteriorMean gp' [x] 0 j = posteriorMean gp [b, x] 1 j
          + S 0 1 / (S 0 0 + t) * (z.getD j 0 - posteriorMean gp [b, x] 0 j)) ∧
        S' 0 0 = S 1 1 - S 0 1 ^ 2 / (S 0 0 + t) := by
  have hj := hd.parts hk.1 ha'.posDef
  have hSpd : (specCov c d h [b] + (calcV c d h [b]).mat 1).PosDef := by
    have := schur_posDef hj
    rw [schur_eq] at this
    exact this
  obtain ⟨gp, gp', hgp, hgp', H⟩ := C149_two_steps c d d' h [b] [z] he hd hk hfit hV hV' ha'
  obtain ⟨gp₀, hgp₀, hc, e1, e2, e3⟩ := init_ok c d h he ⟨hfit, block11_posDef hj⟩
  rw [hgp] at hgp₀
  cases hgp₀
  refine ⟨gp, gp', hgp, hgp', fun x chunk chunk' junk junk' => ?_⟩
  obtain ⟨v, S, v', S', hS, hS', H⟩ := H [x] chunk chunk' junk junk'
  obtain ⟨w, T, hT, hTm⟩ := covariance_unclipped hc (by rw [e1, e2, e3]; exact block11_posDef hj) (by rw [e1, e3]; exact hk)
    (by rw [e1, e2, e3]; exact hV) [b, x] chunk junk
  have hST : S = T := by
    have := hS.symm.trans hT
    simp only [Except.ok.injEq, Prod.mk.injEq, Option.some.injEq] at this
    exact this.2
  have hnn : 0 ≤ S 0 0 := by
    have h0 := (specCov_posSemidef hk hV (block11_posDef hj) [b, x]).diag_nonneg (i := (0 : Fin 2))
    have h1 : S 0 0 = specCov c d h [b, x] (0 : Fin 2) (0 : Fin 2) := by
      rw [hST, ← e1, ← e2, ← e3, ← hTm]
      rfl
    rw [h1]
    exact h0
  have hpos : 0 < S 0 0 + t := by
    have h0 := hSpd.diag_pos (i := (0 : Fin 1))
    rw [Matrix.add_apply, ht] at h0
    have h1 : S 0 0 = specCov c d h [b, x] (0 : Fin 2) (0 : Fin 2) := by
      rw [hST, ← e1, ← e2, ← e3, ← hTm]
      rfl
    have h2 : specCov c d h [b, x] (0 : Fin 2) (0 : Fin 2) = specCov c d h [b] (0 : Fin 1) (0 : Fin 1) := by
      rw [specCov, specCov, condCov_entry, condCov_entry]
      rfl
    rw [h1, h2]
    exact h0
  refine ⟨v, S, v', S', hS, hS', hnn, hpos, ?_⟩
  obtain ⟨hm, hcov⟩ := H (Matrix.of fun _ _ : Fin 1 => S 0 0 + t) (Matrix.of fun _ _ : Fin 1 => S 0 1)
    (Matrix.of fun _ _ : Fin 1 => S 1 1)
    (fun i j => by
      have hi : i = (0 : Fin 1) := Subsingleton.elim (α := Fin 1) _ _
      have hj : j = (0 : Fin 1) := Subsingleton.elim (α := Fin 1) _ _
      subst hi hj
      change S 0 0 + t = S 0 0 + (calcV c d h [b]).mat 1 0 0
      rw [ht])
    (fun i j => by
      have hi : i = (0 : Fin 1) := Subsingleton.elim (α := Fin 1) _ _
      have hj : j = (0 : Fin 1) := Subsingleton.elim (α := Fin 1) _ _
      subst hi hj
      rfl)
    (fun i j => by
      have hi : i = (0 : Fin 1) := Subsingleton.elim (α := Fin 1) _ _
      have hj : j = (0 : Fin 1) := Subsingleton.elim (α := Fin 1) _ _
      subst hi hj
      rfl)
  have hinv : (Matrix.of fun _ _ : Fin 1 => S 0 0 + t)⁻¹ = Matrix.of fun _ _ : Fin 1 => 1 / (S 0 0 + t) := by
    apply Matrix.inv_eq_right_inv
    ext i j
    have hi : i = (0 : Fin 1) := Subsingleton.elim (α := Fin 1) _ _
    have hj : j = (0 : Fin 1) := Subsingleton.elim (α := Fin 1) _ _
    subst hi hj
    simp [Matrix.mul_apply, hpos.ne']
  constructor
  · intro j
    have := hm (0 : Fin 1) j
    change posteriorMean gp' [x] 0 j = _ at this
    rw [this, condMean]
    change posteriorMean gp [b, x] 1 j + ∑ l : Fin 1, S 0 1 * ∑ q : Fin 1, (Matrix.of fun _ _ : Fin 1 => S 0 0 + t)⁻¹ l q * (z.getD j 0 - posteriorMean gp [b, x] 0 j) = _
    rw [Fin.sum_univ_one, Fin.sum_univ_one]
    rw [hinv]
    simp only [Matrix.of_apply]
    ring
  · have := hcov (0 : Fin 1) (0 : Fin 1)
    change S' 0 0 = _ at this
    rw [this, condCov_entry]
    change S 1 1 - ∑ l : Fin 1, S 0 1 * ∑ q : Fin 1, (Matrix.of fun _ _ : Fin 1 => S 0 0 + t)⁻¹ l q * S 0 1 = _
    rw [Fin.sum_univ_one, Fin.sum_univ_one]
    rw [hinv]
    simp only [Matrix.of_apply]
    ring

/-- **C152** (noise). The influence of an observation is at most inversely proportional to its noise variance. -/
theorem C152_noise (c : Config α H) (d d' : Data α) (h : H) (b : α) (z : List ℝ) (t : ℝ) (he : SpluContract c.ext)
    (hd : Appended c h d d' [b] [z]) (ht : (calcV c d h [b]).mat 1 0 0 = t) (ht0 : 0 < t) (hk : IsPSDKernel (c.kernel h))
    (hfit : (calcV c d h d.x).Fits d.x.length c.sparseK) (hV : ((calcV c d h d.x).mat d.x.length).PosSemidef)
    (hV' : ((calcV c d' h d'.x).mat d'.x.length).PosSemidef) (ha' : Admissible c d' h) :
    ∃ gp gp', init c d h = .ok gp ∧ init c d' h = .ok gp' ∧ ∀ (x : α) (chunk chunk' : ℕ) (junk junk' : NMat),
      ∃ v S v' S', posteriorCovariance gp [b, x] false false chunk junk = .ok (v, some S) ∧
        posteriorCovariance gp' [x] false false chunk' junk' = .ok (v', some S') ∧
        (∀ j, |posteriorMean gp' [x] 0 j - posteriorMean gp [b, x] 1 j|
          ≤ |S 0 1| * |z.getD j 0 - posteriorMean gp [b, x] 0 j| / t) ∧
        0 ≤ S 1 1 - S' 0 0 ∧ S 1 1 - S' 0 0 ≤ S 0 1 ^ 2 / t := by
  obtain ⟨gp, gp', hgp, hgp', G⟩ := C152_gain c d d' h b z t he hd ht hk hfit hV hV' ha'
  refine ⟨gp, gp', hgp, hgp', fun x chunk chunk' junk junk' => ?_⟩
  obtain ⟨v, S, v', S', hS, hS', hnn, hpos, hm, hv⟩ := G x chunk chunk' junk junk'
  refine ⟨v, S, v', S', hS, hS', fun j => ?_, ?_, ?_⟩
  · rw [hm, add_sub_cancel_left, abs_mul, abs_div, abs_of_pos hpos, div_mul_eq_mul_div]
    exact div_le_div_of_nonneg_left (by positivity) ht0 (by linarith)
  · rw [hv, sub_sub_cancel]
    positivity
  · rw [hv, sub_sub_cancel]
    exact div_le_div_of_nonneg_left (sq_nonneg _) ht0 (by linarith)

/-- **C152** (towards). At the place of the observation the prediction moves towards the observed value and never past it; an exact
observation is met, and the remaining variance is at most the noise variance and at most the variance before. -/
theorem C152_towards (c : Config α H) (d d' : Data α) (h : H) (b : α) (z : List ℝ) (t : ℝ) (he : SpluContract c.ext)
    (hd : Appended c h d d' [b] [z]) (ht : (calcV c d h [b]).mat 1 0 0 = t) (ht0 : 0 ≤ t) (hk : IsPSDKernel (c.kernel h))
    (hfit : (calcV c d h d.x).Fits d.x.length c.sparseK) (hV : ((calcV c d h d.x).mat d.x.length).PosSemidef)
    (hV' : ((calcV c d' h d'.x).mat d'.x.length).PosSemidef) (ha' : Admissible c d' h) :
    ∃ gp gp', init c d h = .ok gp ∧ init c d' h = .ok gp' ∧ ∀ (chunk chunk' : ℕ) (junk junk' : NMat),
      ∃ v S v' S', posteriorCovariance gp [b] false false chunk junk = .ok (v, some S) ∧
        posteriorCovariance gp' [b] false false chunk' junk' = .ok (v', some S') ∧ ∃ r : ℝ, 0 ≤ r ∧ r ≤ 1 ∧ (t = 0 → r = 1) ∧
          (∀ j, posteriorMean gp' [b] 0 j = (1 - r) * posteriorMean gp [b] 0 j + r * z.getD j 0) ∧
          S' 0 0 = (1 - r) * S 0 0 ∧ S' 0 0 = r * t := by
  have hj := hd.parts hk.1 ha'.posDef
  obtain ⟨gp, gp', hgp, hgp', G⟩ := C152_gain c d d' h b z t he hd ht hk hfit hV hV' ha'
  obtain ⟨gp₀, hgp₀, hc, e1, e2, e3⟩ := init_ok c d h he ⟨hfit, block11_posDef hj⟩
  rw [hgp] at hgp₀
  cases hgp₀
  have hpd : (KVmat gp.cfg gp.data gp.hps).PosDef := by rw [e1, e2, e3]; exact block11_posDef hj
  refine ⟨gp, gp', hgp, hgp', fun chunk chunk' junk junk' => ?_⟩
  obtain ⟨v, S, v', S', hS, hS', hnn, hpos, hm, hv⟩ := G b chunk chunk' junk junk'
  obtain ⟨w, T, hT, hTm⟩ := covariance_unclipped hc hpd (by rw [e1, e3]; exact hk) (by rw [e1, e2, e3]; exact hV) [b, b] chunk junk
  obtain ⟨w1, T1, hT1, hTm1⟩ := covariance_unclipped hc hpd (by rw [e1, e3]; exact hk) (by rw [e1, e2, e3]; exact hV) [b] chunk junk
  have hST : S = T := by
    have := hS.symm.trans hT
    simp only [Except.ok.injEq, Prod.mk.injEq, Option.some.injEq] at this
    exact this.2
  subst hST
  have hent : ∀ i j : Fin 2, S i j = T1 0 0 := by
    intro i j
    have h1 : S i j = specCov gp.cfg gp.data gp.hps [b, b] i j := by rw [← hTm]; rfl
    have h2 : T1 0 0 = specCov gp.cfg gp.data gp.hps [b] (0 : Fin 1) (0 : Fin 1) := by rw [← hTm1]; rfl
    rw [h1, h2, specCov, specCov, condCov_entry, condCov_entry]
    fin_cases i <;> fin_cases j <;> rfl
  have hmean : ∀ (i : Fin 2) (j : ℕ), posteriorMean gp [b, b] i j = posteriorMean gp [b] 0 j := by
    intro i j
    have h1 := consistent_mean hc hpd [b, b] i j
    have h2 := consistent_mean hc hpd [b] (0 : Fin 1) j
    change posteriorMean gp [b] 0 j = _ at h2
    rw [h1, h2]
    fin_cases i <;> rfl
  have h00 : S 0 0 = T1 0 0 := hent 0 0
  have h01 : S 0 1 = T1 0 0 := hent 0 1
  have h11 : S 1 1 = T1 0 0 := hent 1 1
  have hm0 : ∀ j, posteriorMean gp [b, b] 0 j = posteriorMean gp [b] 0 j := hmean 0
  have hm1 : ∀ j, posteriorMean gp [b, b] 1 j = posteriorMean gp [b] 0 j := hmean 1
  rw [h00] at hnn hpos
  refine ⟨w1, T1, v', S', hT1, hS', T1 0 0 / (T1 0 0 + t), by positivity, by rw [div_le_one hpos]; linarith, fun h0 => ?_,
    fun j => ?_, ?_, ?_⟩
  · rw [h0, add_zero] at hpos ⊢
    exact div_self hpos.ne'
  · rw [hm, h00, h01, hm0, hm1]
    ring
  · rw [hv, h00, h01, h11]
    ring
  · rw [hv, h00, h01, h11]
    field_simp
    ring

/-! ### Examples and violation -/

/-- Points whose scaled distance is at least one are out of reach of the compactly supported kernel. -/
theorem wendland_apart {D : ℕ} (amp : ℝ) (l : Fin D → ℝ) (xs ys : List (Fin D → ℝ))
    (h : ∀ a ∈ xs, ∀ b ∈ ys, 1 ≤ Kernels.anisoDistance a b l) : Apart (fun a b => Kernels.wendlandAniso a b amp l) xs ys := by
  intro a ha b hb
  have h1 := h a ha b hb
  have h0 : Kernels.wendland (Kernels.anisoDistance a b l) = 0 := by
    rw [Kernels.wendland]
    split
    · norm_num [Kernels.wendlandPoly]
    · have : Kernels.anisoDistance a b l = 1 := le_antisymm (by linarith) h1
      rw [this]
      norm_num [Kernels.wendlandPoly]
  simp only [Kernels.wendlandAniso, h0, mul_zero]

noncomputable def reachRest : Data ℝ := ⟨[5], [[4]], 1, none⟩

theorem delta_apart {xs ys : List ℝ} (h : ∀ a ∈ xs, ∀ b ∈ ys, a ≠ b) : Apart deltaKernel xs ys :=
  fun a ha b hb => by simp [deltaKernel, h a ha b hb]

theorem reachAlone (k : ℝ → ℝ → ℝ) (mean : ℝ → ℝ → ℝ) (mode : Mode) (h : ℝ) :
    Alone (seqCfg k (some mean) mode) h seqOld reachRest [5] [[4]] where
  x := rfl
  y := rfl
  cols := rfl
  mean _ := rfl
  fits := by simp [calcV, seqCfg, Noise.Fits]
  noise i j i' j' hi hj := by
    have e1 : i' = i := Fin.ext hi.symm
    have e2 : j' = j := Fin.ext hj.symm
    rw [e1, e2, seqNoise]
    exact (congrFun (congrFun (seqNoise k (some mean) mode seqOld h [5]) i) j).symm

example (mode : Mode) (hm : mode ≠ .sparseSolve) : ∃ gp gp2 gp',
    init (seqCfg deltaKernel (some fun _ a => a) mode) seqOld 0 = .ok gp ∧
    init (seqCfg deltaKernel (some fun _ a => a) mode) reachRest 0 = .ok gp2 ∧
    init (seqCfg deltaKernel (some fun _ a => a) mode) seqAll 0 = .ok gp' ∧
    logLikelihood gp' = logLikelihood gp + logLikelihood gp2 ∧ posteriorMean gp' [2] 0 0 = posteriorMean gp [2] 0 0 := by
  obtain ⟨gp, gp2, gp', h1, h2, h3, hA, -, hL⟩ := C151_groups _ seqOld seqAll reachRest 0 [5] [[4]] cholExt_contract
    deltaKernel_psd.1 (seqAppended _ (fun _ a => a) mode 0) (reachAlone _ _ mode 0)
    (delta_apart (by simp [seqOld])) (seqAdmissible deltaKernel_psd _ mode _ 0).fits
    (seqAdmissible deltaKernel_psd _ mode _ 0)
  exact ⟨gp, gp2, gp', h1, h2, h3, hL hm le_rfl, (hA [2] (delta_apart (by simp)) 1 fun _ _ => 0).1 (0 : Fin 1) 0⟩

example (mode : Mode) : ∃ gp gp',
    init (seqCfg (fun a b => 3 ^ 2 * (1 + a * b)) (some fun _ a => a) mode) seqOld 0 = .ok gp ∧
    init (seqCfg (fun a b => 3 ^ 2 * (1 + a * b)) (some fun _ a => a) mode) seqAll 0 = .ok gp' ∧
    ∃ r : ℝ, 0 ≤ r ∧ r ≤ 1 ∧ posteriorMean gp' [5] 0 0 = (1 - r) * posteriorMean gp [5] 0 0 + r * 4 := by
  obtain ⟨gp, gp', h1, h2, h3⟩ := C152_towards _ seqOld seqAll 0 5 [4] 1 cholExt_contract (seqAppended _ (fun _ a => a) mode 0)
    (congrFun (congrFun (seqNoise _ _ mode seqOld 0 [5]) (0 : Fin 1)) (0 : Fin 1)) zero_le_one
    (exKernel_psd 3) (seqAdmissible (exKernel_psd 3) _ mode _ 0).fits (by rw [seqNoise]; exact Matrix.PosSemidef.one)
    (by rw [seqNoise]; exact Matrix.PosSemidef.one) (seqAdmissible (exKernel_psd 3) _ mode _ 0)
  obtain ⟨_, _, _, _, -, -, r, h4, h5, -, h6, -⟩ := h3 1 1 (fun _ _ => 0) fun _ _ => 0
  exact ⟨gp, gp', h1, h2, r, h4, h5, h6 0⟩

/-- **C151** is violated by the default prior mean, the average of all observed values: an observation without any correlation to
the point predicted moves the prediction there, here from 0 to 1. -/
theorem C151_default_mean_violated (mode : Mode) :
    ∃ gp gp', init (seqCfg deltaKernel none mode) meanOld 0 = .ok gp ∧ init (seqCfg deltaKernel none mode) meanAll 0 = .ok gp' ∧
      Apart deltaKernel [1] [5] ∧ posteriorMean gp [5] 0 0 = 0 ∧ posteriorMean gp' [5] 0 0 = 1 := by
  set c := seqCfg deltaKernel none mode with hcdef
  have ha : ∀ d, Admissible c d 0 := fun d => seqAdmissible deltaKernel_psd _ mode d 0
  have key : ∀ (d : Data ℝ) (g : GP ℝ ℝ), init c d 0 = .ok g → (∀ a ∈ d.x, a ≠ 5) →
      posteriorMean g [5] 0 0 = meanFn c d 0 5 := by
    intro d g hg hne
    obtain ⟨g₀, hg₀, hc, h1, h2, h3⟩ := init_ok c d 0 cholExt_contract (ha d)
    rw [hg] at hg₀
    cases hg₀
    have := consistent_mean hc (by rw [h1, h2, h3]; exact (ha d).posDef) [5] (0 : Fin 1) 0
    change posteriorMean g [5] 0 0 = _ at this
    have hk : Apart (c.kernel 0) d.x [5] := delta_apart (by simpa using hne)
    rw [this, h1, h2, h3, specMean, hk.kmat, condMean_zero]
    rfl
  obtain ⟨gp, hgp, -⟩ := init_ok c meanOld 0 cholExt_contract (ha _)
  obtain ⟨gp', hgp', -⟩ := init_ok c meanAll 0 cholExt_contract (ha _)
  refine ⟨gp, gp', hgp, hgp', delta_apart (by norm_num), ?_, ?_⟩
  · rw [key _ _ hgp (by simp [meanOld])]
    simp [meanFn, hcdef, seqCfg, Data.yMean, meanOld]
  · rw [key _ _ hgp' (by simp [meanAll])]
    simp [meanFn, hcdef, seqCfg, Data.yMean, meanAll]

end Verif.GP
