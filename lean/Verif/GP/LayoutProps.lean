import Verif.GP.LayoutModel
import Verif.GP.PostProps

/-! Properties C29 and C30: how multi-task predictions and their gradients are arranged. -/

namespace Verif.GP

open Finset Verif.LinAlg Matrix

variable {α β γ H : Type}

/-! ## Index arithmetic -/

theorem cartesian_length (pair : α → β → γ) (xs : List α) (outs : List β) :
    (cartesian pair xs outs).length = xs.length * outs.length := by
  induction outs with
  | nil => simp [cartesian]
  | cons t outs ih =>
    rw [cartesian] at ih ⊢
    rw [List.flatMap_cons, List.length_append, ih, List.length_map, List.length_cons]
    ring

theorem pos_lt {P T i t : ℕ} (hi : i < P) (ht : t < T) : i + P * t < P * T := by
  have : P * (t + 1) ≤ P * T := Nat.mul_le_mul_left P ht
  rw [Nat.mul_add] at this
  omega

theorem cartesian_get (pair : α → β → γ) (xs : List α) (outs : List β) (i t : ℕ) (hi : i < xs.length)
    (ht : t < outs.length) : (cartesian pair xs outs)[i + xs.length * t]? = some (pair xs[i] outs[t]) := by
  induction outs generalizing t with
  | nil => simp at ht
  | cons o outs ih =>
    rw [cartesian, List.flatMap_cons]
    cases t with
    | zero =>
      rw [Nat.mul_zero, Nat.add_zero, List.getElem?_append_left (by simpa using hi)]
      simp [hi]
    | succ t =>
      rw [List.getElem?_append_right (by rw [List.length_map]; rw [Nat.mul_add]; omega), List.length_map]
      have : i + xs.length * (t + 1) - xs.length = i + xs.length * t := by rw [Nat.mul_add]; omega
      rw [this]
      have h := ih t (by simpa using ht)
      rw [cartesian] at h
      rw [h]
      simp

theorem add_mul_mod' {P i k : ℕ} (hi : i < P) : (i + P * k) % P = i := by
  rw [Nat.add_mul_mod_self_left, Nat.mod_eq_of_lt hi]

theorem add_mul_div' {P i k : ℕ} (hi : i < P) : (i + P * k) / P = k := by
  rw [Nat.add_mul_div_left _ _ (by omega), Nat.div_eq_of_lt hi, Nat.zero_add]

/-- A vector of length `P * T` reshaped to `(P, T)`. -/
theorem reshape_vec (f : ℕ → ℝ) (N P T : ℕ) (hN : N = P * T) :
    ∃ R, (⟨[N], fun idx => f (idx.getD 0 0)⟩ : NDArr).reshapeF [P, T] = .ok R ∧ R.shape = [P, T] ∧
      ∀ i < P, ∀ t < T, R.get [i, t] = f (i + P * t) := by
  refine ⟨_, by rw [NDArr.reshapeF, if_pos (by simp [hN])], rfl, fun i hi t ht => ?_⟩
  simp only [flatF, unflatF, List.getD_cons_zero, Nat.mul_zero, Nat.add_zero]
  rw [Nat.mod_eq_of_lt (by rw [hN]; exact pos_lt hi ht)]

/-- An `(P*T, 1)` array reshaped to `(P, T)`. -/
theorem reshape_col (f : ℕ → ℕ → ℝ) (N P T : ℕ) (hN : N = P * T) :
    ∃ R, (⟨[N, 1], fun idx => f (idx.getD 0 0) (idx.getD 1 0)⟩ : NDArr).reshapeF [P, T] = .ok R ∧ R.shape = [P, T] ∧
      ∀ i < P, ∀ t < T, R.get [i, t] = f (i + P * t) 0 := by
  refine ⟨_, by rw [NDArr.reshapeF, if_pos (by simp [hN])], rfl, fun i hi t ht => ?_⟩
  simp only [flatF, unflatF, List.getD_cons_zero, List.getD_cons_succ, Nat.mul_zero, Nat.add_zero, Nat.mod_one]
  rw [Nat.mod_eq_of_lt (by rw [hN]; exact pos_lt hi ht)]

/-- An `(P*T, P*T)` array reshaped to `(P, T, P, T)` and transposed to `(P, P, T, T)`. -/
theorem reshape_mat (f : ℕ → ℕ → ℝ) (N P T : ℕ) (hN : N = P * T) :
    ∃ R, (⟨[N, N], fun idx => f (idx.getD 0 0) (idx.getD 1 0)⟩ : NDArr).reshapeF [P, T, P, T] = .ok R ∧
      (R.transpose [0, 2, 1, 3]).shape = [P, P, T, T] ∧
      ∀ i < P, ∀ j < P, ∀ t < T, ∀ u < T,
        (R.transpose [0, 2, 1, 3]).get [i, j, t, u] = f (i + P * t) (j + P * u) := by
  refine ⟨_, by rw [NDArr.reshapeF, if_pos (by simp [hN, Nat.mul_assoc])], rfl, fun i hi j hj t ht u hu => ?_⟩
  have e : (NDArr.transpose ⟨[P, T, P, T], fun idx =>
      f ((unflatF [N, N] (flatF [P, T, P, T] idx)).getD 0 0) ((unflatF [N, N] (flatF [P, T, P, T] idx)).getD 1 0)⟩
        [0, 2, 1, 3]).get [i, j, t, u]
      = f ((unflatF [N, N] (flatF [P, T, P, T] [i, t, j, u])).getD 0 0)
          ((unflatF [N, N] (flatF [P, T, P, T] [i, t, j, u])).getD 1 0) := rfl
  rw [e]
  simp only [flatF, unflatF, List.getD_cons_zero, List.getD_cons_succ, Nat.mul_zero, Nat.add_zero]
  have h1 : i + P * (t + T * (j + P * u)) = (i + P * t) + N * (j + P * u) := by rw [hN]; ring
  have hlt : i + P * t < N := hN ▸ pos_lt hi ht
  have hlt2 : j + P * u < N := hN ▸ pos_lt hj hu
  rw [h1, add_mul_mod' hlt, add_mul_div' hlt, Nat.mod_eq_of_lt hlt2]

/-- An `(P*T, D)` array reshaped to `(P, D, T)`: where the entries come from. -/
theorem reshape_grad (f : ℕ → ℕ → ℝ) (N P T D : ℕ) (hN : N = P * T) :
    ∃ R, (⟨[N, D], fun idx => f (idx.getD 0 0) (idx.getD 1 0)⟩ : NDArr).reshapeF [P, D, T] = .ok R ∧
      R.shape = [P, D, T] ∧
      ∀ i < P, ∀ d < D, ∀ t < T,
        R.get [i, d, t] = f ((i + P * (d + D * t)) % (P * T)) ((i + P * (d + D * t)) / (P * T)) := by
  refine ⟨_, by rw [NDArr.reshapeF, if_pos (by simp [hN]; ring)], rfl, fun i hi d hd t ht => ?_⟩
  simp only [flatF, unflatF, List.getD_cons_zero, List.getD_cons_succ, Nat.mul_zero, Nat.add_zero, hN]
  rw [Nat.mod_eq_of_lt (a := (i + P * (d + D * t)) / (P * T))]
  rw [Nat.div_lt_iff_lt_mul (Nat.mul_pos (by omega) (by omega))]
  have h1 := pos_lt hi (pos_lt hd ht)
  calc i + P * (d + D * t) < P * (D * T) := h1
    _ = D * (P * T) := by ring

/-- An `(P*T, P*T)` array reshaped directly to `(P, P, T, T)`: where the entries come from. -/
theorem reshape_direct (f : ℕ → ℕ → ℝ) (N P T : ℕ) (hN : N = P * T) :
    ∃ R, (⟨[N, N], fun idx => f (idx.getD 0 0) (idx.getD 1 0)⟩ : NDArr).reshapeF [P, P, T, T] = .ok R ∧
      ∀ i j t u, R.get [i, j, t, u] = f ((i + P * (j + P * (t + T * u))) % (P * T))
        ((i + P * (j + P * (t + T * u))) / (P * T) % (P * T)) := by
  refine ⟨_, by rw [NDArr.reshapeF, if_pos (by simp [hN]; ring)], fun i j t u => ?_⟩
  simp only [flatF, unflatF, List.getD_cons_zero, List.getD_cons_succ, Nat.mul_zero, Nat.add_zero, hN]

/-! ## C29 -/

/-- The flat prediction points are task-major: position `i + Npts * t` holds point `i` with task `t`. -/
theorem C29_flat_is_task_major (pair : α → β → γ) (xs : List α) (outs : List β) :
    (cartesian pair xs outs).length = xs.length * outs.length ∧
    ∀ (i t : ℕ) (hi : i < xs.length) (ht : t < outs.length),
      (cartesian pair xs outs)[i + xs.length * t]? = some (pair xs[i] outs[t]) :=
  ⟨cartesian_length pair xs outs, cartesian_get pair xs outs⟩

example : cartesian Prod.mk [10, 20, 30] ['a', 'b']
    = [(10, 'a'), (20, 'a'), (30, 'a'), (10, 'b'), (20, 'b'), (30, 'b')] := rfl

theorem posteriorMean_pointwise (gp : GP γ H) (xs : List γ) (k : ℕ) (p : γ) (h : xs[k]? = some p) (j : ℕ) :
    posteriorMean gp xs k j = posteriorMean gp [p] 0 j := by
  simp only [posteriorMean, evalAt, gram, h, List.getElem?_cons_zero]

/-- **C29** (mean). Entry `[i, t]` of the returned array is the posterior mean at point `i` with task `t`, computed on
its own. -/
theorem C29_mean (gp : GP γ H) (pair : α → β → γ) (xs : List α) (outs : List β) (hcols : gp.data.cols = 1) :
    ∃ M, posteriorMeanTasks gp pair xs outs = .ok M ∧ M.shape = [xs.length, outs.length] ∧
      ∀ (i t : ℕ) (hi : i < xs.length) (ht : t < outs.length),
        M.get [i, t] = posteriorMean gp [pair xs[i] outs[t]] 0 0 := by
  obtain ⟨R, hR, hs, hg⟩ := reshape_col (posteriorMean gp (cartesian pair xs outs)) _ _ _ (cartesian_length pair xs outs)
  refine ⟨R, ?_, hs, fun i t hi ht => ?_⟩
  · rw [posteriorMeanTasks, hcols]; exact hR
  · rw [hg i hi t ht]
    exact posteriorMean_pointwise gp _ _ _ (cartesian_get pair xs outs i t hi ht) 0

/-- **C29** (covariance layout). In any state, with or without added noise: `v(x)[i,t]` and `S[i,j,t,u]` are the flat
entries at the positions of (point `i`, task `t`) and (point `j`, task `u`). -/
theorem C29_covariance_layout (gp : GP γ H) (pair : α → β → γ) (xs : List α) (outs : List β) (vo noisy : Bool)
    (chunk : ℕ) (junk : NMat) (v : ℕ → ℝ) (S : Option NMat)
    (h : posteriorCovariance gp (cartesian pair xs outs) vo noisy chunk junk = .ok (v, S)) :
    ∃ vr Sr, posteriorCovarianceTasks gp pair xs outs vo noisy chunk junk = .ok (vr, Sr, v, S) ∧
      vr.shape = [xs.length, outs.length] ∧
      (∀ i < xs.length, ∀ t < outs.length, vr.get [i, t] = v (i + xs.length * t)) ∧
      Sr.isSome = S.isSome ∧
      ∀ R T, Sr = some R → S = some T → R.shape = [xs.length, xs.length, outs.length, outs.length] ∧
        ∀ i < xs.length, ∀ j < xs.length, ∀ t < outs.length, ∀ u < outs.length,
          R.get [i, j, t, u] = T (i + xs.length * t) (j + xs.length * u) := by
  have hlen := cartesian_length pair xs outs
  obtain ⟨V, hV, hVs, hVg⟩ := reshape_vec v _ _ _ hlen
  cases S with
  | none =>
    refine ⟨V, none, ?_, hVs, hVg, rfl, by simp⟩
    simp only [posteriorCovarianceTasks, h, hV, bind, Except.bind]
  | some S =>
    obtain ⟨R, hR, hRs, hRg⟩ := reshape_mat S _ _ _ hlen
    refine ⟨V, some (R.transpose [0, 2, 1, 3]), ?_, hVs, hVg, rfl, ?_⟩
    · simp only [posteriorCovarianceTasks, h, hV, hR, bind, Except.bind]
    · intro R' T h1 h2
      simp only [Option.some.injEq] at h1 h2
      subst h1 h2
      exact ⟨hRs, hRg⟩

/-- Posterior covariance of two points, specification. -/
noncomputable def condCov2 (c : Config γ H) (d : Data γ) (h : H) (a b : γ) : ℝ := specCov c d h [a, b] 0 1

theorem specCov_pointwise (c : Config γ H) (d : Data γ) (h : H) (xs : List γ) (i j : Fin xs.length) (a b : γ)
    (ha : xs[i] = a) (hb : xs[j] = b) : specCov c d h xs i j = condCov2 c d h a b := by
  subst ha hb
  rfl

/-- **C29** (covariance values). For a constructed GP with positive semidefinite kernel: `v(x)[i,t]` is the posterior
variance at point `i` with task `t`, and `S[i,j,t,u]` the posterior covariance of (point `i`, task `t`) with
(point `j`, task `u`). -/
theorem C29_covariance (c : Config γ H) (d : Data γ) (h : H) (he : SpluContract c.ext) (ha : Admissible c d h)
    (hk : IsPSDKernel (c.kernel h)) (hV : ((calcV c d h d.x).mat d.x.length).PosSemidef) :
    ∃ gp, init c d h = .ok gp ∧ ∀ (pair : α → β → γ) (xs : List α) (outs : List β) (chunk : ℕ) (junk : NMat),
      ∃ v S flat, posteriorCovarianceTasks gp pair xs outs false false chunk junk = .ok (v, some S, flat) ∧
        ∀ (i : ℕ) (hi : i < xs.length) (t : ℕ) (ht : t < outs.length),
          v.get [i, t] = condCov2 c d h (pair xs[i] outs[t]) (pair xs[i] outs[t]) ∧
          ∀ (j : ℕ) (hj : j < xs.length) (u : ℕ) (hu : u < outs.length),
            S.get [i, j, t, u] = condCov2 c d h (pair xs[i] outs[t]) (pair xs[j] outs[u]) := by
  obtain ⟨gp, hgp, hall⟩ := C27_covariance_psd c d h he ha hk hV
  refine ⟨gp, hgp, fun pair xs outs chunk junk => ?_⟩
  obtain ⟨v, S, hcov, hS, -, hv, -⟩ := hall (cartesian pair xs outs) chunk junk
  obtain ⟨vr, Sr, hT, -, hvg, hsome, hSg⟩ := C29_covariance_layout gp pair xs outs false false chunk junk v (some S) hcov
  obtain ⟨R, rfl⟩ := Option.isSome_iff_exists.1 hsome
  obtain ⟨-, hRg⟩ := hSg R S rfl rfl
  refine ⟨vr, R, _, hT, ?_⟩
  have hget : ∀ (i : ℕ) (hi : i < xs.length) (t : ℕ) (ht : t < outs.length),
      ∃ hlt : i + xs.length * t < (cartesian pair xs outs).length,
        (cartesian pair xs outs)[(⟨i + xs.length * t, hlt⟩ : Fin _)] = pair xs[i] outs[t] := by
    intro i hi t ht
    have hlt : i + xs.length * t < (cartesian pair xs outs).length := by rw [cartesian_length]; exact pos_lt hi ht
    refine ⟨hlt, ?_⟩
    have := cartesian_get pair xs outs i t hi ht
    rw [List.getElem?_eq_getElem hlt] at this
    exact Option.some.inj this
  intro i hi t ht
  obtain ⟨hlt, hp⟩ := hget i hi t ht
  refine ⟨?_, fun j hj u hu => ?_⟩
  · rw [hvg i hi t ht, ← specCov_pointwise c d h _ ⟨_, hlt⟩ ⟨_, hlt⟩ _ _ hp hp, ← hv ⟨_, hlt⟩]
  · obtain ⟨hlt', hp'⟩ := hget j hj u hu
    rw [hRg i hi j hj t ht u hu, ← specCov_pointwise c d h _ ⟨_, hlt⟩ ⟨_, hlt'⟩ _ _ hp hp', ← hS]
    rfl

/-- Two inputs, two tasks; a point of the product space is the number `x + 100 * task` here. -/
example (mode : Mode) : ∃ gp, init (exCfg mode) exData 2 = .ok gp ∧
    ∀ (pair : ℝ → ℝ → ℝ) (xs : List ℝ) (outs : List ℝ) (chunk : ℕ) (junk : NMat),
      ∃ v S flat, posteriorCovarianceTasks gp pair xs outs false false chunk junk = .ok (v, some S, flat) ∧
        ∀ (i : ℕ) (hi : i < xs.length) (t : ℕ) (ht : t < outs.length),
          v.get [i, t] = condCov2 (exCfg mode) exData 2 (pair xs[i] outs[t]) (pair xs[i] outs[t]) ∧
          ∀ (j : ℕ) (hj : j < xs.length) (u : ℕ) (hu : u < outs.length),
            S.get [i, j, t, u] = condCov2 (exCfg mode) exData 2 (pair xs[i] outs[t]) (pair xs[j] outs[u]) :=
  C29_covariance _ _ _ cholExt_contract (exAdmissible mode 2) (exKernel_psd 2) (exNoise_posDef mode 2).posSemidef

example (gp : GP ℝ ℝ) (h : gp.data.cols = 1) : ∃ M, posteriorMeanTasks gp (fun x t => x + 100 * t) [1, 2] [0, 1] = .ok M ∧
    M.shape = [2, 2] ∧ ∀ (i t : ℕ) (hi : i < 2) (ht : t < 2),
      M.get [i, t] = posteriorMean gp [([1, 2] : List ℝ)[i] + 100 * ([0, 1] : List ℝ)[t]] 0 0 :=
  C29_mean gp _ _ _ h

/-! ## C30 -/

theorem meanGradFlat_pointwise (gp : GP γ H) (shift : γ → ℕ → ℝ → γ) (comp : ℕ) (xs : List γ) (d k : ℕ) (p : γ)
    (h : xs[k]? = some p) : meanGradFlat gp shift comp xs d k = meanGradFlat gp shift comp [p] d 0 := by
  simp [meanGradFlat, meanGradCore, evalAt, gram, h]

theorem covGradFlat_pointwise (gp : GP γ H) (shift : γ → ℕ → ℝ → γ) (xs : List γ) (d k l : ℕ) (p q : γ)
    (h : xs[k]? = some p) (h' : xs[l]? = some q) : covGradFlat gp shift xs d k l = covGradFlat gp shift [p, q] d 0 1 := by
  simp [covGradFlat, gram, h, h']

/-- **C30** (partial: one direction). With an explicit direction, `dm/dx[i,t]` and `dv/dx[i,t]` are the derivatives at
point `i` with task `t`. Missing: all directions at once and `dS/dx`, see below. -/
theorem C30_single_direction_partial (gp : GP γ H) (shift : γ → ℕ → ℝ → γ) (comp : ℕ) (pair : α → β → γ)
    (xs : List α) (outs : List β) (d : ℕ) :
    (∃ M, meanGradTasks gp shift comp pair xs outs d = .ok M ∧
      ∀ (i : ℕ) (hi : i < xs.length) (t : ℕ) (ht : t < outs.length),
        M.get [i, t] = meanGradFlat gp shift comp [pair xs[i] outs[t]] d 0) ∧
    ∃ v S, covGradTasks gp shift pair xs outs d = .ok (v, S) ∧
      ∀ (i : ℕ) (hi : i < xs.length) (t : ℕ) (ht : t < outs.length),
        v.get [i, t] = covGradFlat gp shift [pair xs[i] outs[t], pair xs[i] outs[t]] d 0 1 := by
  have hlen := cartesian_length pair xs outs
  constructor
  · obtain ⟨R, hR, -, hg⟩ := reshape_vec (meanGradFlat gp shift comp (cartesian pair xs outs) d) _ _ _ hlen
    refine ⟨R, hR, fun i hi t ht => ?_⟩
    rw [hg i hi t ht]
    exact meanGradFlat_pointwise gp shift comp _ d _ _ (cartesian_get pair xs outs i t hi ht)
  · obtain ⟨R, hR, -, hg⟩ := reshape_vec (fun i => covGradFlat gp shift (cartesian pair xs outs) d i i) _ _ _ hlen
    obtain ⟨S, hS, -⟩ := reshape_direct (covGradFlat gp shift (cartesian pair xs outs) d) _ _ _ hlen
    refine ⟨R, S, by simp only [covGradTasks, hR, hS, bind, Except.bind], fun i hi t ht => ?_⟩
    rw [hg i hi t ht]
    exact covGradFlat_pointwise gp shift _ d _ _ _ _ (cartesian_get pair xs outs i t hi ht)
      (cartesian_get pair xs outs i t hi ht)

/-- **C30** (partial: all directions). With one task or one input dimension `dm/dx[i,d,t]` and `dv/dx[i,d,t]` are the
derivatives in direction `d` at point `i` with task `t`. -/
theorem C30_all_directions_partial (gp : GP γ H) (shift : γ → ℕ → ℝ → γ) (comp : ℕ) (pair : α → β → γ)
    (xs : List α) (outs : List β) (dim : ℕ) (h1 : outs.length = 1 ∨ dim = 1) :
    (∃ M, meanGradAllTasks gp shift comp pair xs outs dim = .ok M ∧
      ∀ (i : ℕ) (hi : i < xs.length), ∀ d < dim, ∀ (t : ℕ) (ht : t < outs.length),
        M.get [i, d, t] = meanGradFlat gp shift comp [pair xs[i] outs[t]] d 0) ∧
    ∃ v, covGradAllTasks gp shift pair xs outs dim = .ok v ∧
      ∀ (i : ℕ) (hi : i < xs.length), ∀ d < dim, ∀ (t : ℕ) (ht : t < outs.length),
        v.get [i, d, t] = covGradFlat gp shift [pair xs[i] outs[t], pair xs[i] outs[t]] d 0 1 := by
  have hlen := cartesian_length pair xs outs
  have hidx : ∀ i < xs.length, ∀ d < dim, ∀ t < outs.length,
      (i + xs.length * (d + dim * t)) % (xs.length * outs.length) = i + xs.length * t ∧
      (i + xs.length * (d + dim * t)) / (xs.length * outs.length) = d := by
    intro i hi d hd t ht
    have e : i + xs.length * (d + dim * t) = (i + xs.length * t) + (xs.length * outs.length) * d := by
      rcases h1 with h | h
      · have : t = 0 := by omega
        rw [h, this]; ring
      · have : d = 0 := by omega
        rw [h, this]; ring
    rw [e, add_mul_mod' (pos_lt hi ht), add_mul_div' (pos_lt hi ht)]
    exact ⟨rfl, rfl⟩
  constructor
  · obtain ⟨R, hR, -, hg⟩ := reshape_grad (fun i d => meanGradFlat gp shift comp (cartesian pair xs outs) d i) _ _ _ dim hlen
    refine ⟨R, hR, fun i hi d hd t ht => ?_⟩
    rw [hg i hi d hd t ht, (hidx i hi d hd t ht).1, (hidx i hi d hd t ht).2]
    exact meanGradFlat_pointwise gp shift comp _ d _ _ (cartesian_get pair xs outs i t hi ht)
  · obtain ⟨R, hR, -, hg⟩ := reshape_grad (fun i d => covGradFlat gp shift (cartesian pair xs outs) d i i) _ _ _ dim hlen
    refine ⟨R, hR, fun i hi d hd t ht => ?_⟩
    rw [hg i hi d hd t ht, (hidx i hi d hd t ht).1, (hidx i hi d hd t ht).2]
    exact covGradFlat_pointwise gp shift _ d _ _ _ _ (cartesian_get pair xs outs i t hi ht)
      (cartesian_get pair xs outs i t hi ht)

/-- **C30** (disagreement: all directions). Whenever there are at least two tasks and two input dimensions, the entry
`[0, 1, 0]` (point 0, direction 1, task 0) of `dm/dx` and `dv/dx` holds the derivative in direction 0 of task 1. -/
theorem C30_all_directions_violated (gp : GP γ H) (shift : γ → ℕ → ℝ → γ) (comp : ℕ) (pair : α → β → γ)
    (xs : List α) (outs : List β) (dim : ℕ) (hx : 0 < xs.length) (hT : 1 < outs.length) (hD : 1 < dim) :
    (∃ M, meanGradAllTasks gp shift comp pair xs outs dim = .ok M ∧
      M.get [0, 1, 0] = meanGradFlat gp shift comp [pair xs[0] outs[1]] 0 0) ∧
    ∃ v, covGradAllTasks gp shift pair xs outs dim = .ok v ∧
      v.get [0, 1, 0] = covGradFlat gp shift [pair xs[0] outs[1], pair xs[0] outs[1]] 0 0 1 := by
  have hlen := cartesian_length pair xs outs
  have hlt : xs.length < xs.length * outs.length := by nlinarith
  have e1 : (0 + xs.length * (1 + dim * 0)) % (xs.length * outs.length) = 0 + xs.length * 1 := by
    rw [Nat.mod_eq_of_lt] <;> simp; exact hlt
  have e2 : (0 + xs.length * (1 + dim * 0)) / (xs.length * outs.length) = 0 := by
    rw [Nat.div_eq_of_lt]; simpa using hlt
  constructor
  · obtain ⟨R, hR, -, hg⟩ := reshape_grad (fun i d => meanGradFlat gp shift comp (cartesian pair xs outs) d i) _ _ _ dim hlen
    refine ⟨R, hR, ?_⟩
    rw [hg 0 hx 1 hD 0 (by omega), e1, e2]
    exact meanGradFlat_pointwise gp shift comp _ 0 _ _ (cartesian_get pair xs outs 0 1 hx hT)
  · obtain ⟨R, hR, -, hg⟩ := reshape_grad (fun i d => covGradFlat gp shift (cartesian pair xs outs) d i i) _ _ _ dim hlen
    refine ⟨R, hR, ?_⟩
    rw [hg 0 hx 1 hD 0 (by omega), e1, e2]
    exact covGradFlat_pointwise gp shift _ 0 _ _ _ _ (cartesian_get pair xs outs 0 1 hx hT)
      (cartesian_get pair xs outs 0 1 hx hT)

/-- **C30** (disagreement: `dS/dx`). With at least two points and two tasks the entry `[0, 1, 0, 0]` (covariance
gradient of point 0 with point 1, both task 0) holds the one of (point 0, task 1) with (point 0, task 0). -/
theorem C30_dS_violated (gp : GP γ H) (shift : γ → ℕ → ℝ → γ) (pair : α → β → γ) (xs : List α) (outs : List β) (d : ℕ)
    (hx : 1 < xs.length) (hT : 1 < outs.length) :
    ∃ v S, covGradTasks gp shift pair xs outs d = .ok (v, S) ∧
      S.get [0, 1, 0, 0] = covGradFlat gp shift [pair xs[0] outs[1], pair xs[0] outs[0]] d 0 1 := by
  have hlen := cartesian_length pair xs outs
  obtain ⟨R, hR, -, -⟩ := reshape_vec (fun i => covGradFlat gp shift (cartesian pair xs outs) d i i) _ _ _ hlen
  obtain ⟨S, hS, hSg⟩ := reshape_direct (covGradFlat gp shift (cartesian pair xs outs) d) _ _ _ hlen
  refine ⟨R, S, by simp only [covGradTasks, hR, hS, bind, Except.bind], ?_⟩
  have hlt : xs.length < xs.length * outs.length := by nlinarith
  rw [hSg]
  simp only [Nat.mul_zero, Nat.add_zero, Nat.zero_add, Nat.mul_one]
  rw [Nat.mod_eq_of_lt hlt, Nat.div_eq_of_lt hlt, Nat.zero_mod]
  refine covGradFlat_pointwise gp shift _ d _ _ _ _ ?_ ?_
  · have := cartesian_get pair xs outs 0 1 (by omega) hT
    simpa using this
  · have := cartesian_get pair xs outs 0 0 (by omega) (by omega)
    simpa using this

/-- A two-dimensional input with a task; mean `x₀ + 2 x₁`, no data: the derivative in direction 1 is 2 everywhere, the
returned array says 1. -/
noncomputable def exGradGP : GP (ℝ × ℝ × ℕ) Unit where
  cfg := { kernel := fun _ _ _ => 0, mean := some fun _ p => p.1 + 2 * p.2.1, noise := .default, mode := .chol,
           sparseK := false, ext := cholExt }
  data := ⟨[], [], 1, none⟩
  hps := ()
  m := fun _ => 0
  K := fun _ _ => 0
  V := .diag 0 fun _ => 0
  kv := ⟨.raw 0 fun _ _ => 0, fun _ _ => 0, 0⟩

/-- Adding to a coordinate. -/
noncomputable def exShift (p : ℝ × ℝ × ℕ) (d : ℕ) (eps : ℝ) : ℝ × ℝ × ℕ :=
  if d = 0 then (p.1 + eps, p.2) else (p.1, p.2.1 + eps, p.2.2)

example : ∃ M, meanGradAllTasks exGradGP exShift 0 (fun (x : ℝ × ℝ) (t : ℕ) => (x.1, x.2, t)) [(5, 6)] [0, 1] 2 = .ok M ∧
    M.get [0, 1, 0] = 1 ∧ meanGradFlat exGradGP exShift 0 [(5, 6, 0)] 1 0 = 2 := by
  obtain ⟨⟨M, hM, hg⟩, -⟩ := C30_all_directions_violated exGradGP exShift 0
    (fun (x : ℝ × ℝ) (t : ℕ) => (x.1, x.2, t)) [(5, 6)] [0, 1] 2 (by simp) (by simp) (by norm_num)
  refine ⟨M, hM, ?_, ?_⟩
  · rw [hg]
    simp [meanGradFlat, meanGradCore, exGradGP, exShift, evalAt, meanFn]
    norm_num
  · simp [meanGradFlat, meanGradCore, exGradGP, exShift, evalAt, meanFn]
    norm_num

end Verif.GP
