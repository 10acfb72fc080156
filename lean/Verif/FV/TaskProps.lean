import Verif.FV.Props
import Verif.GP.UnitProps
import Verif.GP.LayoutProps

/-! Property C154: the order (numbering) of the tasks does not matter, except for the default kernel. -/

namespace Verif.FV

open Verif.GP Verif.State Verif.LinAlg Verif.Kernels

variable {α H G : Type}

/-- A numbering of `n` tasks: a bijection of the numbers below `n`. -/
def Numbering (n : ℕ) (σ : ℕ → ℕ) : Prop := Set.BijOn σ (Set.Iio n) (Set.Iio n)

/-- `d'` is `d` with task `i` stored in column `σ i` (specification). -/
structure Renumbered (nOut : ℕ) (σ : ℕ → ℕ) (d d' : MT α) : Prop where
  fits : d.Fits nOut
  fits' : d'.Fits nOut
  x : d'.x = d.x
  value : ∀ j < d.x.length, ∀ i < nOut, d'.value j (σ i) = d.value j i
  noise : d'.noise.isSome = d.noise.isSome
  noiseAt : ∀ j < d.x.length, ∀ i < nOut, d'.noiseAt j (σ i) = d.noiseAt j i

/-- A point under the new numbering. -/
def renumber (σ : ℕ → ℕ) (p : α × ℕ) : α × ℕ := (p.1, σ p.2)

/-- The settings `c'`, `h'` are the settings `c`, `h` under the new numbering: kernel, mean and noise function (if it is one variance
per point) know the tasks by their new numbers. -/
structure SameModel (nOut : ℕ) (σ : ℕ → ℕ) (c : Config (α × ℕ) H) (c' : Config (α × ℕ) G) (h : H) (h' : G) : Prop where
  kernel : ∀ p q, p.2 < nOut → q.2 < nOut → c'.kernel h' (renumber σ p) (renumber σ q) = c.kernel h p q
  mean : (c.mean = none ∧ c'.mean = none) ∨
    ∃ m m', c.mean = some m ∧ c'.mean = some m' ∧ ∀ p, p.2 < nOut → m' h' (renumber σ p) = m h p
  noise : (c.noise = .measured ∧ c'.noise = .measured) ∨ (c.noise = .default ∧ c'.noise = .default) ∨
    ∃ (g g' : α × ℕ → ℝ) (f : H → List (α × ℕ) → Noise) (f' : G → List (α × ℕ) → Noise),
      c.noise = .user f ∧ c'.noise = .user f' ∧ (∀ xs, f h xs = .diag xs.length (evalAt g xs)) ∧
      (∀ xs, f' h' xs = .diag xs.length (evalAt g' xs)) ∧ ∀ p, p.2 < nOut → g' (renumber σ p) = g p

theorem Renumbered.point_eq {nOut : ℕ} {σ : ℕ → ℕ} {d d' : MT α} (hr : Renumbered nOut σ d d') {i j : ℕ} (hi : i < nOut)
    (hj : j < d.x.length) : d'.point j (σ i) = (d.point j i).map fun p => ⟨renumber σ p.x, p.y, p.v⟩ := by
  unfold MT.point
  rw [hr.x, hr.value j hj i hi, hr.noiseAt j hj i hi, List.getElem?_eq_getElem hj]
  have hn := hr.noise
  cases d.value j i with
  | none => rfl
  | some v => cases h1 : d.noise <;> cases h2 : d'.noise <;> simp_all [renumber]

theorem indices_renumber {nOut : ℕ} {σ : ℕ → ℕ} (hσ : Numbering nOut σ) (n : ℕ) :
    ((indices nOut n).map fun p => (σ p.1, p.2)).Perm (indices nOut n) := by
  rw [List.perm_ext_iff_of_nodup _ (nodup_indices nOut n)]
  · rintro ⟨i, j⟩
    rw [mem_indices, List.mem_map]
    constructor
    · rintro ⟨⟨a, b⟩, hp, he⟩
      rw [mem_indices] at hp
      simp only [Prod.mk.injEq] at he
      obtain ⟨rfl, rfl⟩ := he
      exact ⟨hσ.mapsTo hp.1, hp.2⟩
    · rintro ⟨hi, hj⟩
      obtain ⟨a, ha, rfl⟩ := hσ.surjOn hi
      exact ⟨(a, j), mem_indices.2 ⟨ha, hj⟩, rfl⟩
  · refine List.Nodup.map_on ?_ (nodup_indices nOut n)
    rintro ⟨a, b⟩ hp ⟨a', b'⟩ hq he
    rw [mem_indices] at hp hq
    simp only [Prod.mk.injEq] at he
    rw [hσ.injOn hp.1 hq.1 he.1, he.2]

/-- The points of the renumbered data are the renumbered points, in another order. -/
theorem Renumbered.points_perm {nOut : ℕ} {σ : ℕ → ℕ} (hσ : Numbering nOut σ) {d d' : MT α} (hr : Renumbered nOut σ d d') :
    (((indices nOut d.x.length).filterMap fun p => d.point p.2 p.1).map fun p : Pt α => (⟨renumber σ p.x, p.y, p.v⟩ : Pt α)).Perm
      ((indices nOut d'.x.length).filterMap fun p => d'.point p.2 p.1) := by
  have h := (indices_renumber hσ d.x.length).filterMap fun p => d'.point p.2 p.1
  rw [hr.x]
  refine List.Perm.trans (List.Perm.of_eq ?_) h
  rw [List.map_filterMap, List.filterMap_map]
  refine List.filterMap_congr ?_
  rintro ⟨i, j⟩ hp
  rw [mem_indices] at hp
  exact (hr.point_eq hp.1 hp.2).symm

/-- The single-task data under the new numbering, points in the old order. -/
def renumberData (σ : ℕ → ℕ) (s : Data (α × ℕ)) : Data (α × ℕ) := ⟨s.x.map (renumber σ), s.y, s.cols, s.noiseVar⟩

theorem arrays_renumber (b : Bool) (σ : ℕ → ℕ) (ps : List (Pt α)) :
    arrays b (ps.map fun p : Pt α => (⟨renumber σ p.x, p.y, p.v⟩ : Pt α)) = renumberData σ (arrays b ps) := by
  simp [arrays, renumberData, Function.comp_def]

theorem rescaled_renumber {nOut : ℕ} {σ : ℕ → ℕ} {c : Config (α × ℕ) H} {c' : Config (α × ℕ) G} {h : H} {h' : G} (hm : SameModel nOut σ c c' h h')
    (s : Data (α × ℕ)) (hl : s.y.length = s.x.length) (hnv : ∀ w, s.noiseVar = some w → w.length = s.x.length)
    (hmeas : c.noise = .measured → s.noiseVar.isSome) (hP : ∀ p ∈ s.x, p.2 < nOut) :
    Rescaled c c' h h' s (renumberData σ s) (fun p => p.2 < nOut) (renumber σ) 1 0 := by
  have key : ∃ w : ℕ → ℝ, calcV c s h s.x = .diag s.x.length w ∧ ∃ w' : ℕ → ℝ,
      calcV c' (renumberData σ s) h' (renumberData σ s).x = .diag s.x.length w' ∧ ∀ i < s.x.length, w' i = w i := by
    rcases hm.noise with ⟨h1, h2⟩ | ⟨h1, h2⟩ | ⟨g, g', f, f', h1, h2, h3, h4, h5⟩
    · obtain ⟨w, hw⟩ := Option.isSome_iff_exists.1 (hmeas h1)
      have := hnv w hw
      exact ⟨fun i => w.getD i 0, by simp [calcV, h1, hw, this], fun i => w.getD i 0, by
        simp [calcV, h2, renumberData, hw, this], fun _ _ => rfl⟩
    · exact ⟨fun _ => (s.yAbsMean / 100) ^ 2, by simp only [calcV, h1], fun _ => ((renumberData σ s).yAbsMean / 100) ^ 2, by
        simp only [calcV, h2, renumberData, List.length_map], fun _ _ => by simp [Data.yAbsMean, renumberData]⟩
    · refine ⟨evalAt g s.x, by simp only [calcV, h1, h3], evalAt g' (s.x.map (renumber σ)), by
        simp only [calcV, h2, h4, renumberData, List.length_map], fun i hi => ?_⟩
      simp only [evalAt, List.getElem?_map, List.getElem?_eq_getElem hi, Option.map_some]
      exact h5 _ (hP _ (List.getElem_mem _))
  obtain ⟨w, hw, w', hw', hww⟩ := key
  refine ⟨hP, one_ne_zero, rfl, rfl, hl, hl, fun i _ j _ => by simp [renumberData, Data.yMat], fun p q hp hq => by rw [hm.kernel p q hp hq]; ring,
    fun p hp => ?_, ?_, fun i j i' j' hi hj => ?_⟩
  · rcases hm.mean with ⟨h1, h2⟩ | ⟨m, m', h1, h2, h3⟩
    · simp [meanFn, h1, h2, Data.yMean, renumberData]
    · simp [meanFn, h1, h2, h3 p hp]
  · rw [hw']; simp [Noise.Fits, renumberData]
  · rw [hw, hw']
    simp only [Noise.mat, Matrix.diagonal_apply, Fin.ext_iff, hi, hj]
    split
    · rw [hww i i.2]; ring
    · simp

theorem rescaled_admissible {β : Type} {c : Config α H} {c' : Config β G} {h : H} {h' : G} {d : Data α} {d' : Data β} {P : α → Prop}
    {φ : α → β} {a s : ℝ} (hr : Rescaled c c' h h' d d' P φ a s) (ha : Admissible c d h) : Admissible c' d' h' := by
  refine ⟨hr.fits, ?_⟩
  have hl : d.x.length = d'.x.length := by rw [hr.x, List.length_map]
  have hne := hr.ne
  have hKV : (KVmat c' d' h').submatrix (finCongr hl) (finCongr hl) = a ^ 2 • KVmat c d h := by
    ext i j
    have h2 := hr.noise i j (finCongr hl i) (finCongr hl j) rfl rfl
    have hg : ∀ i : Fin d.x.length, d'.x[finCongr hl i] = φ d.x[i] := fun i => by simp [hr.x]
    simp only [Matrix.submatrix_apply, Matrix.smul_apply, smul_eq_mul, KVmat, Matrix.add_apply, mul_add, h2, Kmat, Matrix.of_apply, hg]
    exact congrArg (· + _) (hr.kernel _ _ (hr.points _ (List.getElem_mem _)) (hr.points _ (List.getElem_mem _)))
  have h1 : (a ^ 2 • KVmat c d h).PosDef := ha.posDef.smul (by positivity)
  rw [← hKV] at h1
  have h2 := h1.submatrix (finCongr hl).symm.injective
  rwa [Matrix.submatrix_submatrix, Equiv.self_comp_symm, Matrix.submatrix_id_id] at h2

theorem cartesian_renumber (σ : ℕ → ℕ) (xs : List α) (outs : List ℕ) :
    cartesian Prod.mk xs (outs.map σ) = (cartesian Prod.mk xs outs).map (renumber σ) := by
  simp [cartesian, List.map_flatMap, List.flatMap_map, renumber, Function.comp_def]

/-- What renumbering the tasks does: `gp'` at the new numbers is `gp` at the old ones. -/
def SamePredictions (nOut : ℕ) (σ : ℕ → ℕ) (gp : GP (α × ℕ) H) (gp' : GP (α × ℕ) G) : Prop :=
  ∀ (xs : List α) (outs : List ℕ), (∀ t ∈ outs, t < nOut) →
    (∃ M M', posteriorMeanTasks gp Prod.mk xs outs = .ok M ∧ posteriorMeanTasks gp' Prod.mk xs (outs.map σ) = .ok M' ∧
      ∀ i < xs.length, ∀ t < outs.length, M'.get [i, t] = M.get [i, t]) ∧
    ∀ (chunk : ℕ) (junk : NMat), ∃ v S f v' S' f',
      posteriorCovarianceTasks gp Prod.mk xs outs false false chunk junk = .ok (v, some S, f) ∧
      posteriorCovarianceTasks gp' Prod.mk xs (outs.map σ) false false chunk junk = .ok (v', some S', f') ∧
      ∀ i < xs.length, ∀ t < outs.length, v'.get [i, t] = v.get [i, t] ∧
        ∀ j < xs.length, ∀ u < outs.length, S'.get [i, j, t, u] = S.get [i, j, t, u]

theorem init_data {c : Config α H} {d : Data α} {h : H} {gp : GP α H} (hi : init c d h = .ok gp) : gp.data = d := by
  simp only [init, bind, Except.bind] at hi
  split at hi
  · cases hi
  · cases hi; rfl

theorem task_pos {n m i t : ℕ} (hi : i < n) (ht : t < m) : i + n * t < n * m := by
  calc i + n * t < n + n * t := by omega
    _ = n * (t + 1) := by ring
    _ ≤ n * m := Nat.mul_le_mul_left n ht

/-- **C154**. Whatever the values, the missing entries and the noise: storing task `i` in column `σ i` and renaming the tasks in the
kernel, the mean and the noise function gives the same predictions, covariances and likelihood. -/
theorem C154_renumbered (nOut : ℕ) (hpos : 0 < nOut) (σ : ℕ → ℕ) (hσ : Numbering nOut σ) (c : Config (α × ℕ) H)
    (c' : Config (α × ℕ) G) (h : H) (h' : G) (hm : SameModel nOut σ c c' h h') (he : SpluContract c.ext) (he' : SpluContract c'.ext)
    (d d' : MT α) (hr : Renumbered nOut σ d d') (hmeas : c.noise = .measured → d.noise.isSome) :
    ∃ s s', transform nOut d = .ok s ∧ transform nOut d' = .ok s' ∧ (Admissible c s h →
      ∃ gp gp', init c s h = .ok gp ∧ init c' s' h' = .ok gp' ∧ SamePredictions nOut σ gp gp' ∧
        (c.mode ≠ .sparseSolve → c'.mode ≠ .sparseSolve → logLikelihood gp' = logLikelihood gp)) := by
  obtain ⟨s, hs⟩ := (C61_accepts_iff nOut hpos d).2 hr.fits
  obtain ⟨s', hs'⟩ := (C61_accepts_iff nOut hpos d').2 hr.fits'
  refine ⟨s, s', hs, hs', fun ha => ?_⟩
  obtain ⟨n1, n2, n3, n4⟩ := arrays_noise hpos hs
  obtain ⟨-, n2', -, -⟩ := arrays_noise hpos hs'
  have hmeas' : c.noise = .measured → s.noiseVar.isSome := fun hc => n1 ▸ hmeas hc
  have hP : ∀ p ∈ s.x, p.2 < nOut := by
    obtain ⟨-, rfl⟩ := transform_ok hpos hs
    intro p hp
    simp only [arrays, List.mem_map, List.mem_filterMap] at hp
    obtain ⟨q, ⟨⟨i, j⟩, hij, hq⟩, rfl⟩ := hp
    rw [mem_indices] at hij
    unfold MT.point at hq
    split at hq
    · cases hq; exact hij.1
    · cases hq
  have hre := rescaled_renumber hm s n3 n4 hmeas' hP
  have hsame : SamePoints (renumberData σ s) s' := by
    obtain ⟨-, rfl⟩ := transform_ok hpos hs
    obtain ⟨-, rfl⟩ := transform_ok hpos hs'
    rw [← arrays_renumber, hr.noise]
    exact samePoints_of_perm _ (hr.points_perm hσ)
  obtain ⟨⟨e, hord⟩, -⟩ := hsame
  obtain ⟨gp, gp1, hgp, hgp1, P, L⟩ := C153_rescaled c c' h h' s (renumberData σ s) _ (renumber σ) 1 0 he he' hre ha
  have hu : ∀ f, c'.noise = .user f → (f h' s'.x).Fits s'.x.length c'.sparseK ∧
      (f h' s'.x).mat s'.x.length = ((f h' (renumberData σ s).x).mat (renumberData σ s).x.length).submatrix e e := by
    intro f0 hf0
    rcases hm.noise with ⟨-, h2⟩ | ⟨-, h2⟩ | ⟨g, g', f, f', -, h2, -, h4, -⟩
    · rw [h2] at hf0; cases hf0
    · rw [h2] at hf0; cases hf0
    · rw [h2] at hf0
      cases hf0
      rw [h4, h4]
      refine ⟨rfl, ?_⟩
      ext i j
      by_cases hij : i = j
      · subst hij
        have hx := hord.x i
        have e1 : ∀ (l : List (α × ℕ)) (k : Fin l.length), evalAt g' l k = g' l[k] := fun l k => by
          simp [evalAt]
        simp only [Noise.mat, Matrix.submatrix_apply, Matrix.diagonal_apply_eq, e1]
        rw [hx]
      · simp [Noise.mat, hij]
  have hmeas1 : c'.noise = .measured → (renumberData σ s).noiseVar.isSome := fun hc => by
    rcases hm.noise with ⟨h1, -⟩ | ⟨-, h2⟩ | ⟨g, g', f, f', -, h2, -, -, -⟩
    · exact hmeas' h1
    · rw [h2] at hc; cases hc
    · rw [h2] at hc; cases hc
  obtain ⟨gp2, gp', hgp2, hgp', M, C, L'⟩ := C32_order_of_data c' (renumberData σ s) s' h' e he' (rescaled_admissible hre ha) hord
    hmeas1 hu
  rw [hgp1] at hgp2
  cases hgp2
  refine ⟨gp, gp', hgp, hgp', fun xs outs hout => ⟨?_, fun chunk junk => ?_⟩, fun m m' => ?_⟩
  · have hc : gp.data.cols = 1 := by rw [init_data hgp]; exact n2
    have hc' : gp'.data.cols = 1 := by rw [init_data hgp']; exact n2'
    obtain ⟨A, hA, -, gA⟩ := C29_mean gp Prod.mk xs outs hc
    obtain ⟨B, hB, -, gB⟩ := C29_mean gp' Prod.mk xs (outs.map σ) hc'
    refine ⟨A, B, hA, hB, fun i hi t ht => ?_⟩
    rw [gA i t hi ht, gB i t hi (by simpa using ht)]
    have p1 := (P [(xs[i], outs[t])] 1 1 (fun _ _ => 0) (fun _ _ => 0) (by simpa using hout _ (List.getElem_mem ht))).1 0 (by simp) 0 (by rw [n2]; norm_num)
    have p2 := M [renumber σ (xs[i], outs[t])] 0 0
    simp only [List.map_cons, List.map_nil] at p1
    rw [List.getElem_map]
    change posteriorMean gp' [renumber σ (xs[i], outs[t])] 0 0 = _
    rw [show posteriorMean gp' [renumber σ (xs[i], outs[t])] 0 0 = _ from p2]
    refine Eq.trans p1 ?_
    ring
  · obtain ⟨v, S, v1, S1, h1, h2, h3⟩ := (P (cartesian Prod.mk xs outs) chunk chunk junk junk (by
      intro p hp
      simp only [cartesian, List.mem_flatMap, List.mem_map] at hp
      obtain ⟨t, ht, a, -, rfl⟩ := hp
      exact hout t ht)).2
    obtain ⟨v2, S2, v', S', h4, h5, h6⟩ := C ((cartesian Prod.mk xs outs).map (renumber σ)) chunk junk
    rw [h2] at h4
    simp only [Except.ok.injEq, Prod.mk.injEq, Option.some.injEq] at h4
    obtain ⟨rfl, rfl⟩ := h4
    rw [← cartesian_renumber] at h5
    obtain ⟨vr, Sr, q1, -, q2, q3, q4⟩ := C29_covariance_layout gp Prod.mk xs outs false false chunk junk v (some S) h1
    obtain ⟨vr', Sr', r1, -, r2, r3, r4⟩ := C29_covariance_layout gp' Prod.mk xs (outs.map σ) false false chunk junk v' (some S') h5
    obtain ⟨R, rfl⟩ := Option.isSome_iff_exists.1 q3
    obtain ⟨R', rfl⟩ := Option.isSome_iff_exists.1 r3
    obtain ⟨-, q5⟩ := q4 R S rfl rfl
    obtain ⟨-, r5⟩ := r4 R' S' rfl rfl
    refine ⟨vr, R, _, vr', R', _, q1, r1, fun i hi t ht => ?_⟩
    have hlen : ∀ {i t : ℕ}, i < xs.length → t < outs.length → i + xs.length * t < (cartesian Prod.mk xs outs).length :=
      fun hi ht => by rw [cartesian_length]; exact task_pos hi ht
    have hlm : ((cartesian Prod.mk xs outs).map (renumber σ)).length = (cartesian Prod.mk xs outs).length := List.length_map _
    have ht' : t < (outs.map σ).length := by simpa using ht
    refine ⟨?_, fun j hj u hu => ?_⟩
    · rw [q2 i hi t ht, r2 i hi t ht', (h6 _ (by rw [hlm]; exact hlen hi ht)).1, (h3 _ (hlen hi ht) _ (hlen hi ht)).1]
      ring
    · rw [q5 i hi j hj t ht u hu, r5 i hi j hj t ht' u (by simpa using hu),
        (h6 _ (by rw [hlm]; exact hlen hi ht)).2 _ (by rw [hlm]; exact hlen hj hu), (h3 _ (hlen hi ht) _ (hlen hj hu)).2]
      ring
  · rw [L' m' (le_of_eq n2.symm), L m m' (le_of_eq n2.symm)]
    simp

/-! ## The default kernel -/

/-- A point with its task number as the last coordinate, fvgp.py:646. -/
def withTask {D : ℕ} (p : (Fin D → ℝ) × ℕ) : Fin (D + 1) → ℝ := Fin.snoc (α := fun _ => ℝ) p.1 (p.2 : ℝ)

/-- An `fvGP` with the default kernel and mean: the task number is one more coordinate, gp_prior.py:377-400, fvgp.py:87-92. -/
noncomputable def taskConfig (D : ℕ) (noise : NoiseSpec ((Fin D → ℝ) × ℕ) (ℝ × (Fin (D + 1) → ℝ))) (mode : Mode) (ext : Ext) :
    Config ((Fin D → ℝ) × ℕ) (ℝ × (Fin (D + 1) → ℝ)) where
  kernel h p q := defaultKernel (withTask p) (withTask q) h.1 h.2
  mean := none
  noise := noise
  mode := mode
  sparseK := false
  ext := ext

/-- **C154** for the default kernel (partial): the order of the tasks may be reversed; in particular two tasks may be exchanged.
Missing: other numberings, see `C154_default_kernel_violated`. -/
theorem C154_reversed_partial {D : ℕ} (nOut : ℕ) (hpos : 0 < nOut) (noise : NoiseSpec ((Fin D → ℝ) × ℕ) (ℝ × (Fin (D + 1) → ℝ)))
    (hn : noise = .measured ∨ noise = .default) (mode : Mode) (ext : Ext) (he : SpluContract ext) (h : ℝ × (Fin (D + 1) → ℝ))
    (d d' : MT (Fin D → ℝ)) (hr : Renumbered nOut (fun i => nOut - 1 - i) d d') (hmeas : noise = .measured → d.noise.isSome) :
    ∃ s s', transform nOut d = .ok s ∧ transform nOut d' = .ok s' ∧ (Admissible (taskConfig D noise mode ext) s h →
      ∃ gp gp', init (taskConfig D noise mode ext) s h = .ok gp ∧ init (taskConfig D noise mode ext) s' h = .ok gp' ∧
        SamePredictions nOut (fun i => nOut - 1 - i) gp gp' ∧ (mode ≠ .sparseSolve → logLikelihood gp' = logLikelihood gp)) := by
  have hσ : Numbering nOut fun i => nOut - 1 - i := by
    refine ⟨fun i hi => ?_, fun i hi j hj hij => ?_, fun i hi => ⟨nOut - 1 - i, ?_, ?_⟩⟩
    · simp only [Set.mem_Iio] at hi ⊢; omega
    · simp only [Set.mem_Iio] at hi hj hij; omega
    · simp only [Set.mem_Iio] at hi ⊢; omega
    · simp only [Set.mem_Iio] at hi ⊢; omega
  have hm : SameModel nOut (fun i => nOut - 1 - i) (taskConfig D noise mode ext) (taskConfig D noise mode ext) h h := by
    refine ⟨fun p q hp hq => ?_, .inl ⟨rfl, rfl⟩, ?_⟩
    · have hdist : anisoDistance (withTask (renumber (fun i => nOut - 1 - i) p)) (withTask (renumber (fun i => nOut - 1 - i) q)) h.2
          = anisoDistance (withTask p) (withTask q) h.2 := by
        unfold anisoDistance
        congr 1
        rw [Fin.sum_univ_castSucc, Fin.sum_univ_castSucc]
        simp only [withTask, renumber, Fin.snoc_castSucc, Fin.snoc_last]
        congr 1
        have hc : ∀ i < nOut, ((nOut - 1 - i : ℕ) : ℝ) = (nOut : ℝ) - 1 - i := fun i hi => by
          rw [Nat.cast_sub (by omega), Nat.cast_sub (by omega)]; norm_num
        rw [hc _ hp, hc _ hq, ← abs_neg]
        congr 2
        ring
      simp only [taskConfig, defaultKernel, hdist]
    · rcases hn with rfl | rfl
      · exact .inl ⟨rfl, rfl⟩
      · exact .inr (.inl ⟨rfl, rfl⟩)
  obtain ⟨s, s', h1, h2, h3⟩ := C154_renumbered nOut hpos _ hσ _ _ h h hm he he d d' hr hmeas
  refine ⟨s, s', h1, h2, fun ha => ?_⟩
  obtain ⟨gp, gp', g1, g2, g3, g4⟩ := h3 ha
  exact ⟨gp, gp', g1, g2, g3, fun hm => g4 hm hm⟩

/-! ### Examples and violation -/

/-- `exMT` with its two tasks exchanged. -/
noncomputable def exSwapped : MT ℝ where
  x := [1, 2, 3]
  width := 1
  y := [[none, some 5], [some 7, some 6], [some 8, none]]
  cols := 2
  noise := some [[0, 1], [2, 1], [3, 0]]
  noiseCols := 2

theorem exSwapped_renumbered : Renumbered 2 (fun i => 1 - i) exMT exSwapped where
  fits := ⟨rfl, by simp [exMT], by simp [exMT]⟩
  fits' := ⟨rfl, by simp [exSwapped], by simp [exSwapped]⟩
  x := rfl
  value j hj i hi := by
    simp only [exMT, List.length_cons, List.length_nil] at hj
    interval_cases j <;> interval_cases i <;> rfl
  noise := rfl
  noiseAt j hj i hi := by
    simp only [exMT, List.length_cons, List.length_nil] at hj
    interval_cases j <;> interval_cases i <;> rfl

/-- A kernel that treats the tasks differently: task `i` has weight `w i`. -/
noncomputable def weighted (w : ℕ → ℝ) (mode : Mode) : Config (ℝ × ℕ) Unit where
  kernel _ p q := (w p.2 * p.1) * (w q.2 * q.1)
  mean := some fun _ p => w p.2
  noise := .measured
  mode := mode
  sparseK := false
  ext := cholExt

example (mode : Mode) : ∃ s s', transform 2 exMT = .ok s ∧ transform 2 exSwapped = .ok s' ∧
    ∃ gp gp', init (weighted (fun i => if i = 0 then 1 else 5) mode) s () = .ok gp ∧
      init (weighted (fun i => if i = 1 then 1 else 5) mode) s' () = .ok gp' ∧ SamePredictions 2 (fun i => 1 - i) gp gp' := by
  have hσ : Numbering 2 fun i => 1 - i := by
    refine ⟨fun i hi => ?_, fun i hi j hj hij => ?_, fun i hi => ⟨1 - i, ?_, ?_⟩⟩ <;> simp only [Set.mem_Iio] at * <;> omega
  have hm : SameModel 2 (fun i => 1 - i) (weighted (fun i => if i = 0 then 1 else 5) mode)
      (weighted (fun i => if i = 1 then 1 else 5) mode) () () := by
    have hw : ∀ i < 2, (if 1 - i = 1 then (1 : ℝ) else 5) = if i = 0 then 1 else 5 := fun i hi => by interval_cases i <;> simp
    exact ⟨fun p q hp hq => by simp only [weighted, renumber, hw _ hp, hw _ hq],
      .inr ⟨_, _, rfl, rfl, fun p hp => hw _ hp⟩, .inl ⟨rfl, rfl⟩⟩
  obtain ⟨s, s', h1, h2, h3⟩ := C154_renumbered 2 (by norm_num) _ hσ _ _ () () hm cholExt_contract cholExt_contract _ _
    exSwapped_renumbered fun _ => rfl
  obtain rfl := Except.ok.inj (exMT_view.symm.trans h1)
  obtain ⟨gp, gp', g1, g2, g3, -⟩ := h3 (measured_admissible _ rfl _ _ ⟨fun a b => by simp only [weighted]; ring, fun n x w => by
    have : ∑ i, ∑ j, w i * w j * (weighted (fun i => if i = 0 then 1 else 5) mode).kernel () (x i) (x j)
        = (∑ i, w i * ((if (x i).2 = 0 then 1 else 5) * (x i).1)) ^ 2 := by
      rw [sq, Finset.sum_mul_sum]
      refine Finset.sum_congr rfl fun i _ => Finset.sum_congr rfl fun j _ => ?_
      simp only [weighted]
      ring
    rw [this]
    positivity⟩ [1, 1, 2, 3] rfl rfl (by simp))
  exact ⟨_, s', exMT_view, h2, gp, gp', g1, g2, g3⟩

/-- The variance after one observation. -/
theorem one_point_variance (c : Config α H) (hn : c.noise = .measured) (h : H) (b : α) (y t : ℝ) (ht : 0 < t)
    (hk : IsPSDKernel (c.kernel h)) (he : SpluContract c.ext) :
    ∃ gp, init c ⟨[b], [[y]], 1, some [t]⟩ h = .ok gp ∧ ∀ (xs : List α) (chunk : ℕ) (junk : NMat), ∃ v S,
      posteriorCovariance gp xs false false chunk junk = .ok (v, S) ∧
        ∀ i : Fin xs.length, v i = max 0 (c.kernel h xs[i] xs[i] - c.kernel h b xs[i] ^ 2 / (c.kernel h b b + t)) := by
  have hadm := measured_admissible c hn ⟨[b], [[y]], 1, some [t]⟩ h hk [t] rfl rfl (by simpa using ht)
  obtain ⟨g, hg, hc, e1, e2, e3⟩ := init_ok c ⟨[b], [[y]], 1, some [t]⟩ h he hadm
  refine ⟨g, hg, fun xs chunk junk => ?_⟩
  obtain ⟨v, S, a1, a2, -⟩ := posteriorCovariance_eq hc (by rw [e1, e2, e3]; exact hadm.posDef) xs false chunk junk
  refine ⟨v, S, a1, fun i => ?_⟩
  rw [a2 i, e1, e2, e3]
  congr 1
  have hb : 0 ≤ c.kernel h b b := by simpa using hk.2 1 (fun _ => b) fun _ => 1
  have hne : c.kernel h b b + t ≠ 0 := by positivity
  have hKV : KVmat c ⟨[b], [[y]], 1, some [t]⟩ h = Matrix.of fun _ _ : Fin 1 => c.kernel h b b + t := by
    ext i j
    have hi : i = (0 : Fin 1) := Subsingleton.elim (α := Fin 1) _ _
    have hj : j = (0 : Fin 1) := Subsingleton.elim (α := Fin 1) _ _
    subst hi hj
    change c.kernel h b b + (calcV c ⟨[b], [[y]], 1, some [t]⟩ h [b]).mat 1 (0 : Fin 1) (0 : Fin 1) = c.kernel h b b + t
    simp [calcV, hn, Noise.mat]
  have hinv : (Matrix.of fun _ _ : Fin 1 => c.kernel h b b + t)⁻¹ = Matrix.of fun _ _ : Fin 1 => 1 / (c.kernel h b b + t) := by
    apply Matrix.inv_eq_right_inv
    ext i j
    have hi : i = (0 : Fin 1) := Subsingleton.elim (α := Fin 1) _ _
    have hj : j = (0 : Fin 1) := Subsingleton.elim (α := Fin 1) _ _
    subst hi hj
    simp [Matrix.mul_apply, hne]
  rw [specCov, condCov, hKV]
  erw [hinv]
  change c.kernel h xs[i] xs[i] - ∑ l : Fin 1, (∑ q : Fin 1, c.kernel h b xs[i] * (1 / (c.kernel h b b + t))) * c.kernel h b xs[i] = _
  rw [Fin.sum_univ_one, Fin.sum_univ_one]
  ring

/-- Three tasks, only task 0 observed: exchanging tasks 1 and 2 changes nothing in the data. -/
noncomputable def exOne : MT (Fin 1 → ℝ) where
  x := [fun _ => 0]
  width := 1
  y := [[some 1, none, none]]
  cols := 3
  noise := some [[1, 1, 1]]
  noiseCols := 3

/-- Exchange of tasks 1 and 2. -/
def swap12 (i : ℕ) : ℕ := if i = 1 then 2 else if i = 2 then 1 else i

/-- **C154** is violated by the default kernel: it takes the task number for a coordinate. Exchanging tasks 1 and 2, of which nothing
was observed, leaves the data as they are, but task 1 is predicted with a smaller variance than task 2. -/
theorem C154_default_kernel_violated (mode : Mode) :
    Numbering 3 swap12 ∧ Renumbered 3 swap12 exOne exOne ∧ ∃ s gp, transform 3 exOne = .ok s ∧
      init (taskConfig 1 .measured mode cholExt) s (1, fun _ => 1) = .ok gp ∧ ∀ (chunk : ℕ) (junk : NMat), ∃ v S,
        posteriorCovariance gp [(fun _ => 0, 1), (fun _ => 0, 2)] false false chunk junk = .ok (v, S) ∧ v 0 < v 1 := by
  refine ⟨?_, ?_, ?_⟩
  · refine ⟨fun i hi => ?_, fun i hi j hj hij => ?_, fun i hi => ⟨swap12 i, ?_, ?_⟩⟩ <;> simp only [Set.mem_Iio] at *
    · interval_cases i <;> simp [swap12]
    · interval_cases i <;> interval_cases j <;> simp_all [swap12]
    · interval_cases i <;> simp [swap12]
    · interval_cases i <;> simp [swap12]
  · refine ⟨⟨rfl, by simp [exOne], by simp [exOne]⟩, ⟨rfl, by simp [exOne], by simp [exOne]⟩, rfl, fun j hj i hi => ?_, rfl,
      fun j hj i hi => ?_⟩ <;> simp only [exOne, List.length_cons, List.length_nil] at hj <;> interval_cases j <;>
      interval_cases i <;> rfl
  · have hs : transform 3 exOne = .ok ⟨[(fun _ => 0, 0)], [[1]], 1, some [1]⟩ := rfl
    have hk : IsPSDKernel ((taskConfig 1 .measured mode cholExt).kernel (1, fun _ => 1)) := by
      have := C84_default_kernel (D := 2) 1 zero_le_one (fun _ => 1) fun _ => one_ne_zero
      exact ⟨fun a b => this.1 _ _, fun n x w => this.2 n (fun i => withTask (x i)) w⟩
    obtain ⟨gp, hgp, H⟩ := one_point_variance (taskConfig 1 .measured mode cholExt) rfl (1, fun _ => 1) (fun _ => 0, 0) 1 1 one_pos hk
      cholExt_contract
    refine ⟨_, gp, hs, hgp, fun chunk junk => ?_⟩
    obtain ⟨v, S, h1, h2⟩ := H [(fun _ => 0, 1), (fun _ => 0, 2)] chunk junk
    refine ⟨v, S, h1, ?_⟩
    have h20 := h2 (0 : Fin 2)
    have h21 := h2 (1 : Fin 2)
    have hkk : ∀ i j : ℕ, (taskConfig 1 .measured mode cholExt).kernel (1, fun _ => 1) (fun _ => 0, i) (fun _ => 0, j)
        = matern1 |(i : ℝ) - j| 1 := by
      intro i j
      simp only [taskConfig, defaultKernel, anisoDistance, withTask]
      rw [Fin.sum_univ_castSucc]
      simp [Fin.snoc, Real.sqrt_sq_eq_abs]
    change v 0 = max 0 ((taskConfig 1 .measured mode cholExt).kernel (1, fun _ => 1) (fun _ => 0, 1) (fun _ => 0, 1)
      - (taskConfig 1 .measured mode cholExt).kernel (1, fun _ => 1) (fun _ => 0, 0) (fun _ => 0, 1) ^ 2
        / ((taskConfig 1 .measured mode cholExt).kernel (1, fun _ => 1) (fun _ => 0, 0) (fun _ => 0, 0) + 1)) at h20
    change v 1 = max 0 ((taskConfig 1 .measured mode cholExt).kernel (1, fun _ => 1) (fun _ => 0, 2) (fun _ => 0, 2)
      - (taskConfig 1 .measured mode cholExt).kernel (1, fun _ => 1) (fun _ => 0, 0) (fun _ => 0, 2) ^ 2
        / ((taskConfig 1 .measured mode cholExt).kernel (1, fun _ => 1) (fun _ => 0, 0) (fun _ => 0, 0) + 1)) at h21
    rw [h20, h21]
    simp only [hkk]
    have m0 : matern1 0 1 = 1 := by simp [matern1]
    have s3 : (0 : ℝ) ≤ √3 := Real.sqrt_nonneg 3
    have s3' : √3 * √3 = 3 := Real.mul_self_sqrt (by norm_num)
    have m1 : matern1 1 1 = (1 + √3) * Real.exp (-√3) := by simp [matern1]
    have m2 : matern1 2 1 = (1 + √3 * 2) * (Real.exp (-√3) * Real.exp (-√3)) := by
      rw [← Real.exp_add]; simp only [matern1, div_one]; congr 2; ring
    have hexp : Real.exp (-√3) * (1 + √3) ≤ 1 := by
      have := Real.add_one_le_exp √3
      calc Real.exp (-√3) * (1 + √3) ≤ Real.exp (-√3) * Real.exp √3 := by
            refine mul_le_mul_of_nonneg_left (by linarith) (Real.exp_pos _).le
        _ = 1 := by rw [← Real.exp_add]; simp
    have hp := Real.exp_pos (-√3)
    have hlt : matern1 2 1 < matern1 1 1 := by
      rw [m1, m2]
      have e1 := mul_le_mul_of_nonneg_left hexp (by positivity : 0 ≤ (1 + √3) * Real.exp (-√3))
      have e2 : (1 + √3) * Real.exp (-√3) * (Real.exp (-√3) * (1 + √3)) = (4 + √3 * 2) * (Real.exp (-√3) * Real.exp (-√3)) := by
        linear_combination (Real.exp (-√3)) ^ 2 * s3'
      nlinarith [mul_pos hp hp]
    have hpos2 : 0 < matern1 2 1 := by rw [m2]; positivity
    have hle1 : matern1 1 1 ≤ 1 := by rw [m1]; linarith
    norm_num [m0]
    constructor <;> nlinarith

end Verif.FV
