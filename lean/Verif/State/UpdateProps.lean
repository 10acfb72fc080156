import Verif.State.Props

/-! Properties C41 (failed updates) and C42 (data bookkeeping). -/

namespace Verif.State

open Finset Verif.GP Verif.LinAlg

variable {α H : Type}

/-! ## C42 -/

/-- A successful `GPdata.update` does what is specified, without further assumptions. -/
theorem updateData_success {d d' : DataObj α} {u : Update α} (h : updateData d u = (d', .ok ())) :
    d'.cur = specData d.cur u ∧ d'.pointNumber = (specData d.cur u).x.length ∧
      u.noise.isSome = d.cur.noiseVar.isSome ∧ (u.append = true → u.cols = d.cur.cols) := by
  unfold updateData at h
  by_cases h1 : (d.cur.noiseVar.isSome && u.noise.isNone) = true
  · rw [if_pos h1] at h; simp at h
  rw [if_neg h1] at h
  by_cases h2 : (d.cur.noiseVar.isNone && u.noise.isSome) = true
  · rw [if_pos h2] at h; simp at h
  rw [if_neg h2] at h
  have hn : u.noise.isSome = d.cur.noiseVar.isSome := by
    cases hu : u.noise <;> cases hd : d.cur.noiseVar <;> simp [hu, hd] at h1 h2 ⊢
  by_cases ha : u.append = false
  · rw [if_pos ha] at h
    simp only [Prod.mk.injEq] at h
    rw [← h.1]
    simp [specData, ha, hn]
  rw [if_neg ha] at h
  have ha' : u.append = true := by simpa using ha
  simp only at h
  split at h
  · simp at h
  split at h
  · simp at h
  rename_i hc
  have hc' : u.cols = d.cur.cols := by
    by_contra hne
    exact hc (Ne.symm hne)
  cases hu : u.noise with
  | none =>
    rw [hu] at h
    simp only [Prod.mk.injEq] at h
    rw [← h.1]
    have h0 : d.cur.noiseVar = none := by
      rw [hu] at hn; cases h2 : d.cur.noiseVar with
      | none => rfl
      | some a => rw [h2] at hn; simp at hn
    simp [specData, ha', hu, h0, hc']
  | some v =>
    rw [hu] at h
    simp only [Prod.mk.injEq] at h
    rw [← h.1]
    obtain ⟨w, h0⟩ : ∃ w, d.cur.noiseVar = some w := by
      rw [hu] at hn; cases h2 : d.cur.noiseVar with
      | none => rw [h2] at hn; simp at hn
      | some a => exact ⟨a, rfl⟩
    simp [specData, ha', hu, h0, hc']

theorem refresh_data (o o' : Obj α H) (r : Bool) (e : Except String Unit) (h : refresh o r = (o', e)) :
    o'.data = o.data ∧ o'.hps = o.hps ∧ o'.cfg = o.cfg := by
  unfold refresh at h
  split at h
  · simp only [Prod.mk.injEq] at h; rw [← h.1]; exact ⟨rfl, rfl, rfl⟩
  · split at h
    · simp only [Prod.mk.injEq] at h; rw [← h.1]; exact ⟨rfl, rfl, rfl⟩
    · split at h <;> (simp only [Prod.mk.injEq] at h; rw [← h.1]; exact ⟨rfl, rfl, rfl⟩)

theorem augmentPrior_data (o o' : Obj α H) (e : Except String Unit) (h : augmentPrior o = (o', e)) :
    o'.data = o.data ∧ o'.hps = o.hps ∧ o'.cfg = o.cfg := by
  unfold augmentPrior at h
  simp only at h
  split at h <;> (simp only [Prod.mk.injEq] at h; rw [← h.1]; exact ⟨rfl, rfl, rfl⟩)

theorem updateGpData_success {o o' : Obj α H} {u : Update α} (h : updateGpData o u = (o', .ok ())) :
    u.x.length = u.y.length ∧ updateData o.data u = (o'.data, .ok ()) ∧ o'.hps = o.hps := by
  unfold updateGpData at h
  by_cases hl : u.x.length ≠ u.y.length
  · rw [if_pos hl] at h; simp at h
  rw [if_neg hl] at h
  refine ⟨by simpa using hl, ?_⟩
  rcases hd : updateData o.data u with ⟨d, e | ⟨⟩⟩
  · rw [hd] at h; simp at h
  · rw [hd] at h
    simp only at h
    by_cases ha : u.append = true
    · rw [if_pos ha] at h
      rcases hp : augmentPrior { o with data := d } with ⟨o2, e | ⟨⟩⟩
      · rw [hp] at h; simp at h
      · rw [hp] at h
        obtain ⟨h1, h2, -⟩ := refresh_data _ _ _ _ h
        obtain ⟨h3, h4, -⟩ := augmentPrior_data _ _ _ hp
        simp only [updateNoise] at h1 h2
        rw [h1, h3, h2, h4]
        exact ⟨rfl, rfl⟩
    · rw [if_neg ha] at h
      obtain ⟨h1, h2, -⟩ := refresh_data _ _ _ _ h
      simp only [updateNoise, recomputePrior] at h1 h2
      rw [h1, h2]
      exact ⟨rfl, rfl⟩

theorem setHyperparameters_data {o o' : Obj α H} {h : H} {e : Except String Unit}
    (hs : setHyperparameters o h = (o', e)) : o'.data = o.data ∧ o'.hps = h := by
  unfold setHyperparameters at hs
  obtain ⟨h1, h2, -⟩ := refresh_data _ _ _ _ hs
  exact ⟨h1, h2⟩

/-- The data after a sequence of operations, by specification. -/
def specRun (d : Data α) : List (Op α H) → Data α
  | [] => d
  | .setHps _ :: ops => specRun d ops
  | .update u :: ops => specRun (specData d u) ops

/-- C42: whatever sequence of hyperparameter changes, appends and overwrites is carried out without an exception — in
every configuration, legal or not — the data are the specified ones (an append keeps the old points in order in front,
an overwrite keeps none), the point count equals the number of inputs and of values, and noise variances are present
iff they were at construction. Partial: the number of noise variances is not checked (next theorem). -/
theorem C42_bookkeeping_partial (ops : List (Op α H)) : ∀ (o o' : Obj α H), run o ops = (o', .ok ()) →
    o.data.pointNumber = o.data.cur.x.length → o.data.cur.y.length = o.data.cur.x.length →
    o'.data.cur = specRun o.data.cur ops ∧ o'.data.pointNumber = o'.data.cur.x.length ∧
      o'.data.cur.y.length = o'.data.cur.x.length ∧ o'.data.cur.noiseVar.isSome = o.data.cur.noiseVar.isSome := by
  induction ops with
  | nil =>
    intro o o' h hp hl
    simp only [run, Prod.mk.injEq] at h
    rw [← h.1]
    exact ⟨rfl, hp, hl, rfl⟩
  | cons op ops ih =>
    intro o o' h hp hl
    rw [run] at h
    rcases hop : apply o op with ⟨o1, e | ⟨⟩⟩
    · rw [hop] at h; simp at h
    rw [hop] at h
    simp only at h
    cases op with
    | setHps x =>
      obtain ⟨h1, -⟩ := setHyperparameters_data hop
      have := ih o1 o' h (by rw [h1]; exact hp) (by rw [h1]; exact hl)
      rw [h1] at this
      exact this
    | update u =>
      obtain ⟨hlen, hd, -⟩ := updateGpData_success hop
      obtain ⟨h1, h2, h3, -⟩ := updateData_success hd
      have hy : (specData o.data.cur u).y.length = (specData o.data.cur u).x.length := by
        unfold specData
        split <;> simp [hl, hlen]
      have hn : (specData o.data.cur u).noiseVar.isSome = o.data.cur.noiseVar.isSome := by
        unfold specData
        cases hu : u.noise <;> cases ho : o.data.cur.noiseVar <;> simp [hu, ho] at h3 ⊢ <;> split <;> simp
      have := ih o1 o' h (by rw [h1, h2]) (by rw [h1]; exact hy)
      rw [h1] at this
      obtain ⟨a, b, c', d⟩ := this
      exact ⟨a, b, c', d.trans hn⟩

/-- C42: if moreover every update brings as many noise variances as points, the number of noise variances stays equal
to the point count. -/
theorem C42_noise_count (ops : List (Op α H)) : ∀ (d : Data α),
    (∀ u, Op.update u ∈ ops → ∀ w, u.noise = some w → w.length = u.x.length) →
    (∀ w, d.noiseVar = some w → w.length = d.x.length) →
    ∀ w, (specRun d ops).noiseVar = some w → w.length = (specRun d ops).x.length := by
  induction ops with
  | nil => intro d _ h w hw; exact h w hw
  | cons op ops ih =>
    intro d hu hd
    cases op with
    | setHps x => exact ih d (fun u h => hu u (List.mem_cons_of_mem _ h)) hd
    | update u =>
      refine ih (specData d u) (fun u h => hu u (List.mem_cons_of_mem _ h)) ?_
      have h1 := hu u List.mem_cons_self
      intro w hw
      unfold specData at hw ⊢
      split at hw
      · rename_i ha
        simp only [ha, if_true]
        cases h2 : d.noiseVar with
        | none => simp [h2] at hw
        | some a =>
          cases h3 : u.noise with
          | none => simp [h2, h3] at hw
          | some b =>
            simp only [h2, h3, Option.some.injEq] at hw
            rw [← hw, List.length_append, List.length_append, hd a h2, h1 b h3]
      · rename_i ha
        simp only [ha]
        exact h1 w hw

/-- C42 is violated when the number of noise variances differs from the number of new points: `update` accepts them and
from then on the number of noise variances differs from the number of points. -/
theorem C42_noise_length_violated (d : DataObj α) (u : Update α) (v w : List ℝ) (hv : d.cur.noiseVar = some v)
    (hd : v.length = d.cur.x.length) (hw : u.noise = some w) (hlen : w.length ≠ u.x.length) (ha : u.append = true)
    (hcols : u.cols = d.cur.cols) (hwidth : u.width = d.width) (hn : d.nan = false) (hun : u.nan = false) :
    ∃ d', updateData d u = (d', .ok ()) ∧ ∃ z, d'.cur.noiseVar = some z ∧ z.length ≠ d'.pointNumber := by
  unfold updateData
  rw [if_neg (by simp [hw]), if_neg (by simp [hv]), if_neg (by simp [ha])]
  simp only
  rw [if_neg (by simp [hwidth]), if_neg (by simp [hcols]), hw]
  refine ⟨_, by simp only [checkNaN, hn, hun, Bool.or_self, Bool.and_false, Bool.false_eq_true, if_false]; rfl, v ++ w, ?_, ?_⟩
  · simp [hv]
  · simp only [List.length_append]
    omega

/-- The consequence for the model: with a wrong number of variances every data point silently gets the mean of all
variances as its noise. -/
theorem C42_noise_length_consequence (c : Config α H) (hc : c.noise = .measured) (d : Data α) (h : H) (z : List ℝ)
    (hz : d.noiseVar = some z) (hl : z.length ≠ d.x.length) :
    (calcV c d h d.x).mat d.x.length = Matrix.diagonal fun _ => z.sum / z.length := by
  simp only [calcV, hc, hz, Option.getD_some]
  rw [if_neg (Ne.symm hl)]
  rfl

/-- Two new points, one variance. -/
example : ∃ d', updateData (⟨⟨[1, 2], [[1], [2]], 1, some [1, 4]⟩, true, 1, false, none, none, none, none, none, none, 2⟩ : DataObj ℝ)
      ⟨[3, 4], 1, [[5], [6]], 1, some [9], false, true, none⟩ = (d', .ok ()) ∧
    ∃ z, d'.cur.noiseVar = some z ∧ z.length ≠ d'.pointNumber :=
  C42_noise_length_violated _ _ [1, 4] [9] rfl rfl rfl (by simp) rfl rfl rfl rfl rfl

example (mode : Mode) : ∃ o o', build (exCfg mode) exData true 1 2 = .ok o ∧ run o exOps = (o', .ok ()) ∧
    o'.data.cur.x = [7, 8, 7] ∧ o'.data.pointNumber = 3 := by
  obtain ⟨o, o', f, h1, h2, -, -⟩ := C40_history_independent_partial (exCfg mode) cholExt_contract
    (fun h a b => (exKernel_psd h).1 a b) true ⟨exData, 1, 2⟩ rfl (exAdmissible mode 2) exOps (exOps_legal mode)
  obtain ⟨o₁, hb, g⟩ := build_good (exCfg mode) cholExt_contract true ⟨exData, 1, 2⟩ rfl (exAdmissible mode 2)
  have e : o₁ = o := Except.ok.inj (hb.symm.trans h1)
  subst e
  obtain ⟨a, b, -, -⟩ := C42_bookkeeping_partial exOps o₁ o' h2 (by rw [g.count, g.data]) (by rw [g.data]; rfl)
  rw [g.data] at a
  refine ⟨o₁, o', h1, h2, by rw [a]; rfl, by rw [b, a]; rfl⟩

/-! ## C41 -/

/-- C41: an update rejected because inputs and values, or noise variances, do not match what is there leaves the whole
object unchanged. Partial: the other failures do not (below). -/
theorem C41_rejected_by_checks_partial (o : Obj α H) (u : Update α)
    (h : u.x.length ≠ u.y.length ∨ u.noise.isSome ≠ o.data.cur.noiseVar.isSome) :
    ∃ e, updateGpData o u = (o, .error e) := by
  unfold updateGpData
  by_cases hl : u.x.length ≠ u.y.length
  · exact ⟨_, by rw [if_pos hl]⟩
  rw [if_neg hl]
  have hn : u.noise.isSome ≠ o.data.cur.noiseVar.isSome := h.resolve_left hl
  unfold updateData
  cases hu : u.noise <;> cases hd : o.data.cur.noiseVar <;> simp [hu, hd] at hn ⊢

/-- Every failing update leaves hyperparameters and configuration alone. -/
theorem C41_hyperparameters_kept (o o' : Obj α H) (u : Update α) (e : String)
    (h : updateGpData o u = (o', .error e)) : o'.hps = o.hps ∧ o'.cfg = o.cfg := by
  unfold updateGpData at h
  by_cases hl : u.x.length ≠ u.y.length
  · rw [if_pos hl] at h; simp only [Prod.mk.injEq] at h; rw [← h.1]; exact ⟨rfl, rfl⟩
  rw [if_neg hl] at h
  rcases hd : updateData o.data u with ⟨d, e | ⟨⟩⟩
  · rw [hd] at h; simp only [Prod.mk.injEq] at h; rw [← h.1]; exact ⟨rfl, rfl⟩
  · rw [hd] at h
    simp only at h
    by_cases ha : u.append = true
    · rw [if_pos ha] at h
      rcases hp : augmentPrior { o with data := d } with ⟨o2, e | ⟨⟩⟩
      · rw [hp] at h
        simp only [Prod.mk.injEq] at h
        obtain ⟨-, h4, h5⟩ := augmentPrior_data _ _ _ hp
        rw [← h.1]; exact ⟨h4, h5⟩
      · rw [hp] at h
        obtain ⟨-, h2, h3⟩ := refresh_data _ _ _ _ h
        obtain ⟨-, h4, h5⟩ := augmentPrior_data _ _ _ hp
        exact ⟨h2.trans h4, h3.trans h5⟩
    · rw [if_neg ha] at h
      obtain ⟨-, h2, h3⟩ := refresh_data _ _ _ _ h
      exact ⟨h2, h3⟩

/-- C41 is violated by an append with a different number of value columns: the update raises, but the inputs have
already been appended while the values have not. -/
theorem C41_columns_violated (o : Obj α H) (u : Update α) (hlen : u.x.length = u.y.length) (hne : u.x ≠ [])
    (hn : u.noise.isSome = o.data.cur.noiseVar.isSome) (ha : u.append = true) (hw : u.width = o.data.width)
    (hc : u.cols ≠ o.data.cur.cols) :
    ∃ o' e, updateGpData o u = (o', .error e) ∧ o'.data.cur.x = o.data.cur.x ++ u.x ∧
      o'.data.cur.y = o.data.cur.y ∧ o'.data.cur.x ≠ o.data.cur.x ∧ o'.kSize = o.kSize ∧
      o'.data.euclidean = o.data.euclidean := by
  unfold updateGpData
  rw [if_neg (by simp [hlen])]
  unfold updateData
  rw [if_neg (by rw [← hn]; cases u.noise <;> simp), if_neg (by
    cases h1 : u.noise <;> cases h2 : o.data.cur.noiseVar <;> simp [h1, h2] at hn ⊢), if_neg (by simp [ha])]
  simp only
  rw [if_neg (by simp [hw]), if_pos (Ne.symm hc)]
  exact ⟨_, _, rfl, rfl, rfl, by simpa using hne, rfl, rfl⟩

/-- What that failure does to the object: once the inputs outnumber the rows of the covariance, every later append that
passes the data checks raises, too. -/
theorem C41_columns_poisons (o : Obj α H) (hk : o.kSize ≠ o.data.cur.x.length) (u : Update α) (ha : u.append = true) :
    ∃ o' e, updateGpData o u = (o', .error e) := by
  unfold updateGpData
  by_cases hl : u.x.length ≠ u.y.length
  · exact ⟨_, _, by rw [if_pos hl]⟩
  rw [if_neg hl]
  rcases hd : updateData o.data u with ⟨d, e | ⟨⟩⟩
  · exact ⟨_, _, rfl⟩
  · simp only
    rw [if_pos ha]
    have hx : d.xOld = some o.data.cur.x := by
      unfold updateData at hd
      split at hd
      · simp at hd
      split at hd
      · simp at hd
      rw [if_neg (by simp [ha])] at hd
      simp only at hd
      split at hd
      · simp at hd
      split at hd
      · simp at hd
      simp only [Prod.mk.injEq] at hd
      rw [← hd.1]
      cases u.noise <;> rfl
    have : augmentPrior { o with data := d } = ({ o with data := d }, .error "ValueError: all the input array dimensions must match") := by
      simp only [augmentPrior]
      rw [if_pos (by rw [hx]; exact hk)]
    rw [this]
    exact ⟨_, _, rfl⟩

/-- C41 is violated by an append with a NaN among the new values: the update raises after the data have been
changed. -/
theorem C41_nan_violated (o : Obj α H) (u : Update α) (hlen : u.x.length = u.y.length) (hne : u.x ≠ [])
    (hn : u.noise.isSome = o.data.cur.noiseVar.isSome) (ha : u.append = true) (hw : u.width = o.data.width)
    (hc : u.cols = o.data.cur.cols) (he : o.data.euclidean = true) (hnan : u.nan = true) :
    ∃ o' e, updateGpData o u = (o', .error e) ∧ o'.data.cur.x = o.data.cur.x ++ u.x ∧ o'.data.nan = true ∧
      o'.data.cur.x ≠ o.data.cur.x ∧ o'.kSize = o.kSize := by
  unfold updateGpData
  rw [if_neg (by simp [hlen])]
  unfold updateData
  rw [if_neg (by rw [← hn]; cases u.noise <;> simp), if_neg (by
    cases h1 : u.noise <;> cases h2 : o.data.cur.noiseVar <;> simp [h1, h2] at hn ⊢), if_neg (by simp [ha])]
  simp only
  rw [if_neg (by simp [hw]), if_neg (by simp [hc])]
  have key : ∀ d : DataObj α, d.euclidean = true → d.nan = true →
      checkNaN d = .error "Exception: NaNs encountered in dataset." := by
    intro d h1 h2
    simp [checkNaN, h1, h2]
  cases hu : u.noise with
  | none =>
    simp only
    rw [key _ (by exact he) (by simp [hnan])]
    exact ⟨_, _, rfl, rfl, by simp [hnan], by simpa using hne, rfl⟩
  | some w =>
    simp only
    rw [key _ (by exact he) (by simp [hnan])]
    exact ⟨_, _, rfl, rfl, by simp [hnan], by simpa using hne, rfl⟩

/-- Measured noise. -/
noncomputable def fCfg : Config ℕ ℝ := { dCfg with noise := .measured }

/-- C41 is violated when the factorisation fails: appending a point with a negative noise variance raises (the matrix is
not positive definite), but data, prior covariance and noise are already those of the new data set while the
factorisation is that of the old one. -/
theorem C41_factorisation_violated :
    ∃ o o' e, build fCfg ⟨[0], [[100]], 1, some [1]⟩ true 1 1 = .ok o ∧
      updateGpData o ⟨[1], 1, [[0]], 1, some [-5], false, true, none⟩ = (o', .error e) ∧
      o'.data.cur = ⟨[0, 1], [[100], [0]], 1, some [1, -5]⟩ ∧ o'.kSize = 2 ∧ o'.kv.factor = o.kv.factor ∧
      o.kv.factor.size = 1 := by
  set d : Data ℕ := ⟨[0], [[100]], 1, some [1]⟩ with hd
  set u : Update ℕ := ⟨[1], 1, [[0]], 1, some [-5], false, true, none⟩ with hu
  have hk : ∀ h : ℝ, 0 ≤ h → IsPSDKernel (fCfg.kernel h) := by
    intro h hh
    refine ⟨fun a b => by simp only [fCfg, dCfg, eq_comm], fun n x w => ?_⟩
    have : ∀ i j : Fin n, w i * w j * fCfg.kernel h (x i) (x j)
        = h * ∑ z ∈ Finset.univ.image x, (if x i = z then w i else 0) * (if x j = z then w j else 0) := by
      intro i j
      rw [Finset.sum_eq_single (x i)]
      · by_cases hij : x i = x j
        · simp [fCfg, dCfg, hij]; ring
        · simp [fCfg, dCfg, hij, Ne.symm hij]
      · intro z _ hz; simp [Ne.symm hz]
      · intro hz; exact absurd (Finset.mem_image_of_mem _ (Finset.mem_univ i)) hz
    simp_rw [this, ← Finset.mul_sum]
    refine mul_nonneg hh ?_
    have : ∑ i, ∑ j, ∑ z ∈ Finset.univ.image x, (if x i = z then w i else 0) * (if x j = z then w j else 0)
        = ∑ z ∈ Finset.univ.image x, (∑ i, if x i = z then w i else 0) * (∑ j, if x j = z then w j else 0) := by
      simp_rw [Finset.sum_mul_sum]
      rw [Finset.sum_comm]
      rw [Finset.sum_comm]
      conv_rhs => rw [Finset.sum_comm]
      refine Finset.sum_congr rfl fun i _ => ?_
      rw [Finset.sum_comm]
    rw [this]
    exact Finset.sum_nonneg fun z _ => mul_self_nonneg _
  have a1 : Admissible fCfg d 1 := measured_admissible fCfg rfl d 1 (hk 1 (by norm_num)) [1] rfl rfl (by simp)
  obtain ⟨o, ho, g⟩ := build_good fCfg cholExt_contract true ⟨d, 1, 1⟩ rfl a1
  have hsym : ∀ h a b, fCfg.kernel h a b = fCfg.kernel h b a := by
    intro h a b
    simp only [fCfg, dCfg, eq_comm]
  obtain ⟨p, hp, h1, h2, h3, h4, h5, h6, h7, h8, h9, h10, h11, h12, h13⟩ :=
    updateGpData_prepare fCfg hsym true ⟨d, 1, 1⟩ o g u ⟨rfl, rfl, rfl, fun _ => rfl, fun _ _ => rfl⟩
  have hsz := g.con.size_eq
  have hmo := g.con.mode_eq
  simp only [Obj.toGP] at hsz hmo
  rw [g.data] at hsz
  rw [g.cfg] at hmo
  obtain ⟨F, hF⟩ : ∃ F, o.kv.factor = .chol 1 F := by
    cases hfac : o.kv.factor with
    | chol n F =>
      rw [hfac] at hsz
      have : n = 1 := hsz
      exact ⟨F, by rw [this]⟩
    | cholInv n F I => rw [hfac] at hmo; simp [Factor.mode, fCfg, dCfg] at hmo
    | inv n F I => rw [hfac] at hmo; simp [Factor.mode, fCfg, dCfg] at hmo
    | lu n F => rw [hfac] at hmo; simp [Factor.mode, fCfg, dCfg] at hmo
    | raw n F => rw [hfac] at hmo; simp [Factor.mode, fCfg, dCfg] at hmo
  have hfit : (calcV fCfg (specData d u) 1 (specData d u).x).Fits 2 fCfg.sparseK := by
    simp [calcV, fCfg, specData, hd, hu, Noise.Fits]
  obtain ⟨KV', hKV', hmat'⟩ := addKV_ok hfit p.K
  have h11' : toMat 2 p.K = Kmat (fCfg.kernel 1) [0, 1] [0, 1] := h11
  have hent : KV' 1 1 = -4 := by
    have e1 := congrFun (congrFun hmat' 1) 1
    rw [h11'] at e1
    refine Eq.trans e1 ?_
    rw [Matrix.add_apply]
    have e2 : Kmat (fCfg.kernel 1) [0, 1] [0, 1] (1 : Fin 2) (1 : Fin 2) = 1 := by
      simp [Kmat, fCfg, dCfg]
    have e3 : (calcV fCfg (specData d u) 1 (specData d u).x).mat 2 1 1 = -5 := by
      simp [calcV, fCfg, specData, hd, hu, Noise.mat]
    rw [e3]
    refine (congrArg (· + (-5 : ℝ)) e2).trans ?_
    norm_num
  have hup : updateChol 1 F 2 KV' = .error "NonPositiveDefiniteError" := by
    simp only [updateChol, rankN, bind, Except.bind, rank1]
    rw [if_pos]
    simp only [Nat.add_zero, hent]
    have : ∀ v : ℕ → ℝ, 0 ≤ ∑ i ∈ range 1, v i * v i := fun v => Finset.sum_nonneg fun i _ => mul_self_nonneg _
    have := this (fsub F fun j => if j < 1 then KV' 1 j else KV' (1 + (j - 1)) 1)
    linarith
  have hrefresh : refresh p u.effective = ({ p with kv := { p.kv with factor := .chol 1 F } }, .error "NonPositiveDefiniteError") := by
    unfold refresh
    rw [h1, h9, h12]
    rw [show (specData d u).x.length = 2 from rfl, hKV']
    simp only [show u.effective = true from rfl, if_true, h13, hF, updateKV, bind, Except.bind]
    rw [if_neg (show ¬ 2 ≤ 1 by decide), hup]
    rfl
  refine ⟨o, _, _, ho, hp.trans hrefresh, ?_, h9, hF.symm, by rw [hF]; rfl⟩
  exact h3

/-- The first witness family is not empty: a GP with one value column, an update with two. -/
example (mode : Mode) : ∃ o o' e, build (exCfg mode) exData true 1 2 = .ok o ∧
    updateGpData o ⟨[3], 1, [[0, 1]], 2, some [2], false, true, none⟩ = (o', .error e) ∧
    o'.data.cur.x = [1, 2, 2, 3] ∧ o'.data.cur.y = [[1], [3], [4]] ∧
    ∀ u : Update ℝ, u.append = true → ∃ o'' e', updateGpData o' u = (o'', .error e') := by
  obtain ⟨o, hb, g⟩ := build_good (exCfg mode) cholExt_contract true ⟨exData, 1, 2⟩ rfl (exAdmissible mode 2)
  obtain ⟨o', e, h1, h2, h3, -, h4, -⟩ := C41_columns_violated o ⟨[3], 1, [[0, 1]], 2, some [2], false, true, none⟩ rfl
    (by simp) (by rw [g.data]; rfl) rfl (by rw [g.width]) (by rw [g.data]; simp [exData])
  rw [g.data] at h2 h3
  refine ⟨o, o', e, hb, h1, h2, h3, fun u ha => C41_columns_poisons o' ?_ u ha⟩
  rw [h4, h2, g.kSize]
  simp [exData]

end Verif.State
