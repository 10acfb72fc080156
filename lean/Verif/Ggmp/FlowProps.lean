import Verif.Ggmp.FlowModel
import Verif.Ggmp.DensProps
import Verif.Ggmp.PackProps
import Mathlib.Algebra.BigOperators.Field
import Mathlib.Tactic.Linarith
import Mathlib.Tactic.FieldSimp

/-!
C120: the work flow of `GGMP`.
-/

namespace Verif.Ggmp

open Finset

variable {K : ℕ}

/-! ### Moments of the empirical densities -/

/-- Specification: the density of a station on the grid, a single value standing for all. -/
def Station.density (s : Station) (i : ℕ) : ℝ := s.d (if s.n' = 1 then 0 else i)

theorem Station.dens_eq (s : Station) : s.dens = s.density := by
  funext i
  unfold Station.dens Station.density
  split_ifs <;> rfl

/-- Specification: a probability vector on the grid of a station, proportional to the clipped density times the spacing, or uniform
if there is no mass. -/
structure StationProb (s : Station) (q : ℕ → ℝ) : Prop where
  nonneg : ∀ i < s.n, 0 ≤ q i
  sum : ∑ i ∈ range s.n, q i = 1
  mass : 0 < ∑ i ∈ range s.n, max (s.density i) 0 * spacing s.n s.x i →
    ∃ c, ∀ i < s.n, q i = c * (max (s.density i) 0 * spacing s.n s.x i)
  empty : ∑ i ∈ range s.n, max (s.density i) 0 * spacing s.n s.x i ≤ 0 → ∀ i < s.n, ∀ j < s.n, q i = q j

/-- C120: the mean and the variance of a station are those of its normalised density, the variance with the floor `1e-6`. -/
theorem C120_moments (s : Station) (hn : 2 ≤ s.n) (hd : s.n' = s.n ∨ s.n' = 1) :
    ∃ mu var q, stationMoments s = .ok (mu, var) ∧ StationProb s q ∧ mu = ∑ i ∈ range s.n, q i * s.x i ∧
      var = max (∑ i ∈ range s.n, q i * (s.x i - mu) ^ 2) (1 / 10 ^ 6) := by
  have h1 : ¬ s.n < 2 := by omega
  have h2 : ¬ (s.n' ≠ s.n ∧ s.n' ≠ 1) := by tauto
  have hn0 : (s.n : ℝ) ≠ 0 := by
    have : s.n ≠ 0 := by omega
    exact_mod_cast this
  by_cases hz : ∑ i ∈ range s.n, pos s.density i * spacing s.n s.x i ≤ 0
  · refine ⟨avg s.n s.x, _, fun _ => 1 / s.n, ?_, ⟨fun _ _ => by positivity, ?_, ?_, fun _ _ _ _ _ => rfl⟩, ?_, rfl⟩
    · simp only [stationMoments, Station.dens_eq, h1, h2, if_false, hz, if_true]
      simp only [avg, sum_div]
      congr 3
      refine sum_congr rfl fun i _ => by ring
    · simp [hn0]
    · intro h
      exact absurd h (not_lt.2 hz)
    · simp only [avg, sum_div]
      exact sum_congr rfl fun i _ => by ring
  · have hz' := not_le.1 hz
    refine ⟨_, _, fun i => pos s.density i * spacing s.n s.x i / ∑ i ∈ range s.n, pos s.density i * spacing s.n s.x i, ?_,
      ⟨fun i _ => ?_, ?_, ?_, ?_⟩, rfl, rfl⟩
    · simp only [stationMoments, Station.dens_eq, h1, h2, if_false, hz]
    · exact div_nonneg (mul_nonneg (pos_nonneg _ _) (spacing_nonneg _ _ _)) hz'.le
    · rw [← sum_div, div_self hz'.ne']
    · intro _
      refine ⟨(∑ i ∈ range s.n, pos s.density i * spacing s.n s.x i)⁻¹, fun i _ => ?_⟩
      rw [div_eq_inv_mul]
      rfl
    · intro h
      exact absurd h hz

/-- A probability vector of a station is unique. -/
theorem StationProb.unique {s : Station} {q r : ℕ → ℝ} (hq : StationProb s q) (hr : StationProb s r) : ∀ i < s.n, q i = r i := by
  by_cases hz : ∑ i ∈ range s.n, max (s.density i) 0 * spacing s.n s.x i ≤ 0
  · intro i hi
    have hn0 : (s.n : ℝ) ≠ 0 := by
      have : s.n ≠ 0 := by omega
      exact_mod_cast this
    have key : ∀ f : ℕ → ℝ, StationProb s f → s.n * f i = 1 := by
      intro f hf
      rw [← hf.sum, sum_congr rfl fun j hj => hf.empty hz j (mem_range.1 hj) i hi]
      simp
    have := (key q hq).trans (key r hr).symm
    exact mul_left_cancel₀ hn0 this
  · have hz' := not_le.1 hz
    obtain ⟨c, hc⟩ := hq.mass hz'
    obtain ⟨d, hd⟩ := hr.mass hz'
    have key : ∀ (f : ℕ → ℝ) (e : ℝ), StationProb s f → (∀ i < s.n, f i = e * (max (s.density i) 0 * spacing s.n s.x i)) →
        e * ∑ i ∈ range s.n, max (s.density i) 0 * spacing s.n s.x i = 1 := by
      intro f e hf he
      rw [mul_sum, ← hf.sum]
      exact (sum_congr rfl fun j hj => he j (mem_range.1 hj)).symm
    have e : c = d := mul_right_cancel₀ hz'.ne' ((key q c hq hc).trans (key r d hr hd).symm)
    intro i hi
    rw [hc i hi, hd i hi, e]

/-- C120: the mean of a station lies within its grid, and the variance is at most the largest squared distance from the mean or the
floor. -/
theorem C120_moments_range (s : Station) (mu var a b : ℝ) (h : stationMoments s = .ok (mu, var)) (ha : ∀ i < s.n, a ≤ s.x i)
    (hb : ∀ i < s.n, s.x i ≤ b) : a ≤ mu ∧ mu ≤ b ∧ 1 / 10 ^ 6 ≤ var ∧ var ≤ max ((b - a) ^ 2) (1 / 10 ^ 6) := by
  have hn : 2 ≤ s.n := by
    by_contra hc
    simp only [stationMoments, if_pos (not_le.1 hc)] at h
    cases h
  have hd : s.n' = s.n ∨ s.n' = 1 := by
    by_contra hc
    simp only [stationMoments, if_neg (not_lt.2 hn), if_pos (not_or.1 hc)] at h
    cases h
  obtain ⟨mu', var', q, h', hq, hmu, hvar⟩ := C120_moments s hn hd
  rw [h'] at h
  obtain ⟨rfl, rfl⟩ : mu' = mu ∧ var' = var := by simpa using h
  have h1 : a ≤ mu' := by
    calc a = ∑ i ∈ range s.n, q i * a := by rw [← sum_mul, hq.sum, one_mul]
      _ ≤ ∑ i ∈ range s.n, q i * s.x i :=
        sum_le_sum fun i hi => mul_le_mul_of_nonneg_left (ha i (mem_range.1 hi)) (hq.nonneg i (mem_range.1 hi))
      _ = mu' := hmu.symm
  have h2 : mu' ≤ b := by
    calc mu' = ∑ i ∈ range s.n, q i * s.x i := hmu
      _ ≤ ∑ i ∈ range s.n, q i * b :=
        sum_le_sum fun i hi => mul_le_mul_of_nonneg_left (hb i (mem_range.1 hi)) (hq.nonneg i (mem_range.1 hi))
      _ = b := by rw [← sum_mul, hq.sum, one_mul]
  refine ⟨h1, h2, hvar ▸ le_max_right _ _, hvar ▸ max_le_max_right _ ?_⟩
  calc ∑ i ∈ range s.n, q i * (s.x i - mu') ^ 2 ≤ ∑ i ∈ range s.n, q i * (b - a) ^ 2 := by
        refine sum_le_sum fun i hi => mul_le_mul_of_nonneg_left ?_ (hq.nonneg i (mem_range.1 hi))
        have := ha i (mem_range.1 hi)
        have := hb i (mem_range.1 hi)
        exact sq_le_sq' (by linarith) (by linarith)
    _ = (b - a) ^ 2 := by rw [← sum_mul, hq.sum, one_mul]

theorem spacing_shift (n : ℕ) (x : ℕ → ℝ) (c : ℝ) (i : ℕ) : spacing n (fun i => x i + c) i = spacing n x i := by
  simp only [spacing, add_sub_add_right_eq_sub]

/-- C120: the terms of the density objective are logarithms of normal densities, with the posterior mean of the
component and the sum of its posterior variance and the station's variance (at least `1e-9`), at the points of the station. -/
theorem C120_density_terms (pred : (Fin K → CompGp) → Fin K → ℕ → ℝ × ℝ) (gps : Fin K → CompGp) (liks : Fin K → LikW)
    (stations : List Station) (rows : List (Row K)) (h : densityRows pred gps liks stations = .ok rows) :
    ∀ r ∈ rows, ∃ i s, stations[i]? = some s ∧ ∃ j < s.n, ∀ k v,
      v = max (pred gps k i).2 0 + max ((liks k).variance.getD i 0) (1 / 10 ^ 9) →
      Real.exp (r.l k) = Real.exp (-(s.x j - (pred gps k i).1) ^ 2 / (2 * v)) / √(2 * Real.pi * v) := by
  have key : ∀ (f : ℕ → ℝ → Fin K → ℝ) (ss : List Station) (i : ℕ) (rows : List (Row K)), stationRows f i ss = .ok rows →
      ∀ r ∈ rows, ∃ l s, ss[l]? = some s ∧ ∃ j < s.n, r.l = f (i + l) (s.x j) := by
    intro f ss
    induction ss with
    | nil =>
      intro i rows h r hr
      cases h
      cases hr
    | cons s ss ih =>
      intro i rows h r hr
      simp only [stationRows, bind, Except.bind] at h
      split at h
      · cases h
      · split at h
        · cases h
        · rename_i rest hrest
          cases h
          rcases List.mem_append.1 hr with hr | hr
          · obtain ⟨j, hj, rfl⟩ := List.mem_map.1 hr
            exact ⟨0, s, rfl, j, List.mem_range.1 hj, rfl⟩
          · obtain ⟨l, s', hl, j, hj, e⟩ := ih _ _ hrest r hr
            exact ⟨l + 1, s', hl, j, hj, by rw [e]; congr 1; omega⟩
  intro r hr
  obtain ⟨l, s, hl, j, hj, e⟩ := key _ _ _ _ h r hr
  refine ⟨l, s, hl, j, hj, fun k v hve => ?_⟩
  have hv : 1 / 10 ^ 9 ≤ v := by
    have h1 := le_max_right (pred gps k l).2 0
    have h2 := le_max_right ((liks k).variance.getD l 0) (1 / 10 ^ 9 : ℝ)
    rw [hve]
    linarith
  have hv0 : 0 < v := lt_of_lt_of_le (by norm_num) hv
  have hmx : max v (1 / 10 ^ 12) = v := max_eq_left (le_trans (by norm_num) hv)
  have hr' : r.l k = normLogPdf (pred gps k l).1 (√(max v (1 / 10 ^ 12))) (s.x j) := by
    rw [e, Nat.zero_add, hve]
  rw [hr', hmx, normLogPdf, Real.exp_sub, Real.exp_sub, Real.exp_log (Real.sqrt_pos.2 (by positivity)),
    Real.exp_log (Real.sqrt_pos.2 hv0), div_div, ← Real.sqrt_mul (by positivity)]
  congr 2
  rw [div_pow, Real.sq_sqrt hv0.le]
  field_simp

/-- C120: the scale of the densities does not matter, and moving the grid moves the mean and keeps the variance. -/
theorem C120_moments_units (s : Station) (mu var : ℝ) (h : stationMoments s = .ok (mu, var)) (c : ℝ) (hc : 0 < c) (b : ℝ) :
    stationMoments { s with d := fun i => c * s.d i, x := fun i => s.x i + b } = .ok (mu + b, var) := by
  have hn : 2 ≤ s.n := by
    by_contra hc
    simp only [stationMoments, if_pos (not_le.1 hc)] at h
    cases h
  have hd : s.n' = s.n ∨ s.n' = 1 := by
    by_contra hc
    simp only [stationMoments, if_neg (not_lt.2 hn), if_pos (not_or.1 hc)] at h
    cases h
  obtain ⟨m1, v1, q, h1, hq, hm1, hv1⟩ := C120_moments s hn hd
  rw [h1] at h
  obtain ⟨rfl, rfl⟩ : m1 = mu ∧ v1 = var := by simpa using h
  set t : Station := { s with d := fun i => c * s.d i, x := fun i => s.x i + b } with ht
  obtain ⟨m2, v2, r, h2, hr, hm2, hv2⟩ := C120_moments t hn hd
  have hmass : ∀ i, max (t.density i) 0 * spacing t.n t.x i = c * (max (s.density i) 0 * spacing s.n s.x i) := by
    intro i
    have e1 : t.density i = c * s.density i := rfl
    have e2 : spacing t.n t.x i = spacing s.n s.x i := spacing_shift s.n s.x b i
    rw [e1, e2, ← mul_assoc]
    congr 1
    rw [mul_max_of_nonneg _ _ hc.le, mul_zero]
  have hqt : StationProb t q := by
    refine ⟨hq.nonneg, hq.sum, fun h => ?_, fun h => ?_⟩
    · simp only [hmass, ← mul_sum] at h
      obtain ⟨e, he⟩ := hq.mass (pos_of_mul_pos_right h hc.le)
      refine ⟨e / c, fun i hi => ?_⟩
      rw [hmass, he i hi]
      field_simp
    · simp only [hmass, ← mul_sum] at h
      exact hq.empty (by
        by_contra h'
        exact absurd (mul_pos hc (not_le.1 h')) (not_lt.2 h))
  have hqr := hqt.unique hr
  have e3 : m2 = m1 + b := by
    rw [hm2, ← sum_congr rfl fun i hi => congrArg (· * t.x i) (hqr i (mem_range.1 hi)), hm1]
    have : ∀ i, q i * t.x i = q i * s.x i + q i * b := fun i => by simp only [ht]; ring
    change ∑ i ∈ range s.n, q i * t.x i = _
    simp only [this, sum_add_distrib, ← sum_mul, hq.sum, one_mul]
  have e4 : v2 = v1 := by
    rw [hv2, hv1]
    congr 1
    change ∑ i ∈ range s.n, _ = _
    refine sum_congr rfl fun i hi => ?_
    have hx : t.x i = s.x i + b := rfl
    rw [← hqr i (mem_range.1 hi), e3, hx]
    ring
  rw [h2, e3, e4]

example : stationMoments ⟨3, fun i => i, 3, fun i => if i = 2 then 4 else -1⟩ = .ok (2, 1 / 10 ^ 6) := by
  have h : ∀ i, pos (Station.dens ⟨3, fun i => (i : ℝ), 3, fun i => if i = 2 then 4 else -1⟩) i = if i = 2 then 4 else 0 := by
    intro i
    by_cases hi : i = 2 <;> simp [pos, Station.dens, hi]
  have e : |(2 : ℝ) - 1| = 1 := by norm_num
  simp [stationMoments, h, sum_range_succ, spacing, e]

/-! ### Likelihoods -/

/-- What `initLikelihoods` stores if it does not raise. -/
theorem initLikelihoods_ok (g g' : Ggmp K) (im is : Option (List (List ℝ))) (w : Option (List ℝ))
    (h : g.initLikelihoods im is w = (g', .ok ())) :
    ∃ ms, g.stations.mapM stationMoments = .ok ms ∧ (∀ l, im = some l → l.length = K) ∧ (∀ l, is = some l → l.length = K) ∧
      (∀ v, w = some v → K ≤ v.length) ∧
      g' = { g with liks := .here fun k =>
        ⟨im.elim (ms.map fun m => m.1 + offset K k) fun l => l.getD k [],
          (is.elim (ms.map fun m => √m.2) fun l => l.getD k []).map (· ^ 2), some (w.elim (1 / (K : ℝ)) fun v => v.getD k 0)⟩ } := by
  unfold Ggmp.initLikelihoods at h
  split at h
  · cases h
  rename_i h1
  split at h
  · cases h
  rename_i h2
  split at h
  · cases h
  rename_i ms hms
  refine ⟨ms, hms, fun l hl => by_contra fun hc => h1 ⟨l, hl, hc⟩, fun l hl => by_contra fun hc => h2 ⟨l, hl, hc⟩, ?_⟩
  cases w with
  | none =>
    simp only [Prod.mk.injEq, and_true] at h
    exact ⟨fun v hv => by simp at hv, h.symm⟩
  | some v =>
    simp only at h
    split at h
    · cases h
    · rename_i h3
      simp only [Prod.mk.injEq, and_true] at h
      refine ⟨fun u hu => ?_, h.symm⟩
      cases hu
      omega

theorem sum_offset (hK : 2 ≤ K) : ∑ k : Fin K, offset K k = 0 := by
  have h1 : ¬ K = 1 := by omega
  have hK' : (2 : ℝ) ≤ K := by exact_mod_cast hK
  have h2 : (K : ℝ) - 1 ≠ 0 := by linarith
  have e : ∑ k : Fin K, ((k : ℕ) : ℝ) = K * (K - 1) / 2 := by
    rw [Fin.sum_univ_eq_sum_range (fun k => (k : ℝ)) K]
    have : ∀ n : ℕ, ∑ i ∈ range n, (i : ℝ) = n * (n - 1) / 2 := by
      intro n
      induction n with
      | zero => simp
      | succ n ih => rw [sum_range_succ, ih]; push_cast; ring
    exact this K
  simp only [offset, if_neg h1, sum_add_distrib, ← sum_mul, e]
  simp
  field_simp
  ring

/-- C120: with two or more components the default component means are distinct at every station, at most one away from the mean of
the station, and their average is that mean; the default variances are the variances of the stations and the default weights are
`1 / K`. -/
theorem C120_default_likelihoods (hK : 2 ≤ K) (g g' : Ggmp K) (h : g.initLikelihoods none none none = (g', .ok ())) :
    ∃ (ms : List (ℝ × ℝ)) (liks : Fin K → LikW), g.stations.mapM stationMoments = .ok ms ∧ g' = { g with liks := .here liks } ∧
      (∀ k, (liks k).mean.length = ms.length ∧ (liks k).variance = ms.map Prod.snd ∧ (liks k).weight = some (1 / (K : ℝ))) ∧
      ∀ i (hi : i < ms.length), (∀ k, |(liks k).mean.getD i 0 - ms[i].1| ≤ 1) ∧
        (∑ k, (liks k).mean.getD i 0) / K = ms[i].1 ∧
        ∀ k l, k < l → (liks k).mean.getD i 0 < (liks l).mean.getD i 0 := by
  obtain ⟨ms, hms, -, -, -, rfl⟩ := initLikelihoods_ok g g' _ _ _ h
  have hK' : (2 : ℝ) ≤ K := by exact_mod_cast hK
  have h1 : ¬ K = 1 := by omega
  have h2 : (0 : ℝ) < (K : ℝ) - 1 := by linarith
  have hv : ∀ m ∈ ms, (0 : ℝ) ≤ m.2 := by
    have key : ∀ (ss : List Station) (ms : List (ℝ × ℝ)), ss.mapM stationMoments = .ok ms → ∀ m ∈ ms, (0 : ℝ) ≤ m.2 := by
      intro ss
      induction ss with
      | nil =>
        intro ms h m hm
        simp only [List.mapM_nil, pure, Except.pure, Except.ok.injEq] at h
        simp [← h] at hm
      | cons s ss ih =>
        intro ms h m hm
        simp only [List.mapM_cons, bind, Except.bind] at h
        cases hs : stationMoments s with
        | error e => simp [hs] at h
        | ok p =>
          cases hr : ss.mapM stationMoments with
          | error e => simp [hs, hr] at h
          | ok ps =>
            simp only [hs, hr, pure, Except.pure, Except.ok.injEq] at h
            subst h
            rcases List.mem_cons.1 hm with rfl | hm
            · obtain ⟨mu, var⟩ := m
              simp only [stationMoments] at hs
              split_ifs at hs
              all_goals
                simp only [Except.ok.injEq, Prod.mk.injEq] at hs
                rw [← hs.2]
                exact le_max_of_le_right (by positivity)
            · exact ih ps hr m hm
    exact key _ _ hms
  refine ⟨ms, _, hms, rfl, fun k => ⟨by simp, ?_, rfl⟩, fun i hi => ?_⟩
  · simp only [Option.elim_none, List.map_map]
    refine List.map_congr_left fun m hm => ?_
    exact Real.sq_sqrt (hv m hm)
  · have e : ∀ k : Fin K, (ms.map fun m => m.1 + offset K k).getD i 0 = ms[i].1 + offset K k := by
      intro k
      rw [List.getD_eq_getElem?_getD, List.getElem?_map, List.getElem?_eq_getElem hi]
      rfl
    refine ⟨fun k => ?_, ?_, fun k l hkl => ?_⟩
    · simp only [Option.elim_none, e, add_sub_cancel_left]
      simp only [offset, if_neg h1]
      have hk : ((k : ℕ) : ℝ) ≤ K - 1 := by
        have := k.2
        have : (k : ℕ) + 1 ≤ K := this
        have : (((k : ℕ) + 1 : ℕ) : ℝ) ≤ K := by exact_mod_cast this
        push_cast at this
        linarith
      have h3 : ((k : ℕ) : ℝ) * (2 / ((K : ℝ) - 1)) ≤ 2 := by
        rw [mul_div_assoc', div_le_iff₀ h2]
        linarith
      have h4 : (0 : ℝ) ≤ ((k : ℕ) : ℝ) * (2 / ((K : ℝ) - 1)) := by positivity
      rw [abs_le]
      constructor <;> linarith
    · simp only [Option.elim_none, e, sum_add_distrib, sum_offset hK]
      simp
      field_simp
    · simp only [Option.elim_none, e]
      simp only [offset, if_neg h1]
      have hkl' : ((k : ℕ) : ℝ) < ((l : ℕ) : ℝ) := by exact_mod_cast hkl
      have := mul_lt_mul_of_pos_right hkl' (div_pos two_pos h2)
      linarith

/-- The means of a single component are not spread around the means of the stations: `np.linspace(-1, 1, 1)` is `-1`, so that with
`likelihood_terms=1` the GP is trained on every station mean minus one. -/
theorem C120_single_component_violated (g g' : Ggmp 1) (h : g.initLikelihoods none none none = (g', .ok ())) :
    ∃ (ms : List (ℝ × ℝ)) (liks : Fin 1 → LikW), g.stations.mapM stationMoments = .ok ms ∧ g' = { g with liks := .here liks } ∧
      (liks 0).mean = ms.map fun m => m.1 - 1 := by
  obtain ⟨ms, hms, -, -, -, rfl⟩ := initLikelihoods_ok g g' _ _ _ h
  refine ⟨ms, _, hms, rfl, ?_⟩
  refine List.map_congr_left fun m _ => ?_
  simp [offset, sub_eq_add_neg]

/-- With one component and stations of one common mean `mu`, the posterior mean of the GP that `initGPs` builds — its prior mean plus
any linear combination of the residuals — is `mu - 1` everywhere. -/
theorem C120_single_component_posterior_violated (mu : ℝ) (ms : List (ℝ × ℝ)) (hne : ms ≠ []) (hmu : ∀ m ∈ ms, m.1 = mu)
    (y : List ℝ) (hy : y = ms.map fun m => m.1 - 1) (a : List ℝ) :
    y.sum / y.length + (List.zipWith (fun a v => a * (v - y.sum / y.length)) a y).sum = mu - 1 := by
  have e : y = List.replicate ms.length (mu - 1) := by
    rw [hy, List.eq_replicate_iff]
    refine ⟨by simp, fun b hb => ?_⟩
    obtain ⟨m, hm, rfl⟩ := List.mem_map.1 hb
    rw [hmu m hm]
  have hl : ((ms.length : ℕ) : ℝ) ≠ 0 := by
    have := List.length_pos_iff.2 hne
    exact_mod_cast this.ne'
  have e1 : y.sum / y.length = mu - 1 := by
    rw [e, List.sum_replicate, List.length_replicate, nsmul_eq_mul]
    field_simp
  rw [e1, add_eq_left]
  refine List.sum_eq_zero fun x hx => ?_
  obtain ⟨i, hi, rfl⟩ := List.getElem_of_mem hx
  rw [List.getElem_zipWith]
  have : y[i]'(by simp at hi; omega) = mu - 1 := by
    have := List.eq_replicate_iff.1 e
    exact this.2 _ (List.getElem_mem _)
  rw [this]
  simp

/-! ### Order of the calls -/

/-- The documented exception of `initGPs`, `train` and the posterior methods in a call out of order. -/
def IsValueError (e : String) : Prop := "ValueError".toList <+: e.toList

/-- C120: out of order calls do raise; but on a new object with at least one component `initGPs`, `train` and the posterior methods
raise a `TypeError` about a function object instead of the `ValueError` that names the missing call, because `__getattr__` answers
for the missing attribute. -/
theorem C120_call_order_violated [NeZero K] (len : ℕ) (ss : List Station) (obj : HpsObj (Option ℝ) (ℝ × ℝ)) (g : Ggmp K)
    (h : Ggmp.new len ss obj = .ok g) (refuse t pred bounds init a) :
    (∃ e, g.initGPs refuse = (g, .error e) ∧ ¬ IsValueError e) ∧
    (∃ e, g.train t pred bounds init a = (g, .error e) ∧ ¬ IsValueError e) ∧
    ∃ e, g.guard = .error e ∧ ¬ IsValueError e := by
  unfold Ggmp.new at h
  split at h
  · cases h
  · cases h
    refine ⟨⟨"TypeError: 'function' object is not subscriptable", by simp only [Ggmp.initGPs, NeZero.ne K, if_false], ?_⟩,
      ⟨_, rfl, ?_⟩, ⟨"TypeError: 'function' object is not subscriptable", by simp only [Ggmp.guard, NeZero.ne K, if_false], ?_⟩⟩
    all_goals
      unfold IsValueError
      decide

/-! ### Component GPs -/

theorem mapM_inv {α β : Type} (f : α → Except String β) : ∀ (l : List α) (r : List β), l.mapM f = .ok r →
    r.length = l.length ∧ ∀ i (hi : i < l.length) (hj : i < r.length), f l[i] = .ok r[i] := by
  intro l
  induction l with
  | nil =>
    intro r h
    simp only [List.mapM_nil, pure, Except.pure, Except.ok.injEq] at h
    subst h
    exact ⟨rfl, fun i hi => absurd hi (by simp)⟩
  | cons a l ih =>
    intro r h
    simp only [List.mapM_cons, bind, Except.bind] at h
    cases ha : f a with
    | error e => simp [ha] at h
    | ok b =>
      cases hl : l.mapM f with
      | error e => simp [ha, hl] at h
      | ok bs =>
        simp only [ha, hl, pure, Except.pure, Except.ok.injEq] at h
        subst h
        obtain ⟨h1, h2⟩ := ih bs hl
        refine ⟨by simp [h1], fun i hi hj => ?_⟩
        cases i with
        | zero => simpa using ha
        | succ i => simpa using h2 i (by simpa using hi) (by simpa using hj)

theorem mapM_total {α β : Type} (f : α → Except String β) (l : List α) (h : ∀ a ∈ l, ∃ b, f a = .ok b) : ∃ r, l.mapM f = .ok r := by
  induction l with
  | nil => exact ⟨[], rfl⟩
  | cons a l ih =>
    obtain ⟨b, hb⟩ := h a (by simp)
    obtain ⟨bs, hbs⟩ := ih fun a ha => h a (by simp [ha])
    exact ⟨b :: bs, by simp [List.mapM_cons, hb, hbs, bind, Except.bind, pure, Except.pure]⟩

/-- Specification: the GP of a component is built from its likelihood and from the hyperparameters of the component with the last one
replaced by the average of the values. -/
def BuiltFrom (l : LikW) (h : List (Option ℝ)) (gp : CompGp) : Prop :=
  gp.y = l.mean ∧ gp.noise = l.variance ∧ gp.hps.length = h.length ∧ (∀ i, i + 1 < h.length → gp.hps[i]? = h[i]?) ∧
    gp.hps.getLast? = some (some (l.mean.sum / l.mean.length))

theorem makeComponent_ok {refuse : List ℝ → List ℝ → List (Option ℝ) → Option String} {l : LikW} {hps : List (List (Option ℝ))} {k : ℕ}
    {gp : CompGp} (h : makeComponent refuse l hps k = .ok gp) :
    ∃ v, hps[k]? = some v ∧ v ≠ [] ∧ l.mean ≠ [] ∧ gp = ⟨l.mean, l.variance, v.dropLast ++ [some (l.mean.sum / l.mean.length)]⟩ ∧
      refuse gp.y gp.noise gp.hps = none := by
  simp only [makeComponent, index, bind, Except.bind] at h
  cases hv : hps[k]? with
  | none => simp [hv] at h
  | some v =>
    simp only [hv] at h
    split at h
    · cases h
    · split at h
      · cases h
      · split at h
        · cases h
        · rename_i h1 h2 _ h3
          cases h
          exact ⟨v, rfl, h1, h2, rfl, h3⟩

theorem builtFrom_mk (l : LikW) (v : List (Option ℝ)) (hv : v ≠ []) :
    BuiltFrom l v ⟨l.mean, l.variance, v.dropLast ++ [some (l.mean.sum / l.mean.length)]⟩ := by
  have hl := List.length_pos_iff.2 hv
  refine ⟨rfl, rfl, ?_, fun i hi => ?_, by simp⟩
  · simp only [List.length_append, List.length_dropLast, List.length_cons, List.length_nil]
    omega
  · rw [List.getElem?_append_left (by simp; omega), List.getElem?_dropLast, if_pos (by omega)]

/-- Specification: vector and attributes of the hyperparameter object agree. -/
def Coherent (o : HpsObj (Option ℝ) (ℝ × ℝ)) : Prop :=
  o.weights.length = o.nw ∧ o.hps.map List.length = o.nh ∧ o.hps.length = o.hpsBounds.length ∧
    o.weights.length = o.weightsBounds.length ∧ devectorize o.nw o.nh o.vec = (o.weights, o.hps)

theorem Coherent.set {o : HpsObj (Option ℝ) (ℝ × ℝ)} (ho : Coherent o) (w : List (Option ℝ)) (hps : List (List (Option ℝ)))
    (hw : w.length = o.weights.length) (hh : hps.map List.length = o.hps.map List.length) :
    (o.set w hps).2 = .ok () ∧ Coherent (o.set w hps).1 ∧ (o.set w hps).1.weights = w ∧ (o.set w hps).1.hps = hps ∧
      (o.set w hps).1.hpsBounds = o.hpsBounds ∧ (o.set w hps).1.nh = o.nh ∧ (o.set w hps).1.nw = o.nw := by
  obtain ⟨h1, h2, h3, h4, h5⟩ := ho
  have hl : hps.length = o.hpsBounds.length := by
    have := congrArg List.length hh
    simp only [List.length_map] at this
    omega
  obtain ⟨a, b, c, d⟩ := C68_set_roundtrip o w hps (hw.trans h1) (hh.trans h2) hl (hw.trans h4)
  have e : (o.set w hps).1.hpsBounds = o.hpsBounds ∧ (o.set w hps).1.nh = o.nh ∧ (o.set w hps).1.nw = o.nw ∧
      (o.set w hps).1.weightsBounds = o.weightsBounds := by
    unfold HpsObj.set
    split_ifs
    · exact ⟨rfl, rfl, rfl, rfl⟩
    · exact ⟨rfl, rfl, rfl, rfl⟩
    · split <;> exact ⟨rfl, rfl, rfl, rfl⟩
  refine ⟨a, ⟨?_, ?_, ?_, ?_, ?_⟩, b, c, e.1, e.2.1, e.2.2.1⟩
  · rw [b, e.2.2.1, hw, h1]
  · rw [c, e.2.1, hh, h2]
  · rw [c, e.1, hl]
  · rw [b, e.2.2.2, hw, h4]
  · rw [d, b, c]

/-- C120: `initGPs` succeeds on K non-empty hyperparameter sets and non-empty likelihoods that the GP constructor accepts, and then
there is one GP per component, built from the likelihood of that component and nothing else; the hyperparameter object holds
exactly the hyperparameters of the GPs, its vector agrees with them, and weights and likelihoods are unchanged. -/
theorem C120_init_gps [NeZero K] (refuse : List ℝ → List ℝ → List (Option ℝ) → Option String) (g : Ggmp K) (liks : Fin K → LikW)
    (hl : g.liks = .here liks) (ho : Coherent g.obj) (hK : g.obj.hps.length = K) (hne : ∀ h ∈ g.obj.hps, h ≠ [])
    (hm : ∀ k, (liks k).mean ≠ []) (hr : ∀ y n h, refuse y n h = none) :
    ∃ (g' : Ggmp K) (gps : Fin K → CompGp), g.initGPs refuse = (g', .ok ()) ∧ g'.gps = .here gps ∧ g'.liks = g.liks ∧
      g'.stations = g.stations ∧ Coherent g'.obj ∧ g'.obj.weights = g.obj.weights ∧ g'.obj.hpsBounds = g.obj.hpsBounds ∧
      (∀ k : Fin K, ∃ h, g.obj.hps[(k : ℕ)]? = some h ∧ BuiltFrom (liks k) h (gps k) ∧
        g'.obj.hps[(k : ℕ)]? = some (gps k).hps) ∧ g'.obj.hps.length = K := by
  have hex : ∀ k ∈ List.finRange K, ∃ gp, makeComponent refuse (liks k) g.obj.hps k = .ok gp := by
    intro k _
    have hk : (k : ℕ) < g.obj.hps.length := by rw [hK]; exact k.2
    refine ⟨⟨(liks k).mean, (liks k).variance, (g.obj.hps[(k : ℕ)]).dropLast ++ [some ((liks k).mean.sum / (liks k).mean.length)]⟩, ?_⟩
    simp only [makeComponent, index, bind, Except.bind, List.getElem?_eq_getElem hk, hr, if_neg (hne _ (List.getElem_mem hk)),
      if_neg (hm k)]
  obtain ⟨l, hlm⟩ := mapM_total _ _ hex
  obtain ⟨hlen, hget⟩ := mapM_inv _ _ _ hlm
  rw [List.length_finRange] at hlen
  let gps : Fin K → CompGp := fun k => l.getD k ⟨[], [], []⟩
  have hgps : ∀ k : Fin K, makeComponent refuse (liks k) g.obj.hps k = .ok (gps k) := by
    intro k
    have hk : (k : ℕ) < l.length := by rw [hlen]; exact k.2
    have := hget k (by simp) hk
    simp only [List.getElem_finRange, Fin.cast_mk, Fin.eta] at this
    simp only [gps, List.getD_eq_getElem?_getD, List.getElem?_eq_getElem hk, Option.getD_some]
    simpa using this
  have hlens : (List.ofFn fun k => (gps k).hps).map List.length = g.obj.hps.map List.length := by
    apply List.ext_getElem?
    intro i
    by_cases hi : i < K
    · obtain ⟨v, hv, hv0, -, hgp, -⟩ := makeComponent_ok (hgps ⟨i, hi⟩)
      have h1 := (builtFrom_mk (liks ⟨i, hi⟩) v hv0).2.2.1
      rw [← hgp] at h1
      simp only [List.getElem?_map, List.getElem?_ofFn, hi, dif_pos]
      simp only at hv
      rw [hv]
      simp [h1]
    · rw [List.getElem?_eq_none (by simp; omega), List.getElem?_eq_none (by simp [hK]; omega)]
  obtain ⟨s1, s2, s3, s4, s5, -, -⟩ := ho.set g.obj.weights (List.ofFn fun k => (gps k).hps) rfl hlens
  refine ⟨{ g with gps := .here gps, obj := (g.obj.set g.obj.weights (List.ofFn fun k => (gps k).hps)).1 }, gps, ?_, rfl, rfl, rfl, s2,
    s3, s5, fun k => ?_, by rw [s4]; simp⟩
  · have hmk : makeComponents refuse liks g.obj.hps = .ok l := hlm
    simp only [Ggmp.initGPs, hl, NeZero.ne K, if_false, hmk]
    rw [Prod.mk.injEq]
    exact ⟨rfl, s1⟩
  · obtain ⟨v, hv, hv0, -, hgp, -⟩ := makeComponent_ok (hgps k)
    refine ⟨v, hv, ?_, ?_⟩
    · rw [hgp]
      exact builtFrom_mk _ _ hv0
    · rw [s4]
      simp

/-! ### Training -/

theorem trainOne_ok {t : Trainer K} {obj : HpsObj (Option ℝ) (ℝ × ℝ)} {bounds : Option (List (List (ℝ × ℝ)))}
    {init : Option (List (List (Option ℝ)))} {k : Fin K} {gp : CompGp} (h : (trainOne t obj bounds init k gp).2 = .ok ()) :
    ∃ b s v, (bounds.getD obj.hpsBounds)[(k : ℕ)]? = some b ∧ (∀ l, init = some l → l[(k : ℕ)]? = some s) ∧ (init = none → s = gp.hps) ∧
      t.opt k b s = .ok v ∧ (trainOne t obj bounds init k gp).1 = { gp with hps := v } := by
  unfold trainOne at h ⊢
  cases hb : index (bounds.getD obj.hpsBounds) k with
  | error e => simp [hb] at h
  | ok b =>
    have hb' : (bounds.getD obj.hpsBounds)[(k : ℕ)]? = some b := by
      unfold index at hb
      split at hb
      · cases hb; assumption
      · cases hb
    simp only [hb] at h ⊢
    cases hs : startOf init k gp with
    | error e => simp [hs] at h
    | ok s =>
      have hs1 : ∀ l, init = some l → l[(k : ℕ)]? = some s := by
        rintro l rfl
        simp only [startOf, index] at hs
        split at hs
        · cases hs; assumption
        · cases hs
      have hs2 : init = none → s = gp.hps := by
        rintro rfl
        simp only [startOf, Except.ok.injEq] at hs
        exact hs.symm
      simp only [hs] at h ⊢
      split at h <;> rename_i hc
      · rw [if_pos hc]
        cases ho : t.opt k b s with
        | error e => simp [ho] at h
        | ok v => exact ⟨b, s, v, hb', hs1, hs2, ho, rfl⟩
      · rw [if_neg hc]
        cases hr : t.setRefuse k s with
        | some e => simp [hr] at h
        | none =>
          cases ho : t.opt k b s with
          | error e => simp [hr, ho] at h
          | ok v => exact ⟨b, s, v, hb', hs1, hs2, ho, rfl⟩

theorem trainOne_data (t : Trainer K) (obj : HpsObj (Option ℝ) (ℝ × ℝ)) (bounds init) (k : Fin K) (gp : CompGp) :
    (trainOne t obj bounds init k gp).1.y = gp.y ∧ (trainOne t obj bounds init k gp).1.noise = gp.noise := by
  unfold trainOne
  split
  · exact ⟨rfl, rfl⟩
  · split
    · exact ⟨rfl, rfl⟩
    · split
      · split <;> exact ⟨rfl, rfl⟩
      · split
        · exact ⟨rfl, rfl⟩
        · split <;> exact ⟨rfl, rfl⟩

theorem phase1_data (t : Trainer K) (obj : HpsObj (Option ℝ) (ℝ × ℝ)) (bounds init) (ks : List (Fin K)) (g : Fin K → CompGp) (j : Fin K) :
    ((phase1 t obj bounds init ks g).1 j).y = (g j).y ∧ ((phase1 t obj bounds init ks g).1 j).noise = (g j).noise := by
  induction ks generalizing g with
  | nil => exact ⟨rfl, rfl⟩
  | cons k ks ih =>
    have hu : (Function.update g k (trainOne t obj bounds init k (g k)).1 j).y = (g j).y ∧
        (Function.update g k (trainOne t obj bounds init k (g k)).1 j).noise = (g j).noise := by
      by_cases hj : j = k
      · subst hj
        rw [Function.update_self]
        exact trainOne_data t obj bounds init j (g j)
      · rw [Function.update_of_ne hj]
        exact ⟨rfl, rfl⟩
    simp only [phase1]
    split
    · exact hu
    · exact ⟨(ih _).1.trans hu.1, (ih _).2.trans hu.2⟩

theorem phase1_ok {t : Trainer K} {obj : HpsObj (Option ℝ) (ℝ × ℝ)} {bounds init} {ks : List (Fin K)} (hnd : ks.Nodup)
    {g : Fin K → CompGp} (h : (phase1 t obj bounds init ks g).2 = .ok ()) (j : Fin K) :
    (j ∈ ks → (trainOne t obj bounds init j (g j)).2 = .ok () ∧
      (phase1 t obj bounds init ks g).1 j = (trainOne t obj bounds init j (g j)).1) ∧
    (j ∉ ks → (phase1 t obj bounds init ks g).1 j = g j) := by
  induction ks generalizing g with
  | nil => exact ⟨fun h => absurd h (by simp), fun _ => rfl⟩
  | cons k ks ih =>
    obtain ⟨hk, hnd'⟩ := List.nodup_cons.1 hnd
    have e : phase1 t obj bounds init (k :: ks) g = (match (trainOne t obj bounds init k (g k)).2 with
      | .error e => (Function.update g k (trainOne t obj bounds init k (g k)).1, .error e)
      | .ok _ => phase1 t obj bounds init ks (Function.update g k (trainOne t obj bounds init k (g k)).1)) := rfl
    rw [e] at h ⊢
    cases hr : (trainOne t obj bounds init k (g k)).2 with
    | error e => simp [hr] at h
    | ok u =>
      simp only [hr] at h ⊢
      have := ih hnd' h
      constructor
      · intro hj
        rcases List.mem_cons.1 hj with rfl | hj
        · refine ⟨hr, ?_⟩
          rw [this.2 hk, Function.update_self]
        · have hne : j ≠ k := fun hc => hk (hc ▸ hj)
          obtain ⟨a, b⟩ := this.1 hj
          rw [Function.update_of_ne hne] at a b
          exact ⟨a, b⟩
      · intro hj
        have hne : j ≠ k := fun hc => hj (by simp [hc])
        rw [this.2 fun hc => hj (by simp [hc]), Function.update_of_ne hne]

theorem phase1_total {t : Trainer K} {obj : HpsObj (Option ℝ) (ℝ × ℝ)} {bounds init} {ks : List (Fin K)} (hnd : ks.Nodup)
    {g : Fin K → CompGp} (h : ∀ j ∈ ks, (trainOne t obj bounds init j (g j)).2 = .ok ()) :
    (phase1 t obj bounds init ks g).2 = .ok () := by
  induction ks generalizing g with
  | nil => rfl
  | cons k ks ih =>
    obtain ⟨hk, hnd'⟩ := List.nodup_cons.1 hnd
    have hr := h k (by simp)
    simp only [phase1, hr]
    refine ih hnd' fun j hj => ?_
    have hne : j ≠ k := fun hc => hk (hc ▸ hj)
    rw [Function.update_of_ne hne]
    exact h j (by simp [hj])

/-- Specification: the GPs, the likelihoods and the hyperparameter object agree. -/
def Synced (gps : Fin K → CompGp) (liks : Fin K → LikW) (o : HpsObj (Option ℝ) (ℝ × ℝ)) : Prop :=
  o.hps = List.ofFn (fun k => (gps k).hps) ∧ o.weights = List.ofFn fun k => (liks k).weight

/-- C120: if `train` returns, every component was trained on its own bounds from its own start — the given ones, or the bounds of the
hyperparameter object and the current hyperparameters of the GP — and holds the result of that run; data and noise of the GPs and
moments of the likelihoods are unchanged; the returned hyperparameters, the hyperparameter object, the GPs and the weights agree; and
without `train_weights` the weights are unchanged. -/
theorem C120_train (t : Trainer K) (pred) (bounds init) (a : WeightArgs K) (g g' : Ggmp K) (res) (gps : Fin K → CompGp)
    (liks : Fin K → LikW) (hg : g.gps = .here gps) (hl : g.liks = .here liks)
    (h : g.train t pred bounds init a = (g', .ok res)) :
    ∃ (gps' : Fin K → CompGp) (liks' : Fin K → LikW), g'.gps = .here gps' ∧ g'.liks = .here liks' ∧ g'.stations = g.stations ∧
      res = List.ofFn (fun k => (gps' k).hps) ∧ Synced gps' liks' g'.obj ∧
      (∀ k, (liks' k).mean = (liks k).mean ∧ (liks' k).variance = (liks k).variance) ∧
      (a.trainWeights = false → liks' = liks) ∧
      ∀ k : Fin K, ∃ b s v, (bounds.getD g.obj.hpsBounds)[(k : ℕ)]? = some b ∧ (∀ l, init = some l → l[(k : ℕ)]? = some s) ∧
        (init = none → s = (gps k).hps) ∧ t.opt k b s = .ok v ∧ gps' k = ⟨(gps k).y, (gps k).noise, v⟩ := by
  simp only [Ggmp.train, hg, hl] at h
  split at h
  · cases h
  rename_i hK
  split at h
  · cases h
  rename_i hp
  split at h
  · cases h
  rename_i v hv
  split at h
  · cases h
  rename_i hset
  simp only [Prod.mk.injEq, Except.ok.injEq] at h
  obtain ⟨rfl, rfl⟩ := h
  refine ⟨_, _, rfl, rfl, rfl, rfl, ?_, fun k => ?_, fun ha => ?_, fun k => ?_⟩
  · have key : ∀ (o : HpsObj (Option ℝ) (ℝ × ℝ)) w hps, (o.set w hps).2 = .ok () →
        (o.set w hps).1.hps = hps ∧ (o.set w hps).1.weights = w := by
      intro o w hps ho
      unfold HpsObj.set at ho ⊢
      split_ifs at ho ⊢
      split at ho
      · exact ⟨rfl, rfl⟩
      · cases ho
    exact key _ _ _ hset
  · split_ifs <;> exact ⟨rfl, rfl⟩
  · simp [ha]
  · obtain ⟨h1, h2⟩ := (phase1_ok (List.nodup_finRange K) hp k).1 (List.mem_finRange k)
    obtain ⟨b, s, w, e1, e2, e3, e4, e5⟩ := trainOne_ok h1
    exact ⟨b, s, w, e1, e2, e3, e4, h2.trans e5⟩

/-- C120: training with the density objective cannot fail after a training of all components that returns vectors of the right
lengths: the weights then are positive and sum to one, and the hyperparameter object stays coherent. -/
theorem C120_train_density [NeZero K] (t : Trainer K) (pred) (a : WeightArgs K) (g : Ggmp K) (gps : Fin K → CompGp)
    (liks : Fin K → LikW) (hg : g.gps = .here gps) (hl : g.liks = .here liks) (ho : Coherent g.obj)
    (hw : ∀ k, (liks k).weight ≠ none) (hwl : g.obj.weights.length = K)
    (hh : g.obj.hps.map List.length = List.ofFn fun k => (gps k).hps.length)
    (hopt : ∀ k b h, ∃ v, t.opt k b h = .ok v ∧ v.length = h.length) (hset : ∀ k h, t.setRefuse k h = none)
    (hne : g.stations ≠ []) (hst : ∀ s ∈ g.stations, 2 ≤ s.n ∧ s.n' = s.n) (ha : a.trainWeights = true) (hd : a.method = "density") :
    ∃ (g' : Ggmp K) (res : List (List (Option ℝ))) (liks' : Fin K → LikW) (w : Fin K → ℝ),
      g.train t pred none none a = (g', .ok res) ∧ g'.liks = .here liks' ∧ Coherent g'.obj ∧
      (∀ k, (liks' k).weight = some (w k)) ∧ (∀ k, 0 < w k) ∧ ∑ k, w k = 1 := by
  have hbl : g.obj.hpsBounds.length = K := by
    have h1 := congrArg List.length hh
    simp only [List.length_map, List.length_ofFn] at h1
    rw [← ho.2.2.1, h1]
  have hone : ∀ j ∈ List.finRange K, (trainOne t g.obj none none j (gps j)).2 = .ok () := by
    intro j _
    have hj : (j : ℕ) < g.obj.hpsBounds.length := by rw [hbl]; exact j.2
    obtain ⟨v, hv, -⟩ := hopt j (g.obj.hpsBounds[(j : ℕ)]) (gps j).hps
    simp only [trainOne, Option.getD_none, index, List.getElem?_eq_getElem hj, startOf, hset, hv]
    split_ifs <;> rfl
  have hp := phase1_total (List.nodup_finRange K) hone
  set p := phase1 t g.obj none none (List.finRange K) gps with hpdef
  have hplen : ∀ k, (p.1 k).hps.length = (gps k).hps.length := by
    intro k
    obtain ⟨h1, h2⟩ := (phase1_ok (List.nodup_finRange K) hp k).1 (List.mem_finRange k)
    obtain ⟨b, s, v, -, -, e3, e4, e5⟩ := trainOne_ok h1
    rw [h2, e5]
    obtain ⟨v', hv', hl'⟩ := hopt k b s
    rw [hv'] at e4
    cases e4
    rw [hl', e3 rfl]
  have hrows : ∀ (f : ℕ → ℝ → Fin K → ℝ) (ss : List Station) (i : ℕ), (∀ s ∈ ss, 2 ≤ s.n ∧ s.n' = s.n) →
      ∃ rows, stationRows f i ss = .ok rows := by
    intro f ss
    induction ss with
    | nil => exact fun i _ => ⟨[], rfl⟩
    | cons s ss ih =>
      intro i hs
      obtain ⟨rest, hrest⟩ := ih (i + 1) fun s h => hs s (by simp [h])
      obtain ⟨h2, h3⟩ := hs s (by simp)
      have : ∃ r, normalizePdf s.n s.x s.n' s.d = .ok r := by
        simp only [normalizePdf, h3, ne_eq, not_true_eq_false, if_false, Nat.not_lt.2 h2]
        split_ifs <;> exact ⟨_, rfl⟩
      obtain ⟨r, hr⟩ := this
      exact ⟨(List.range s.n).map (fun j => ⟨r.1 j * r.2 j, f i (s.x j)⟩) ++ rest, by
        simp only [stationRows, bind, Except.bind, hr, hrest]⟩
  obtain ⟨rows, hrows'⟩ := hrows (fun i x k =>
    normLogPdf (pred p.1 k i).1 (√(max (max (pred p.1 k i).2 0 + max ((liks k).variance.getD i 0) (1 / 10 ^ 9)) (1 / 10 ^ 12))) x)
    g.stations 0 hst
  have hprop := C69_station_rows _ 0 g.stations hne rows hrows'
  have hwv : weightVec liks = some fun k => ((liks k).weight).getD 0 := by
    rw [weightVec, if_pos hw]
  obtain ⟨w, -, hem, -, -, hsimp, hpos, -⟩ :=
    C69_em .density a.floor a.tol a.maxIter (some fun k => ((liks k).weight).getD 0) rows hprop
  have hnew : newWeights a pred p.1 liks g.stations = .ok (some w) := by
    have hdr : densityRows pred p.1 liks g.stations = .ok rows := hrows'
    simp only [newWeights, hd, if_true, bind, Except.bind, hdr, hwv, hem]
  let liks' : Fin K → LikW := fun k => { liks k with weight := some (w k) }
  obtain ⟨s1, s2, -⟩ := ho.set (List.ofFn fun k => (liks' k).weight) (List.ofFn fun k => (p.1 k).hps) (by simp [hwl]) (by
    rw [hh, List.map_ofFn]
    congr 1
    funext k
    exact hplen k)
  refine ⟨⟨g.len, g.stations, (g.obj.set (List.ofFn fun k => (liks' k).weight) (List.ofFn fun k => (p.1 k).hps)).1, .here liks',
      .here p.1⟩, List.ofFn fun k => (p.1 k).hps, liks', w, ?_, rfl, s2, fun k => rfl, hpos, hsimp.2⟩
  simp only [Ggmp.train, hg, hl, NeZero.ne K, if_false, ← hpdef, hp, ha, if_true, hnew, Option.map_some]
  simp only [liks'] at s1
  simp only [s1, liks']

/-- C120: a call of `train` that raises before the weights are known leaves the likelihoods and the hyperparameter object as they
were, and the values and noise of the GPs too. -/
theorem C120_train_failure (t : Trainer K) (pred) (bounds init) (a : WeightArgs K) (g g' : Ggmp K) (e : String)
    (h : g.train t pred bounds init a = (g', .error e)) (ho : Coherent g.obj)
    (hh : ∀ gps : Fin K → CompGp, g.gps = .here gps → g.obj.hps.map List.length = List.ofFn fun k => (gps k).hps.length)
    (hopt : ∀ k b h v, t.opt k b h = .ok v → v.length = h.length) (hi : init = none) (hwl : g.obj.weights.length = K) :
    g'.liks = g.liks ∧ g'.obj = g.obj ∧ g'.stations = g.stations ∧
      ∀ gps : Fin K → CompGp, g.gps = .here gps → ∃ gps', g'.gps = .here gps' ∧
        ∀ k, (gps' k).y = (gps k).y ∧ (gps' k).noise = (gps k).noise := by
  subst hi
  unfold Ggmp.train at h
  split at h
  · rename_i hg
    cases h
    exact ⟨rfl, rfl, rfl, fun gps hc => ⟨gps, hc, fun _ => ⟨rfl, rfl⟩⟩⟩
  · split at h <;> cases h <;> exact ⟨rfl, rfl, rfl, fun gps hc => ⟨gps, hc, fun _ => ⟨rfl, rfl⟩⟩⟩
  · rename_i gps liks hg hl
    split at h
    · cases h
      exact ⟨rfl, rfl, rfl, fun gps hc => ⟨gps, hc, fun _ => ⟨rfl, rfl⟩⟩⟩
    simp only at h
    split at h
    · cases h
      refine ⟨rfl, rfl, rfl, fun gps' hc => ?_⟩
      rw [hg] at hc
      cases hc
      exact ⟨_, rfl, phase1_data t g.obj bounds none _ gps⟩
    rename_i hp
    split at h
    · cases h
      refine ⟨rfl, rfl, rfl, fun gps' hc => ?_⟩
      rw [hg] at hc
      cases hc
      exact ⟨_, rfl, phase1_data t g.obj bounds none _ gps⟩
    rename_i v hv
    split at h
    · rename_i hs
      exfalso
      refine absurd hs ?_
      rw [(ho.set _ _ (by simp [hwl]) ?_).1]
      · simp
      · rw [hh gps hg, List.map_ofFn]
        congr 1
        funext k
        obtain ⟨h1, h2⟩ := (phase1_ok (List.nodup_finRange K) hp k).1 (List.mem_finRange k)
        obtain ⟨b, s, w, -, -, e3, e4, e5⟩ := trainOne_ok h1
        simp only [Function.comp]
        rw [h2, e5, hopt k b s w e4, e3 rfl]
    · cases h

/-- But a call that is refused because of its `weight_method` is refused only after all component GPs were trained: the GPs then hold
the new hyperparameters and the hyperparameter object the old ones. -/
theorem C120_train_refused_late_violated (t : Trainer K) (pred) (a : WeightArgs K) (g : Ggmp K) (gps : Fin K → CompGp)
    (liks : Fin K → LikW) (k0 : Fin K) (hg : g.gps = .here gps) (hl : g.liks = .here liks) (hs : Synced gps liks g.obj)
    (hb : K ≤ g.obj.hpsBounds.length) (hopt : ∀ k b h, ∃ v, t.opt k b h = .ok v ∧ v ≠ h) (hset : ∀ k h, t.setRefuse k h = none)
    (ha : a.trainWeights = true) (h1 : a.method ≠ "density") (h2 : a.method ≠ "samples" ∨ a.sampleRows = none) :
    ∃ (g' : Ggmp K) (e : String) (gps' : Fin K → CompGp), g.train t pred none none a = (g', .error e) ∧ g'.gps = .here gps' ∧
      ¬ Synced gps' liks g'.obj := by
  have hK : K ≠ 0 := fun h => by subst h; exact k0.elim0
  have hone : ∀ j ∈ List.finRange K, (trainOne t g.obj none none j (gps j)).2 = .ok () := by
    intro j _
    have hj : (j : ℕ) < g.obj.hpsBounds.length := lt_of_lt_of_le j.2 hb
    obtain ⟨v, hv, -⟩ := hopt j (g.obj.hpsBounds[(j : ℕ)]) (gps j).hps
    simp only [trainOne, Option.getD_none, index, List.getElem?_eq_getElem hj, startOf, hset, hv]
    split_ifs <;> rfl
  have hp := phase1_total (List.nodup_finRange K) hone
  have hn : ∃ e, newWeights a pred (phase1 t g.obj none none (List.finRange K) gps).1 liks g.stations = .error e := by
    unfold newWeights
    rw [if_neg h1]
    split_ifs with h3
    · rw [h2.resolve_left (fun h => h h3)]
      exact ⟨_, rfl⟩
    · exact ⟨_, rfl⟩
  obtain ⟨e, he⟩ := hn
  refine ⟨{ g with gps := .here (phase1 t g.obj none none (List.finRange K) gps).1 }, e, _, ?_, rfl, fun hc => ?_⟩
  · simp only [Ggmp.train, hg, hl, hK, if_false, hp, ha, if_true, he]
  · have e1 := hc.1.symm.trans hs.1
    have e2 := congrFun (List.ofFn_injective e1) k0
    obtain ⟨h4, h5⟩ := (phase1_ok (List.nodup_finRange K) hp k0).1 (List.mem_finRange k0)
    obtain ⟨b, s, v, -, -, e6, e7, e8⟩ := trainOne_ok h4
    rw [h5, e8] at e2
    obtain ⟨v', hv', hne⟩ := hopt k0 b s
    rw [hv'] at e7
    cases e7
    exact hne (e2.trans (e6 rfl).symm)

/-- Specification: hyperparameters within bounds. -/
def Within (h : List (Option ℝ)) (b : List (ℝ × ℝ)) : Prop := List.Forall₂ (fun x r => ∃ v, x = some v ∧ r.1 ≤ v ∧ v ≤ r.2) h b

theorem forall₂_last {α β : Type} {R : α → β → Prop} {l : List α} {m : List β} (h : List.Forall₂ R l m) (a : α) (b : β)
    (ha : l.getLast? = some a) (hb : m.getLast? = some b) : R a b := by
  rw [← List.head?_reverse] at ha hb
  have hr := List.rel_reverse h
  cases hl : l.reverse with
  | nil => simp [hl] at ha
  | cons x xs =>
    cases hm : m.reverse with
    | nil => simp [hm] at hb
    | cons y ys =>
      rw [hl, hm] at hr
      simp only [hl, List.head?_cons, Option.some.injEq] at ha
      simp only [hm, List.head?_cons, Option.some.injEq] at hb
      subst ha hb
      exact (List.forall₂_cons.1 hr).1

/-- `initGPs` replaces the last hyperparameter by the average of the values whatever its bounds: if that average is not within the last
bounds of a component, `train` with the default start raises, because training refuses a start outside the bounds (C48) — also when
the hyperparameters given by the user are within the bounds. -/
theorem C120_start_outside_bounds_violated [NeZero K] (t : Trainer K) (ht : ∀ k b h, ¬ Within h b → ∃ e, t.opt k b h = .error e) (pred)
    (a : WeightArgs K) (g : Ggmp K) (gps : Fin K → CompGp) (liks : Fin K → LikW) (hg : g.gps = .here gps) (hl : g.liks = .here liks)
    (k : Fin K) (b : List (ℝ × ℝ)) (hb : g.obj.hpsBounds[(k : ℕ)]? = some b) (h : List (Option ℝ)) (hbf : BuiltFrom (liks k) h (gps k))
    (lo hi : ℝ) (hlast : b.getLast? = some (lo, hi))
    (hout : (liks k).mean.sum / (liks k).mean.length < lo ∨ hi < (liks k).mean.sum / (liks k).mean.length) :
    ∃ g' e, g.train t pred none none a = (g', .error e) := by
  have hw : ¬ Within (gps k).hps b := by
    intro hw
    obtain ⟨v, hv, h1, h2⟩ := forall₂_last hw _ _ hbf.2.2.2.2 hlast
    cases hv
    rcases hout with h3 | h3
    · exact absurd h1 (not_le.2 h3)
    · exact absurd h2 (not_le.2 h3)
  by_contra hc
  rcases hr : g.train t pred none none a with ⟨g', r⟩
  cases r with
  | error e => exact hc ⟨g', e, hr⟩
  | ok res =>
    obtain ⟨gps', liks', -, -, -, -, -, -, -, hall⟩ := C120_train t pred none none a g g' res gps liks hg hl hr
    obtain ⟨b', s, v, e1, -, e3, e4, -⟩ := hall k
    simp only [Option.getD_none] at e1
    rw [hb] at e1
    cases e1
    rw [e3 rfl] at e4
    obtain ⟨e, he⟩ := ht k b _ hw
    rw [he] at e4
    cases e4

/-- A hyperparameter object with one set, within its bounds. -/
noncomputable def exampleObj : HpsObj (Option ℝ) (ℝ × ℝ) :=
  ⟨[some 1], [[some 1, some 0]], [(0, 1)], [[(0, 2), (-1, 1)]], 1, [2], [some 1, some 1, some 0], [(0, 1), (0, 2), (-1, 1)]⟩

example : Coherent exampleObj ∧ Within [some 1, some 0] [(0, 2), (-1, 1)] := by
  refine ⟨⟨rfl, rfl, rfl, rfl, rfl⟩, ?_⟩
  refine List.Forall₂.cons ⟨1, rfl, by norm_num, by norm_num⟩ (List.Forall₂.cons ⟨0, rfl, by norm_num, by norm_num⟩ List.Forall₂.nil)

/-- Both steps on an object: `initGPs` succeeds, and the training that follows raises because the average 5 is outside `[-1, 1]`. -/
example (t : Trainer 1) (ht : ∀ k b h, ¬ Within h b → ∃ e, t.opt k b h = .error e) (pred) (a : WeightArgs 1) :
    ∃ g' : Ggmp 1, Ggmp.initGPs (fun _ _ _ => none)
      (⟨2, [], exampleObj, .here fun _ => ⟨[4, 6], [1, 1], some 1⟩, .absent⟩ : Ggmp 1) = (g', .ok ()) ∧
      ∃ g'' e, g'.train t pred none none a = (g'', .error e) := by
  obtain ⟨g', gps, h1, h2, h3, -, -, -, h6, h7, -⟩ := C120_init_gps (fun _ _ _ => none)
    (⟨2, [], exampleObj, .here fun _ => ⟨[4, 6], [1, 1], some 1⟩, .absent⟩ : Ggmp 1) (fun _ => ⟨[4, 6], [1, 1], some 1⟩) rfl
    ⟨rfl, rfl, rfl, rfl, rfl⟩ rfl (by simp [exampleObj]) (by simp) (fun _ _ _ => rfl)
  refine ⟨g', h1, ?_⟩
  obtain ⟨h, -, hb, -⟩ := h7 0
  refine C120_start_outside_bounds_violated t ht pred a g' gps _ h2 h3 0 [(0, 2), (-1, 1)] ?_ h hb (-1) 1 rfl (Or.inr ?_)
  · rw [h6]; rfl
  · norm_num

end Verif.Ggmp
