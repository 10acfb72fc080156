import Verif.Train.TrainModel
import Verif.State.UpdateProps
import Verif.GP.LikProps

/-!
C44 (guarded training), C48 (start vectors), C49 (bounds, Adam), C50 (asynchronous results) and C51 (Adam).
-/

namespace Verif.Train

open Verif.GP Verif.State Verif.LinAlg Finset

variable {α H : Type}

/-! ## C44 -/

theorem good_loglik {c : Config α H} {eu : Bool} {s : Spec α H} {o : Obj α H} (g : Good c eu s o)
    (hmode : c.mode ≠ .sparseSolve) (hcols : 1 ≤ s.data.cols) :
    logLikelihood o.toGP = specLogLik c s.data s.hps := by
  have h1 : o.toGP.cfg = c := g.cfg
  have h2 : o.toGP.data = s.data := g.data
  have h3 : o.toGP.hps = s.hps := g.hps
  have := consistent_loglik g.con (by rw [h1, h2, h3]; exact g.adm.posDef) (by rw [h1]; exact hmode)
    (by rw [h2]; exact g.len) (by rw [h2]; exact hcols)
  rw [this, h1, h2, h3]

/-- The tolerance of the guard as documented: three standard deviations of the difference of two estimates, zero when
the likelihood is exact. -/
noncomputable def guardTolerance : Option ℝ → ℝ
  | none => 0
  | some v => 3 * Real.sqrt (2 * v)

theorem rejectIfNotImproved_eq (o : Obj α H) (variance : Option ℝ) (h incumbent : H) (ll : ℝ) :
    rejectIfNotImproved o variance h incumbent ll =
      if logLikelihood o.toGP ≥ ll - guardTolerance variance then (o, .ok h)
      else match setHyperparameters o incumbent with
        | (o', .ok ()) => (o', .ok incumbent)
        | (o', .error e) => (o', .error e) := by
  cases variance <;> rfl

/-- C44, factorisable results: guarded training never raises on a vector for which the model is defined, never lowers
the log likelihood (log density of the data) by more than the tolerance, puts the returned vector in force, and when it
rejects the vector every observable is as before; it rejects exactly the vectors that are worse by more than the
tolerance. -/
theorem C44_never_worse_partial (c : Config α H) (he : SpluContract c.ext) (eu : Bool) (s : Spec α H) (o : Obj α H)
    (g : Good c eu s o) (hmode : c.mode ≠ .sparseSolve) (hcols : 1 ≤ s.data.cols) (variance : Option ℝ) (h : H)
    (ha : Admissible c s.data h) :
    ∃ o' h', trainSync o true variance (.ok h) = (o', .ok h') ∧ o'.hps = h' ∧
      logLikelihood o'.toGP = specLogLik c s.data h' ∧
      logLikelihood o.toGP - guardTolerance variance ≤ logLikelihood o'.toGP ∧
      (specLogLik c s.data s.hps - guardTolerance variance ≤ specLogLik c s.data h → h' = h) ∧
      (specLogLik c s.data h < specLogLik c s.data s.hps - guardTolerance variance → h' = s.hps ∧ Same o' o) := by
  obtain ⟨o1, h1, g1⟩ := setHyperparameters_good c he eu s o g h ha
  have l0 := good_loglik g hmode hcols
  have l1 := good_loglik g1 hmode hcols
  obtain ⟨o2, h2, g2⟩ := setHyperparameters_good c he eu _ o1 g1 s.hps g.adm
  have l2 := good_loglik g2 hmode hcols
  simp only at l1 l2
  by_cases hge : logLikelihood o1.toGP ≥ logLikelihood o.toGP - guardTolerance variance
  · refine ⟨o1, h, ?_, g1.hps, l1, hge, fun _ => rfl, fun hlt => ?_⟩
    · simp only [trainSync, h1, if_true, rejectIfNotImproved_eq, if_pos hge]
    · rw [l0, l1] at hge; exact absurd hge (not_le.2 hlt)
  · have htl : 0 ≤ guardTolerance variance := by
      cases variance with
      | none => exact le_refl _
      | some v => simp only [guardTolerance]; positivity
    refine ⟨o2, s.hps, ?_, g2.hps, l2, ?_, fun hle => ?_, fun _ => ⟨rfl, ?_⟩⟩
    · have hh : o.hps = s.hps := g.hps
      simp only [trainSync, h1, if_true, rejectIfNotImproved_eq, if_neg hge, hh, h2]
    · rw [l2, l0]; linarith
    · rw [l0, l1] at hge; exact absurd hle hge
    · exact good_same g2 g

/-- C44: an optimizer that raises leaves the object untouched and the exception reaches the caller. -/
theorem C44_optimizer_raises (o : Obj α H) (isGuarded : Bool) (variance : Option ℝ) (e : String) :
    trainSync o isGuarded variance (.error e) = (o, .error e) := rfl

/-- C44: which calls are guarded. -/
theorem C44_guarded_iff (accept async user : Bool) (m : Method) :
    guarded accept async user m = true ↔
      accept = true ∧ async = false ∧ user = false ∧ m ≠ .global ∧ m ≠ .mcmc ∧ m ≠ .bo := by
  cases accept <;> cases async <;> cases user <;> cases m <;> decide

/-- C44 is violated when the optimizer hands back a vector whose covariance matrix cannot be factorised: `train` raises
and does not roll back; the object keeps the new hyperparameters, whose prior and noise are in force, with the
factorisation (hence the likelihood and predictions) of the old ones. -/
theorem C44_unfactorisable_violated :
    ∃ o o' e, build dCfg dData true 1 1 = .ok o ∧ trainSync o true none (.ok (-5)) = (o', .error e) ∧
      o.hps = 1 ∧ o'.hps = -5 ∧ o.K 0 0 = 1 ∧ o'.K 0 0 = -5 ∧ o'.kv.factor = o.kv.factor := by
  have hs1 : (dData.yAbsMean / 100) ^ 2 = 1 := by norm_num [Data.yAbsMean, dData]
  have a1 := dAdm dData 1 hs1 (by simp [dData])
  obtain ⟨o, ho, g⟩ := build_good dCfg cholExt_contract true ⟨dData, 1, 1⟩ rfl a1
  have hK0 : o.K 0 0 = 1 := by
    have := g.con.K_eq
    have hd : o.toGP.data = dData := g.data
    have hc : o.toGP.cfg = dCfg := g.cfg
    have hh : o.toGP.hps = 1 := g.hps
    rw [hd, hc, hh] at this
    have e := congrFun (congrFun this (0 : Fin 1)) (0 : Fin 1)
    refine Eq.trans e ?_
    exact if_pos (c := dData.x[0] = dData.x[0]) (e := 0) rfl
  have hmo := g.con.mode_eq
  simp only [Obj.toGP] at hmo
  rw [g.cfg] at hmo
  obtain ⟨n, F, hF⟩ : ∃ n F, o.kv.factor = .chol n F := by
    cases hfac : o.kv.factor with
    | chol n F => exact ⟨n, F, rfl⟩
    | cholInv n F I => rw [hfac] at hmo; simp [Factor.mode, dCfg] at hmo
    | inv n F I => rw [hfac] at hmo; simp [Factor.mode, dCfg] at hmo
    | lu n F => rw [hfac] at hmo; simp [Factor.mode, dCfg] at hmo
    | raw n F => rw [hfac] at hmo; simp [Factor.mode, dCfg] at hmo
  set p := updateNoise (recomputePrior { o with hps := (-5 : ℝ) }) with hp
  have pk : p.kSize = 1 := by
    simp only [hp, updateNoise, recomputePrior, g.data]; rfl
  have pc : p.cfg = dCfg := g.cfg
  have pK : p.K 0 0 = -5 := by
    simp [hp, updateNoise, recomputePrior, g.data, g.cfg, dCfg, dData, gram]
  have pV : p.V = calcV dCfg dData (-5) dData.x := by
    simp only [hp, updateNoise, recomputePrior, g.data, g.cfg]
  have pf : p.kv = o.kv := rfl
  have hfit : (calcV dCfg dData (-5) dData.x).Fits 1 dCfg.sparseK := by
    simp [calcV, dCfg, dData, Noise.Fits]
  obtain ⟨KV, hKV, hmat⟩ := addKV_ok hfit p.K
  have hent : KV 0 0 = -4 := by
    have e1 := congrFun (congrFun hmat 0) 0
    refine Eq.trans e1 ?_
    rw [Matrix.add_apply]
    have e3 : (calcV dCfg dData (-5) dData.x).mat 1 0 0 = 1 := by
      simp [calcV, dCfg, Noise.mat, hs1]
    rw [e3]
    have : toMat 1 p.K 0 0 = -5 := pK
    rw [this]; norm_num
  have hset : setKV dCfg.ext dCfg.mode 1 KV = .error "NonPositiveDefiniteError" := by
    simp only [setKV, dCfg, cholFactor, updateChol, rankN, bind, Except.bind, rank1]
    rw [if_pos]
    simp only [Nat.add_zero, Nat.zero_add, hent]
    simp
  have hsh : setHyperparameters o (-5) = ({ p with kv := { p.kv with factor := .chol n F } }, .error "NonPositiveDefiniteError") := by
    show refresh p false = _
    unfold refresh
    rw [pc, pk, pV, hKV]
    simp only [Bool.false_eq_true, if_false, hset]
    rw [pf, hF]
    rfl
  refine ⟨o, { p with kv := { p.kv with factor := .chol n F } }, "NonPositiveDefiniteError", ho, ?_, g.hps, rfl, hK0, pK, hF.symm⟩
  simp only [trainSync, hsh]

/-- The hypotheses are met: two-point data set, any direct mode, any trained value. -/
example (mode : Mode) (hm : mode ≠ .sparseSolve) (h : ℝ) : ∃ o o' h', build (exCfg mode) exData true 1 2 = .ok o ∧
    trainSync o true none (.ok h) = (o', .ok h') ∧ logLikelihood o.toGP ≤ logLikelihood o'.toGP := by
  obtain ⟨o, hb, g⟩ := build_good (exCfg mode) cholExt_contract true ⟨exData, 1, 2⟩ rfl (exAdmissible mode 2)
  obtain ⟨o', h', h1, -, -, h2, -⟩ := C44_never_worse_partial (exCfg mode) cholExt_contract true _ o g hm
    (by simp [exData]) none h (exAdmissible mode h)
  exact ⟨o, o', h', hb, h1, by simpa [guardTolerance] using h2⟩

/-! ## C48 -/

/-- A vector inside the bounds: one coordinate per row, each between the row's entries. -/
def InBox (v : List ℝ) (bounds : Bounds) : Prop := List.Forall₂ (fun x b => b.1 ≤ x ∧ x ≤ b.2) v bounds

theorem outOfBounds_false {v : List ℝ} {bounds : Bounds} (hl : v.length = bounds.length) :
    outOfBounds v bounds = .ok false ↔ InBox v bounds := by
  induction v generalizing bounds with
  | nil => cases bounds with
    | nil => simp [outOfBounds, InBox]
    | cons b bs => simp at hl
  | cons x xs ih => cases bounds with
    | nil => simp at hl
    | cons b bs =>
      have := ih (bounds := bs) (by simpa using hl)
      simp only [outOfBounds, InBox, List.forall₂_cons]
      by_cases h : x < b.1 ∨ x > b.2
      · rw [if_pos h]
        constructor
        · intro e; simp at e
        · rintro ⟨h1, -⟩; rcases h with h | h <;> linarith
      · rw [if_neg h, this]
        push Not at h
        exact ⟨fun e => ⟨h, e⟩, fun e => e.2⟩

theorem outOfBounds_total {v : List ℝ} {bounds : Bounds} (hl : v.length ≤ bounds.length) :
    ∃ b, outOfBounds v bounds = .ok b := by
  induction v generalizing bounds with
  | nil => exact ⟨false, by simp [outOfBounds]⟩
  | cons x xs ih => cases bounds with
    | nil => simp at hl
    | cons b bs =>
      obtain ⟨r, hr⟩ := ih (bounds := bs) (by simpa using hl)
      by_cases h : x < b.1 ∨ x > b.2
      · exact ⟨true, by simp only [outOfBounds, if_pos h]⟩
      · exact ⟨r, by simp only [outOfBounds, if_neg h, hr]⟩

theorem inBounds_iff {v : List ℝ} {bounds : Bounds} (hl : v.length = bounds.length) :
    (InBox v bounds → inBounds v bounds = .ok true) ∧ (¬ InBox v bounds → inBounds v bounds = .ok false) := by
  have key : (∀ p ∈ v.zip bounds, ¬ (p.1 < p.2.1 ∨ p.1 > p.2.2)) ↔ InBox v bounds := by
    rw [InBox, List.forall₂_iff_zip]
    constructor
    · intro h
      refine ⟨hl, fun {a b} hab => ?_⟩
      have := h (a, b) hab
      push Not at this
      exact this
    · intro h p hp
      have := h.2 (show (p.1, p.2) ∈ _ from hp)
      push Not
      exact this
  rw [inBounds, if_pos hl]
  exact ⟨fun h => by rw [decide_eq_true (key.2 h)], fun h => by rw [decide_eq_false (fun e => h (key.1 e))]⟩

/-- C48: the trainer raises when the start violates a bound and passes it on unchanged otherwise. -/
theorem C48_trainer_raises (bounds : Bounds) (start : List ℝ) (hl : start.length = bounds.length) :
    (InBox start bounds → checkStart bounds start = .ok start) ∧
    (¬ InBox start bounds → ∃ e, checkStart bounds start = .error e) := by
  constructor
  · intro h
    simp only [checkStart, (inBounds_iff hl).1 h, bind, Except.bind, if_true]
  · intro h
    exact ⟨"Exception: Starting positions outside of optimization bounds.", by
      simp only [checkStart, (inBounds_iff hl).2 h, bind, Except.bind, Bool.false_eq_true, if_false]⟩

/-- C48: a `train` call given (or holding) a vector of the right length never raises on the start: the optimizer gets
that vector if it is inside the bounds and a draw from the bounds otherwise (a vector outside is replaced with a
warning, not rejected). -/
theorem C48_start_used (bounds : Bounds) (init : Option (List ℝ)) (current draw : List ℝ)
    (hl : (init.getD current).length = bounds.length) (hd : InBox draw bounds) :
    (InBox (init.getD current) bounds → trainStart bounds init current draw = .ok (init.getD current)) ∧
    (¬ InBox (init.getD current) bounds → trainStart bounds init current draw = .ok draw) := by
  have hch : chooseStart bounds init current draw
      = (do if (← outOfBounds (init.getD current) bounds) then .ok draw else .ok (init.getD current)) := by
    cases init <;> rfl
  obtain ⟨r, hr⟩ := outOfBounds_total (le_of_eq hl)
  have hiff := outOfBounds_false hl
  rw [hr] at hiff
  simp only [trainStart, hch, hr, bind, Except.bind]
  constructor
  · intro h
    have : r = false := by have := hiff.2 h; simpa using this
    subst this
    simpa using (C48_trainer_raises bounds _ hl).1 h
  · intro h
    have : r = true := by
      cases r with
      | false => exact absurd (hiff.1 rfl) h
      | true => rfl
    subst this
    simpa using (C48_trainer_raises bounds _ hd.length_eq).1 hd

/-- C48: whatever is supplied, a start that reaches the optimizer is inside the bounds, except that a one-element
vector is accepted for any number of rows (and an empty one for one row). -/
theorem C48_start_in_bounds_partial (bounds : Bounds) (init : Option (List ℝ)) (current draw s : List ℝ)
    (h : trainStart bounds init current draw = .ok s) :
    InBox s bounds ∨ (s.length = 1 ∧ bounds.length ≠ 1 ∧ ∀ x ∈ s, ∀ b ∈ bounds, b.1 ≤ x ∧ x ≤ b.2) ∨
      (s.length ≠ 1 ∧ bounds.length = 1 ∧ ∀ x ∈ s, ∀ b ∈ bounds, b.1 ≤ x ∧ x ≤ b.2) := by
  have h' : ∃ v, checkStart bounds v = .ok s := by
    simp only [trainStart, bind, Except.bind] at h
    cases hc : chooseStart bounds init current draw with
    | error e => rw [hc] at h; simp at h
    | ok v => rw [hc] at h; exact ⟨v, h⟩
  obtain ⟨v, hv⟩ := h'
  by_cases hl : v.length = bounds.length
  · by_cases hw : InBox v bounds
    · rw [(C48_trainer_raises bounds v hl).1 hw] at hv
      cases hv; exact .inl hw
    · obtain ⟨e, he⟩ := (C48_trainer_raises bounds v hl).2 hw
      rw [he] at hv; simp at hv
  · right
    simp only [checkStart, inBounds, if_neg hl, bind, Except.bind] at hv
    have key : ∀ (hh : ∀ x ∈ v, ∀ b ∈ bounds, ¬ (x < b.1 ∨ x > b.2)), ∀ x ∈ v, ∀ b ∈ bounds, b.1 ≤ x ∧ x ≤ b.2 := by
      intro hh x hx b hb
      have := hh x hx b hb
      push Not at this
      exact this
    by_cases h1 : v.length = 1
    · rw [if_pos h1] at hv
      by_cases hh : ∀ x ∈ v, ∀ b ∈ bounds, ¬ (x < b.1 ∨ x > b.2)
      · simp only [decide_eq_true hh, if_true] at hv
        cases hv
        exact .inl ⟨h1, fun e => hl (h1.trans e.symm), key hh⟩
      · simp only [decide_eq_false hh] at hv; simp at hv
    · rw [if_neg h1] at hv
      by_cases h2 : bounds.length = 1
      · rw [if_pos h2] at hv
        by_cases hh : ∀ x ∈ v, ∀ b ∈ bounds, ¬ (x < b.1 ∨ x > b.2)
        · simp only [decide_eq_true hh, if_true] at hv
          cases hv
          exact .inr ⟨h1, h2, key hh⟩
        · simp only [decide_eq_false hh] at hv; simp at hv
      · rw [if_neg h2] at hv; simp at hv

/-- C48 is violated for a start of the wrong length: one number is accepted as the start for two hyperparameters. -/
theorem C48_length_violated (current draw : List ℝ) :
    trainStart [(0, 1), (0, 1)] (some [1 / 2]) current draw = .ok [1 / 2] ∧ ¬ InBox [1 / 2] [(0, 1), (0, 1)] := by
  constructor
  · have e1 : outOfBounds [1 / 2] [(0, 1), (0, 1)] = .ok false := by
      norm_num [outOfBounds]
    have e2 : inBounds [1 / 2] [((0 : ℝ), (1 : ℝ)), (0, 1)] = .ok true := by
      norm_num [inBounds]
    simp only [trainStart, chooseStart, e1, bind, Except.bind, checkStart, e2, if_true, Bool.false_eq_true, if_false]
  · intro h; have := h.length_eq; simp at this

example : trainStart [(0, 1), (2, 3)] none [5, 2] [1 / 2, 5 / 2] = .ok [1 / 2, 5 / 2] :=
  (C48_start_used [(0, 1), (2, 3)] none [5, 2] [1 / 2, 5 / 2] rfl (by norm_num [InBox])).2 (by norm_num [InBox])

/-! ## C50 -/

/-- The answer carries a hyperparameter vector: the best of a non-empty list of optima (HGDL), the posterior median of
an MCMC report, or the position of an Adam/BO report. -/
inductive Carries : Answer → List ℝ → Prop
  | optima (r : Report) (rest : List Report) (v : List ℝ) : r.x = some (.vector v) → Carries (.list (r :: rest)) v
  | median (d : Report) (v : List ℝ) : d.size ≠ 0 → d.medianX = some (.vector v) → Carries (.dict d) v
  | position (d : Report) (v : List ℝ) : d.size ≠ 0 → d.medianX = none → d.x = some (.vector v) → Carries (.dict d) v

/-- The optimizer cannot be reached or has reported nothing. -/
inductive NothingYet : Answer → Prop
  | unreachable : NothingYet .raises
  | noOptima : NothingYet (.list [])
  | emptyReport (d : Report) : d.size = 0 → NothingYet (.dict d)
  | empty : NothingYet (.sized true)

theorem asVector_ok {e : Entry} {v : List ℝ} : asVector e = .ok v ↔ e = .vector v := by
  cases e <;> simp [asVector]

/-- C50. -/
theorem C50_only_genuine_results (current : List ℝ) (a : Answer) (v : List ℝ) :
    pullHyperparameters current a = .ok v ↔ Carries a v ∨ (NothingYet a ∧ v = current) := by
  constructor
  · intro h
    cases a with
    | raises => simp only [pullHyperparameters, Except.ok.injEq] at h; exact .inr ⟨.unreachable, h.symm⟩
    | list l => cases l with
      | nil => simp only [pullHyperparameters, Except.ok.injEq] at h; exact .inr ⟨.noOptima, h.symm⟩
      | cons r rest =>
        simp only [pullHyperparameters] at h
        cases hx : r.x with
        | none => rw [hx] at h; simp at h
        | some e => rw [hx] at h; exact .inl (.optima r rest v (by rw [hx, asVector_ok.1 h]))
    | dict d =>
      simp only [pullHyperparameters] at h
      by_cases hs : d.size = 0
      · rw [if_pos hs] at h
        simp only [Except.ok.injEq] at h
        exact .inr ⟨.emptyReport d hs, h.symm⟩
      · rw [if_neg hs] at h
        cases hm : d.medianX with
        | some e => rw [hm] at h; exact .inl (.median d v hs (by rw [hm, asVector_ok.1 h]))
        | none =>
          rw [hm] at h
          cases hx : d.x with
          | none => rw [hx] at h; simp at h
          | some e => rw [hx] at h; exact .inl (.position d v hs hm (by rw [hx, asVector_ok.1 h]))
    | sized b => cases b with
      | true => simp only [pullHyperparameters, Except.ok.injEq] at h; exact .inr ⟨.empty, h.symm⟩
      | false => simp [pullHyperparameters] at h
    | unsized => simp [pullHyperparameters] at h
  · rintro (h | ⟨h, rfl⟩)
    · cases h with
      | optima r rest v hx => simp [pullHyperparameters, hx, asVector]
      | median d v hs hm => simp [pullHyperparameters, hs, hm, asVector]
      | position d v hs hm hx => simp [pullHyperparameters, hs, hm, hx, asVector]
    · cases h with
      | unreachable => rfl
      | noOptima => rfl
      | emptyReport d hs => simp [pullHyperparameters, hs]
      | empty => rfl

/-- C50: an answer carries at most one vector, so what is adopted is determined. -/
theorem C50_unambiguous (a : Answer) (v w : List ℝ) (hv : Carries a v) (hw : Carries a w) : v = w := by
  have h1 := (C50_only_genuine_results [] a v).2 (.inl hv)
  have h2 := (C50_only_genuine_results [] a w).2 (.inl hw)
  rw [h1] at h2; simpa using h2

/-- An MCMC report carries the median although `"x"` (the whole trace) is present too. -/
example : pullHyperparameters [0] (.dict ⟨9, some .other, some (.vector [3, 4])⟩) = .ok [3, 4] :=
  (C50_only_genuine_results _ _ _).2 (.inl (.median _ _ (by decide) rfl))

/-! ## C51 -/

section adam

variable {d : ℕ}

/-- The `k`-th element of a path. -/
def nth (path : List (Fin d → ℝ)) (k : ℕ) : Fin d → ℝ := path.getD k fun _ => 0

/-- The Adam step at iteration `k` (counted from 0), in closed form: bias-corrected exponentially weighted averages of
the gradients, and of their squares, along the path. -/
noncomputable def adamStep (c : AdamCfg) (g : (Fin d → ℝ) → Fin d → ℝ) (path : List (Fin d → ℝ)) (k : ℕ) (i : Fin d) : ℝ :=
  let avg (β : ℝ) (q : ℕ → ℝ) := (1 - β) * (∑ s ∈ range (k + 1), β ^ (k - s) * q s) / (1 - β ^ (k + 1))
  c.lr * avg c.beta1 (fun s => g (nth path s) i) / (Real.sqrt (avg c.beta2 fun s => g (nth path s) i ^ 2) + c.eps)

theorem nth_append_left {p q : List (Fin d → ℝ)} {k : ℕ} (h : k < p.length) : nth (p ++ q) k = nth p k := by
  simp only [nth, List.getD_eq_getElem?_getD, List.getElem?_append_left h]

theorem nth_append_last {p : List (Fin d → ℝ)} {a : Fin d → ℝ} : nth (p ++ [a]) p.length = a := by
  simp [nth]

theorem adamStep_congr (c : AdamCfg) (g : (Fin d → ℝ) → Fin d → ℝ) (p q : List (Fin d → ℝ)) (k : ℕ)
    (h : ∀ s ≤ k, nth p s = nth q s) : adamStep c g p k = adamStep c g q k := by
  funext i
  have e1 : ∑ s ∈ range (k + 1), c.beta1 ^ (k - s) * g (nth p s) i
      = ∑ s ∈ range (k + 1), c.beta1 ^ (k - s) * g (nth q s) i :=
    sum_congr rfl fun s hs => by rw [h s (Nat.lt_succ_iff.1 (mem_range.1 hs))]
  have e2 : ∑ s ∈ range (k + 1), c.beta2 ^ (k - s) * g (nth p s) i ^ 2
      = ∑ s ∈ range (k + 1), c.beta2 ^ (k - s) * g (nth q s) i ^ 2 :=
    sum_congr rfl fun s hs => by rw [h s (Nat.lt_succ_iff.1 (mem_range.1 hs))]
  simp only [adamStep, e1, e2]

/-- One more term of an exponentially weighted sum. -/
theorem weighted_succ (β : ℝ) (q : ℕ → ℝ) (n : ℕ) :
    β * (∑ s ∈ range n, β ^ (n - 1 - s) * q s) + q n = ∑ s ∈ range (n + 1), β ^ (n - s) * q s := by
  rw [sum_range_succ, Nat.sub_self, pow_zero, one_mul, mul_sum]
  congr 1
  refine sum_congr rfl fun s hs => ?_
  have : s < n := mem_range.1 hs
  rw [← mul_assoc, ← pow_succ', show n - 1 - s + 1 = n - s by omega]

/-- What holds of a run after its first `L` iterations; `path` is the recorded history followed by the present vector. -/
structure AdamRun (c : AdamCfg) (f : (Fin d → ℝ) → ℝ) (g : (Fin d → ℝ) → Fin d → ℝ) (start final : Fin d → ℝ)
    (hist : AdamHist d) : Prop where
  nlmlLen : hist.nlml.length = hist.theta.length
  gradLen : hist.gradNorm.length = hist.theta.length
  nlml : ∀ k < hist.theta.length, hist.nlml.getD k 0 = f (nth hist.theta k)
  grad : ∀ k < hist.theta.length, hist.gradNorm.getD k 0 = norm2 (g (nth hist.theta k))
  first : nth (hist.theta ++ [final]) 0 = start
  steps : ∀ k < hist.theta.length, nth (hist.theta ++ [final]) (k + 1)
    = fun i => nth (hist.theta ++ [final]) k i - adamStep c g hist.theta k i

theorem adamLoop_spec (c : AdamCfg) (f : (Fin d → ℝ) → ℝ) (g : (Fin d → ℝ) → Fin d → ℝ) (stop : ℕ → Bool)
    (start : Fin d → ℝ) : ∀ (fuel : ℕ) (theta m v : Fin d → ℝ) (hist : AdamHist d),
    AdamRun c f g start theta hist →
    (∀ k < hist.theta.length, ¬ (norm2 (adamStep c g hist.theta k) < c.tol ∨ stop (k + 1) = true)) →
    (∀ i, m i = (1 - c.beta1) * ∑ s ∈ range hist.theta.length, c.beta1 ^ (hist.theta.length - 1 - s) * g (nth hist.theta s) i) →
    (∀ i, v i = (1 - c.beta2) * ∑ s ∈ range hist.theta.length, c.beta2 ^ (hist.theta.length - 1 - s) * g (nth hist.theta s) i ^ 2) →
    ∃ theta' hist', adamLoop c f g stop fuel (hist.theta.length + 1) theta m v hist = (theta', hist') ∧
      AdamRun c f g start theta' hist' ∧ hist.theta.length ≤ hist'.theta.length ∧
      hist'.theta.length ≤ hist.theta.length + fuel ∧ (1 ≤ fuel → hist.theta.length < hist'.theta.length) ∧
      (∀ k, k + 1 < hist'.theta.length → ¬ (norm2 (adamStep c g hist'.theta k) < c.tol ∨ stop (k + 1) = true)) ∧
      (hist'.theta.length < hist.theta.length + fuel → 1 ≤ hist'.theta.length ∧
        (norm2 (adamStep c g hist'.theta (hist'.theta.length - 1)) < c.tol ∨ stop hist'.theta.length = true)) := by
  intro fuel
  induction fuel with
  | zero =>
    intro theta m v hist hr hs _ _
    exact ⟨theta, hist, rfl, hr, le_refl _, le_refl _, by simp, fun k hk => hs k (by omega), by simp⟩
  | succ fuel ih =>
    intro theta m v hist hr hs hm hv
    set n := hist.theta.length with hn
    set gr := g theta with hgr
    set m' : Fin d → ℝ := fun i => c.beta1 * m i + (1 - c.beta1) * gr i with hm'
    set v' : Fin d → ℝ := fun i => c.beta2 * v i + (1 - c.beta2) * gr i ^ 2 with hv'
    set step : Fin d → ℝ := fun i => c.lr * (m' i / (1 - c.beta1 ^ (n + 1)))
      / (Real.sqrt (v' i / (1 - c.beta2 ^ (n + 1))) + c.eps) with hstep
    set new : Fin d → ℝ := fun i => theta i - step i with hnew
    set hist' : AdamHist d := ⟨hist.theta ++ [theta], hist.nlml ++ [f theta], hist.gradNorm ++ [norm2 gr]⟩ with hh'
    have hlen : hist'.theta.length = n + 1 := by simp [hh', hn]
    have hlast : nth hist'.theta n = theta := nth_append_last
    have hold : ∀ k < n, nth hist'.theta k = nth hist.theta k := fun k hk => nth_append_left hk
    have hm2 : ∀ i, m' i = (1 - c.beta1) * ∑ s ∈ range (n + 1), c.beta1 ^ (n - s) * g (nth hist'.theta s) i := by
      intro i
      rw [← weighted_succ, hlast, hm', mul_add]
      simp only [hm i]
      rw [show (∑ s ∈ range n, c.beta1 ^ (n - 1 - s) * g (nth hist'.theta s) i)
        = ∑ s ∈ range n, c.beta1 ^ (n - 1 - s) * g (nth hist.theta s) i from
        sum_congr rfl fun s hs => by rw [hold s (mem_range.1 hs)]]
      ring
    have hv2 : ∀ i, v' i = (1 - c.beta2) * ∑ s ∈ range (n + 1), c.beta2 ^ (n - s) * g (nth hist'.theta s) i ^ 2 := by
      intro i
      rw [← weighted_succ c.beta2 fun s => g (nth hist'.theta s) i ^ 2]
      simp only [hlast, hv', mul_add, hv i]
      rw [show (∑ s ∈ range n, c.beta2 ^ (n - 1 - s) * g (nth hist'.theta s) i ^ 2)
        = ∑ s ∈ range n, c.beta2 ^ (n - 1 - s) * g (nth hist.theta s) i ^ 2 from
        sum_congr rfl fun s hs => by rw [hold s (mem_range.1 hs)]]
      ring
    have hst : step = adamStep c g hist'.theta n := by
      funext i
      simp only [hstep, adamStep, hm2 i, hv2 i]
    have hrun : AdamRun c f g start new hist' := by
      refine ⟨?_, ?_, ?_, ?_, ?_, ?_⟩
      · simp [hh', hr.nlmlLen]
      · simp [hh', hr.gradLen]
      · intro k hk
        rw [hlen] at hk
        rcases Nat.lt_succ_iff_lt_or_eq.1 hk with hk | rfl
        · rw [hold k hk, ← hr.nlml k hk]
          simp only [hh', List.getD_eq_getElem?_getD]
          rw [List.getElem?_append_left (by rw [hr.nlmlLen]; exact hk)]
        · rw [hlast]
          simp only [hh', List.getD_eq_getElem?_getD]
          rw [List.getElem?_append_right (by rw [hr.nlmlLen]), hr.nlmlLen]
          simp [hn]
      · intro k hk
        rw [hlen] at hk
        rcases Nat.lt_succ_iff_lt_or_eq.1 hk with hk | rfl
        · rw [hold k hk, ← hr.grad k hk]
          simp only [hh', List.getD_eq_getElem?_getD]
          rw [List.getElem?_append_left (by rw [hr.gradLen]; exact hk)]
        · rw [hlast]
          simp only [hh', List.getD_eq_getElem?_getD]
          rw [List.getElem?_append_right (by rw [hr.gradLen]), hr.gradLen]
          simp [hn, hgr]
      · rw [nth_append_left (by rw [hlen]; omega)]
        exact hr.first
      · intro k hk
        have hkl := hk
        rw [hlen] at hk
        rw [nth_append_left hkl]
        rcases Nat.lt_succ_iff_lt_or_eq.1 hk with hk | rfl
        · rw [nth_append_left (show k + 1 < hist'.theta.length by rw [hlen]; omega)]
          have := hr.steps k hk
          simp only [hh']
          rw [this]
          funext i
          rw [adamStep_congr c g hist.theta (hist.theta ++ [theta]) k fun s hs => (nth_append_left (by omega)).symm]
        · rw [← hlen, nth_append_last, hlast, ← hst]
    have hdiff : (fun i => new i - theta i) = fun i => - step i := by funext i; simp only [hnew]; ring
    have hnorm : norm2 (fun i => new i - theta i) = norm2 (adamStep c g hist'.theta n) := by
      rw [hdiff, ← hst]; simp [norm2]
    have hs' : ∀ k < n, ¬ (norm2 (adamStep c g hist'.theta k) < c.tol ∨ stop (k + 1) = true) := by
      intro k hk
      rw [← adamStep_congr c g hist.theta hist'.theta k fun s hs => (hold s (by omega)).symm]
      exact hs k hk
    by_cases hstop : norm2 (fun i => new i - theta i) < c.tol ∨ stop (n + 1) = true
    · refine ⟨new, hist', ?_, hrun, by omega, by omega, fun _ => by omega, fun k hk => hs' k (by omega), fun _ => ⟨by omega, ?_⟩⟩
      · simp only [adamLoop]
        rw [if_pos hstop]
      · rw [hlen, Nat.add_sub_cancel, ← hnorm]; exact hstop
    · obtain ⟨t, h, e1, e2, e3, e4, e5, e6, e7⟩ := ih new m' v' hist' hrun (by
        intro k hk
        rw [hlen] at hk
        rcases Nat.lt_succ_iff_lt_or_eq.1 hk with hk | rfl
        · exact hs' k hk
        · rw [← hnorm]; exact hstop) (by rw [hlen]; exact hm2) (by rw [hlen]; exact hv2)
      refine ⟨t, h, ?_, e2, by omega, by omega, fun _ => by omega, e6, fun hlt => e7 (by omega)⟩
      rw [← e1, hlen]
      conv_lhs => rw [adamLoop]
      exact if_neg hstop

/-- C51: for every objective, gradient and stop signal, Adam makes at most `max_iter` iterations (at least one if
allowed), the three histories have one entry per iteration and belong together, the first entry is the start, each
vector arises from its predecessor by the Adam step in closed form (the returned vector from the last entry), and the
run ends at the first iteration with a small step or a stop request, or at `max_iter`. -/
theorem C51_adam_trace (c : AdamCfg) (_h1 : 0 ≤ c.beta1 ∧ c.beta1 < 1) (_h2 : 0 ≤ c.beta2 ∧ c.beta2 < 1) (_he : 0 < c.eps) (f : (Fin d → ℝ) → ℝ) (g : (Fin d → ℝ) → Fin d → ℝ) (stop : ℕ → Bool)
    (maxIter : ℕ) (start : Fin d → ℝ) :
    ∃ final hist, adamOptimize c f g stop maxIter start = (final, hist) ∧
      AdamRun c f g start final hist ∧ hist.theta.length ≤ maxIter ∧ (1 ≤ maxIter → 1 ≤ hist.theta.length) ∧
      (∀ k, k + 1 < hist.theta.length → ¬ (norm2 (adamStep c g hist.theta k) < c.tol ∨ stop (k + 1) = true)) ∧
      (hist.theta.length < maxIter →
        norm2 (adamStep c g hist.theta (hist.theta.length - 1)) < c.tol ∨ stop hist.theta.length = true) := by
  obtain ⟨t, h, e1, e2, e3, e4, e5, e6, e7⟩ := adamLoop_spec c f g stop start maxIter start (fun _ => 0) (fun _ => 0)
    ⟨[], [], []⟩ ⟨rfl, rfl, by simp, by simp, rfl, by simp⟩ (by simp) (by simp) (by simp)
  refine ⟨t, h, e1, e2, by simpa using e4, e5, e6, fun hlt => (e7 (by simpa using hlt)).2⟩

/-- C51: a zero tolerance and no stop request use the whole budget. -/
example (f : (Fin 2 → ℝ) → ℝ) (g : (Fin 2 → ℝ) → Fin 2 → ℝ) (start : Fin 2 → ℝ) :
    ∃ final hist, adamOptimize ⟨0.01, 0.9, 0.999, 1e-8, 0⟩ f g (fun _ => false) 5 start = (final, hist) ∧
      hist.theta.length = 5 ∧ nth hist.theta 0 = start := by
  obtain ⟨t, h, e1, e2, e3, e4, -, e6⟩ := C51_adam_trace ⟨0.01, 0.9, 0.999, 1e-8, 0⟩ (by norm_num) (by norm_num)
    (by norm_num) f g (fun _ => false) 5 start
  have h5 : h.theta.length = 5 := by
    by_contra hne
    rcases e6 (by omega) with h | h
    · exact absurd h (not_lt.2 (Real.sqrt_nonneg _))
    · simp at h
  refine ⟨t, h, e1, h5, ?_⟩
  rw [← e2.first, nth_append_left (by omega)]

end adam

/-! ## C49, Adam -/

/-- The settings `train` uses for Adam. -/
noncomputable def adamDefaults : AdamCfg := ⟨1 / 100, 9 / 10, 999 / 1000, 1 / 10 ^ 8, 1 / 10 ^ 6⟩

/-- C49 is violated by `method="adam"`, which is not given the bounds: from a start inside the bounds one iteration on
the objective `θ ↦ θ₀` leaves them. -/
theorem C49_adam_violated : ∃ start : Fin 1 → ℝ, (0 ≤ start 0 ∧ start 0 ≤ 1) ∧
    ∀ stop, (adamOptimize adamDefaults (fun θ => θ 0) (fun _ _ => 1) stop 1 start).1 0 < 0 := by
  refine ⟨fun _ => 0, by norm_num, fun stop => ?_⟩
  simp only [adamOptimize, adamLoop, adamDefaults]
  split_ifs <;> norm_num

end Verif.Train
