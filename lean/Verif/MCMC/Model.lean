import Verif.LinAlg.CholModel
import Mathlib.Analysis.SpecialFunctions.Log.Basic
import Mathlib.Analysis.SpecialFunctions.Pow.Real

/-!
Model of gp_mcmc.py: `gpMCMC.run_mcmc`, `_default_break_condition`, `_jump`, `ProposalDistribution.normal_proposal_dist`,
`_adapt`.

Simplifications: exact reals. A log likelihood is a real or NaN (`none`), a log prior a real or `-inf` (`⊥`);
infinite likelihoods are left out. Random draws and clock readings are given by `Draws`, about which nothing is
assumed. Printing is left out. Exceptions end the run (`Except`). The mutable objects are passed along.
-/

namespace Verif.MCMC

open Verif.LinAlg

/-- A position. -/
abbrev Pos (d : ℕ) := Fin d → ℝ

/-- The chain's current position with its log prior and log likelihood: the variables `x`, `prior`, `likelihood` of
`run_mcmc`. -/
structure Chain (d : ℕ) where
  x : Pos d
  prior : WithBot ℝ
  lik : Option ℝ

/-- `metr_ratio`, gp_mcmc.py:210-213: a NaN or infinite exponent is not below 50. -/
noncomputable def metrRatio (ps ls : ℝ) (prior : WithBot ℝ) (lik : Option ℝ) : ℝ :=
  match prior, lik with
  | some p, some l =>
    let expo := ps + ls - p - l
    if expo < 50 then Real.exp expo else 1.1
  | _, _ => 1.1

/-- `_jump` after the proposal `xStar` is made, gp_mcmc.py:202-224; `u` is the uniform draw. -/
noncomputable def jump {d : ℕ} (f : Pos d → Option ℝ) (prior : Pos d → WithBot ℝ) (auto : Bool) (s : Chain d)
    (xStar : Pos d) (u : ℝ) : Except String (Chain d × ℝ) :=
  match prior xStar with
  | none => .ok (s, 0)
  | some ps =>
    match f xStar with
    | none => .error "Exception: Likelihood evaluation = NaN in gpMCMC"
    | some ls =>
      if metrRatio ps ls s.prior s.lik > u ∨ auto = true then .ok (⟨xStar, some ps, some ls⟩, 1) else .ok (s, 0)

/-- A `ProposalDistribution` object, gp_mcmc.py:234-317. `normal`: the default proposal; `adaptive`: `_adapt` is used
(otherwise `_no_adapt`; user callables for adaptation are left out). `Sigma` and `sigmaM` are the entries of
`prop_args`, `none` stands for NaN. -/
structure Proposal (d : ℕ) where
  idx : List (Fin d)
  normal : Bool
  adaptive : Bool
  K : ℕ
  c0 : ℝ
  c1 : ℝ
  rOpt : ℝ
  autoAccept : Bool
  adaptCov : Bool
  jumpTrace : List ℝ
  Sigma : Option (ℕ → ℕ → ℝ)
  sigmaM : Option ℝ

/-- Random draws and clock: in iteration `i` for proposal object `j`. A user proposal may look at its whole object, the
normal proposal is given only the covariance (gp_mcmc.py:338-341). -/
structure Draws (d : ℕ) where
  normal : ℕ → ℕ → (ℕ → ℕ → ℝ) → Pos d → Pos d
  user : ℕ → ℕ → Proposal d → Pos d → Pos d
  u : ℕ → ℕ → ℝ
  clock : ℕ → ℝ

/-- The proposal of gp_mcmc.py:196-202: only the coordinates in `indices` are replaced. -/
def propose {d : ℕ} (w : Draws d) (i j : ℕ) (o : Proposal d) (x : Pos d) : Except String (Pos d) :=
  if o.normal then
    match o.Sigma with
    | none => .error "LinAlgError: SVD did not converge"
    | some S => .ok fun k => if k ∈ o.idx then w.normal i j S x k else x k
  else .ok fun k => if k ∈ o.idx then w.user i j o x k else x k

/-- `a[start:end]`. -/
def slice {β : Type} (l : List β) (start stop : ℕ) : List β := (l.take stop).drop start

/-- `np.mean`; `none` is NaN. -/
noncomputable def mean (l : List ℝ) : Option ℝ := if l.length = 0 then none else some (l.sum / l.length)

/-- Row `a` of `trace[indices]` at sample `x`. -/
def coord {d : ℕ} (idx : List (Fin d)) (a : ℕ) (x : Pos d) : ℝ := match idx[a]? with
  | some k => x k
  | none => 0

/-- `np.cov` of the rows `idx` of the slice of the trace (one column per sample), with the default `ddof = 1`; `none`
is NaN. -/
noncomputable def cov {d : ℕ} (idx : List (Fin d)) (samples : List (Pos d)) : Option (ℕ → ℕ → ℝ) :=
  if samples.length ≤ 1 then none
  else
    let mu (a : ℕ) : ℝ := (samples.map (coord idx a)).sum / samples.length
    some fun a b => (samples.map fun x => (coord idx a x - mu a) * (coord idx b x - mu b)).sum / (samples.length - 1)

/-- `gamma2`, gp_mcmc.py:355. -/
noncomputable def gamma2 (K : ℕ) (c1 : ℝ) (i : ℕ) : ℝ := 1 / ((i : ℝ) / K + 3) ^ c1

/-- The new `sigma_m`, gp_mcmc.py:354-358. -/
noncomputable def newScale {d : ℕ} (o : Proposal d) (i : ℕ) : Option ℝ :=
  match o.sigmaM, mean (slice o.jumpTrace (i - o.K + 1) i) with
  | some s, some r => some (Real.exp (Real.log s + o.c0 * gamma2 o.K o.c1 i * (r - o.rOpt)))
  | _, _ => none

/-- The new `prop_Sigma`, gp_mcmc.py:359; `xs` is `mcmc_obj.trace["x"]`. -/
noncomputable def newCov {d : ℕ} (o : Proposal d) (i : ℕ) (xs : List (Pos d)) : Option (ℕ → ℕ → ℝ) :=
  if o.adaptCov then
    match o.Sigma, cov o.idx (slice xs (i - o.K + 1) i) with
    | some S, some C => some fun a b => S a b + gamma2 o.K o.c1 i * (C a b - S a b)
    | _, _ => none
  else o.Sigma

/-- `_adapt(end, mcmc_obj)`, gp_mcmc.py:343-361. -/
noncomputable def adapt {d : ℕ} (o : Proposal d) (i : ℕ) (xs : List (Pos d)) : Except String (Proposal d) :=
  if o.adaptive = false then .ok o
  else if o.K = 0 then .error "ZeroDivisionError"
  else if i % o.K ≠ 0 then .ok o
  else .ok { o with Sigma := newCov o i xs, sigmaM := newScale o i }

/-- The loop over the proposal objects, gp_mcmc.py:154-157. -/
noncomputable def sweep {d : ℕ} (f : Pos d → Option ℝ) (prior : Pos d → WithBot ℝ) (w : Draws d) (i : ℕ)
    (xs : List (Pos d)) : ℕ → Chain d → List (Proposal d) → Except String (Chain d × List (Proposal d))
  | _, s, [] => .ok (s, [])
  | j, s, o :: os => do
    let xStar ← propose w i j o s.x
    let (s', jt) ← jump f prior o.autoAccept s xStar (w.u i j)
    let o' ← adapt { o with jumpTrace := o.jumpTrace ++ [jt] } i xs
    let (s'', os') ← sweep f prior w i xs (j + 1) s' os
    .ok (s'', o' :: os')

/-- `self.trace`. -/
structure Trace (d : ℕ) where
  xs : List (Pos d)
  fs : List (Option ℝ)
  ts : List ℝ

/-- `np.argmax`: the first maximum, or the first NaN if there is one. -/
noncomputable def argmax (l : List (Option ℝ)) : ℕ :=
  open Classical in
  if l.any (·.isNone) then l.findIdx (·.isNone)
  else l.findIdx fun a => decide (∀ b ∈ l, b.getD 0 ≤ a.getD 0)

/-- `np.median` of a non-empty list. -/
noncomputable def median (l : List ℝ) : ℝ :=
  open Classical in
  let s := l.mergeSort (fun a b => decide (a ≤ b))
  if s.length % 2 = 1 then s.getD (s.length / 2) 0
  else (s.getD (s.length / 2 - 1) 0 + s.getD (s.length / 2) 0) / 2

/-- `np.var` of a list (`ddof = 0`). -/
noncomputable def variance (l : List ℝ) : ℝ :=
  let mu := l.sum / l.length
  (l.map fun v => (v - mu) ^ 2).sum / l.length

/-- `mcmc_info`, gp_mcmc.py:168-179. `dist_index` is computed with exact arithmetic: `int(n - n/100) = ⌊99 n / 100⌋`. -/
structure Info (d : ℕ) where
  fs : List (Option ℝ)
  maxF : Option ℝ
  map : Option ℝ
  maxX : Pos d
  ts : List ℝ
  xs : List (Pos d)
  meanX : Pos d
  medianX : Pos d
  varX : Pos d

noncomputable def collect {d : ℕ} (t : Trace d) : Info d :=
  let a := argmax t.fs
  let distIndex := 99 * t.xs.length / 100
  let tail (k : Fin d) : List ℝ := (t.xs.drop distIndex).map fun x => x k
  { fs := t.fs, maxF := t.fs.getD a none, map := t.fs.getD a none, maxX := t.xs.getD a fun _ => 0, ts := t.ts,
    xs := t.xs, meanX := fun k => (tail k).sum / (tail k).length, medianX := fun k => median (tail k),
    varX := fun k => variance (tail k) }

/-- What a run has produced so far: trace, chain, proposal objects, `mcmc_info` (`none`: `{}`). -/
structure Run (d : ℕ) where
  trace : Trace d
  chain : Chain d
  objs : List (Proposal d)
  info : Option (Info d)

/-- One pass of the main loop up to the trace update, gp_mcmc.py:153-162. -/
noncomputable def iteration {d : ℕ} (f : Pos d → Option ℝ) (prior : Pos d → WithBot ℝ) (w : Draws d) (i : ℕ)
    (r : Run d) : Except String (Run d) := do
  let (s, objs) ← sweep f prior w i r.trace.xs 0 r.chain r.objs
  .ok { trace := ⟨r.trace.xs ++ [s.x], r.trace.fs ++ [s.lik], r.trace.ts ++ [w.clock i]⟩, chain := s, objs := objs,
        info := r.info }

/-- The main loop, gp_mcmc.py:153-179, from iteration `i` with `fuel` iterations left. -/
noncomputable def loop {d : ℕ} (f : Pos d → Option ℝ) (prior : Pos d → WithBot ℝ) (w : Draws d) (brk : Trace d → Bool) :
    ℕ → ℕ → Run d → Except String (Run d)
  | 0, _, r => .ok r
  | fuel + 1, i, r => do
    let r' ← iteration f prior w i r
    if brk r'.trace then .ok r'
    else loop f prior w brk fuel (i + 1) { r' with info := some (collect r'.trace) }

/-- The state before the main loop, gp_mcmc.py:140-149. -/
noncomputable def start {d : ℕ} (f : Pos d → Option ℝ) (prior : Pos d → WithBot ℝ) (objs : List (Proposal d)) (x0 : Pos d) :
    Run d := ⟨⟨[x0], [], []⟩, ⟨x0, prior x0, f x0⟩, objs, none⟩

/-- `run_mcmc(x0, n_updates, break_condition)`, gp_mcmc.py:96-181, on a fresh `gpMCMC` object. -/
noncomputable def runMCMC {d : ℕ} (f : Pos d → Option ℝ) (prior : Pos d → WithBot ℝ) (w : Draws d) (brk : Trace d → Bool)
    (objs : List (Proposal d)) (x0 : Pos d) (nUpdates : ℕ) : Except String (Run d) :=
  loop f prior w brk (max nUpdates 2 - 1) 1 (start f prior objs x0)

/-- What `run_mcmc` returns, gp_mcmc.py:181: `mcmc_info`, whose entries `f(x)` and `time stamps` are the lists of the
trace themselves (gp_mcmc.py:171, 175) and therefore as long as the trace at the end, whereas `x` is a copy made when
`mcmc_info` was collected. -/
def Run.returned {d : ℕ} (r : Run d) : Option (Info d) :=
  r.info.map fun i => { i with fs := r.trace.fs, ts := r.trace.ts }

/-- The default prior, gp_mcmc.py:77-79 and gp_training.py:150-152. -/
noncomputable def boxPrior {d : ℕ} (lo hi : Pos d) (x : Pos d) : WithBot ℝ :=
  open Classical in if ∀ k, lo k ≤ x k ∧ x k ≤ hi k then ((0 : ℝ) : WithBot ℝ) else ⊥

/-- `_default_break_condition`, gp_mcmc.py:184-193. -/
noncomputable def defaultBreak {d : ℕ} (t : Trace d) : Bool :=
  open Classical in
  if t.fs.length < 1000 then false
  else
    -- a NaN mean compares false
    !(slice t.fs (t.fs.length - 200) t.fs.length).any (·.isNone) &&
      decide (|((slice t.fs (t.fs.length - 100) t.fs.length).map (·.getD 0)).sum / 100
        - ((slice t.fs (t.fs.length - 200) (t.fs.length - 100)).map (·.getD 0)).sum / 100| < 1e-3)

/-- The proposals `"normal"` of the constructor, gp_mcmc.py:82-88 with 234-317: one object for all coordinates. -/
noncomputable def defaultProposal {d : ℕ} (lo hi : Pos d) : Proposal d where
  idx := List.finRange d
  normal := true
  adaptive := true
  K := 10
  c0 := 10
  c1 := 0.8
  rOpt := 0.234
  autoAccept := false
  adaptCov := true
  jumpTrace := []
  Sigma := some fun a b => if a = b then (if h : a < d then ((hi ⟨a, h⟩ - lo ⟨a, h⟩) * 0.2 / Real.sqrt 12) ^ 2 else 0) else 0
  sigmaM := some (2.4 ^ 2 / d)

end Verif.MCMC
