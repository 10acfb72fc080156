import Mathlib.Analysis.SpecialFunctions.Log.Basic
import Mathlib.Analysis.SpecialFunctions.Pow.Real

/-!
Model of gp_bo.py: `_LogAffineTransform`, `default_initial_design_size`, `_maximize_acquisition`, `bayesian_optimize`.

Simplifications: exact reals; a non-finite objective value is `none`. The objective may depend on all earlier calls
(randomness, state) and may raise. The Sobol points, the surrogate fit, the acquisition and the surrogate's posterior
mean are arbitrary functions (of everything evaluated so far), so that nothing is assumed about scipy, the inner GP or the
random generator. Callbacks are recorded and assumed not to raise. Printing, warnings and the diagnostics computed after
the recommendation (sensitivity, Laplace covariance) are left out.
-/

namespace Verif.BO

/-- A hyperparameter vector or a point of the unit cube. -/
abbrev Pos (d : ℕ) := Fin d → ℝ

/-- `1e-300`, gp_bo.py:91. -/
noncomputable def tiny : ℝ := 1 / (10 : ℝ) ^ 300

/-- `np.clip(u, 0, 1)`, gp_bo.py:92, 97. -/
noncomputable def clip01 (u : ℝ) : ℝ := min (max u 0) 1

/-- One axis of a `_LogAffineTransform`: `lo`, `hi`, `span`, `log_mask` at one index, gp_bo.py:81-84. -/
structure Axis where
  log : Bool
  lo : ℝ
  hi : ℝ
  span : ℝ

/-- `_LogAffineTransform.__init__` for one axis, gp_bo.py:67-84: `b` the bounds, `req` the entry of `log_scale` after
broadcasting (`none`: not given). -/
noncomputable def mkAxis (b : ℝ × ℝ) (req : Option Bool) : Axis :=
  let positive : Bool := decide (b.1 > 0) && decide (b.2 > 0)
  let mask := match req with
    | none => positive
    | some r => r && positive
  let lo := if mask = true then Real.log b.1 else b.1
  let hi := if mask = true then Real.log b.2 else b.2
  ⟨mask, lo, hi, if hi > lo then hi - lo else 1⟩

/-- `to_unit` on one axis, gp_bo.py:88-92. -/
noncomputable def toUnit1 (a : Axis) (t : ℝ) : ℝ :=
  let w := if a.log = true then Real.log (max t tiny) else t
  clip01 ((w - a.lo) / a.span)

/-- `from_unit` on one axis, gp_bo.py:94-98. -/
noncomputable def fromUnit1 (a : Axis) (u : ℝ) : ℝ :=
  let w := a.lo + clip01 u * a.span
  if a.log = true then Real.exp w else w

/-- The transform object, gp_bo.py:67-85. -/
noncomputable def mkTransform {d : ℕ} (bounds : Fin d → ℝ × ℝ) (logScale : Option (Fin d → Bool)) : Fin d → Axis :=
  fun i => mkAxis (bounds i) (logScale.map fun r => r i)

/-- `to_unit`, gp_bo.py:88-92. -/
noncomputable def toUnit {d : ℕ} (tf : Fin d → Axis) (t : Pos d) : Pos d := fun i => toUnit1 (tf i) (t i)

/-- `from_unit`, gp_bo.py:94-98. -/
noncomputable def fromUnit {d : ℕ} (tf : Fin d → Axis) (u : Pos d) : Pos d := fun i => fromUnit1 (tf i) (u i)

/-- `default_initial_design_size`, gp_bo.py:104-112. -/
def defaultInitialDesignSize (dim : ℕ) (maxIter : ℤ) : ℤ :=
  let n : ℤ := min (max (2 * ((dim : ℤ) + 1)) 5) (max (10 * (dim : ℤ)) 5)
  max 2 (min n maxIter)

/-- `n_init`, gp_bo.py:581. -/
def designSize (dim : ℕ) (nInit : Option ℤ) (maxIter : ℤ) : ℤ :=
  max 2 (min (nInit.getD (defaultInitialDesignSize dim maxIter)) maxIter)

/-- `np.finfo(float).max`. -/
noncomputable def floatMax : ℝ := (2 - 1 / 2 ^ 52) * 2 ^ 1023

/-- The value stored for a non-finite evaluation, gp_bo.py:644. -/
noncomputable def penalty : ℝ := floatMax / 10 ^ 6

/-- One evaluated point: the entries of `u_list`, `theta_list`, `y_list`, `v_list` at one index, gp_bo.py:637. -/
structure Eval (d : ℕ) where
  u : Pos d
  theta : Pos d
  y : ℝ
  v : Option ℝ

/-- Where the observation noise comes from, gp_bo.py:602-603: nothing, `noise_variance`, or `noise_function` (whose
answer `none` stands for `None`, NaN or infinity). -/
inductive Noise (d : ℕ) where
  | unknown
  | fixed (v : ℝ)
  | function (g : List (Pos d) → Pos d → Option ℝ)

/-- `_noise_for`, gp_bo.py:613-627; `calls` are the objective's arguments so far (the last one is `theta`). -/
noncomputable def noiseFor {d : ℕ} (n : Noise d) (calls : List (Pos d)) (theta : Pos d) : Option ℝ :=
  match n with
  | .unknown => none
  | .fixed v => some (max v (1 / 10 ^ 12))
  | .function g =>
    match g calls theta with
    | none => none
    | some v => if v > 0 then some v else none

/-- Arguments of `bayesian_optimize` and everything outside it: see the head of this file. -/
structure Env (d : ℕ) (S : Type) where
  tf : Fin d → Axis
  init : Pos d
  maxIter : ℤ
  nInit : Option ℤ
  patience : ℤ
  fRtol : ℝ
  xTol : ℝ
  eiTol : ℝ
  refitEvery : ℤ
  objective : List (Pos d) → Pos d → Except String (Option ℝ)
  noise : Noise d
  stop : ℕ → Bool
  sobol : ℕ → Pos d
  fit : List (Eval d) → Option S
  acquire : S → List (Eval d) → Except String (Pos d × ℝ)
  postMean : S → List (Eval d) → Option (ℕ → ℝ)

/-- The variables of `bayesian_optimize` that the design already uses, gp_bo.py:637-638, together with what the outside
world sees: the objective's arguments, the number of polls of `early_stop`, and the callback's arguments (the best
point, its value, the iteration). -/
structure St (d : ℕ) where
  calls : List (Pos d)
  polls : ℕ
  hist : List (Eval d)
  reports : List (Pos d × ℝ × ℕ)

/-- `np.argmin` of the stored values: the first index of a smallest entry. -/
noncomputable def argmin {d : ℕ} (h : List (Eval d)) : ℕ :=
  h.findIdx fun e => @decide (∀ e' ∈ h, e.y ≤ e'.y) (Classical.dec _)

/-- The value kept for an evaluation, gp_bo.py:642-644. -/
noncomputable def stored : Option ℝ → ℝ
  | some y => y
  | none => penalty

/-- The callback's arguments, gp_bo.py:649-652. -/
noncomputable def report {d : ℕ} (h : List (Eval d)) (iteration : ℕ) : List (Pos d × ℝ × ℕ) :=
  match h[argmin h]? with
  | some e => [(e.theta, e.y, iteration)]
  | none => []

/-- `_evaluate`, gp_bo.py:640-653. -/
noncomputable def evaluate {d : ℕ} {S : Type} (env : Env d S) (s : St d) (u : Pos d) (iteration : ℕ) :
    St d × Except String Unit :=
  let theta := fromUnit env.tf u
  let calls := s.calls ++ [theta]
  match env.objective s.calls theta with
  | .error e => ({ s with calls := calls }, .error e)
  | .ok val =>
    let hist := s.hist ++ [⟨u, theta, stored val, noiseFor env.noise calls theta⟩]
    ({ s with calls := calls, hist := hist, reports := s.reports ++ report hist iteration }, .ok ())

/-- The initial design: the Sobol points with the warm start in front, gp_bo.py:633-635. -/
noncomputable def designPoint {d : ℕ} {S : Type} (env : Env d S) (i : ℕ) : Pos d :=
  if i = 0 then toUnit env.tf env.init else env.sobol i

/-- The design loop from index `i`, `k` points left, gp_bo.py:658-662. The flag is `stopped_early`. -/
noncomputable def designLoop {d : ℕ} {S : Type} (env : Env d S) : ℕ → ℕ → St d → St d × Except String Bool
  | 0, _, s => (s, .ok false)
  | k + 1, i, s =>
    let s' := { s with polls := s.polls + 1 }
    if env.stop s.polls = true then (s', .ok true)
    else match evaluate env s' (designPoint env i) i with
      | (s'', .error e) => (s'', .error e)
      | (s'', .ok ()) => designLoop env k (i + 1) s''

/-- The loop variables of the main loop, gp_bo.py:667-673. -/
structure Loop (d : ℕ) (S : Type) where
  st : St d
  gp : Option S
  stall : ℕ
  prev : Option (ℝ × Pos d)
  eis : List ℝ

/-- Euclidean norm of a difference, gp_bo.py:748. -/
noncomputable def dist {d : ℕ} (a b : Pos d) : ℝ := Real.sqrt (∑ i, (a i - b i) ^ 2)

/-- Best entry of a history: value and unit-cube point, gp_bo.py:741-743. -/
noncomputable def bestOf {d : ℕ} (h : List (Eval d)) : Option (ℝ × Pos d) :=
  (h[argmin h]?).map fun e => (e.y, e.u)

/-- `observed_range`, gp_bo.py:744: largest minus smallest stored value. -/
noncomputable def spread {d : ℕ} (h : List (Eval d)) : ℝ :=
  ((h.map Eval.y).max?).getD 0 - ((h.map Eval.y).min?).getD 0

/-- The new stall counter, gp_bo.py:744-752. -/
noncomputable def newStall {d : ℕ} (fRtol xTol : ℝ) (h : List (Eval d)) (prev cur : Option (ℝ × Pos d)) (stall : ℕ) : ℕ :=
  match prev, cur with
  | some (pb, pu), some (cb, cu) =>
    let reference := if spread h > 0 then spread h else max |cb| 1
    if (pb - cb) / reference ≤ fRtol ∧ dist cu pu ≤ xTol then stall + 1 else 0
  | _, _ => 0

/-- Fit the surrogate when due, gp_bo.py:698-703; `none` means that the fit raised. -/
noncomputable def refit {d : ℕ} {S : Type} (env : Env d S) (gp : Option S) (h : List (Eval d)) : Option S :=
  match gp with
  | none => env.fit h
  | some g => if (h.length : ℤ) % max 1 env.refitEvery = 0 then env.fit h else some g

/-- How the main loop ends: `stopped_early` and `stopping_reason`, gp_bo.py:638, 673. -/
abbrev Ending := Bool × String

/-- The main loop, gp_bo.py:674-758. `fuel` bounds the number of iterations; `bayesianOptimize` passes enough
(`loop_fuel`). A surrogate that fails to fit leaves `gp` as it was. -/
noncomputable def loop {d : ℕ} {S : Type} (env : Env d S) : ℕ → Loop d S → Loop d S × Except String Ending
  | 0, l => (l, .ok (false, "budget"))
  | fuel + 1, l =>
    if ¬ ((l.st.hist.length : ℤ) < env.maxIter) then (l, .ok (false, "budget"))
    else
      let l := { l with st := { l.st with polls := l.st.polls + 1 } }
      if env.stop (l.st.polls - 1) = true then (l, .ok (true, "stopped"))
      else match refit env l.gp l.st.hist with
        | none => (l, .ok (false, "budget"))
        | some g =>
          match env.acquire g l.st.hist with
          | .error e => ({ l with gp := some g }, .error e)
          | .ok (u, ei) =>
            let l := { l with gp := some g, eis := l.eis ++ [ei] }
            if env.eiTol > 0 ∧ ei < env.eiTol then (l, .ok (false, "ei_tolerance"))
            else match evaluate env l.st u l.st.hist.length with
              | (s, .error e) => ({ l with st := s }, .error e)
              | (s, .ok ()) =>
                let cur := bestOf s.hist
                let stall := newStall env.fRtol env.xTol s.hist l.prev cur l.stall
                let l := { l with st := s, stall := stall, prev := cur }
                if env.patience > 0 ∧ (stall : ℤ) ≥ env.patience then (l, .ok (false, "converged"))
                else loop env fuel l

/-- The reported noise variances, gp_bo.py:776. -/
def known {d : ℕ} (h : List (Eval d)) : List ℝ := h.filterMap Eval.v

/-- `noise_var` when something was reported, gp_bo.py:779. -/
noncomputable def noiseVar {d : ℕ} (h : List (Eval d)) : ℝ := (known h).sum / (known h).length

/-- `np.argmax(m_obs)`, gp_bo.py:797. -/
noncomputable def argmaxMean (m : ℕ → ℝ) (n : ℕ) : ℕ :=
  (List.range n).findIdx fun k => @decide (∀ j < n, m j ≤ m k) (Classical.dec _)

/-- The index recommended, gp_bo.py:773-801. -/
noncomputable def recommend {d : ℕ} {S : Type} (env : Env d S) (gp : Option S) (h : List (Eval d)) : ℕ :=
  match gp with
  | none => argmin h
  | some g =>
    if known h ≠ [] ∧ noiseVar h > 0 then
      match env.postMean g h with
      | none => argmin h
      | some m =>
        match h[argmaxMean m h.length]?, h[argmin h]? with
        | some c, some b => if c.y ≤ b.y + 3 * Real.sqrt (noiseVar h) then argmaxMean m h.length else argmin h
        | _, _ => argmin h
    else argmin h

/-- What `bayesian_optimize` returns, gp_bo.py:802, 851-870. -/
structure Result (d : ℕ) where
  x : Pos d
  fx : ℝ
  hist : List (Eval d)
  stoppedEarly : Bool
  reason : String

/-- The end of `bayesian_optimize`, gp_bo.py:773-870: `np.argmin` of an empty array raises. -/
noncomputable def finish {d : ℕ} {S : Type} (env : Env d S) (gp : Option S) (h : List (Eval d)) (e : Ending) :
    Except String (Result d) :=
  match h[recommend env gp h]? with
  | none => .error "ValueError: attempt to get argmin of an empty sequence"
  | some b => .ok ⟨b.theta, b.y, h, e.1, e.2⟩

/-- `bayesian_optimize`, gp_bo.py:529-871. -/
noncomputable def bayesianOptimize {d : ℕ} {S : Type} (env : Env d S) : St d × Except String (Result d) :=
  match designLoop env (designSize d env.nInit env.maxIter).toNat 0 ⟨[], 0, [], []⟩ with
  | (s, .error e) => (s, .error e)
  | (s, .ok true) => (s, finish env none s.hist (true, "budget"))
  | (s, .ok false) =>
    match loop env (env.maxIter - s.hist.length).toNat ⟨s, none, 0, bestOf s.hist, []⟩ with
    | (l, .error e) => (l.st, .error e)
    | (l, .ok e) => (l.st, finish env l.gp l.st.hist e)

end Verif.BO
