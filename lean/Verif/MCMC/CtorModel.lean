import Verif.MCMC.Model

/-!
Model of `ProposalDistribution.__init__` (gp_mcmc.py:235-317) and of the accesses to `prop_args` in `normal_proposal_dist`
(gp_mcmc.py:338-341) and `_adapt` (gp_mcmc.py:350-351, 359-361).

Simplifications: `prop_args` is a dictionary (the documentation admits any object); only its entries `prop_Sigma` and `sigma_m` are
represented. Dictionaries live in a heap and objects hold references, as two objects may be given the same dictionary. Attributes
that are only copied (`r_opt`, `c_0`, `c_1`, `K`, `auto_accept`, `ID`) are left out.
-/

namespace Verif.MCMC

/-- A covariance matrix. -/
abbrev Cov := ℕ → ℕ → ℝ

/-- The values of `proposal_dist` that the constructor tells apart, gp_mcmc.py:291-296. -/
inductive ProposalArg
  | normal
  | callable
  | other

/-- The values of `adapt_callable` that the constructor tells apart, gp_mcmc.py:303-309; `other`: neither callable nor string
(`None` included among the values treated alike, but listed separately). -/
inductive AdaptArg
  | none
  | normal
  | callable
  | otherString
  | other
  deriving DecidableEq

/-- The entries of `prop_args`: `none` is a missing key; `prop_Sigma` may be stored as `None`. -/
structure ArgsDict where
  sigma : Option (Option Cov)
  scale : Option ℝ

/-- What `self.proposal_dist` is. -/
inductive DrawKind
  | normal
  | user
  deriving DecidableEq

/-- What `self.adapt` is. -/
inductive AdaptKind
  | default
  | user
  | off
  deriving DecidableEq

/-- A constructed object; `args` refers to the heap. -/
structure PropObj where
  draw : DrawKind
  adapt : AdaptKind
  args : ℕ

/-- `np.identity(dim)`. -/
noncomputable def identityCov : Cov := fun a b => if a = b then 1 else 0

/-- `init_prop_Sigma` after gp_mcmc.py:298-301. -/
noncomputable def startSigma (pd : ProposalArg) (sigma : Option Cov) : Option Cov :=
  match pd, sigma with
  | .normal, none => some identityCov
  | _, s => s

/-- `self.adapt`, gp_mcmc.py:303-309. -/
def chooseAdapt (pd : ProposalArg) (ad : AdaptArg) : Except String AdaptKind :=
  match ad, pd with
  | .callable, _ => .ok .user
  | .normal, _ => .ok .default
  | _, .normal => .ok .default
  | .otherString, _ => .error "Exception: Invalid string provided for adapt callable."
  | _, _ => .ok .off

/-- `2.4 ** 2 / dim`, gp_mcmc.py:312, 317. -/
noncomputable def startScale (dim : ℕ) : Except String ℝ := if dim = 0 then .error "ZeroDivisionError" else .ok (2.4 ^ 2 / dim)

/-- `ProposalDistribution.__init__`, gp_mcmc.py:289-317, for `len(indices) = dim`; `args` is the reference given as `prop_args`. -/
noncomputable def construct (heap : List ArgsDict) (dim : ℕ) (pd : ProposalArg) (sigma : Option Cov) (ad : AdaptArg)
    (args : Option ℕ) : Except String (List ArgsDict × PropObj) := do
  let draw ← match pd with
    | .normal => .ok DrawKind.normal
    | .callable => .ok DrawKind.user
    | .other => .error "Exception: No proposal distribution specified!"
  let adapt ← chooseAdapt pd ad
  match args with
  | none => do
    let s ← startScale dim
    .ok (heap ++ [⟨some (startSigma pd sigma), some s⟩], ⟨draw, adapt, heap.length⟩)
  | some a =>
    if ad = .normal then do
      let s ← startScale dim
      .ok (heap.set a ⟨some (startSigma pd sigma), some s⟩, ⟨draw, adapt, a⟩)
    else .ok (heap, ⟨draw, adapt, a⟩)

/-- The covariance with which `normal_proposal_dist` draws, gp_mcmc.py:338-340. -/
def drawCov (heap : List ArgsDict) (o : PropObj) : Except String Cov :=
  match heap[o.args]? with
  | none => .error "no such object"
  | some d => match d.sigma with
    | none => .error "KeyError: 'prop_Sigma'"
    | some none => .error "ValueError: cov must be 2 dimensional and square"
    | some (some S) => .ok S

/-- One adaptation, gp_mcmc.py:350-361, with window covariance `C`, `γ₂ = g` and exponent increment `e`
(`gamma1 * (r_hat - r_opt)`). -/
noncomputable def adaptHeap (adaptCov : Bool) (C : Cov) (g e : ℝ) (heap : List ArgsDict) (o : PropObj) :
    Except String (List ArgsDict) :=
  match o.adapt with
  | .off => .ok heap
  | .user => .ok heap
  | .default => match heap[o.args]? with
    | none => .error "no such object"
    | some d => match d.sigma, d.scale with
      | none, _ => .error "KeyError: 'prop_Sigma'"
      | _, none => .error "KeyError: 'sigma_m'"
      | some S, some s =>
        let s' := Real.exp (Real.log s + e)
        if adaptCov then
          match S with
          | none => .error "TypeError: unsupported operand type(s) for -: 'float' and 'NoneType'"
          | some S => .ok (heap.set o.args ⟨some (some fun a b => S a b + g * (C a b - S a b)), some s'⟩)
        else .ok (heap.set o.args ⟨some S, some s'⟩)

end Verif.MCMC
