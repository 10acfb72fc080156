import Verif.Resolve.Model
import Mathlib.Tactic.Linarith
import Mathlib.Data.List.Basic

/-!
Properties of the resolution of constructor arguments: the functions a user supplies are the functions that are used, with the
arguments they declare, and a signature that cannot be called is found at construction (C159).
-/

namespace Verif.Resolve

variable {V : Type}

/-! ### Specification -/

/-- A function written as documented, `f(a, b, ...)` with `n` parameters: all positional, none with a default. -/
def Plain (n : ℕ) (f : Fn V) : Prop :=
  f.sig.length = n ∧ ∀ p ∈ f.sig, (p.kind = .posOnly ∨ p.kind = .ordinary) ∧ p.hasDefault = false

/-- What a function with `base` compulsory arguments `as` is documented to receive: `args` in addition if it has one parameter more. -/
def received (f : Fn V) (as : List V) (args : V) : List V :=
  if f.sig.length = as.length + 1 then as ++ [args] else as

/-- A signature that works: as many parameters as compulsory arguments, or one more, and Python accepts that many positional arguments. -/
def Usable (base : ℕ) (f : Fn V) : Prop :=
  (f.sig.length = base ∨ f.sig.length = base + 1) ∧ accepts f.sig f.sig.length = true

/-- A function that raises no exception. -/
def Total (run : List V → Except String V) : Prop := ∀ l, ∃ v, run l = .ok v

/-! ### Lemmas -/

theorem positional_iff (p : Param) : p.positional = true ↔ (p.kind = .posOnly ∨ p.kind = .ordinary) := by
  simp [Param.positional]

theorem accepts_plain {n : ℕ} {f : Fn V} (h : Plain n f) (k : ℕ) : accepts f.sig k = true ↔ k = n := by
  obtain ⟨hl, hp⟩ := h
  have h1 : (f.sig.filter fun p => p.positional && !p.hasDefault) = f.sig := by
    rw [List.filter_eq_self]
    intro p hpm
    have := hp p hpm
    simp [(positional_iff p).2 this.1, this.2]
  have h2 : f.sig.filter Param.positional = f.sig := by
    rw [List.filter_eq_self]
    intro p hpm
    exact (positional_iff p).2 (hp p hpm).1
  have h3 : (f.sig.any fun p => decide (p.kind = .varPos)) = false := by
    rw [List.any_eq_false]
    intro p hpm
    rcases (hp p hpm).1 with e | e <;> simp [e]
  have h4 : (f.sig.any fun p => decide (p.kind = .kwOnly) && !p.hasDefault) = false := by
    rw [List.any_eq_false]
    intro p hpm
    rcases (hp p hpm).1 with e | e <;> simp [e]
  unfold accepts
  rw [h1, h2, h3, h4, hl]
  simp
  omega

theorem plainSig_length (n : ℕ) : (plainSig n).length = n := by simp [plainSig]

theorem plainSig_plain (n : ℕ) (run : List V → Except String V) : Plain n ⟨plainSig n, run⟩ := by
  refine ⟨by simp [plainSig], fun p hp => ?_⟩
  rw [List.eq_of_mem_replicate hp]
  exact ⟨Or.inr rfl, rfl⟩

theorem plain_usable {n : ℕ} {f : Fn V} (h : Plain n f) (base : ℕ) : Usable base f ↔ n = base ∨ n = base + 1 := by
  unfold Usable
  rw [accepts_plain h, h.1]
  simp

theorem call_usable {f : Fn V} {as : List V} (h : accepts f.sig as.length = true) : f.call as = f.run as := by
  simp [Fn.call, h]

theorem call_ok {f : Fn V} {as : List V} {v : V} (h : f.call as = .ok v) : accepts f.sig as.length = true ∧ f.run as = .ok v := by
  unfold Fn.call at h
  split at h
  · exact ⟨by assumption, h⟩
  · simp at h

/-- What the three dispatchers have in common. -/
def dispatch (base : ℕ) (n : ℕ) (f : Fn V) (as : List V) (args : V) (e : String) : Except String V :=
  if n = base then f.call as else if n = base + 1 then f.call (as ++ [args]) else .error e

theorem dispatch_usable {base : ℕ} {f : Fn V} {as : List V} {args : V} {e : String} (h : Usable base f)
    (hb : as.length = base := by rfl) : dispatch base f.nParams f as args e = f.run (received f as args) := by
  subst hb
  obtain ⟨hl, ha⟩ := h
  unfold dispatch received Fn.nParams
  rcases hl with hl | hl
  · rw [if_pos hl, if_neg (by omega)]
    rw [hl] at ha
    exact call_usable ha
  · rw [if_neg (by omega), if_pos hl, if_pos hl]
    rw [hl] at ha
    exact call_usable (by simpa using ha)

theorem usable_of_dispatch {base : ℕ} {f : Fn V} {as : List V} {args : V} {e : String} {v : V}
    (h : dispatch base f.nParams f as args e = .ok v) (hb : as.length = base := by rfl) : Usable base f := by
  subst hb
  unfold dispatch Fn.nParams at h
  split at h
  · next hl => exact ⟨Or.inl hl, by rw [hl]; exact (call_ok h).1⟩
  · split at h
    · next hl => exact ⟨Or.inr hl, by rw [hl]; simpa using (call_ok h).1⟩
    · simp at h

theorem computeCovariances_eq (r : Resolved V) (x1 x2 h : V) :
    computeCovariances r x1 x2 h = dispatch 3 r.kN r.kernel [x1, x2, h] r.args "No valid kernel function signature" := rfl

theorem evaluateKernel_eq (k : Fn V) (x1 x2 h args : V) (n : ℕ) :
    evaluateKernel k x1 x2 h n args = dispatch 3 n k [x1, x2, h] args "No valid kernel function signature" := by
  unfold evaluateKernel dispatch
  by_cases h3 : n = 3
  · subst h3; simp
  · by_cases h4 : n = 4
    · subst h4; simp
    · simp [h3, h4]

theorem computeMean_eq (r : Resolved V) (x h : V) :
    computeMean r x h = dispatch 2 r.mN r.mean [x, h] r.args "No valid mean function signature" := rfl

theorem calculateV_eq (r : Resolved V) (x h : V) :
    calculateV r x h = dispatch 2 r.vN r.noise [x, h] r.args "No valid noise function signature." := rfl

/-- The kernel that gp2Scale or the ordinary GP takes. -/
def usedKernel (lib : Lib V) (q : Request V) : Fn V := (kernelVar lib q).getD ⟨plainSig 3, lib.defaultKernel⟩

/-- The mean in use. -/
def usedMean (lib : Lib V) (q : Request V) : Fn V := q.mean.getD ⟨plainSig 2, lib.defaultMean⟩

/-- The noise function in use. -/
def usedNoise (lib : Lib V) (q : Request V) : Fn V :=
  q.noise.getD ⟨plainSig 2, if q.noiseVariances.isSome then lib.measuredNoise else lib.defaultNoise⟩

/-- The storage mode after the prior is built. -/
def usedEconomy (lib : Lib V) (q : Request V) : Bool :=
  q.ramEconomy && (q.kernelGrad.isSome || (kernelVar lib q).isSome)

/-- The conditions that do not concern signatures. -/
structure Sound (q : Request V) : Prop where
  distribution : q.distribution = "blockwise" ∨ q.distribution = "rowwise"
  kernel : q.euclidean = true ∨ q.kernel.isSome = true
  noise : ¬ (q.noiseVariances.isSome = true ∧ q.noise.isSome = true)
  hps : q.hps.isSome = true ∨ (q.euclidean = true ∧ q.kernel = none ∧ q.mean = none ∧ q.noise = none)

theorem initHps_iff (lib : Lib V) (q : Request V) (h : V) : initHps lib q = .ok h ↔
    (q.hps = some h ∨ (q.hps = none ∧ q.euclidean = true ∧ q.kernel = none ∧ q.mean = none ∧ q.noise = none ∧
      h = lib.ones (q.dim + 1))) := by
  unfold initHps
  rcases hh : q.hps with _ | g <;> rcases he : q.euclidean <;> rcases hk : q.kernel with _ | k <;> rcases hm : q.mean with _ | m <;>
    rcases hn : q.noise with _ | n <;> simp [eq_comm]

theorem resolve_ok (lib : Lib V) (q : Request V) (r : Resolved V) : resolve lib q = .ok r → Sound q ∧ initHps lib q = .ok r.hps ∧
    r.kernel = usedKernel lib q ∧ r.kN = (usedKernel lib q).nParams ∧ r.mean = usedMean lib q ∧ r.mN = (usedMean lib q).nParams ∧
    r.noise = usedNoise lib q ∧ r.vN = (usedNoise lib q).nParams ∧ r.args = q.args ∧ r.economy = usedEconomy lib q ∧
    (∀ g, q.kernelGrad = some g → r.dk = g) ∧ (∀ g, q.meanGrad = some g → r.dm = g) ∧ (∀ g, q.noiseGrad = some g → r.dV = g) ∧
    (q.kernelGrad = none → Plain (if r.economy then 4 else 3) r.dk ∧
      ((kernelVar lib q).isNone = true → r.dk.run = lib.analyticGrad) ∧
      ((kernelVar lib q).isSome = true → r.dk.run = if r.economy then lib.fdKernelOne else lib.fdKernelAll)) ∧
    (q.meanGrad = none → Plain 2 r.dm ∧ r.dm.run = if q.mean.isSome then lib.fdMean else lib.zeroMean) ∧
    (q.noiseGrad = none → Plain (if r.economy then 3 else 2) r.dV ∧
      r.dV.run = if q.noise.isSome then (if r.economy then lib.fdNoiseOne else lib.fdNoiseAll)
        else (if r.economy then lib.zeroNoiseOne else lib.zeroNoiseAll)) := by
  intro h
  unfold resolve at h
  rcases hi : initHps lib q with e | hp
  · rw [hi] at h; simp [bind, Except.bind] at h
  rw [hi] at h
  simp only [bind, Except.bind] at h
  split at h
  · simp at h
  next hd =>
  split at h
  · simp at h
  next hk =>
  split at h
  · simp at h
  next hn =>
  have hs : Sound q := by
    refine ⟨by tauto, ?_, by simpa using hn, ?_⟩
    · rcases he : q.euclidean <;> simp_all [Option.isSome_iff_ne_none]
    · rcases (initHps_iff lib q hp).1 hi with h1 | ⟨-, h2, h3, h4, h5, -⟩
      · exact Or.inl (by simp [h1])
      · exact Or.inr ⟨h2, h3, h4, h5⟩
  rw [Except.ok.injEq] at h
  subst h
  have p4 := fun run => plainSig_plain (V := V) 4 run
  have p3 := fun run => plainSig_plain (V := V) 3 run
  have p2 := fun run => plainSig_plain (V := V) 2 run
  refine ⟨hs, by first | exact hi | rfl, ?_⟩
  clear hi hd hk hn hs
  unfold usedKernel usedMean usedNoise usedEconomy
  rcases hv : kernelVar lib q with _ | kv <;> rcases hkg : q.kernelGrad with _ | kg <;> rcases hm : q.mean with _ | m <;>
    rcases hmg : q.meanGrad with _ | mg <;> rcases hno : q.noise with _ | no <;> rcases hng : q.noiseGrad with _ | ng <;>
    rcases hr : q.ramEconomy <;> rcases hnv : q.noiseVariances with _ | nv <;>
    simp [Fn.nParams, p4, p3, p2, plainSig_length]

theorem resolve_of_sound (lib : Lib V) (q : Request V) (hs : Sound q) : ∃ r, resolve lib q = .ok r := by
  have hi : ∃ h, initHps lib q = .ok h := by
    rcases hs.hps with h | ⟨h1, h2, h3, h4⟩
    · obtain ⟨h, hh⟩ := Option.isSome_iff_exists.1 h
      exact ⟨h, (initHps_iff lib q h).2 (Or.inl hh)⟩
    · rcases hh : q.hps with _ | h
      · exact ⟨_, (initHps_iff lib q _).2 (Or.inr ⟨hh, h1, h2, h3, h4, rfl⟩)⟩
      · exact ⟨h, (initHps_iff lib q h).2 (Or.inl hh)⟩
  obtain ⟨h, hi⟩ := hi
  unfold resolve
  rw [hi]
  simp only [bind, Except.bind]
  rw [if_neg (by rcases hs.distribution with h | h <;> simp [h]),
    if_neg (by rcases hs.kernel with h | h <;> simp [h, ← Option.not_isSome]),
    if_neg (by simpa using hs.noise)]
  exact ⟨_, rfl⟩

theorem construct_ok (lib : Lib V) (q : Request V) (r : Resolved V) : construct lib q = .ok r ↔ resolve lib q = .ok r ∧
    (∃ v, dispatch 2 r.mN r.mean [q.x, r.hps] r.args "No valid mean function signature" = .ok v) ∧
    (∃ v, dispatch 3 r.kN r.kernel [q.x, q.x, r.hps] r.args "No valid kernel function signature" = .ok v) ∧
    (∃ v, dispatch 2 r.vN r.noise [q.x, r.hps] r.args "No valid noise function signature." = .ok v) := by
  unfold construct
  rcases hr : resolve lib q with e | r'
  · simp [bind, Except.bind]
  simp only [bind, Except.bind, computeMean_eq, evaluateKernel_eq, computeCovariances_eq, calculateV_eq, ite_self]
  rcases h1 : dispatch 2 r'.mN r'.mean [q.x, r'.hps] r'.args "No valid mean function signature" with e | v
  · simp only [reduceCtorEq, Except.ok.injEq, false_iff]
    rintro ⟨rfl, ⟨v, hv⟩, -⟩
    simp [h1] at hv
  rcases h2 : dispatch 3 r'.kN r'.kernel [q.x, q.x, r'.hps] r'.args "No valid kernel function signature" with e | w
  · simp only [reduceCtorEq, Except.ok.injEq, false_iff]
    rintro ⟨rfl, -, ⟨v, hv⟩, -⟩
    simp [h2] at hv
  rcases h3 : dispatch 2 r'.vN r'.noise [q.x, r'.hps] r'.args "No valid noise function signature." with e | u
  · simp only [reduceCtorEq, Except.ok.injEq, false_iff]
    rintro ⟨rfl, -, -, ⟨v, hv⟩⟩
    simp [h3] at hv
  · simp only [Except.ok.injEq]
    constructor
    · rintro rfl
      exact ⟨rfl, ⟨v, h1⟩, ⟨w, h2⟩, ⟨u, h3⟩⟩
    · exact fun h => h.1

/-! ### Properties -/

/-- C159: the functions, hyperparameters and `args` in use are those of the user; where none are given, the documented defaults: the
Matern kernel, in gp2Scale the Wendland kernel of the device, the mean of the values, the noise variances or else the default noise, and
ones as hyperparameters. -/
theorem C159_chosen (lib : Lib V) (q : Request V) (r : Resolved V) (h : construct lib q = .ok r) :
    (∀ f, q.kernel = some f → r.kernel = f) ∧ (∀ f, q.mean = some f → r.mean = f) ∧ (∀ f, q.noise = some f → r.noise = f) ∧
    r.args = q.args ∧ (∀ g, q.hps = some g → r.hps = g) ∧ (q.hps = none → r.hps = lib.ones (q.dim + 1)) ∧
    (q.kernel = none → q.gp2Scale = false → r.kernel.run = lib.defaultKernel) ∧
    (q.kernel = none → q.gp2Scale = true → q.device = "cpu" → r.kernel.run = lib.wendlandCpu) ∧
    (q.kernel = none → q.gp2Scale = true → q.device = "gpu" → r.kernel.run = lib.wendlandGpu) ∧
    (q.mean = none → r.mean.run = lib.defaultMean) ∧
    (q.noise = none → r.noise.run = if q.noiseVariances.isSome then lib.measuredNoise else lib.defaultNoise) := by
  obtain ⟨hr, -⟩ := (construct_ok lib q r).1 h
  obtain ⟨-, hh, h1, -, h2, -, h3, -, h4, -⟩ := resolve_ok lib q r hr
  have hi := (initHps_iff lib q r.hps).1 hh
  rw [h1, h2, h3]
  unfold usedKernel usedMean usedNoise kernelVar
  refine ⟨fun f e => ?_, fun f e => by simp [e], fun f e => by simp [e], h4, fun g e => ?_, fun e => ?_, fun e e' => by simp [e, e'],
    fun e e' e'' => by simp [e, e', e''], fun e e' e'' => by simp [e, e', e''], fun e => by simp [e], fun e => by simp [e]⟩
  · simp [e]
  · rcases hi with hi | hi
    · exact Option.some.inj (hi.symm.trans e)
    · simp [hi.1] at e
  · rcases hi with hi | hi
    · simp [hi] at e
    · exact hi.2.2.2.2.2

/-- C159: once a GP is constructed, no later evaluation can fail because of a signature: at all points and hyperparameters, on the
client and on the workers, a function receives its compulsory arguments, and `args` as well exactly if it has one more parameter. -/
theorem C159_calls (lib : Lib V) (q : Request V) (r : Resolved V) (h : construct lib q = .ok r) (x1 x2 g : V) :
    (∀ f, q.kernel = some f → computeCovariances r x1 x2 g = f.run (received f [x1, x2, g] q.args) ∧
      evaluateKernel r.kernel x1 x2 g r.kN r.args = f.run (received f [x1, x2, g] q.args)) ∧
    (∀ f, q.mean = some f → computeMean r x1 g = f.run (received f [x1, g] q.args)) ∧
    (∀ f, q.noise = some f → calculateV r x1 g = f.run (received f [x1, g] q.args)) ∧
    (q.kernel = none → computeCovariances r x1 x2 g = r.kernel.run (received r.kernel [x1, x2, g] q.args) ∧
      evaluateKernel r.kernel x1 x2 g r.kN r.args = computeCovariances r x1 x2 g) ∧
    (q.mean = none → computeMean r x1 g = lib.defaultMean [x1, g]) ∧
    (q.noise = none → calculateV r x1 g = (if q.noiseVariances.isSome then lib.measuredNoise else lib.defaultNoise) [x1, g]) := by
  obtain ⟨hr, ⟨v, hv⟩, ⟨w, hw⟩, ⟨u, hu⟩⟩ := (construct_ok lib q r).1 h
  obtain ⟨-, -, h1, k1, h2, k2, h3, k3, h4, -⟩ := resolve_ok lib q r hr
  rw [k1, ← h1] at hw
  rw [k2, ← h2] at hv
  rw [k3, ← h3] at hu
  have u1 : Usable 3 r.kernel := usable_of_dispatch hw
  have u2 : Usable 2 r.mean := usable_of_dispatch hv
  have u3 : Usable 2 r.noise := usable_of_dispatch hu
  obtain ⟨c1, c2, c3, -⟩ := C159_chosen lib q r h
  have d1 : computeCovariances r x1 x2 g = r.kernel.run (received r.kernel [x1, x2, g] q.args) := by
    rw [computeCovariances_eq, k1, ← h1, ← h4]
    exact dispatch_usable u1
  have d1' : evaluateKernel r.kernel x1 x2 g r.kN r.args = r.kernel.run (received r.kernel [x1, x2, g] q.args) := by
    rw [evaluateKernel_eq, k1, ← h1, ← h4]
    exact dispatch_usable u1
  have d2 : computeMean r x1 g = r.mean.run (received r.mean [x1, g] q.args) := by
    rw [computeMean_eq, k2, ← h2, ← h4]
    exact dispatch_usable u2
  have d3 : calculateV r x1 g = r.noise.run (received r.noise [x1, g] q.args) := by
    rw [calculateV_eq, k3, ← h3, ← h4]
    exact dispatch_usable u3
  refine ⟨fun f e => by rw [d1, d1', c1 f e]; exact ⟨rfl, rfl⟩, fun f e => by rw [d2, c2 f e], fun f e => by rw [d3, c3 f e],
    fun _ => ⟨d1, d1'.trans d1.symm⟩, fun e => ?_, fun e => ?_⟩
  · rw [d2, h2]
    simp [usedMean, e, received, plainSig_length]
  · rw [d3, h3]
    simp only [usedNoise, e, received, plainSig_length, Option.getD_none, List.length_cons, List.length_nil]
    norm_num

/-- C159: if no function raises an exception of its own, a GP is constructed exactly if the distribution mode exists, there is a kernel
for points that are not an array, hyperparameters are given or no function is, noise is given in one way only, and the user's functions
have signatures of the documented length that Python can call with that many arguments. -/
theorem C159_accept (lib : Lib V) (q : Request V) (ht : ∀ f, q.kernel = some f ∨ q.mean = some f ∨ q.noise = some f → Total f.run)
    (hl : Total lib.defaultKernel ∧ Total lib.wendlandCpu ∧ Total lib.wendlandGpu ∧ Total lib.defaultMean ∧
      Total lib.measuredNoise ∧ Total lib.defaultNoise) :
    (∃ r, construct lib q = .ok r) ↔ Sound q ∧ (∀ f, q.kernel = some f → Usable 3 f) ∧ (∀ f, q.mean = some f → Usable 2 f) ∧
      ∀ f, q.noise = some f → Usable 2 f := by
  obtain ⟨t1, t2, t3, t4, t5, t6⟩ := hl
  constructor
  · rintro ⟨r, h⟩
    obtain ⟨hr, ⟨v, hv⟩, ⟨w, hw⟩, ⟨u, hu⟩⟩ := (construct_ok lib q r).1 h
    obtain ⟨hs, -, h1, k1, h2, k2, h3, k3, h4, -⟩ := resolve_ok lib q r hr
    rw [k1, ← h1] at hw
    rw [k2, ← h2] at hv
    rw [k3, ← h3] at hu
    obtain ⟨c1, c2, c3, -⟩ := C159_chosen lib q r h
    refine ⟨hs, fun f e => ?_, fun f e => ?_, fun f e => ?_⟩
    · rw [← c1 f e]; exact usable_of_dispatch hw
    · rw [← c2 f e]; exact usable_of_dispatch hv
    · rw [← c3 f e]; exact usable_of_dispatch hu
  · rintro ⟨hs, a1, a2, a3⟩
    obtain ⟨r, hr⟩ := resolve_of_sound lib q hs
    obtain ⟨-, -, h1, k1, h2, k2, h3, k3, h4, -⟩ := resolve_ok lib q r hr
    have b1 : Usable 3 (usedKernel lib q) ∧ Total (usedKernel lib q).run := by
      unfold usedKernel kernelVar
      rcases hk : q.kernel with _ | f
      · have p3 : ∀ run : List V → Except String V, Usable 3 ⟨plainSig 3, run⟩ :=
          fun run => (plain_usable (plainSig_plain 3 run) 3).2 (Or.inl rfl)
        have p4 : Usable 3 (V := V) ⟨plainSig 3 ++ [⟨.ordinary, true⟩], lib.wendlandGpu⟩ := ⟨Or.inr rfl, by simp [accepts, plainSig, Param.positional]⟩
        split_ifs <;> simp [p3, p4, t1, t2, t3]
      · simp [a1 f hk, ht f (Or.inl hk)]
    have b2 : Usable 2 (usedMean lib q) ∧ Total (usedMean lib q).run := by
      unfold usedMean
      rcases hk : q.mean with _ | f
      · exact ⟨(plain_usable (plainSig_plain 2 _) 2).2 (Or.inl rfl), t4⟩
      · exact ⟨a2 f hk, ht f (Or.inr (Or.inl hk))⟩
    have b3 : Usable 2 (usedNoise lib q) ∧ Total (usedNoise lib q).run := by
      unfold usedNoise
      rcases hk : q.noise with _ | f
      · refine ⟨(plain_usable (plainSig_plain 2 _) 2).2 (Or.inl rfl), ?_⟩
        simp only [Option.getD_none]
        split_ifs
        · exact t5
        · exact t6
      · exact ⟨a3 f hk, ht f (Or.inr (Or.inr hk))⟩
    refine ⟨r, (construct_ok lib q r).2 ⟨hr, ?_, ?_, ?_⟩⟩
    · rw [k2, h2]
      obtain ⟨v, hv⟩ := b2.2 (received (usedMean lib q) [q.x, r.hps] r.args)
      exact ⟨v, by rw [← hv]; exact dispatch_usable b2.1⟩
    · rw [k1, h1]
      obtain ⟨v, hv⟩ := b1.2 (received (usedKernel lib q) [q.x, q.x, r.hps] r.args)
      exact ⟨v, by rw [← hv]; exact dispatch_usable b1.1⟩
    · rw [k3, h3]
      obtain ⟨v, hv⟩ := b3.2 (received (usedNoise lib q) [q.x, r.hps] r.args)
      exact ⟨v, by rw [← hv]; exact dispatch_usable b3.1⟩

/-- C159: a function written as documented, `f(x1, x2, hyperparameters, [args])` without defaults, is usable exactly if it has the
documented number of parameters. -/
theorem C159_documented {n : ℕ} {f : Fn V} (h : Plain n f) (base : ℕ) : Usable base f ↔ n = base ∨ n = base + 1 := plain_usable h base

/-- C159 (partial): derivatives. The derivatives that the library chooses are always called with the number of arguments they take.
Derivatives written by the user for the chosen `ram_economy`, `f(x1, x2, hps)` or `f(x1, x2, hps, direction)` and so on, are called as
they are; for the noise derivative this needs a kernel, a kernel derivative, gp2Scale on a known device, or `ram_economy=False`
(see `C159_economy_violated`). -/
theorem C159_gradients_partial (lib : Lib V) (q : Request V) (r : Resolved V) (h : construct lib q = .ok r) (x1 x2 g dir : V) :
    (∀ f, q.kernelGrad = some f → Plain (if q.ramEconomy then 4 else 3) f →
      dkDh r x1 x2 g dir = f.run (if q.ramEconomy then [x1, x2, g, dir] else [x1, x2, g])) ∧
    (q.kernelGrad = none → q.kernel = none → q.gp2Scale = false → dkDh r x1 x2 g dir = lib.analyticGrad [x1, x2, g]) ∧
    (q.kernelGrad = none → q.kernel ≠ none →
      dkDh r x1 x2 g dir = if q.ramEconomy then lib.fdKernelOne [x1, x2, g, dir] else lib.fdKernelAll [x1, x2, g]) ∧
    (∀ f, q.meanGrad = some f → Plain 2 f → dmDh r x1 g = f.run [x1, g]) ∧
    (q.meanGrad = none → dmDh r x1 g = if q.mean = none then lib.zeroMean [x1, g] else lib.fdMean [x1, g]) ∧
    (∀ f, q.noiseGrad = some f → Plain (if q.ramEconomy then 3 else 2) f →
      (q.ramEconomy = false ∨ q.kernel ≠ none ∨ q.kernelGrad ≠ none ∨ (q.gp2Scale = true ∧ (q.device = "cpu" ∨ q.device = "gpu"))) →
      calculateVGrad r x1 g dir = f.run (if q.ramEconomy then [x1, g, dir] else [x1, g])) ∧
    (q.noiseGrad = none → calculateVGrad r x1 g dir =
      if r.economy then (if q.noise = none then lib.zeroNoiseOne [x1, g, dir] else lib.fdNoiseOne [x1, g, dir])
      else if q.noise = none then lib.zeroNoiseAll [x1, g] else lib.fdNoiseAll [x1, g]) := by
  obtain ⟨hr, -⟩ := (construct_ok lib q r).1 h
  obtain ⟨-, -, -, -, -, -, -, -, -, he, g1, g2, g3, g4, g5, g6⟩ := resolve_ok lib q r hr
  have kv : q.kernel ≠ none → (kernelVar lib q).isSome = true := by
    intro e
    obtain ⟨f, hf⟩ := Option.ne_none_iff_exists'.1 e
    unfold kernelVar
    rw [hf]
    split_ifs <;> rfl
  refine ⟨fun f e p => ?_, fun e e' e'' => ?_, fun e e' => ?_, fun f e p => ?_, fun e => ?_, fun f e p c => ?_, fun e => ?_⟩
  · have hq : r.economy = q.ramEconomy := by rw [he]; simp [usedEconomy, e]
    unfold dkDh
    rw [g1 f e, hq]
    rcases hb : q.ramEconomy <;> rw [hb] at p
    · exact call_usable ((accepts_plain p 3).2 rfl)
    · exact call_usable ((accepts_plain p 4).2 rfl)
  · have hn : kernelVar lib q = none := by simp [kernelVar, e', e'']
    have hq : r.economy = false := by rw [he]; simp [usedEconomy, e, hn]
    obtain ⟨p, p', -⟩ := g4 e
    rw [hq] at p
    unfold dkDh
    rw [hq, ← p' (by simp [hn])]
    exact call_usable ((accepts_plain p 3).2 rfl)
  · have hq : r.economy = q.ramEconomy := by rw [he]; simp [usedEconomy, kv e']
    obtain ⟨p, -, p'⟩ := g4 e
    have hrun := p' (kv e')
    unfold dkDh
    rw [hq] at p hrun ⊢
    rcases hb : q.ramEconomy <;> rw [hb] at p hrun
    · rw [if_neg (by simp)] at hrun ⊢
      rw [if_neg (by simp), ← hrun]
      exact call_usable ((accepts_plain p 3).2 rfl)
    · rw [if_pos rfl] at hrun ⊢
      rw [if_pos rfl, ← hrun]
      exact call_usable ((accepts_plain p 4).2 rfl)
  · unfold dmDh
    rw [g2 f e]
    exact call_usable ((accepts_plain p 2).2 rfl)
  · obtain ⟨p, p'⟩ := g5 e
    unfold dmDh
    rw [call_usable ((accepts_plain p 2).2 rfl), p']
    rcases q.mean with _ | f <;> simp
  · have hq : r.economy = q.ramEconomy := by
      rw [he]
      unfold usedEconomy
      rcases c with c | c | c | ⟨c, c'⟩
      · simp [c]
      · simp [kv c]
      · simp [Option.isSome_iff_ne_none.2 c]
      · have : (kernelVar lib q).isSome = true := by
          unfold kernelVar
          rw [c, if_pos rfl]
          rcases q.kernel with _ | k
          · rcases c' with c' | c' <;> simp [c']
          · rfl
        simp [this]
    unfold calculateVGrad
    rw [g3 f e, hq]
    rcases hb : q.ramEconomy <;> rw [hb] at p
    · exact call_usable ((accepts_plain p 2).2 rfl)
    · exact call_usable ((accepts_plain p 3).2 rfl)
  · obtain ⟨p, p'⟩ := g6 e
    unfold calculateVGrad
    rcases hb : r.economy <;> rw [hb] at p p'
    · simp only [Bool.false_eq_true, if_false] at p' ⊢
      rw [call_usable ((accepts_plain p 2).2 rfl), p']
      rcases q.noise with _ | f <;> simp
    · simp only [if_true] at p' ⊢
      rw [call_usable ((accepts_plain p 3).2 rfl), p']
      rcases q.noise with _ | f <;> simp

/-! ### Where it fails, and examples -/

/-- C159 is violated for functions with further parameters that have defaults: Python would call `k(x1, x2, hps, scale=1)` with three
arguments, but its number of parameters is four, so it always receives `args` in place of the default, whatever the GP. -/
theorem C159_default_violated (lib : Lib V) (q : Request V) (r : Resolved V) (h : construct lib q = .ok r) (f : Fn V)
    (hf : q.kernel = some f) (hsig : f.sig = plainSig 3 ++ [⟨.ordinary, true⟩]) :
    accepts f.sig 3 = true ∧ ∀ x1 x2 g, computeCovariances r x1 x2 g = f.run [x1, x2, g, q.args] := by
  refine ⟨by rw [hsig]; simp [accepts, plainSig, Param.positional], fun x1 x2 g => ?_⟩
  rw [((C159_calls lib q r h x1 x2 g).1 f hf).1]
  simp [received, hsig, plainSig]

/-- C159 is violated for functions with keyword-only parameters, such as `functools.partial(k, scale=1)` for `k(x1, x2, hps, scale)`: they
can be called with three arguments, but no GP can be constructed with them. -/
theorem C159_keyword_violated (lib : Lib V) (q : Request V) (f : Fn V) (hf : q.kernel = some f)
    (hsig : f.sig = plainSig 3 ++ [⟨.kwOnly, true⟩]) :
    accepts f.sig 3 = true ∧ ∀ r, construct lib q ≠ .ok r := by
  refine ⟨by rw [hsig]; simp [accepts, plainSig, Param.positional], fun r h => ?_⟩
  obtain ⟨hr, -, ⟨w, hw⟩, -⟩ := (construct_ok lib q r).1 h
  obtain ⟨-, -, h1, k1, -⟩ := resolve_ok lib q r hr
  rw [k1, ← h1] at hw
  have hu : Usable 3 r.kernel := usable_of_dispatch hw
  rw [(C159_chosen lib q r h).1 f hf] at hu
  have := hu.2
  rw [hsig] at this
  simp [accepts, plainSig, Param.positional] at this

/-- C159 is violated for other devices: gp2Scale with a `compute_device` that is neither `cpu` nor `gpu` takes the Matern kernel, which
is not compactly supported, although a warning announces the Wendland kernel. -/
theorem C159_device_violated (lib : Lib V) (q : Request V) (r : Resolved V) (h : construct lib q = .ok r) (hk : q.kernel = none)
    (hd : q.device ≠ "cpu") (hd' : q.device ≠ "gpu") : r.kernel.run = lib.defaultKernel := by
  obtain ⟨hr, -⟩ := (construct_ok lib q r).1 h
  obtain ⟨-, -, h1, -⟩ := resolve_ok lib q r hr
  rw [h1]
  simp [usedKernel, kernelVar, hk, hd, hd']

/-- C159 is violated for the derivative of the noise: with `ram_economy=True` and the default kernel the mode is switched off, and a
noise derivative written for it, `f(x, hps, direction)`, is called without a direction. -/
theorem C159_economy_violated (lib : Lib V) (q : Request V) (r : Resolved V) (h : construct lib q = .ok r) (hk : q.kernel = none)
    (hg : q.gp2Scale = false) (hkg : q.kernelGrad = none) (f : Fn V) (hf : q.noiseGrad = some f) (hp : Plain 3 f) (x g dir : V) :
    calculateVGrad r x g dir = .error "TypeError" := by
  obtain ⟨hr, -⟩ := (construct_ok lib q r).1 h
  obtain ⟨-, -, -, -, -, -, -, -, -, he, -, -, g3, -⟩ := resolve_ok lib q r hr
  have hq : r.economy = false := by rw [he]; simp [usedEconomy, kernelVar, hk, hg, hkg]
  unfold calculateVGrad
  rw [g3 f hf, hq]
  have : accepts f.sig [x, g].length ≠ true := fun h' => by simpa using (accepts_plain hp _).1 h'
  simp only [Bool.false_eq_true, if_false, Fn.call, if_neg this]

/-- C159 is violated for derivatives in general: their signatures are not looked at, and they never receive `args`. A derivative
`dk(x1, x2, hps, direction, args)` of a kernel with `args` is accepted, and every evaluation of it fails. -/
theorem C159_derivative_violated (lib : Lib V) (q : Request V) (r : Resolved V) (h : construct lib q = .ok r) (f : Fn V)
    (hf : q.kernelGrad = some f) (hp : Plain 5 f) (x1 x2 g dir : V) : dkDh r x1 x2 g dir = .error "TypeError" := by
  obtain ⟨hr, -⟩ := (construct_ok lib q r).1 h
  obtain ⟨-, -, -, -, -, -, -, -, -, -, g1, -⟩ := resolve_ok lib q r hr
  unfold dkDh
  rw [g1 f hf]
  have a4 : accepts f.sig [x1, x2, g, dir].length ≠ true := fun h' => by simpa using (accepts_plain hp _).1 h'
  have a3 : accepts f.sig [x1, x2, g].length ≠ true := fun h' => by simpa using (accepts_plain hp _).1 h'
  unfold Fn.call
  rw [if_neg a4, if_neg a3]
  simp

/-- A library on natural numbers. -/
def toyLib : Lib ℕ where
  defaultKernel l := .ok l.sum
  wendlandCpu l := .ok (l.sum + 1)
  wendlandGpu l := .ok (l.sum + 2)
  defaultMean _ := .ok 0
  measuredNoise _ := .ok 1
  defaultNoise _ := .ok 2
  analyticGrad _ := .ok 3
  fdKernelOne _ := .ok 4
  fdKernelAll _ := .ok 5
  fdMean _ := .ok 6
  zeroMean _ := .ok 0
  fdNoiseOne _ := .ok 7
  fdNoiseAll _ := .ok 8
  zeroNoiseOne _ := .ok 0
  zeroNoiseAll _ := .ok 0
  ones d := d

/-- A request with a kernel of the given signature that adds up its arguments, `args = 100`. -/
def toyRequest (sig : List Param) : Request ℕ :=
  ⟨some ⟨sig, fun l => .ok l.sum⟩, none, none, none, none, none, none, some 7, 100, 10, true, 1, false, "cpu", "blockwise", false⟩

theorem toy_accept (sig : List Param) (h : Usable 3 (⟨sig, fun l => .ok l.sum⟩ : Fn ℕ)) : ∃ r, construct toyLib (toyRequest sig) = .ok r := by
  refine (C159_accept toyLib _ ?_ ⟨fun l => ⟨_, rfl⟩, fun l => ⟨_, rfl⟩, fun l => ⟨_, rfl⟩, fun l => ⟨_, rfl⟩, fun l => ⟨_, rfl⟩,
    fun l => ⟨_, rfl⟩⟩).2 ⟨⟨Or.inl rfl, Or.inl rfl, by simp [toyRequest], Or.inl rfl⟩, ?_, by simp [toyRequest], by simp [toyRequest]⟩
  · rintro f (e | e | e)
    · rw [← Option.some.inj e]; exact fun l => ⟨_, rfl⟩
    · exact absurd e (by simp [toyRequest])
    · exact absurd e (by simp [toyRequest])
  · intro f e
    rw [← Option.some.inj e]
    exact h

/-- A kernel with three parameters and one with four: the second receives `args`. -/
example : (∃ r, construct toyLib (toyRequest (plainSig 3)) = .ok r ∧ computeCovariances r 1 2 3 = .ok 6) ∧
    ∃ r, construct toyLib (toyRequest (plainSig 4)) = .ok r ∧ computeCovariances r 1 2 3 = .ok 106 := by
  obtain ⟨r, hr⟩ := toy_accept (plainSig 3) ((C159_documented (plainSig_plain 3 _) 3).2 (Or.inl rfl))
  obtain ⟨s, hs⟩ := toy_accept (plainSig 4) ((C159_documented (plainSig_plain 4 _) 3).2 (Or.inr rfl))
  exact ⟨⟨r, hr, ((C159_calls _ _ r hr 1 2 3).1 _ rfl).1⟩, ⟨s, hs, ((C159_calls _ _ s hs 1 2 3).1 _ rfl).1⟩⟩

/-- The signature of `C159_default_violated` is accepted: the kernel returns 106 where `k(1, 2, 3)` is 6. -/
example : ∃ r, construct toyLib (toyRequest (plainSig 3 ++ [⟨.ordinary, true⟩])) = .ok r ∧ computeCovariances r 1 2 3 = .ok 106 := by
  obtain ⟨r, hr⟩ := toy_accept (plainSig 3 ++ [⟨.ordinary, true⟩]) ⟨Or.inr rfl, by simp [accepts, plainSig, Param.positional]⟩
  exact ⟨r, hr, (C159_default_violated _ _ r hr _ rfl rfl).2 1 2 3⟩

/-- A request without functions: gp2Scale on an unknown device, and a noise derivative for `ram_economy`. -/
def toyDefaults (scale economy : Bool) (device : String) : Request ℕ :=
  ⟨none, none, none, none, none, some ⟨plainSig 3, fun l => .ok l.sum⟩, some 1, none, 100, 10, true, 2, scale, device, "rowwise", economy⟩

theorem toyDefaults_accept (scale economy : Bool) (device : String) : ∃ r, construct toyLib (toyDefaults scale economy device) = .ok r :=
  (C159_accept toyLib _ (by simp [toyDefaults]) ⟨fun l => ⟨_, rfl⟩, fun l => ⟨_, rfl⟩, fun l => ⟨_, rfl⟩, fun l => ⟨_, rfl⟩,
    fun l => ⟨_, rfl⟩, fun l => ⟨_, rfl⟩⟩).2 ⟨⟨Or.inr rfl, Or.inl rfl, by simp [toyDefaults], Or.inr ⟨rfl, rfl, rfl, rfl⟩⟩,
    by simp [toyDefaults], by simp [toyDefaults], by simp [toyDefaults]⟩

/-- gp2Scale: the Wendland kernel on the CPU, the dense kernel on a `tpu`; and ones as hyperparameters. -/
example : (∃ r, construct toyLib (toyDefaults true false "cpu") = .ok r ∧ r.kernel.run [1, 2] = .ok 4 ∧ r.hps = 3) ∧
    ∃ r, construct toyLib (toyDefaults true false "tpu") = .ok r ∧ r.kernel.run [1, 2] = .ok 3 := by
  obtain ⟨r, hr⟩ := toyDefaults_accept true false "cpu"
  obtain ⟨s, hs⟩ := toyDefaults_accept true false "tpu"
  obtain ⟨-, -, -, -, -, c6, -, c8, -⟩ := C159_chosen _ _ r hr
  refine ⟨⟨r, hr, ?_, c6 rfl⟩, s, hs, ?_⟩
  · rw [c8 rfl rfl rfl]; rfl
  · rw [C159_device_violated _ _ s hs rfl (by simp [toyDefaults]) (by simp [toyDefaults])]; rfl

/-- `ram_economy=True`: the noise derivative works in gp2Scale, where a kernel is found, and fails with the default kernel. -/
example : (∃ r, construct toyLib (toyDefaults true true "cpu") = .ok r ∧ calculateVGrad r 1 2 3 = .ok 6) ∧
    ∃ r, construct toyLib (toyDefaults false true "cpu") = .ok r ∧ calculateVGrad r 1 2 3 = .error "TypeError" := by
  obtain ⟨r, hr⟩ := toyDefaults_accept true true "cpu"
  obtain ⟨s, hs⟩ := toyDefaults_accept false true "cpu"
  refine ⟨⟨r, hr, ?_⟩, s, hs, C159_economy_violated _ _ s hs rfl rfl rfl _ rfl (plainSig_plain 3 _) 1 2 3⟩
  obtain ⟨-, -, -, -, -, g, -⟩ := C159_gradients_partial _ _ r hr 1 1 2 3
  exact g _ rfl (plainSig_plain 3 _) (Or.inr (Or.inr (Or.inr ⟨rfl, Or.inl rfl⟩)))

/-- A derivative with five parameters is accepted, then fails. -/
example : ∃ r, construct toyLib { toyRequest (plainSig 4) with kernelGrad := some ⟨plainSig 5, fun _ => .ok 0⟩ } = .ok r ∧
    dkDh r 1 2 3 0 = .error "TypeError" := by
  refine ⟨_, rfl, ?_⟩
  exact C159_derivative_violated toyLib { toyRequest (plainSig 4) with kernelGrad := some ⟨plainSig 5, fun _ => .ok 0⟩ } _ rfl _ rfl
    (plainSig_plain 5 _) 1 2 3 0

/-- A keyword-only parameter is refused. -/
example (r : Resolved ℕ) : construct toyLib (toyRequest (plainSig 3 ++ [⟨.kwOnly, true⟩])) ≠ .ok r :=
  (C159_keyword_violated toyLib _ _ rfl rfl).2 r

end Verif.Resolve
