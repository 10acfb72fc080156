import Verif.Ggmp.DensModel
import Verif.Ggmp.PackModel
import Mathlib.Analysis.Real.Pi.Bounds
import Mathlib.Data.List.FinRange

/-!
Model of the work flow of the class `GGMP`: construction, `initLikelihoods`, `initGPs`, `train` and the guards of the posterior
methods.

Simplifications: exact reals; a float of a hyperparameter vector or a weight is `Option ℝ` with `none` for NaN. The number `K` of
components is a parameter of the object type and is not changed afterwards. `x_data` appears only by its length. A component GP is
its values, its noise variances and its hyperparameters; what `GP.__init__`, `GP.set_hyperparameters` and `GP.train` may refuse or
return is a parameter, and so are the posterior mean and variance at the stations. Keyword arguments of the GPs and devices are in
`DeviceModel`. Printing is left out. A method returns the object as it is afterwards and its result or exception.
-/

namespace Verif.Ggmp

open Finset

/-- An attribute of the instance. A missing attribute is found by `__getattr__`, ggmp.py:125-128: it is a function that prints a
message, so `hasattr` is always true and the value of a missing attribute is true in a condition. -/
inductive Attr (α : Type) where
  | absent
  | here (a : α)

/-- A `NormalLikelihood` with its weight, ggmp.py:862-894. -/
structure LikW where
  mean : List ℝ
  variance : List ℝ
  weight : Option ℝ

/-- A component GP. -/
structure CompGp where
  y : List ℝ
  noise : List ℝ
  hps : List (Option ℝ)

/-- A `GGMP` object. -/
structure Ggmp (K : ℕ) where
  len : ℕ
  stations : List Station
  obj : HpsObj (Option ℝ) (ℝ × ℝ)
  liks : Attr (Fin K → LikW)
  gps : Attr (Fin K → CompGp)

variable {K : ℕ}

/-- `GGMP.__init__`, ggmp.py:104-123, `len` is `len(x_data)`. -/
def Ggmp.new (len : ℕ) (stations : List Station) (obj : HpsObj (Option ℝ) (ℝ × ℝ)) : Except String (Ggmp K) :=
  if len ≠ stations.length then .error "AssertionError: x_data and y_data have different lengths"
  else .ok ⟨len, stations, obj, .absent, .absent⟩

/-- `np.mean(domain)` of `n` entries. -/
noncomputable def avg (n : ℕ) (x : ℕ → ℝ) : ℝ := (∑ i ∈ range n, x i) / n

/-- The density of a station after broadcasting against the domain: an array of length one is repeated. -/
def Station.dens (s : Station) (i : ℕ) : ℝ := if s.n' = 1 then s.d 0 else s.d i

/-- The loop body over the stations, ggmp.py:184-198: mean and variance of one empirical density. -/
noncomputable def stationMoments (s : Station) : Except String (ℝ × ℝ) :=
  if s.n < 2 then .error "ValueError: Shape of array too small to calculate a numerical gradient"
  else if s.n' ≠ s.n ∧ s.n' ≠ 1 then .error "ValueError: operands could not be broadcast together"
  else
    let mass := fun i => pos s.dens i * spacing s.n s.x i
    let z := ∑ i ∈ range s.n, mass i
    if z ≤ 0 then
      let mu := avg s.n s.x
      .ok (mu, max (avg s.n fun i => (s.x i - mu) ^ 2) (1 / 10 ^ 6))
    else
      let p := fun i => mass i / z
      let mu := ∑ i ∈ range s.n, p i * s.x i
      .ok (mu, max (∑ i ∈ range s.n, p i * (s.x i - mu) ^ 2) (1 / 10 ^ 6))

/-- `np.linspace(-1.0, 1.0, K)`: for one point the start of the interval. -/
noncomputable def offset (K : ℕ) (k : ℕ) : ℝ := if K = 1 then -1 else -1 + k * (2 / ((K : ℝ) - 1))

/-- `initLikelihoods`, ggmp.py:147-222. If `weights` is too short, Python keeps the likelihoods built before the exception; the model
keeps the old ones. -/
noncomputable def Ggmp.initLikelihoods (g : Ggmp K) (initMean initStd : Option (List (List ℝ))) (weights : Option (List ℝ)) :
    Ggmp K × Except String Unit :=
  if ∃ l, initMean = some l ∧ l.length ≠ K then (g, .error "AssertionError: init_mean length")
  else if ∃ l, initStd = some l ∧ l.length ≠ K then (g, .error "AssertionError: init_std length")
  else
    match g.stations.mapM stationMoments with
    | .error e => (g, .error e)
    | .ok ms =>
        let mean : Fin K → List ℝ := fun k => initMean.elim (ms.map fun m => m.1 + offset K k) fun l => l.getD k []
        let std : Fin K → List ℝ := fun k => initStd.elim (ms.map fun m => √m.2) fun l => l.getD k []
        match weights with
        | some w =>
            if w.length < K then (g, .error "IndexError")
            else ({ g with liks := .here fun k => ⟨mean k, (std k).map (· ^ 2), some (w.getD k 0)⟩ }, .ok ())
        | none => ({ g with liks := .here fun k => ⟨mean k, (std k).map (· ^ 2), some (1 / (K : ℝ))⟩ }, .ok ())

/-- `_make_component_gp`, ggmp.py:384-436, without the keyword arguments: `refuse` is the exception of `GP.__init__`, if any. -/
noncomputable def makeComponent (refuse : List ℝ → List ℝ → List (Option ℝ) → Option String) (l : LikW) (hps : List (List (Option ℝ)))
    (k : ℕ) : Except String CompGp := do
  let h ← index hps k
  if h = [] then .error "IndexError"
  else if l.mean = [] then .error "IndexError"
  else
    let h' := h.dropLast ++ [some (l.mean.sum / l.mean.length)]
    match refuse l.mean l.variance h' with
    | some e => .error e
    | none => .ok ⟨l.mean, l.variance, h'⟩

/-- The list comprehension of ggmp.py:439: the components in order, until the first exception. -/
noncomputable def makeComponents (refuse : List ℝ → List ℝ → List (Option ℝ) → Option String) (liks : Fin K → LikW)
    (hps : List (List (Option ℝ))) : Except String (List CompGp) :=
  (List.finRange K).mapM fun k => makeComponent refuse (liks k) hps k

/-- `initGPs`, ggmp.py:381-382 and 438-453. A list of likelihoods is false in a condition if it is empty. -/
noncomputable def Ggmp.initGPs (refuse : List ℝ → List ℝ → List (Option ℝ) → Option String) (g : Ggmp K) : Ggmp K × Except String Unit :=
  match g.liks with
  | .absent =>
      if K = 0 then
        let r := g.obj.set g.obj.weights []
        ({ g with gps := .here fun _ => ⟨[], [], []⟩, obj := r.1 }, r.2)
      else (g, .error "TypeError: 'function' object is not subscriptable")
  | .here liks =>
      if K = 0 then (g, .error "ValueError: Initialize likelihoods first (call initLikelihoods).")
      else
        match makeComponents refuse liks g.obj.hps with
        | .error e => (g, .error e)
        | .ok l =>
            let gps : Fin K → CompGp := fun k => l.getD k ⟨[], [], []⟩
            let r := g.obj.set g.obj.weights (List.ofFn fun k => (gps k).hps)
            ({ g with gps := .here gps, obj := r.1 }, r.2)

/-- What `GP.set_hyperparameters` and `GP.train` of component `k` do: refuse the start, raise, or return hyperparameters. -/
structure Trainer (K : ℕ) where
  setRefuse : Fin K → List (Option ℝ) → Option String
  opt : Fin K → List (ℝ × ℝ) → List (Option ℝ) → Except String (List (Option ℝ))

/-- `init_hps` of component `k`, ggmp.py:635-636. -/
def startOf (init : Option (List (List (Option ℝ)))) (k : ℕ) (gp : CompGp) : Except String (List (Option ℝ)) :=
  match init with
  | some l => index l k
  | none => .ok gp.hps

/-- One pass of the loop of phase 1, ggmp.py:633-639, with `_safe_set_hyperparameters`, ggmp.py:545-569: nothing is set if the
hyperparameters are equal (`np.array_equal`, so never if there is a NaN). -/
noncomputable def trainOne (t : Trainer K) (obj : HpsObj (Option ℝ) (ℝ × ℝ)) (bounds : Option (List (List (ℝ × ℝ))))
    (init : Option (List (List (Option ℝ)))) (k : Fin K) (gp : CompGp) : CompGp × Except String Unit :=
  match index (bounds.getD obj.hpsBounds) k with
  | .error e => (gp, .error e)
  | .ok b =>
      match startOf init k gp with
      | .error e => (gp, .error e)
      | .ok h =>
          if gp.hps = h ∧ (∀ x ∈ h, x ≠ none) then
            match t.opt k b h with
            | .error e => (gp, .error e)
            | .ok h' => ({ gp with hps := h' }, .ok ())
          else
            match t.setRefuse k h with
            | some e => (gp, .error e)
            | none =>
                match t.opt k b h with
                | .error e => ({ gp with hps := h }, .error e)
                | .ok h' => ({ gp with hps := h' }, .ok ())

/-- The loop of phase 1, ggmp.py:632-639, over the remaining components. -/
noncomputable def phase1 (t : Trainer K) (obj : HpsObj (Option ℝ) (ℝ × ℝ)) (bounds : Option (List (List (ℝ × ℝ))))
    (init : Option (List (List (Option ℝ)))) : List (Fin K) → (Fin K → CompGp) → (Fin K → CompGp) × Except String Unit
  | [], g => (g, .ok ())
  | k :: ks, g =>
      let r := trainOne t obj bounds init k (g k)
      match r.2 with
      | .error e => (Function.update g k r.1, .error e)
      | .ok _ => phase1 t obj bounds init ks (Function.update g k r.1)

/-- `norm.logpdf(x, loc=mu, scale=sigma)`. -/
noncomputable def normLogPdf (mu sigma x : ℝ) : ℝ := -((x - mu) / sigma) ^ 2 / 2 - Real.log (√(2 * Real.pi)) - Real.log sigma

/-- `prepare_station_terms_density`, ggmp.py:2301-2342: `pred k i` is the posterior mean and variance of component `k` at station
`i`. -/
noncomputable def densityRows (pred : (Fin K → CompGp) → Fin K → ℕ → ℝ × ℝ) (gps : Fin K → CompGp) (liks : Fin K → LikW)
    (stations : List Station) : Except String (List (Row K)) :=
  stationRows (fun i x k =>
    let var := max (pred gps k i).2 0 + max ((liks k).variance.getD i 0) (1 / 10 ^ 9)
    normLogPdf (pred gps k i).1 (√(max var (1 / 10 ^ 12))) x) 0 stations

/-- The arguments of `train` that concern the weights; `rows` are the terms of the sample objective, ggmp.py:658-672 and
1619-1625. -/
structure WeightArgs (K : ℕ) where
  trainWeights : Bool
  method : String
  maxIter : ℕ
  tol : ℝ
  floor : ℝ
  sampleRows : Option ((Fin K → CompGp) → Except String (List (Row K)))

/-- The weights as a vector; `none` if one of them is NaN. -/
noncomputable def weightVec (liks : Fin K → LikW) : Option (Fin K → ℝ) :=
  open Classical in if ∀ k, (liks k).weight ≠ none then some fun k => ((liks k).weight).getD 0 else none

/-- `w_opt`, ggmp.py:643-684: an exception, or the weights with `none` for NaN. -/
noncomputable def newWeights (a : WeightArgs K) (pred : (Fin K → CompGp) → Fin K → ℕ → ℝ × ℝ) (gps : Fin K → CompGp)
    (liks : Fin K → LikW) (stations : List Station) : Except String (Option (Fin K → ℝ)) :=
  if a.method = "density" then do
    let rows ← densityRows pred gps liks stations
    match weightVec liks with
    | none => .ok none
    | some w0 => .ok (em .density a.floor a.tol a.maxIter (some w0) rows).1
  else if a.method = "samples" then
    match a.sampleRows with
    | none => .error "ValueError: y_samples must be provided when weight_method='samples'."
    | some f => do
        let rows ← f gps
        match weightVec liks with
        | none => .ok none
        | some w0 => .ok (em .samples a.floor a.tol a.maxIter (some w0) rows).1
  else .error "ValueError: Unknown weight_method"

/-- `GGMP.train`, ggmp.py:628-693. -/
noncomputable def Ggmp.train (t : Trainer K) (pred : (Fin K → CompGp) → Fin K → ℕ → ℝ × ℝ) (bounds : Option (List (List (ℝ × ℝ))))
    (init : Option (List (List (Option ℝ)))) (a : WeightArgs K) (g : Ggmp K) : Ggmp K × Except String (List (List (Option ℝ))) :=
  match g.gps, g.liks with
  | .absent, _ => (g, .error "TypeError: 'function' object is not iterable")
  | .here _, .absent =>
      if K = 0 then (g, .error "ValueError: Call initGPs() before training.")
      else (g, .error "TypeError: 'function' object is not subscriptable")
  | .here gps, .here liks =>
      if K = 0 then (g, .error "ValueError: Call initGPs() before training.")
      else
        let p := phase1 t g.obj bounds init (List.finRange K) gps
        match p.2 with
        | .error e => ({ g with gps := .here p.1 }, .error e)
        | .ok _ =>
            let synced := List.ofFn fun k => (p.1 k).hps
            let w := if a.trainWeights then newWeights a pred p.1 liks g.stations else .ok (weightVec liks)
            match w with
            | .error e => ({ g with gps := .here p.1 }, .error e)
            | .ok v =>
                let liks' : Fin K → LikW :=
                  if a.trainWeights then fun k => { liks k with weight := v.map fun w => w k } else liks
                let r := g.obj.set (List.ofFn fun k => (liks' k).weight) synced
                let g' : Ggmp K := { g with gps := .here p.1, liks := .here liks', obj := r.1 }
                match r.2 with
                | .error e => (g', .error e)
                | .ok _ => (g', .ok synced)

/-- The guard of `posterior_mean` and `posterior_variance`, ggmp.py:719-721 and 760-762, with the reading of the weights. -/
def Ggmp.guard (g : Ggmp K) : Except String Unit :=
  match g.gps, g.liks with
  | .here _, .here _ => if K = 0 then .error "ValueError: Call initGPs() before evaluating the posterior." else .ok ()
  | .here _, .absent => if K = 0 then .error "ValueError: Call initGPs() before evaluating the posterior."
      else .error "TypeError: 'function' object is not subscriptable"
  | .absent, .absent => if K = 0 then .error "TypeError: 'function' object is not iterable"
      else .error "TypeError: 'function' object is not subscriptable"
  | .absent, .here _ => .error "TypeError: 'function' object is not iterable"

end Verif.Ggmp
