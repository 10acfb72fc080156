import Verif.Train.SeqProps

/-!
C43: pickling. Model of every `__getstate__`/`__setstate__` pair of the classes a GP is made of:
gp.py:2253-2266, fvgp.py:663-671, gp_data.py:124-153, gp_prior.py:477-500, gp_likelihood.py:146-158,
gp_kv.py:718-765, gp_marginal_likelihood.py:370-384, gp_training.py:675-691, gp_posterior.py:608-620.

An object is its `__dict__`. Attribute values are an arbitrary type `V` with a `None`; references to other objects are
values like any other (pickle keeps the reference structure). That the values themselves survive (arrays, dictionaries,
picklable callables) is the business of pickle and is assumed.
-/

namespace Verif.Train.Pickle

inductive Cls where
  | gp | fvgp | data | trainer | prior | likelihood | kv | ml | posterior
deriving DecidableEq

/-- Attribute names, as in the code. -/
inductive Attr where
  | data | prior | likelihood | kv | marginal_likelihood | trainer | posterior | output_num
  | x_data | y_data | noise_variances | Euclidean | index_set_dim | input_set_dim | x_new | y_new | noise_variances_new
  | x_old | y_old | noise_variances_old | point_number | fvgp_x_data | fvgp_y_data | fvgp_noise_variances | x_out | args
  | ram_economy | gp2Scale | compute_device | dask_client | compute_workers
  | mcmc_info | bo_info | hyperparameters
  | kernel_function | prior_mean_function | m_n_params | k_n_params | batch_size | gp2Scale_distribution | kernel
  | d_kernel_dx | dk_dh | mean_function | dm_dh | m | K | x_data_scatter_future | default_mean
  | V | noise_function | noise_function_grad | v_n_params
  | mode | linalg_mode | KVinv | KV | Chol_factor | LU_factor | KVinvY | cached_solve | cached_precond
  | Preconditioner_factor | Preconditioner_operator | Preconditioner_signature | Preconditioner_KV_shape
  | Preconditioner_reuse_counter | Last_preconditioner_error | custom_obj | allowed_modes | last_logdet_variance
  | last_logdet_info | Preconditioner_fingerprint | Warm_start_fingerprint | logdet_KV
  | warm_start_KVinvY | noise_function_available
deriving DecidableEq

open Attr

/-- The attributes the class assigns anywhere in its code: gp.py:483-570, fvgp.py:504, gp_data.py:29-59,
gp_training.py:15-18, gp_prior.py:23-99, gp_likelihood.py:15-52, gp_kv.py:101-146 and 422,
gp_marginal_likelihood.py:15-23, gp_posterior.py:16-21. All of them are set by the constructor. -/
def assigned : Cls → List Attr
  | .gp => [data, trainer, prior, likelihood, kv, marginal_likelihood, posterior]
  | .fvgp => [output_num, data, trainer, prior, likelihood, kv, marginal_likelihood, posterior]
  | .data => [index_set_dim, input_set_dim, Euclidean, x_data, y_data, noise_variances, x_new, y_new,
      noise_variances_new, x_old, y_old, noise_variances_old, point_number, fvgp_x_data, fvgp_y_data,
      fvgp_noise_variances, x_out, args, ram_economy, gp2Scale, compute_device, dask_client, compute_workers]
  | .trainer => [mcmc_info, bo_info, data, hyperparameters]
  | .prior => [kernel_function, prior_mean_function, batch_size, gp2Scale_distribution, data, trainer, k_n_params, kernel,
      d_kernel_dx, dk_dh, m_n_params, default_mean, mean_function, dm_dh, x_data_scatter_future, m, K]
  | .likelihood => [data, trainer, v_n_params, noise_function, noise_function_grad, V]
  | .kv => [data, prior, likelihood, last_logdet_variance, last_logdet_info, Preconditioner_fingerprint,
      Warm_start_fingerprint, linalg_mode, KVinv, KV, Chol_factor, LU_factor, logdet_KV, custom_obj, cached_solve,
      cached_precond, Preconditioner_factor, Preconditioner_operator, Preconditioner_signature, Preconditioner_KV_shape,
      Preconditioner_reuse_counter, Last_preconditioner_error, allowed_modes, mode, KVinvY]
  | .ml => [data, prior, likelihood, trainer, kv, warm_start_KVinvY]
  | .posterior => [kv, prior, likelihood, data, trainer, noise_function_available]

/-- Where an entry of the pickled state comes from. -/
inductive Source where
  | keep | none | withoutSurrogate
deriving DecidableEq

def keeps (l : List Attr) : List (Attr × Source) := l.map fun a => (a, .keep)

/-- The dictionaries built by the `__getstate__` methods, entry by entry. -/
def stateKeys : Cls → List (Attr × Source)
  | .gp => keeps [data, prior, likelihood, kv, marginal_likelihood, trainer, posterior]
  | .fvgp => keeps [output_num, data, prior, likelihood, kv, marginal_likelihood, trainer, posterior]
  | .data => keeps [x_data, y_data, noise_variances, Euclidean, index_set_dim, x_new, y_new, noise_variances_new, x_old,
      y_old, noise_variances_old, point_number, fvgp_x_data, fvgp_y_data, fvgp_noise_variances, x_out, input_set_dim,
      args, ram_economy, gp2Scale, compute_device] ++ [(dask_client, .none)] ++ keeps [compute_workers]
  | .trainer => [(data, .keep), (mcmc_info, .keep), (bo_info, .withoutSurrogate), (hyperparameters, .keep)]
  | .prior => keeps [kernel_function, prior_mean_function, m_n_params, k_n_params, batch_size, gp2Scale_distribution, data,
      trainer, kernel, d_kernel_dx, dk_dh, mean_function, dm_dh, m, K] ++ [(x_data_scatter_future, .none)]
      ++ keeps [default_mean]
  | .likelihood => keeps [data, trainer, V, noise_function, noise_function_grad, v_n_params]
  | .kv => keeps [mode, linalg_mode, data, prior, likelihood, KVinv, KV, Chol_factor, LU_factor, KVinvY, cached_solve,
      cached_precond] ++ [(Preconditioner_factor, .none), (Preconditioner_operator, .none)]
      ++ keeps [Preconditioner_signature, Preconditioner_KV_shape, Preconditioner_reuse_counter,
        Last_preconditioner_error, custom_obj, allowed_modes, last_logdet_variance, last_logdet_info,
        Preconditioner_fingerprint, Warm_start_fingerprint, logdet_KV]
  | .ml => keeps [data, prior, likelihood, trainer, kv, warm_start_KVinvY]
  | .posterior => keeps [prior, likelihood, data, trainer, noise_function_available, kv]

/-- An object: its `__dict__` as a partial map. -/
abbrev Obj (V : Type) := Attr → Option V

/-- The values pickle deals with: `None`, and the removal of the entry `"surrogate"` from a dictionary
(gp_training.py:679-681; the identity on anything else). -/
structure Values (V : Type) where
  none : V
  dropSurrogate : V → V

/-- `__getstate__`: building the dictionary raises `AttributeError` when an attribute is missing. -/
def getstate {V : Type} (vs : Values V) (c : Cls) (o : Obj V) : Except String (List (Attr × V)) :=
  (stateKeys c).mapM fun (a, s) =>
    match s with
    | .none => .ok (a, vs.none)
    | .keep => match o a with
      | some v => .ok (a, v)
      | Option.none => .error "AttributeError"
    | .withoutSurrogate => match o a with
      | some v => .ok (a, vs.dropSurrogate v)
      | Option.none => .error "AttributeError"

/-- `__setstate__`: `self.__dict__.update(state)` on a new object. The defaults added afterwards (gp_kv.py:754-765,
gp_marginal_likelihood.py:383-384) are for attributes missing from old files; they concern names listed here, which are
present. -/
def setstate {V : Type} (state : List (Attr × V)) : Obj V := fun a => state.lookup a

/-- Saving and loading one object. -/
def roundTrip {V : Type} (vs : Values V) (c : Cls) (o : Obj V) : Except String (Obj V) := do
  let st ← getstate vs c o
  .ok (setstate st)

/-- A GP is one object of each class. -/
abbrev Graph (V : Type) := Cls → Obj V

def roundTripAll {V : Type} (vs : Values V) (g : Graph V) (c : Cls) : Except String (Obj V) := roundTrip vs c (g c)

/-! ### Specification -/

/-- Runtime objects that are not saved. -/
def Dropped (c : Cls) (a : Attr) : Prop :=
  (c = .data ∧ a = dask_client) ∨ (c = .prior ∧ a = x_data_scatter_future)
    ∨ (c = .kv ∧ (a = Preconditioner_factor ∨ a = Preconditioner_operator))

instance (c : Cls) (a : Attr) : Decidable (Dropped c a) := by unfold Dropped; infer_instance

/-- Attribute assignments are the only changes; none deletes an attribute. -/
inductive Reachable {V : Type} (c : Cls) : Obj V → Prop where
  | constructed (o : Obj V) (h : ∀ a, a ∈ assigned c ↔ (o a).isSome) : Reachable c o
  | assign (o : Obj V) (a : Attr) (v : V) (ha : a ∈ assigned c) (h : Reachable c o) :
      Reachable c (fun b => if b = a then some v else o b)

theorem reachable_complete {V : Type} {c : Cls} {o : Obj V} (h : Reachable c o) (a : Attr) :
    a ∈ assigned c ↔ (o a).isSome := by
  induction h with
  | constructed o h => exact h a
  | assign o b v hb _ ih =>
    by_cases hab : a = b
    · subst hab; simp [hb]
    · simp only [if_neg hab]; exact ih

def sourceOf (c : Cls) (a : Attr) : Source :=
  if Dropped c a then .none else if c = .trainer ∧ a = bo_info then .withoutSurrogate else .keep

/-- Every saved entry names an attribute of the class and every attribute is saved, with the right source. -/
theorem stateKeys_complete (c : Cls) :
    (∀ e ∈ stateKeys c, e.1 ∈ assigned c ∧ e.2 = sourceOf c e.1)
      ∧ (∀ a ∈ assigned c, (a, sourceOf c a) ∈ stateKeys c) ∧ ((stateKeys c).map Prod.fst).Nodup := by
  cases c <;> decide

theorem mapM_ok {A B : Type} (f : A → Except String B) (g : A → B) :
    ∀ l : List A, (∀ a ∈ l, f a = .ok (g a)) → l.mapM f = .ok (l.map g)
  | [], _ => rfl
  | a :: l, h => by
    rw [List.mapM_cons, h a (by simp), mapM_ok f g l (fun b hb => h b (by simp [hb]))]
    rfl

theorem lookup_of_mem {V : Type} : ∀ (l : List (Attr × V)), (l.map Prod.fst).Nodup → ∀ a v, (a, v) ∈ l →
    l.lookup a = some v
  | [], _, _, _, h => by simp at h
  | (b, w) :: l, hn, a, v, h => by
    rw [List.lookup_cons]
    rw [List.map_cons, List.nodup_cons] at hn
    rcases List.mem_cons.mp h with h | h
    · obtain ⟨rfl, rfl⟩ := Prod.mk.inj h; simp
    · have : a ≠ b := by
        intro hab; rw [← hab] at hn; exact hn.1 (List.mem_map.mpr ⟨(a, v), h, rfl⟩)
      have : (a == b) = false := by simpa using this
      rw [this]; exact lookup_of_mem l hn.2 a v h

theorem lookup_none {V : Type} : ∀ (l : List (Attr × V)) (a : Attr), a ∉ l.map Prod.fst → l.lookup a = none
  | [], _, _ => rfl
  | (b, w) :: l, a, h => by
    rw [List.lookup_cons]
    have : (a == b) = false := by simpa using (fun hh => h (by simp [hh]) : a ≠ b)
    rw [this]; exact lookup_none l a (fun hh => h (by simp at hh ⊢; right; exact hh))

/-- C43. Saving and restoring any object of a GP in any reachable state succeeds. The restored object has exactly the
attributes the class defines; runtime objects (client, scattered data, preconditioner) are `None`, the Bayesian
optimisation record loses its surrogate, and every other attribute has its old value. -/
theorem C43_round_trip {V : Type} (vs : Values V) (c : Cls) (o : Obj V) (h : Reachable c o) :
    ∃ o', roundTrip vs c o = .ok o' ∧
      ∀ a, o' a = if a ∉ assigned c then none
        else if Dropped c a then some vs.none
        else if c = .trainer ∧ a = bo_info then (o a).map vs.dropSurrogate
        else o a := by
  obtain ⟨h1, h2, h3⟩ := stateKeys_complete c
  let g : Attr × Source → Attr × V := fun e => (e.1,
    if Dropped c e.1 then vs.none
    else if c = .trainer ∧ e.1 = bo_info then ((o e.1).map vs.dropSurrogate).getD vs.none
    else (o e.1).getD vs.none)
  have hg : getstate vs c o = .ok ((stateKeys c).map g) := by
    unfold getstate
    apply mapM_ok
    rintro ⟨a, s⟩ he
    obtain ⟨ha, hs⟩ := h1 _ he
    simp only at ha hs
    obtain ⟨v, hv⟩ := Option.isSome_iff_exists.mp ((reachable_complete h a).mp ha)
    simp only [g, hs, sourceOf]
    by_cases hd : Dropped c a
    · simp [hd]
    · by_cases hb : c = .trainer ∧ a = bo_info
      · simp only [if_neg hd, if_pos hb, hv, Option.map_some, Option.getD_some]
      · simp only [if_neg hd, if_neg hb, hv, Option.getD_some]
  refine ⟨setstate ((stateKeys c).map g), by unfold roundTrip; rw [hg]; rfl, ?_⟩
  intro a
  have hfst : ((stateKeys c).map g).map Prod.fst = (stateKeys c).map Prod.fst := by
    rw [List.map_map]; rfl
  by_cases ha : a ∈ assigned c
  · rw [if_neg (not_not.mpr ha)]
    obtain ⟨v, hv⟩ := Option.isSome_iff_exists.mp ((reachable_complete h a).mp ha)
    have hm : g (a, sourceOf c a) ∈ (stateKeys c).map g := List.mem_map_of_mem (h2 a ha)
    have := lookup_of_mem _ (by rw [hfst]; exact h3) a _ hm
    show List.lookup a _ = _
    rw [this]
    simp only [hv]
    by_cases hd : Dropped c a
    · simp only [if_pos hd]
    · by_cases hb : c = .trainer ∧ a = bo_info
      · simp only [if_neg hd, if_pos hb, Option.map_some, Option.getD_some]
      · simp only [if_neg hd, if_neg hb, Option.getD_some]
  · rw [if_pos ha]
    show List.lookup a _ = _
    apply lookup_none
    rw [hfst]
    intro hm
    obtain ⟨e, he, rfl⟩ := List.mem_map.mp hm
    exact ha (h1 e he).1

/-- C43. Anything computed from a whole GP that does not look at the dropped runtime objects (predictions, likelihood,
hyperparameters, ...) is the same for the restored GP when no Bayesian optimisation record is involved. -/
theorem C43_observables_kept {V R : Type} (vs : Values V) (g g' : Graph V) (hg : ∀ c, Reachable c (g c))
    (hg' : ∀ c, roundTripAll vs g c = .ok (g' c)) (hbo : ∀ v, g .trainer bo_info = some v → vs.dropSurrogate v = v)
    (observe : Graph V → R)
    (hobs : ∀ g₁ g₂ : Graph V, (∀ c a, a ∈ assigned c → ¬ Dropped c a → g₁ c a = g₂ c a) → observe g₁ = observe g₂) :
    observe g' = observe g := by
  apply hobs
  intro c a ha hd
  obtain ⟨o', h1, h2⟩ := C43_round_trip vs c (g c) (hg c)
  have : o' = g' c := Except.ok.inj (h1.symm.trans (hg' c))
  rw [← this, h2 a, if_neg (not_not.mpr ha), if_neg hd]
  by_cases hb : c = .trainer ∧ a = bo_info
  · rw [if_pos hb]
    obtain ⟨rfl, rfl⟩ := hb
    cases hv : g .trainer bo_info with
    | none => rfl
    | some v => rw [Option.map_some, hbo v hv]
  · rw [if_neg hb]

/-- C43. The restored object never hands out a preconditioner it was saved with: the first one it uses is built for the
matrix at hand. -/
theorem C43_preconditioner_rebuilt {P : Type} (build : Dict → KVMat → Except String P) (pre : Bool) (args : Dict)
    (c : Cache P) (A : KVMat) (force : Bool) (p : P)
    (h : (getOrRefresh build pre args c.pickle A force).1 = .ok (some p)) : build args A = .ok p :=
  C47_nothing_reused_after_drop build pre args c A force p h

/-- C43, an observation: the list of worker addresses of the dropped client is kept, so a restored GP has
`dask_client = None` but may carry addresses of workers that are gone. -/
theorem C43_worker_list_kept {V : Type} (vs : Values V) (o o' : Obj V) (h : Reachable .data o)
    (hr : roundTrip vs .data o = .ok o') :
    o' dask_client = some vs.none ∧ o' compute_workers = o compute_workers := by
  obtain ⟨o1, h1, h2⟩ := C43_round_trip vs .data o h
  have : o1 = o' := Except.ok.inj (h1.symm.trans hr)
  subst this
  constructor
  · rw [h2]; rw [if_neg (by decide), if_pos (by decide)]
  · rw [h2]; rw [if_neg (by decide), if_neg (by decide), if_neg (by decide)]

/-- A trainer object as constructed (gp_training.py:15-18) whose record is then written: reachable, and restored. -/
def exTrainer : Obj ℕ := fun a => if a ∈ assigned .trainer then some 0 else none

theorem exTrainer_reachable : Reachable .trainer (fun b => if b = bo_info then some 7 else exTrainer b) :=
  .assign _ _ _ (by decide) (.constructed _ (by intro a; unfold exTrainer; split_ifs with h <;> simp [h]))

example : ∃ o', roundTrip ⟨0, fun v => v - 1⟩ .trainer (fun b => if b = bo_info then some 7 else exTrainer b) = .ok o'
    ∧ o' bo_info = some 6 := by
  obtain ⟨o', h1, h2⟩ := C43_round_trip ⟨0, fun v => v - 1⟩ .trainer _ exTrainer_reachable
  refine ⟨o', h1, ?_⟩
  rw [h2, if_neg (by decide), if_neg (by decide), if_pos (by decide)]
  rfl

end Verif.Train.Pickle
