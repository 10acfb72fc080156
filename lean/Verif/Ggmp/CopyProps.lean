import Verif.Ggmp.CopyModel

/-!
C142: GGMP objects survive copying and pickling, and calls of methods that do not exist are reported.
-/

namespace Verif.Ggmp

variable {α β : Type}

/-- Names that the protocols look for on an object. -/
def hooks : List String := ["__deepcopy__", "__setstate__", "__getstate__", "__slots__"]

/-- None of the stored attributes has the name of a hook. -/
def PyObj.Ordinary (o : PyObj α) : Prop := ∀ n ∈ hooks, o.dict n = none

theorem Ordinary.get {o : PyObj α} (h : o.Ordinary) {n : String} (hn : n ∈ hooks) :
    o.get n = if n ∈ o.cls.names then .ok (.method n) else if o.cls.stubs then .ok (.stub n) else .error "AttributeError" := by
  unfold PyObj.get
  rw [h n hn]

/-- A class that does not define the hooks (apart from the `__getstate__` of `object`). -/
def PyClass.NoHooks (c : PyClass) : Prop := "__deepcopy__" ∉ c.names ∧ "__setstate__" ∉ c.names ∧ "__slots__" ∉ c.names

theorem ggmpClass_noHooks (b : Bool) : (ggmpClass b).NoHooks := by cases b <;> (unfold PyClass.NoHooks; decide)
theorem hpsClass_noHooks (b : Bool) : (hpsClass b).NoHooks := by cases b <;> (unfold PyClass.NoHooks; decide)
theorem likelihoodClass_noHooks (b : Bool) : (likelihoodClass b).NoHooks := by cases b <;> (unfold PyClass.NoHooks; decide)

theorem plain_state {o : PyObj α} (hc : o.cls.stubs = false) (ho : o.Ordinary) : o.getState = some o.dict := by
  unfold PyObj.getState
  rw [Ordinary.get ho (by simp [hooks]), hc]
  by_cases h : "__getstate__" ∈ o.cls.names <;> simp [h]

theorem plain_build {c : PyClass} (hc : c.stubs = false) (hn : c.NoHooks) (d : String → Option α) :
    PyObj.build c (some d) = ⟨c, d⟩ := by
  have : (PyObj.fresh (α := α) c).has "__setstate__" = false := by
    simp [PyObj.has, PyObj.get, PyObj.fresh, hc, hn.2.1]
  simp [PyObj.build, this]

/-- C142 (partial): objects of a class without `__getattr__` and hooks survive copying, deep copying and pickling in every
protocol: the result has the same attributes, copied one by one. This covers `hyperparameters` and `NormalLikelihood`. -/
theorem C142_plain_partial (o : PyObj α) (hc : o.cls.stubs = false) (hn : o.cls.NoHooks) (ho : o.Ordinary) (f : α → α)
    (protocol : Nat) :
    o.copy = o ∧ o.deepcopy f = some ⟨o.cls, fun n => (o.dict n).map f⟩ ∧
      o.repickle f protocol = .ok ⟨o.cls, fun n => (o.dict n).map f⟩ := by
  have hd : o.get "__deepcopy__" = .error "AttributeError" := by
    rw [Ordinary.get ho (by simp [hooks]), if_neg hn.1, hc]; simp
  have hs : o.has "__slots__" = false := by
    unfold PyObj.has
    rw [Ordinary.get ho (by simp [hooks]), if_neg hn.2.2, hc]; simp
  refine ⟨?_, ?_, ?_⟩
  · rw [PyObj.copy, plain_state hc ho, plain_build hc hn]
  · rw [PyObj.deepcopy, hd, plain_state hc ho]
    simp only [Option.map_some, plain_build hc hn]
  · rw [PyObj.repickle, hs, plain_state hc ho]
    simp [plain_build hc hn]

/-- C142 (partial): on such an object a name that does not exist is an error, whatever the arguments. -/
theorem C142_plain_misspelt_partial (o : PyObj α) (hc : o.cls.stubs = false) (name : String) (h1 : o.dict name = none)
    (h2 : name ∉ o.cls.names) (run : String → List α → Except String (Option β))
    (call : α → List α → Except String (Option β)) (args : List α) :
    o.callAttr run call name args = .error "AttributeError" ∧ o.has name = false := by
  have : o.get name = .error "AttributeError" := by simp [PyObj.get, h1, h2, hc]
  simp [PyObj.callAttr, PyObj.has, this]

/-- C142 (partial): both classes are of this kind, in all Python versions; so copies and pickles of `hyperparameters` and `NormalLikelihood` objects have
the same attributes and names that do not exist are errors. -/
theorem C142_parameters_likelihoods_partial (b : Bool) (o : PyObj α) (h : o.cls = hpsClass b ∨ o.cls = likelihoodClass b) (ho : o.Ordinary) (f : α → α)
    (protocol : Nat) :
    (o.copy = o ∧ o.deepcopy f = some ⟨o.cls, fun n => (o.dict n).map f⟩ ∧ o.repickle f protocol = .ok ⟨o.cls, fun n => (o.dict n).map f⟩) ∧
      ∀ name, o.dict name = none → name ∉ o.cls.names → o.has name = false ∧
        ∀ (run : String → List α → Except String (Option α)) call args, o.callAttr run call name args = .error "AttributeError" := by
  have hc : o.cls.stubs = false := by rcases h with h | h <;> rw [h] <;> rfl
  have hn : o.cls.NoHooks := by
    rcases h with h | h <;> rw [h]
    · exact hpsClass_noHooks b
    · exact likelihoodClass_noHooks b
  refine ⟨C142_plain_partial o hc hn ho f protocol, fun name h1 h2 => ⟨?_, fun run call args => (C142_plain_misspelt_partial o hc name h1 h2 run call args).1⟩⟩
  exact (C142_plain_misspelt_partial (β := α) o hc name h1 h2 (fun _ _ => .ok none) (fun _ _ => .ok none) []).2

theorem stub_build {c : PyClass} (hc : c.stubs = true) (s : Option (String → Option α)) :
    PyObj.build c s = PyObj.fresh c := by
  have : (PyObj.fresh (α := α) c).has "__setstate__" = true := by
    unfold PyObj.has PyObj.get PyObj.fresh
    by_cases h : "__setstate__" ∈ c.names <;> simp [h, hc]
  cases s <;> simp [PyObj.build, this]

/-- C142 is violated: `copy.deepcopy` of a GGMP is `None`, and `copy.copy` gives a GGMP that has lost every attribute, in every
version of Python. -/
theorem C142_copy_violated (py311 : Bool) (o : PyObj α) (hcls : o.cls = ggmpClass py311) (ho : o.Ordinary) (f : α → α) :
    o.deepcopy f = none ∧ o.copy.cls = o.cls ∧ ∀ n, o.copy.dict n = none := by
  have hs : o.cls.stubs = true := by rw [hcls]; rfl
  have hd : o.get "__deepcopy__" = .ok (.stub "__deepcopy__") := by
    rw [Ordinary.get ho (by simp [hooks]), hs, hcls, if_neg (ggmpClass_noHooks py311).1]; rfl
  refine ⟨by rw [PyObj.deepcopy, hd], ?_, ?_⟩ <;> rw [PyObj.copy, stub_build hs] <;> simp [PyObj.fresh]

/-- C142 is violated: pickling a GGMP raises nothing in the protocols in use (2 and above), and what is loaded is a GGMP without
any attribute: each of them, present before or not, is then a function that prints. -/
theorem C142_pickle_violated (py311 : Bool) (o : PyObj α) (hcls : o.cls = ggmpClass py311) (pk : α → α) (protocol : Nat)
    (hp : 2 ≤ protocol) :
    ∃ o', o.repickle pk protocol = .ok o' ∧ o'.cls = o.cls ∧
      ∀ n, o'.dict n = none ∧ (n ∉ o.cls.names → o'.get n = .ok (.stub n)) := by
  have hs : o.cls.stubs = true := by rw [hcls]; rfl
  refine ⟨PyObj.fresh o.cls, ?_, rfl, fun n => ⟨rfl, fun hn => ?_⟩⟩
  · rw [PyObj.repickle, if_neg (by omega), stub_build hs]
  · simp [PyObj.get, PyObj.fresh, hn, hs]

/-- C142 is violated: a method that does not exist, or a misspelt one, can be called on a GGMP with any arguments; nothing is
raised and the result is `None`. -/
theorem C142_misspelt_violated (py311 : Bool) (o : PyObj α) (hcls : o.cls = ggmpClass py311) (name : String)
    (h1 : o.dict name = none) (h2 : name ∉ o.cls.names) (run : String → List α → Except String (Option β))
    (call : α → List α → Except String (Option β)) (args : List α) :
    o.callAttr run call name args = .ok none ∧ o.has name = true := by
  have hs : o.cls.stubs = true := by rw [hcls]; rfl
  have : o.get name = .ok (.stub name) := by simp [PyObj.get, h1, h2, hs]
  simp [PyObj.callAttr, PyObj.has, this]

/-- C142 (partial): the methods and attributes that exist are reached. -/
theorem C142_existing_partial (o : PyObj α) (run : String → List α → Except String (Option β))
    (call : α → List α → Except String (Option β)) (name : String) (args : List α) :
    (∀ a, o.dict name = some a → o.get name = .ok (.value a)) ∧
      (o.dict name = none → name ∈ o.cls.names → o.callAttr run call name args = run name args) := by
  constructor
  · intro a h
    simp [PyObj.get, h]
  · intro h1 h2
    simp [PyObj.callAttr, PyObj.get, h1, h2]

/-! ## Cases -/

/-- A GGMP in Python 3.12 whose attribute `likelihood_terms` is 5. -/
def someGgmp : PyObj Nat := ⟨ggmpClass true, fun n => if n = "likelihood_terms" then some 5 else none⟩

theorem someGgmp_ordinary : someGgmp.Ordinary := by
  intro n hn
  simp only [hooks, List.mem_cons, List.not_mem_nil, or_false] at hn
  rcases hn with rfl | rfl | rfl | rfl <;> decide

example : someGgmp.deepcopy id = none := (C142_copy_violated true someGgmp rfl someGgmp_ordinary id).1

example : ∃ o', someGgmp.repickle id 5 = .ok o' ∧ o'.dict "likelihood_terms" = none := by
  obtain ⟨o', h1, -, h2⟩ := C142_pickle_violated true someGgmp rfl id 5 (by omega)
  exact ⟨o', h1, (h2 _).1⟩

/-- `ggmp.posterior_covariance(x)` returns `None`. -/
example (run : String → List Nat → Except String (Option Nat)) (call : Nat → List Nat → Except String (Option Nat)) :
    someGgmp.callAttr run call "posterior_covariance" [1] = .ok none :=
  (C142_misspelt_violated true someGgmp rfl _ (by decide) (by decide) run call _).1

/-- A likelihood object with a weight, pickled in protocol 4. -/
example : PyObj.repickle id 4 (⟨likelihoodClass true, fun n => if n = "weight" then some 7 else none⟩ : PyObj Nat) =
    .ok ⟨likelihoodClass true, fun n => (if n = "weight" then some 7 else none).map id⟩ := by
  refine (C142_plain_partial _ rfl (likelihoodClass_noHooks true) ?_ id 4).2.2
  intro n hn
  simp only [hooks, List.mem_cons, List.not_mem_nil, or_false] at hn
  rcases hn with rfl | rfl | rfl | rfl <;> decide

end Verif.Ggmp
