import Verif.Ggmp.FlowProps

/-!
C120: training that starts from the current hyperparameters does not set them first.
-/

namespace Verif.Ggmp

/-- C120: without initial hyperparameters, and if none of the current ones is NaN, a component is trained from where it is: whether its
GP would accept these hyperparameters in `set_hyperparameters` does not matter, and if the optimizer fails nothing has changed. -/
theorem C120_train_current {K : ℕ} (t : Trainer K) (obj : HpsObj (Option ℝ) (ℝ × ℝ)) (bounds : Option (List (List (ℝ × ℝ)))) (k : Fin K)
    (gp : CompGp) (hn : ∀ x ∈ gp.hps, x ≠ none) (b : List (ℝ × ℝ)) (hb : (bounds.getD obj.hpsBounds)[(k : ℕ)]? = some b) :
    (∀ e, t.opt k b gp.hps = .error e → trainOne t obj bounds none k gp = (gp, .error e)) ∧
      ∀ h, t.opt k b gp.hps = .ok h → trainOne t obj bounds none k gp = ({ gp with hps := h }, .ok ()) := by
  have hc : none ∉ gp.hps := fun h => hn none h rfl
  constructor <;> intro v hv <;> simp [trainOne, index, hb, startOf, hv, hc]

/-- C120: given initial hyperparameters that differ are set before training, and stay set if the optimizer fails. -/
theorem C120_train_given {K : ℕ} (t : Trainer K) (obj : HpsObj (Option ℝ) (ℝ × ℝ)) (bounds : Option (List (List (ℝ × ℝ)))) (k : Fin K)
    (gp : CompGp) (l : List (List (Option ℝ))) (h : List (Option ℝ)) (hl : l[(k : ℕ)]? = some h) (hd : h ≠ gp.hps)
    (b : List (ℝ × ℝ)) (hb : (bounds.getD obj.hpsBounds)[(k : ℕ)]? = some b) (hs : t.setRefuse k h = none) :
    (∀ e, t.opt k b h = .error e → trainOne t obj bounds (some l) k gp = ({ gp with hps := h }, .error e)) ∧
      ∀ v, t.opt k b h = .ok v → trainOne t obj bounds (some l) k gp = ({ gp with hps := v }, .ok ()) := by
  constructor <;> intro v hv <;> simp [trainOne, index, hb, startOf, hl, hs, hv, Ne.symm hd]

/-- C120: a GGMP is created exactly if there are as many points as densities; it keeps both and the hyperparameters object, and has
neither likelihoods nor GPs. -/
theorem C120_new {K : ℕ} (len : ℕ) (ss : List Station) (obj : HpsObj (Option ℝ) (ℝ × ℝ)) :
    (len = ss.length → ∃ g : Ggmp K, Ggmp.new len ss obj = .ok g ∧ g.len = len ∧ g.stations = ss ∧ g.obj = obj ∧
        (∀ v, g.liks ≠ .here v) ∧ ∀ v, g.gps ≠ .here v) ∧
      (len ≠ ss.length → ∃ e, Ggmp.new (K := K) len ss obj = .error e) := by
  constructor
  · intro h
    refine ⟨⟨len, ss, obj, .absent, .absent⟩, ?_, rfl, rfl, rfl, by simp, by simp⟩
    simp [Ggmp.new, h]
  · intro h
    exact ⟨"AssertionError: x_data and y_data have different lengths", by simp [Ggmp.new, h]⟩

/-- No point and no density: an empty GGMP is created; two points and no density are refused. -/
example (obj : HpsObj (Option ℝ) (ℝ × ℝ)) : (∃ g : Ggmp 1, Ggmp.new 0 [] obj = .ok g) ∧ ∃ e, Ggmp.new (K := 1) 2 [] obj = .error e :=
  ⟨let ⟨g, h, _⟩ := (C120_new 0 [] obj).1 rfl; ⟨g, h⟩, (C120_new 2 [] obj).2 (by simp)⟩

/-- One component with one hyperparameter, a GP that refuses every setting and an optimizer that fails: nothing changes. -/
example (obj : HpsObj (Option ℝ) (ℝ × ℝ)) (y v : List ℝ) :
    trainOne (K := 1) ⟨fun _ _ => some "refused", fun _ _ _ => .error "failed"⟩ obj (some [[(0, 2)]]) none 0 ⟨y, v, [some 1]⟩
      = (⟨y, v, [some 1]⟩, .error "failed") :=
  (C120_train_current _ obj _ 0 ⟨y, v, [some 1]⟩ (by simp) [(0, 2)] rfl).1 _ rfl

end Verif.Ggmp
