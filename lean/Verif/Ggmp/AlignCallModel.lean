import Verif.Ggmp.AlignModel
import Mathlib.Data.List.MinMax

/-!
Model of the call `align_local_gmms`, ggmp.py:1519-1553, with the checks of its arguments.

Simplifications: as in `Verif.Ggmp.AlignModel`; the three lists are one list of mixtures, so that they have equal length; `x_data` is a
list of points of the same dimension; `lower` is `str.lower`.
-/

namespace Verif.Ggmp

variable {K n D : ℕ} {μ : Type}

/-- `_choose_mst_root`, ggmp.py:1354-1360: `np.argmin` of the distances to the mean of the inputs; `none` without inputs. -/
noncomputable def chooseRoot (x : Fin n → Fin D → ℝ) : Option (Fin n) :=
  (List.finRange n).argmin fun i => Kernels.distance (x i) fun d => (∑ j, x j d) / n

/-- `align_gmm_components_hungarian` with its check of `metric`, ggmp.py:1271-1273. -/
noncomputable def AlignExt.withMetric (e : AlignExt K μ) (lower : String → String) (metric : String) : AlignExt K μ :=
  ⟨e.w2, fun C => if lower metric = "w2" then e.assign C else .error "ValueError: Currently supported metric is 'w2'."⟩

/-- The root used, ggmp.py:1385-1389. -/
noncomputable def resolveRoot (x : Fin n → Fin D → ℝ) (root : Option ℤ) : Except String (Fin n) :=
  match root with
  | none =>
      match chooseRoot x with
      | some r => .ok r
      | none => .error "ValueError: x_data is empty"
  | some r => if h : 0 ≤ r ∧ r < n then .ok ⟨r.toNat, by omega⟩ else .error "ValueError: root index out of range"

/-- The arguments of the call that are not data. -/
structure AlignCall where
  metric : String := "w2"
  method : String := "sequence"
  reference : String := "previous"
  root : Option ℤ := none

/-- `align_local_gmms`, ggmp.py:1519-1553, with the checks of `align_local_gmms_sequence`, ggmp.py:1298-1306, and
`align_local_gmms_mst`, ggmp.py:1452-1464: a list of aligned mixtures with their permutations, `none` where nothing was stored. -/
noncomputable def alignLocal (e : AlignExt K μ) (lower : String → String) (mst : ∀ n, (Fin n → Fin n → ℝ) → Fin n → Fin n → ℝ)
    (c : AlignCall) (x : Option (List (Fin D → ℝ))) (l : List (Mix K μ)) : Except String (List (Option (Mix K μ × Equiv.Perm (Fin K)))) :=
  if lower c.method = "sequence" then
    if l = [] then .error "ValueError: Empty sequence"
    else if lower c.reference = "previous" ∨ lower c.reference = "first" then do
      let out ← alignSequence (e.withMetric lower c.metric) (decide (lower c.reference = "first")) l
      .ok (out.map some)
    else .error "ValueError: reference must be 'previous' or 'first'"
  else if lower c.method = "mst" then
    match x with
    | none => .error "ValueError: x_data is required for method='mst'"
    | some xs =>
        if l = [] then .error "ValueError: Empty sequence"
        else if h : xs.length = l.length then do
          let x : Fin l.length → Fin D → ℝ := fun i => xs[i]
          let r ← resolveRoot x c.root
          let out ← alignMst (e.withMetric lower c.metric) (mst l.length) x (fun i => l[i]) r
          .ok (List.ofFn out)
        else .error "ValueError: x_data length must match number of local GMMs"
  else .error "ValueError: method must be 'sequence' or 'mst'"

end Verif.Ggmp
