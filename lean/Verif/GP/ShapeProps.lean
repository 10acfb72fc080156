import Verif.GP.ShapeModel
import Mathlib.Analysis.Calculus.Deriv.MeanValue
import Mathlib.Analysis.SpecialFunctions.Sqrt
import Mathlib.Analysis.SpecialFunctions.ExpDeriv
import Mathlib.Tactic.FieldSimp
import Mathlib.Tactic.Linarith
import Mathlib.Tactic.Positivity

/-!
C155: which prediction requests are answered, and with what.
-/

namespace Verif.GP.Shape

open Verif.Kernels

/-! ### Specification -/

/-- Every row has the number of columns. -/
def Tab.Rect (a : Tab) : Prop := ∀ r ∈ a.rows, r.length = a.cols

/-- The arrays of the request are arrays: the rows of `x_pred` have its number of columns. -/
def XPred.Rect : XPred → Prop
  | .array _ a => a.Rect
  | _ => True

/-- A GP with data: at least one data row, the hyperparameters the default kernel asks for. -/
structure Ready (g : Gp) : Prop where
  rect : g.x.Rect
  data : g.x.rows ≠ []
  hps : g.hps.length = g.x.cols + 1

/-- A multi-task GP: the last column of the data is the task (gp_data.py:61-68). -/
structure MultiTask (g : Gp) : Prop extends Ready g where
  cols : g.x.cols = g.inputDim + 1
  tasks : ∃ t, g.xOut = .array 1 t

/-- A single-task GP. -/
structure SingleTask (g : Gp) : Prop extends Ready g where
  cols : g.x.cols = g.inputDim
  tasks : g.xOut = .none

/-- The request asks for points `a` of the input space. -/
def AsksPoints (g : Gp) (p : XPred) (a : Tab) : Prop := p = .array 2 a ∧ a.cols = g.inputDim ∧ a.rows ≠ []

/-- The request asks for tasks `t`; left out it means the tasks of the GP. -/
def AsksTasks (g : Gp) (o : XOut) (t : List ℝ) : Prop := (o = .array 1 t ∨ o = .none ∧ g.xOut = .array 1 t) ∧ t ≠ []

/-- The default kernel between two points given as lists of coordinates, over all their `n` coordinates. -/
noncomputable def specKernel (g : Gp) (n : ℕ) (p q : List ℝ) : ℝ :=
  defaultKernel (D := n) (fun i => p.getD i 0) (fun i => q.getD i 0) (g.hps.getD 0 0) fun i => g.hps.getD (1 + i) 0

/-- The posterior mean at a point: the prior mean and the weighted kernel values to all data. -/
noncomputable def specMean (g : Gp) (n : ℕ) (q : List ℝ) : ℝ :=
  g.mean + ((List.range g.x.rows.length).map fun i => specKernel g n (g.x.rows.getD i []) q * g.alpha.getD i 0).sum

/-! ### Lemmas -/

theorem rowDist_eq (n : ℕ) (hps p q : List ℝ) :
    rowDist n hps p q = anisoDistance (D := n) (fun i => p.getD i 0) (fun i => q.getD i 0) fun i => hps.getD (1 + i) 0 := by
  unfold rowDist anisoDistance
  congr 1
  exact Finset.sum_range fun i => |(p.getD i 0 - q.getD i 0) / hps.getD (1 + i) 0| ^ 2

theorem rowDist_comm (n : ℕ) (hps p q : List ℝ) : rowDist n hps p q = rowDist n hps q p := by
  unfold rowDist
  congr 2
  refine List.map_congr_left fun i _ => ?_
  rw [abs_div, abs_div, abs_sub_comm]

theorem specKernel_eq (g : Gp) (n : ℕ) (p q : List ℝ) :
    specKernel g n p q = g.hps.getD 0 0 * matern1 (rowDist n g.hps p q) 1 := by
  rw [rowDist_eq]
  rfl

theorem map_range_getD {β : Type} (l : List (List ℝ)) (F : List ℝ → β) :
    ((List.range l.length).map fun j => F (l.getD j [])) = l.map F := by
  refine List.ext_getElem (by simp) fun i h1 h2 => ?_
  simp only [List.length_map, List.length_range] at h1
  simp [h1]

theorem kernel_data {g : Gp} (h : Ready g) (b : Tab) :
    kernel (.tab g.x) (.tab b) g.hps = if b.cols < g.x.cols then .error "IndexError: index is out of bounds for axis 1"
      else .ok fun i j => specKernel g g.x.cols (g.x.rows.getD i []) (b.rows.getD j []) := by
  obtain ⟨hr, hd, hh⟩ := h
  simp only [kernel]
  split
  · next hx => exact absurd hx hd
  · next r rest hx =>
    have hl : r.length = g.x.cols := hr r (by simp [hx])
    have : ¬g.hps.length < 1 + g.x.cols := by omega
    simp only [hl, if_neg this, specKernel_eq]

theorem kernel_points {g : Gp} {a b : Tab} {n : ℕ} (ha : a.rows ≠ []) (hr : ∀ r ∈ a.rows, r.length = n) (hn : n ≤ b.cols) :
    kernel (.tab a) (.tab b) g.hps = if g.hps.length < 1 + n then .error "IndexError: index is out of bounds for axis 0"
      else .ok fun i j => specKernel g n (a.rows.getD i []) (b.rows.getD j []) := by
  simp only [kernel]
  split
  · next hx => exact absurd hx ha
  · next r rest hx =>
    have hl : r.length = n := hr r (by simp [hx])
    have : ¬b.cols < n := by omega
    simp only [hl, if_neg this, specKernel_eq]

/-- The points of a request for tasks: every point with every task, the task last. -/
def pairs (a : Tab) (t : List ℝ) : List (List ℝ) := t.flatMap fun u => a.rows.map fun x => x ++ [u]

theorem pairs_ne_nil {a : Tab} {t : List ℝ} (ha : a.rows ≠ []) (ht : t ≠ []) : pairs a t ≠ [] := by
  obtain ⟨r, l, hr⟩ := List.exists_cons_of_ne_nil ha
  obtain ⟨u, m, hu⟩ := List.exists_cons_of_ne_nil ht
  simp [pairs, hr, hu]

theorem pairs_nil {a : Tab} {t : List ℝ} (h : a.rows = [] ∨ t = []) : pairs a t = [] := by
  rcases h with h | h <;> simp [pairs, h]

theorem pairs_length {a : Tab} (h : a.Rect) (t : List ℝ) : ∀ r ∈ pairs a t, r.length = a.cols + 1 := by
  intro r hr
  simp only [pairs, List.mem_flatMap, List.mem_map] at hr
  obtain ⟨u, _, x, hx, rfl⟩ := hr
  simp [h x hx]

theorem extend_array (nd md : ℕ) (a : Tab) (t : List ℝ) :
    extend (.array nd a) (.array md t) = if pairs a t = [] then .flat else .tab ⟨pairs a t, a.cols + 1⟩ := rfl

/-- What passes the checks. -/
theorem checks_ok {g : Gp} {p : XPred} {o : XOut} : checks g p o = .ok () ↔
    ((∃ a, p = .array 2 a ∧ a.cols = g.inputDim) ∨ p = .list) ∧ (o = .none ∨ o = .list ∨ ∃ t, o = .array 1 t) := by
  have hout : checks.out o = .ok () ↔ (o = .none ∨ o = .list ∨ ∃ t, o = .array 1 t) := by
    cases o <;> simp [checks.out]
  cases p with
  | other => simp [checks]
  | list => simp [checks, hout]
  | array nd a =>
    simp only [checks]
    split_ifs with h1 h2
    · simp [h1]
    · simp [h2]
    · push Not at h1 h2
      simp [hout, h1, h2]

theorem checks_cases (g : Gp) (p : XPred) (o : XOut) : checks g p o = .ok () ∨ ∃ e, checks g p o = .error e := by
  cases checks g p o with
  | ok u => exact .inl rfl
  | error e => exact .inr ⟨e, rfl⟩

theorem resolve_tasks {g : Gp} {o : XOut} {t : List ℝ} (h : AsksTasks g o t) : resolve g o = .array 1 t := by
  rcases h.1 with h | ⟨h, h'⟩ <;> subst h
  · rfl
  · exact h'

theorem asks_of_resolve {g : Gp} {o : XOut} {t : List ℝ} (h : resolve g o = .array 1 t) (ht : t ≠ []) : AsksTasks g o t := by
  refine ⟨?_, ht⟩
  cases o with
  | none => exact .inr ⟨rfl, h⟩
  | _ => exact .inl h

theorem resolve_multi {g : Gp} (h : MultiTask g) (o : XOut) : resolve g o ≠ .none := by
  obtain ⟨t, ht⟩ := h.tasks
  cases o <;> simp [resolve, ht]

/-! ### Posterior mean -/

/-- Every request for points and tasks is answered, with the posterior mean at every point for every task. -/
theorem C155_mean_value {g : Gp} {p : XPred} {o : XOut} {a : Tab} {t : List ℝ} (h : MultiTask g) (hp : AsksPoints g p a)
    (ho : AsksTasks g o t) :
    posteriorMean g p o = .ok (t.flatMap fun u => a.rows.map fun x => specMean g g.x.cols (x ++ [u])) := by
  obtain ⟨rfl, hc, ha⟩ := hp
  have hr := resolve_tasks ho
  have hk : checks g (.array 2 a) (.array 1 t) = .ok () := checks_ok.2 ⟨.inl ⟨a, rfl, hc⟩, .inr (.inr ⟨t, rfl⟩)⟩
  simp only [posteriorMean, hr, hk, extend_array, if_neg (pairs_ne_nil ha ho.2), kernel_data h.toReady, h.cols, hc, lt_irrefl,
    if_false, Arg.len]
  congr 1
  rw [← h.cols]
  refine (map_range_getD (pairs a t) fun q => specMean g g.x.cols q).trans ?_
  simp [pairs, List.map_flatMap, Function.comp_def]

/-- In a multi-task GP no other request is answered. -/
theorem C155_mean_answered {g : Gp} {p : XPred} {o : XOut} (h : MultiTask g) :
    (∃ r, posteriorMean g p o = .ok r) ↔ ∃ a t, AsksPoints g p a ∧ AsksTasks g o t := by
  refine ⟨fun ⟨r, hr⟩ => ?_, fun ⟨a, t, hp, ho⟩ => ⟨_, C155_mean_value h hp ho⟩⟩
  rcases checks_cases g p (resolve g o) with hk | ⟨e, hk⟩
  swap
  · simp [posteriorMean, hk] at hr
  simp only [posteriorMean, hk] at hr
  obtain ⟨hp, ho⟩ := checks_ok.1 hk
  rcases hp with ⟨a, rfl, hc⟩ | rfl
  swap
  · simp [extend, kernel] at hr
  rcases ho with ho | ho | ⟨t, ho⟩
  · exact absurd ho (resolve_multi h o)
  · rw [ho] at hr
    simp [extend, kernel_data h.toReady, h.cols, hc] at hr
  · rw [ho, extend_array] at hr
    by_cases hn : a.rows = [] ∨ t = []
    · simp [pairs_nil hn, kernel] at hr
    · push Not at hn
      exact ⟨a, t, ⟨rfl, hc, hn.1⟩, asks_of_resolve ho hn.2⟩

/-- In a single-task GP a request with tasks is answered as if it had none, once for every task. -/
theorem C155_mean_tasks_violated {g : Gp} {a : Tab} (h : SingleTask g) (hr : a.Rect) (hc : a.cols = g.inputDim) (ha : a.rows ≠ []) :
    ∃ r, posteriorMean g (.array 2 a) .none = .ok r ∧ r = a.rows.map (specMean g g.x.cols) ∧
      ∀ t ≠ [], posteriorMean g (.array 2 a) (.array 1 t) = .ok (t.flatMap fun _ => r) := by
  have hk : checks g (.array 2 a) .none = .ok () := checks_ok.2 ⟨.inl ⟨a, rfl, hc⟩, .inl rfl⟩
  refine ⟨_, ?_, rfl, fun t ht => ?_⟩
  · have : resolve g .none = .none := h.tasks
    simp only [posteriorMean, this, hk, extend, kernel_data h.toReady, h.cols, hc, lt_irrefl, if_false, Arg.len]
    congr 1
    exact map_range_getD a.rows fun q => specMean g g.inputDim q
  · have hk : checks g (.array 2 a) (.array 1 t) = .ok () := checks_ok.2 ⟨.inl ⟨a, rfl, hc⟩, .inr (.inr ⟨t, rfl⟩)⟩
    have hlt : ¬g.inputDim + 1 < g.inputDim := by omega
    simp only [posteriorMean, resolve, hk, extend_array, if_neg (pairs_ne_nil ha ht), kernel_data h.toReady, h.cols, hc, hlt,
      if_false, Arg.len]
    congr 1
    refine (map_range_getD (pairs a t) fun q => specMean g g.inputDim q).trans ?_
    simp only [pairs, List.map_flatMap, List.map_map]
    congr 1
    funext u
    refine List.map_congr_left fun x hx => ?_
    have hl : x.length = g.inputDim := by rw [hr x hx, hc]
    simp only [Function.comp, specMean]
    congr 3
    funext i
    congr 1
    unfold specKernel
    congr 1
    funext j
    have hj : (j : ℕ) < x.length := by rw [hl]; exact j.2
    simp [List.getD_eq_getElem?_getD, List.getElem?_append_left hj]

/-! ### Posterior covariance -/

/-- In a multi-task GP the covariance is answered for points and tasks only, with the kernel between the data and the points paired with
the tasks, and among those. -/
theorem C155_covariance_multi_task {g : Gp} {p : XPred} {o : XOut} (h : MultiTask g) (hr : p.Rect) :
    ((∃ r, covarianceBlocks g p o = .ok r) ↔ ∃ a t, AsksPoints g p a ∧ AsksTasks g o t) ∧
    ∀ a t, AsksPoints g p a → AsksTasks g o t → covarianceBlocks g p o =
      .ok (fun i j => specKernel g g.x.cols (g.x.rows.getD i []) ((pairs a t).getD j []),
        fun i j => specKernel g g.x.cols ((pairs a t).getD i []) ((pairs a t).getD j [])) := by
  have hv : ∀ a t, AsksPoints g p a → AsksTasks g o t → covarianceBlocks g p o =
      .ok (fun i j => specKernel g g.x.cols (g.x.rows.getD i []) ((pairs a t).getD j []),
        fun i j => specKernel g g.x.cols ((pairs a t).getD i []) ((pairs a t).getD j [])) := by
    rintro a t ⟨rfl, hc, ha⟩ ho
    have hk : checks g (.array 2 a) (.array 1 t) = .ok () := checks_ok.2 ⟨.inl ⟨a, rfl, hc⟩, .inr (.inr ⟨t, rfl⟩)⟩
    have hl : ¬g.hps.length < 1 + (g.inputDim + 1) := by rw [h.hps, h.cols]; omega
    have h2 := kernel_points (g := g) (a := ⟨pairs a t, a.cols + 1⟩) (b := ⟨pairs a t, a.cols + 1⟩) (pairs_ne_nil ha ho.2)
      (pairs_length hr t) le_rfl
    rw [hc, if_neg hl] at h2
    simp only [covarianceBlocks, resolve_tasks ho, hk, extend_array, if_neg (pairs_ne_nil ha ho.2), kernel_data h.toReady, h.cols, hc,
      lt_irrefl, if_false, h2]
  refine ⟨⟨fun ⟨r, hr'⟩ => ?_, fun ⟨a, t, hp, ho⟩ => ⟨_, hv a t hp ho⟩⟩, hv⟩
  refine (C155_mean_answered h).1 ?_
  unfold covarianceBlocks at hr'
  unfold posteriorMean
  rcases checks_cases g p (resolve g o) with hk | ⟨e, hk⟩
  swap
  · simp [hk] at hr'
  simp only [hk] at hr' ⊢
  cases hkk : kernel (.tab g.x) (extend p (resolve g o)) g.hps with
  | error e => simp [hkk] at hr'
  | ok k => exact ⟨_, rfl⟩

/-- In a single-task GP the covariance is answered for points alone: a request with an array of tasks is rejected. -/
theorem C155_covariance_single_task {g : Gp} {p : XPred} {o : XOut} (h : SingleTask g) (hr : p.Rect) :
    (∃ r, covarianceBlocks g p o = .ok r) ↔ (∃ a, AsksPoints g p a) ∧ (o = .none ∨ o = .list) := by
  have hn : resolve g .none = .none := h.tasks
  have hl : ¬g.hps.length < 1 + g.inputDim := by rw [h.hps, h.cols]; omega
  have key : ∀ a, a.Rect → a.cols = g.inputDim → a.rows ≠ [] → kernel (.tab a) (.tab a) g.hps =
      .ok fun i j => specKernel g g.inputDim (a.rows.getD i []) (a.rows.getD j []) := by
    intro a har hc ha
    have := kernel_points (g := g) (a := a) (b := a) ha har le_rfl
    rwa [hc, if_neg hl] at this
  constructor
  · rintro ⟨r, hr'⟩
    unfold covarianceBlocks at hr'
    rcases checks_cases g p (resolve g o) with hk | ⟨e, hk⟩
    swap
    · simp [hk] at hr'
    simp only [hk] at hr'
    obtain ⟨hp, ho⟩ := checks_ok.1 hk
    rcases hp with ⟨a, rfl, hc⟩ | rfl
    swap
    · simp [extend, kernel] at hr'
    have hor : o = .none ∨ o = .list ∨ ∃ t, o = .array 1 t := by
      cases o with
      | none => exact .inl rfl
      | _ => exact ho.imp_left id
    by_cases har : a.rows = []
    · exfalso
      rcases hor with rfl | rfl | ⟨t, rfl⟩
      · simp [hn, extend, kernel, har] at hr'
        split at hr' <;> simp at hr'
      · simp [resolve, extend, kernel, har] at hr'
        split at hr' <;> simp at hr'
      · simp [resolve, extend_array, pairs_nil (.inl har), kernel] at hr'
    rcases hor with rfl | rfl | ⟨t, rfl⟩
    · exact ⟨⟨a, rfl, hc, har⟩, .inl rfl⟩
    · exact ⟨⟨a, rfl, hc, har⟩, .inr rfl⟩
    · exfalso
      by_cases ht : t = []
      · simp [resolve, extend_array, pairs_nil (.inr ht), kernel] at hr'
      · have h2 := kernel_points (g := g) (a := ⟨pairs a t, a.cols + 1⟩) (b := ⟨pairs a t, a.cols + 1⟩) (pairs_ne_nil har ht)
          (pairs_length hr t) le_rfl
        rw [if_pos (by rw [h.hps, h.cols, hc]; omega)] at h2
        have hlt : ¬a.cols + 1 < g.x.cols := by rw [h.cols, hc]; omega
        simp [resolve, extend_array, if_neg (pairs_ne_nil har ht), kernel_data h.toReady, hlt, h2] at hr'
  · rintro ⟨⟨a, rfl, hc, ha⟩, ho⟩
    have hk : ∀ o, o = .none ∨ o = .list → checks g (.array 2 a) o = .ok () := fun o ho =>
      checks_ok.2 ⟨.inl ⟨a, rfl, hc⟩, ho.imp_right .inl⟩
    have hlt : ¬a.cols < g.x.cols := by rw [h.cols, hc]; omega
    rcases ho with rfl | rfl
    · simp [covarianceBlocks, hn, hk .none (.inl rfl), extend, kernel_data h.toReady, hlt, key a hr hc ha]
    · simp [covarianceBlocks, resolve, hk .list (.inr rfl), extend, kernel_data h.toReady, hlt, key a hr hc ha]

/-! ### Gradient of the posterior mean -/

/-- The difference quotient of the posterior mean at `q` along coordinate `d`, with the step of the code. -/
noncomputable def specQuotient (g : Gp) (n : ℕ) (q : List ℝ) (d : ℕ) : ℝ :=
  (specMean g n (q.set d (q.getD d 0 + 1 / 10 ^ 8)) - specMean g n q) / (1 / 10 ^ 8)

theorem meanGrad_rows {g : Gp} {a : Tab} {n : ℕ} (ha : a.rows ≠ []) (hr : ∀ r ∈ a.rows, r.length = n) (j d : ℕ)
    (hj : j < a.rows.length) :
    gradEntry g a j d = specQuotient g n (a.rows.getD j []) d := by
  have hh : (a.rows.headD []).length = n := by
    cases hx : a.rows with
    | nil => exact absurd hx ha
    | cons r l => exact hr r (by simp [hx])
  have hs : ((shift a d (1 / 10 ^ 8)).rows.headD []).length = n := by
    rw [← hh]
    cases hx : a.rows with
    | nil => exact absurd hx ha
    | cons r l => simp [shift, hx]
  have hsj : (shift a d (1 / 10 ^ 8)).rows.getD j [] = (a.rows.getD j []).set d ((a.rows.getD j []).getD d 0 + 1 / 10 ^ 8) := by
    simp [shift, hj]
  simp only [gradEntry, specQuotient, specMean, kernelValue, hh, hs, hsj, specKernel_eq, rowDist_comm n g.hps (g.x.rows.getD _ [])]
  generalize (a.rows.getD j []).set d _ = q'
  generalize a.rows.getD j [] = q
  induction List.range g.x.rows.length with
  | nil => simp
  | cons i l ih =>
    simp only [List.map_cons, List.sum_cons, ih]
    ring

/-- In a multi-task GP the gradient for points and tasks is the difference quotient of the posterior mean for each task. -/
theorem C155_gradient_value {g : Gp} {p : XPred} {o : XOut} {a : Tab} {t : List ℝ} (h : MultiTask g) (hr : a.Rect)
    (hp : AsksPoints g p a) (ho : AsksTasks g o t) : ∃ f, meanGrad g p o = .ok f ∧
      ∀ j < (pairs a t).length, ∀ d < g.inputDim, f j d = specQuotient g g.x.cols ((pairs a t).getD j []) d := by
  obtain ⟨rfl, hc, ha⟩ := hp
  have hk : checks g (.array 2 a) (.array 1 t) = .ok () := checks_ok.2 ⟨.inl ⟨a, rfl, hc⟩, .inr (.inr ⟨t, rfl⟩)⟩
  have hl : ¬g.hps.length < 1 + (a.cols + 1) := by rw [h.hps, h.cols, hc]; omega
  have hle : a.cols + 1 ≤ g.x.cols := by rw [h.cols, hc]
  have h2 := kernel_points (g := g) (a := ⟨pairs a t, a.cols + 1⟩) (b := g.x) (pairs_ne_nil ha ho.2) (pairs_length hr t) hle
  rw [if_neg hl] at h2
  refine ⟨gradEntry g ⟨pairs a t, a.cols + 1⟩, ?_, ?_⟩
  · simp only [meanGrad, resolve_tasks ho, hk, extend_array, if_neg (pairs_ne_nil ha ho.2), h2]
  · intro j hj d _
    exact meanGrad_rows (a := ⟨pairs a t, a.cols + 1⟩) (pairs_ne_nil ha ho.2)
      (fun r hr' => (pairs_length hr t r hr').trans (by rw [h.cols, hc])) j d hj

/-- With the tasks given as a list, the gradient is answered too, but for a kernel over the input coordinates only: all tasks are taken
for one. -/
theorem C155_gradient_merged {g : Gp} {p : XPred} {a : Tab} (h : MultiTask g) (hr : a.Rect) (hp : AsksPoints g p a) :
    ∃ f, meanGrad g p .list = .ok f ∧
      ∀ j < a.rows.length, ∀ d < g.inputDim, f j d = specQuotient g g.inputDim (a.rows.getD j []) d := by
  obtain ⟨rfl, hc, ha⟩ := hp
  have hk : checks g (.array 2 a) .list = .ok () := checks_ok.2 ⟨.inl ⟨a, rfl, hc⟩, .inr (.inl rfl)⟩
  have hl : ¬g.hps.length < 1 + a.cols := by rw [h.hps, h.cols, hc]; omega
  have hle : a.cols ≤ g.x.cols := by rw [h.cols, hc]; omega
  have h2 := kernel_points (g := g) (a := a) (b := g.x) ha hr hle
  rw [if_neg hl] at h2
  refine ⟨gradEntry g a, ?_, ?_⟩
  · simp only [meanGrad, resolve, hk, extend, h2]
  · intro j hj d _
    exact meanGrad_rows ha (fun r hr' => (hr r hr').trans hc) j d hj

/-- The same request with the same list is rejected by the posterior mean and the posterior covariance. -/
theorem C155_list_rejected {g : Gp} {p : XPred} (h : MultiTask g) :
    (¬∃ r, posteriorMean g p .list = .ok r) ∧ ¬∃ r, covarianceBlocks g p .list = .ok r := by
  have h1 : ¬∃ r, posteriorMean g p .list = .ok r := by
    rw [C155_mean_answered h]
    rintro ⟨a, t, _, ho, _⟩
    simp at ho
  refine ⟨h1, fun ⟨r, hr⟩ => h1 ?_⟩
  unfold covarianceBlocks at hr
  unfold posteriorMean
  rcases checks_cases g p (resolve g .list) with hk | ⟨e, hk⟩
  swap
  · simp [hk] at hr
  simp only [hk] at hr ⊢
  cases hkk : kernel (.tab g.x) (extend p (resolve g .list)) g.hps with
  | error e => simp [hkk] at hr
  | ok k => exact ⟨_, rfl⟩

/-- Two observations at one point, of two tasks, with opposite weights. -/
noncomputable def exGp : Gp := ⟨⟨[[0, 0], [0, 1]], 2⟩, 1, .array 1 [0, 1], [1, 1, 1], [1, -1], 0⟩

theorem exGp_multi : MultiTask exGp where
  rect := by intro r hr; simp [exGp] at hr; rcases hr with rfl | rfl <;> rfl
  data := by simp [exGp]
  hps := rfl
  cols := rfl
  tasks := ⟨_, rfl⟩

theorem matern_sqrt_deriv {w : ℝ} (hw : 0 < w) :
    HasDerivAt (fun w => matern1 (√w) 1) (-(3 / 2) * Real.exp (-(√3 * √w))) w := by
  unfold matern1
  have hs : HasDerivAt (fun w => √3 * √w / 1) (√3 * (1 / (2 * √w)) / 1) w := ((Real.hasDerivAt_sqrt hw.ne').const_mul _).div_const 1
  have he : HasDerivAt (fun w => Real.exp (-(√3 * √w) / 1)) (Real.exp (-(√3 * √w) / 1) * (-(√3 * (1 / (2 * √w))) / 1)) w :=
    (((Real.hasDerivAt_sqrt hw.ne').const_mul _).neg.div_const 1).exp
  refine ((hs.const_add 1).mul he).congr_deriv ?_
  have h0 : √w ≠ 0 := (Real.sqrt_pos.2 hw).ne'
  have h3 : √3 * √3 = 3 := Real.mul_self_sqrt (by norm_num)
  simp only [div_one]
  field_simp
  linear_combination (-√w) * h3

theorem matern_gap_anti : StrictAntiOn (fun w : ℝ => matern1 (√w) 1 - matern1 (√(w + 1)) 1) (Set.Ioi 0) := by
  have hd : ∀ w : ℝ, 0 < w → HasDerivAt (fun w : ℝ => matern1 (√w) 1 - matern1 (√(w + 1)) 1)
      (-(3 / 2) * Real.exp (-(√3 * √w)) - -(3 / 2) * Real.exp (-(√3 * √(w + 1)))) w := by
    intro w hw
    refine (matern_sqrt_deriv hw).sub ?_
    have := (matern_sqrt_deriv (w := w + 1) (by linarith)).comp w ((hasDerivAt_id w).add_const 1)
    simpa [Function.comp_def] using this
  refine strictAntiOn_of_deriv_neg (convex_Ioi 0) (fun w hw => (hd w hw).continuousAt.continuousWithinAt) fun w hw => ?_
  rw [interior_Ioi] at hw
  rw [(hd w hw).deriv]
  have : Real.exp (-(√3 * √(w + 1))) < Real.exp (-(√3 * √w)) := by
    refine Real.exp_lt_exp.2 (neg_lt_neg (mul_lt_mul_of_pos_left (Real.sqrt_lt_sqrt (le_of_lt hw) (by linarith)) (by positivity)))
  linarith

/-- Predictions of the example at one point for both tasks. -/
example : posteriorMean exGp (.array 2 ⟨[[3]], 1⟩) .none = .ok [specMean exGp 2 [3, 0], specMean exGp 2 [3, 1]] :=
  C155_mean_value (t := [0, 1]) exGp_multi ⟨rfl, rfl, by simp⟩ ⟨.inr ⟨rfl, rfl⟩, by simp⟩

/-- Points with two columns are rejected by the example, which has one input dimension. -/
example (a : Tab) (h : a.cols = 2) : ¬∃ r, posteriorMean exGp (.array 2 a) .none = .ok r := by
  rw [C155_mean_answered exGp_multi]
  rintro ⟨b, t, ⟨hb, hc, _⟩, _⟩
  cases hb
  simp [exGp, h] at hc

/-- A single-task GP with one observation. -/
noncomputable def exSingle : Gp := ⟨⟨[[0]], 1⟩, 1, .none, [1, 1], [1], 0⟩

theorem exSingle_single : SingleTask exSingle where
  rect := by intro r hr; simp [exSingle] at hr; subst hr; rfl
  data := by simp [exSingle]
  hps := rfl
  cols := rfl
  tasks := rfl

/-- Its mean is answered for tasks it does not have, its covariance is not. -/
example : (∃ r, posteriorMean exSingle (.array 2 ⟨[[3]], 1⟩) (.array 1 [4, 7]) = .ok [r, r]) ∧
    ¬∃ r, covarianceBlocks exSingle (.array 2 ⟨[[3]], 1⟩) (.array 1 [4, 7]) = .ok r := by
  have hr : (⟨[[3]], 1⟩ : Tab).Rect := by intro r hr; simp at hr; subst hr; rfl
  refine ⟨?_, ?_⟩
  · obtain ⟨r, _, rfl, h⟩ := C155_mean_tasks_violated exSingle_single hr rfl (by simp)
    exact ⟨_, h [4, 7] (by simp)⟩
  · rw [C155_covariance_single_task (p := .array 2 ⟨[[3]], 1⟩) exSingle_single hr]
    simp

/-- A gradient requested for the tasks `[0, 1]` as a list is zero, although it is not zero for either task. -/
theorem C155_gradient_violated : ∃ f, meanGrad exGp (.array 2 ⟨[[1]], 1⟩) .list = .ok f ∧ f 0 0 = 0 ∧
    ∃ f', meanGrad exGp (.array 2 ⟨[[1]], 1⟩) (.array 1 [0, 1]) = .ok f' ∧ f' 0 0 ≠ 0 ∧ f' 1 0 ≠ 0 := by
  have hr : (⟨[[1]], 1⟩ : Tab).Rect := by intro r hr; simp at hr; subst hr; rfl
  have hp : AsksPoints exGp (.array 2 ⟨[[1]], 1⟩) ⟨[[1]], 1⟩ := ⟨rfl, rfl, by simp⟩
  obtain ⟨f, hf, hv⟩ := C155_gradient_merged exGp_multi hr hp
  obtain ⟨f', hf', hv'⟩ := C155_gradient_value (t := [0, 1]) exGp_multi hr hp ⟨.inl rfl, by simp⟩
  have e0 := hv 0 (by simp) 0 (by simp [exGp])
  have e1 := hv' 0 (by simp [pairs]) 0 (by simp [exGp])
  have e2 := hv' 1 (by simp [pairs]) 0 (by simp [exGp])
  have hlt := matern_gap_anti (a := 1) (b := (1 + 1 / 10 ^ 8) ^ 2) (by norm_num) (by norm_num) (by norm_num)
  simp only [Real.sqrt_one] at hlt
  have hsq : (-((10 : ℝ) ^ 8)⁻¹ + -1) ^ 2 = (1 + 1 / 10 ^ 8) ^ 2 := by norm_num
  refine ⟨f, hf, ?_, f', hf', ?_, ?_⟩
  · rw [e0]
    simp [specQuotient, specMean, specKernel_eq, exGp, rowDist, List.range_succ]
  · rw [e1]
    simp [specQuotient, specMean, specKernel_eq, exGp, rowDist, List.range_succ, pairs]
    intro h
    rw [hsq] at h
    linarith
  · rw [e2]
    simp [specQuotient, specMean, specKernel_eq, exGp, rowDist, List.range_succ, pairs]
    intro h
    rw [hsq] at h
    linarith

end Verif.GP.Shape
