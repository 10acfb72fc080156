import Verif.State.ShareModel
import Verif.State.ArgsProps

/-! Property C157: arrays shared between a GP and its caller. -/

namespace Verif.State

open Finset Verif.GP Verif.LinAlg

variable {α H : Type}

/-! ## Specification -/

/-- What a GP shows of its data, input dimension and hyperparameters. -/
def Shared.shows (s : Shared α H) : Spec α H := ⟨s.heap.data s.refs s.obj.data.cur.cols, s.obj.data.width, s.heap.hps s.refs.hps⟩

/-- Sensible steps: in-place writes keep the number of points and values, updates fit the data the GP shows, and arrays exist. -/
def Allowed (eu : Bool) (s : Shared α H) : Act α H → Prop
  | .writeX a v => a < s.heap.next ∧ v.length = (s.heap.x a).length
  | .writeY a v => a < s.heap.next ∧ v.length = (s.heap.y a).length
  | .update u => (u.load s.heap).Fits eu s.shows ∧ u.x < s.heap.next ∧ u.y < s.heap.next ∧ ∀ a ∈ u.noise, a < s.heap.next
  | .writeNoise a _ => a < s.heap.next
  | .writeHps a _ => a < s.heap.next
  | .setHps a => a < s.heap.next
  | .new _ _ _ _ => True

/-- Every step of a sequence is sensible where it is taken. -/
def AllowedRun (eu : Bool) (s : Shared α H) : List (Act α H) → Prop
  | [] => True
  | a :: as => Allowed eu s a ∧ AllowedRun eu (s.step a).1 as

/-! ## The invariant -/

/-- The callables without `args`. -/
def plainFns (c : Config α H) : ArgFns Unit α H where
  kernel _ := c.kernel
  mean := c.mean.map fun m _ => m
  noise := match c.noise with
    | .user n => some fun _ => n
    | _ => none

theorem withArgs_plain (c : Config α H) : withArgs c (plainFns c) () = c := by
  obtain ⟨k, m, n, mo, sp, e⟩ := c
  cases m <;> cases n <;> rfl

theorem shows_view (s : Shared α H) : s.shows = ⟨s.view.data.cur, s.view.data.width, s.view.hps⟩ := rfl

/-- Whatever the caller has written, the object as its methods see it has the data it shows. -/
def SaneShared (c : Config α H) (eu : Bool) (s : Shared α H) : Prop := Sane c (plainFns c) eu (s.shows, ()) s.view

theorem sane_write {c : Config α H} {eu : Bool} {s : Shared α H} (g : SaneShared c eu s) (m : Heap α H)
    (hx : (m.x s.refs.x).length = (s.heap.x s.refs.x).length) (hy : (m.y s.refs.y).length = (s.heap.y s.refs.y).length) :
    SaneShared c eu { s with heap := m } := by
  refine ⟨g.cfg, g.eu, rfl, rfl, rfl, g.nan, ?_, ?_, g.mode⟩
  · have := g.count
    simp only [Shared.view, Shared.shows, Heap.data] at this ⊢
    rw [this, hx]
  · have := g.len
    simp only [Shared.shows, Heap.data] at this ⊢
    rw [hx, hy, this]

theorem length_update {β : Type} (f : ℕ → List β) (a i : ℕ) (v : List β) (h : v.length = (f a).length) :
    (Function.update f a v i).length = (f i).length := by
  by_cases hi : i = a
  · subst hi; simp [h]
  · simp [Function.update_of_ne hi]

/-- The addresses a GP holds exist. -/
def RefsOk (s : Shared α H) : Prop := s.refs.x < s.heap.next ∧ s.refs.y < s.heap.next ∧ (∀ a ∈ s.refs.noise, a < s.heap.next) ∧ s.refs.hps < s.heap.next

theorem view_alloc (s : Shared α H) (hr : RefsOk s) (x : List α) (y : List (List ℝ)) (v : List ℝ) (h : H) :
    ({ s with heap := s.heap.alloc x y v h } : Shared α H).view = s.view := by
  obtain ⟨h1, h2, h3, h4⟩ := hr
  have e : s.refs.noise.map (Function.update s.heap.noise s.heap.next v) = s.refs.noise.map s.heap.noise := by
    cases hn : s.refs.noise with
    | none => rfl
    | some a =>
      have := h3 a (by simp [hn])
      simp [Function.update_of_ne this.ne]
  simp only [Shared.view, Heap.data, Heap.alloc, Function.update_of_ne h1.ne, Function.update_of_ne h2.ne, Function.update_of_ne h4.ne, e]

theorem view_stored (s : Shared α H) (hr : RefsOk s) (o : Obj α H) (hn : o.data.cur.noiseVar.isSome = s.refs.noise.isSome)
    (hh : o.hps = s.heap.hps s.refs.hps) :
    (⟨s.heap.alloc o.data.cur.x o.data.cur.y (o.data.cur.noiseVar.getD []) (s.heap.hps s.refs.hps),
      ⟨s.heap.next, s.heap.next, s.refs.noise.map fun _ => s.heap.next, s.refs.hps⟩, o⟩ : Shared α H).view = o := by
  obtain ⟨-, -, -, h4⟩ := hr
  obtain ⟨cfg, ⟨⟨dx, dy, dc, dn⟩, a2, a3, a4, a5, a6, a7, a8, a9, a10, a11⟩, hps, b1, b2, b3, b4, b5, b6⟩ := o
  simp only at hn hh
  subst hh
  simp only [Shared.view, Heap.data, Heap.alloc, Function.update_self, Function.update_of_ne h4.ne]
  cases hno : s.refs.noise with
  | none =>
    rw [hno] at hn
    have : dn = none := by simpa using hn
    subst this
    rfl
  | some a =>
    rw [hno] at hn
    obtain ⟨v, rfl⟩ := Option.isSome_iff_exists.1 (by simpa using hn)
    simp

/-- An update that raised nothing leaves the data it should. -/
theorem update_data {c : Config α H} {eu : Bool} {s : Shared α H} (g : SaneShared c eu s) (u : SharedUpdate)
    (hfit : (u.load s.heap).Fits eu s.shows) (o : Obj α H) (h : updateGpData s.view (u.load s.heap) = (o, .ok ())) :
    Sane c (plainFns c) eu (s.shows.step (.update (u.load s.heap)), ()) o := by
  have := sane_step c (plainFns c) eu (s.shows, ()) s.view o g (.op (.update (u.load s.heap))) (fun w hw => by
    simp only [ArgOp.op.injEq, Op.update.injEq] at hw
    subst hw
    exact hfit) h
  exact this

theorem shared_update {c : Config α H} {eu : Bool} {s : Shared α H} (g : SaneShared c eu s) (hr : RefsOk s) (u : SharedUpdate)
    (hfit : (u.load s.heap).Fits eu s.shows) (s' : Shared α H) (h : s.step (.update u) = (s', .ok ())) :
    s'.shows = s.shows.step (.update (u.load s.heap)) ∧ updateGpData s.view (u.load s.heap) = (s'.view, .ok ()) ∧
      (u.append = true → s'.refs = ⟨s.heap.next, s.heap.next, s.refs.noise.map fun _ => s.heap.next, s.refs.hps⟩ ∧ s'.heap.next = s.heap.next + 1) := by
  rcases ho : updateGpData s.view (u.load s.heap) with ⟨o, r⟩
  by_cases ha : u.append = true
  · simp only [Shared.step, ha, if_true, ho, Prod.mk.injEq] at h
    obtain ⟨h1, rfl⟩ := h
    have gd := update_data g u hfit o ho
    have hn : o.data.cur.noiseVar.isSome = s.refs.noise.isSome := by
      rw [gd.data]
      have hf := hfit.noise
      simp only [Spec.step, specData, SharedUpdate.load, ha, if_true, Shared.shows, Heap.data] at hf ⊢
      cases hs : s.refs.noise with
      | none => simp
      | some a =>
        rw [hs] at hf
        cases hu : u.noise with
        | none => rw [hu] at hf; simp at hf
        | some b => simp
    have hv := view_stored s hr o hn gd.hps
    subst h1
    refine ⟨?_, by rw [hv], fun _ => ⟨rfl, rfl⟩⟩
    rw [shows_view, hv]
    have e1 := gd.data; have e2 := gd.width; have e3 := gd.hps
    simp only at e1 e2 e3
    rw [e1, e2, e3]
  · simp only [Shared.step, ha, Bool.false_eq_true, if_false, ho, Prod.mk.injEq] at h
    obtain ⟨h1, rfl⟩ := h
    have gd := update_data g u hfit o ho
    have hv : s'.view = o := by
      rw [← h1]
      have e1 := gd.data; have e3 := gd.hps
      simp only [Spec.step, specData, SharedUpdate.load, ha, Bool.false_eq_true, if_false, Shared.shows] at e1 e3
      obtain ⟨cfg, ⟨dc, a2, a3, a4, a5, a6, a7, a8, a9, a10, a11⟩, hps, b1, b2, b3, b4, b5, b6⟩ := o
      simp only at e1 e3
      subst e1 e3
      rfl
    refine ⟨?_, by rw [hv], fun hc => absurd hc ha⟩
    rw [shows_view, hv]
    have e1 := gd.data; have e2 := gd.width; have e3 := gd.hps
    simp only at e1 e2 e3
    rw [e1, e2, e3]

theorem shared_step {c : Config α H} {eu : Bool} {s s' : Shared α H} (g : SaneShared c eu s) (hr : RefsOk s) (a : Act α H)
    (ha : Allowed eu s a) (h : s.step a = (s', .ok ())) : SaneShared c eu s' ∧ RefsOk s' := by
  cases a with
  | new x y v hh =>
    simp only [Shared.step, Prod.mk.injEq, and_true] at h
    subst h
    refine ⟨?_, ?_⟩
    · unfold SaneShared
      rw [shows_view, view_alloc s hr, ← shows_view]
      exact g
    · obtain ⟨h1, h2, h3, h4⟩ := hr
      exact ⟨Nat.lt_succ_of_lt h1, Nat.lt_succ_of_lt h2, fun a ha => Nat.lt_succ_of_lt (h3 a ha), Nat.lt_succ_of_lt h4⟩
  | writeX b v =>
    simp only [Shared.step, Prod.mk.injEq, and_true] at h
    subst h
    exact ⟨sane_write g _ (length_update _ _ _ _ ha.2) rfl, hr⟩
  | writeY b v =>
    simp only [Shared.step, Prod.mk.injEq, and_true] at h
    subst h
    exact ⟨sane_write g _ rfl (length_update _ _ _ _ ha.2), hr⟩
  | writeNoise b v =>
    simp only [Shared.step, Prod.mk.injEq, and_true] at h
    subst h
    exact ⟨sane_write g _ rfl rfl, hr⟩
  | writeHps b v =>
    simp only [Shared.step, Prod.mk.injEq, and_true] at h
    subst h
    exact ⟨sane_write g _ rfl rfl, hr⟩
  | setHps b =>
    rcases ho : setHyperparameters s.view (s.heap.hps b) with ⟨o, r⟩
    simp only [Shared.step, ho, Prod.mk.injEq] at h
    obtain ⟨h1, rfl⟩ := h
    have gd := sane_step c (plainFns c) eu (s.shows, ()) s.view o g (.op (.setHps (s.heap.hps b))) (fun w hw => by simp at hw) ho
    have hv : s'.view = o := by
      rw [← h1]
      have e1 := gd.data; have e3 := gd.hps
      simp only [argStep, Spec.step, Shared.shows] at e1 e3
      obtain ⟨cfg, ⟨dc, a2, a3, a4, a5, a6, a7, a8, a9, a10, a11⟩, hps, b1, b2, b3, b4, b5, b6⟩ := o
      simp only at e1 e3
      subst e1 e3
      rfl
    subst h1
    refine ⟨?_, hr.1, hr.2.1, hr.2.2.1, ha⟩
    unfold SaneShared
    rw [shows_view, hv]
    have e1 := gd.data; have e2 := gd.width; have e3 := gd.hps
    rw [e1, e2, e3]
    exact gd
  | update u =>
    obtain ⟨h1, h2, h3⟩ := shared_update g hr u ha.1 s' h
    have gd := update_data g u ha.1 _ h2
    refine ⟨?_, ?_⟩
    · unfold SaneShared
      rw [h1]
      exact gd
    · by_cases hap : u.append = true
      · obtain ⟨e1, e2⟩ := h3 hap
        unfold RefsOk
        rw [e1, e2]
        refine ⟨Nat.lt_succ_self _, Nat.lt_succ_self _, ?_, Nat.lt_succ_of_lt hr.2.2.2⟩
        intro a ha
        cases hn : s.refs.noise with
        | none => rw [hn] at ha; simp at ha
        | some b =>
          rw [hn] at ha
          simp only [Option.map_some, Option.mem_def, Option.some.injEq] at ha
          omega
      · simp only [Shared.step, hap, Bool.false_eq_true, if_false, Prod.mk.injEq] at h
        rw [← h.1]
        exact ⟨ha.2.1, ha.2.2.1, ha.2.2.2, hr.2.2.2⟩

theorem shared_run {c : Config α H} {eu : Bool} (as : List (Act α H)) : ∀ {s s' : Shared α H}, SaneShared c eu s → RefsOk s →
    AllowedRun eu s as → s.run as = (s', .ok ()) → SaneShared c eu s' ∧ RefsOk s' := by
  induction as with
  | nil =>
    intro s s' g hr _ h
    simp only [Shared.run, Prod.mk.injEq, and_true] at h
    subst h
    exact ⟨g, hr⟩
  | cons a as ih =>
    intro s s' g hr ha h
    rw [Shared.run] at h
    rcases hs : s.step a with ⟨t, e | ⟨⟩⟩
    · rw [hs] at h; simp at h
    · rw [hs] at h
      simp only at h
      obtain ⟨g', hr'⟩ := shared_step g hr a ha.1 hs
      have := ha.2
      rw [hs] at this
      exact ih g' hr' this h

theorem create_good {c : Config α H} (he : SpluContract c.ext) (m : Heap α H) (r : Refs) (cols : ℕ) (eu : Bool) (width : ℕ)
    (hlen : (m.y r.y).length = (m.x r.x).length) (hadm : Admissible c (m.data r cols) (m.hps r.hps)) :
    ∃ s, Shared.create c m r cols eu width = .ok s ∧ s.heap = m ∧ s.refs = r ∧ Good c eu ⟨m.data r cols, width, m.hps r.hps⟩ s.view ∧
      s.shows = ⟨m.data r cols, width, m.hps r.hps⟩ := by
  obtain ⟨o, ho, g⟩ := build_good c he eu ⟨m.data r cols, width, m.hps r.hps⟩ hlen hadm
  have hcols : o.data.cur.cols = cols := by rw [g.data]; rfl
  have hv : (⟨m, r, o⟩ : Shared α H).view = o := by
    have e1 := g.data; have e3 := g.hps
    obtain ⟨cfg, ⟨dc, a2, a3, a4, a5, a6, a7, a8, a9, a10, a11⟩, hps, b1, b2, b3, b4, b5, b6⟩ := o
    simp only at e1 e3
    subst e1 e3
    rfl
  refine ⟨⟨m, r, o⟩, by simp [Shared.create, ho, bind, Except.bind], rfl, rfl, by rw [hv]; exact g, ?_⟩
  rw [shows_view, hv, g.data, g.width, g.hps]

/-! ## C157 -/

/-- **C157** (how to get in order again). Whatever the caller has written into arrays in the meantime, between updates and hyperparameter changes
(as long as the numbers of points and values stay), `set_hyperparameters` makes the GP indistinguishable from one freshly built on the data
it shows then. -/
theorem C157_flush {c : Config α H} (he : SpluContract c.ext) (m : Heap α H) (r : Refs) (cols : ℕ) (eu : Bool) (width : ℕ)
    (hr : r.x < m.next ∧ r.y < m.next ∧ (∀ a ∈ r.noise, a < m.next) ∧ r.hps < m.next)
    (hlen : (m.y r.y).length = (m.x r.x).length) (hadm : Admissible c (m.data r cols) (m.hps r.hps)) (as : List (Act α H)) :
    ∃ s, Shared.create c m r cols eu width = .ok s ∧ ∀ s₁, AllowedRun eu s as → s.run as = (s₁, .ok ()) →
      ∀ a < s₁.heap.next, Admissible c s₁.shows.data (s₁.heap.hps a) →
        ∃ s₂ fresh, s₁.step (.setHps a) = (s₂, .ok ()) ∧ build c s₁.shows.data eu s₁.shows.width (s₁.heap.hps a) = .ok fresh ∧
          Same s₂.view fresh := by
  obtain ⟨s, hs, e1, e2, g, hsh⟩ := create_good he m r cols eu width hlen hadm
  refine ⟨s, hs, fun s₁ hal hrun a ha had => ?_⟩
  have hrefs : RefsOk s := by
    unfold RefsOk
    rw [e1, e2]
    exact hr
  have gs : SaneShared c eu s := by
    unfold SaneShared
    rw [hsh]
    exact good_sane (f := plainFns c) (s := (⟨m.data r cols, width, m.hps r.hps⟩, ())) (by rw [withArgs_plain]; exact g)
  obtain ⟨g1, hr1⟩ := shared_run as gs hrefs hal hrun
  obtain ⟨o₂, h₂, g₂⟩ := sane_flush c he (plainFns c) eu (s₁.shows, ()) s₁.view g1 (s₁.heap.hps a) (by rw [withArgs_plain]; exact had)
  rw [withArgs_plain] at g₂
  obtain ⟨fr, hfr, gf⟩ := build_good c he eu { s₁.shows with hps := s₁.heap.hps a } g1.len had
  refine ⟨⟨s₁.heap, { s₁.refs with hps := a }, o₂⟩, fr, by simp only [Shared.step, h₂], hfr, ?_⟩
  have hv : (⟨s₁.heap, { s₁.refs with hps := a }, o₂⟩ : Shared α H).view = o₂ := by
    have e1 := g₂.data; have e3 := g₂.hps
    simp only [Shared.shows] at e1 e3
    obtain ⟨cfg, ⟨dc, a2, a3, a4, a5, a6, a7, a8, a9, a10, a11⟩, hps, b1, b2, b3, b4, b5, b6⟩ := o₂
    simp only at e1 e3
    subst e1 e3
    rfl
  rw [hv]
  exact good_same g₂ gf

/-- **C157** (contents count when they are passed). Whatever has been written before, an update that raises nothing leaves a GP that shows the
contents its arguments have at the time of the call, after what it showed before if they are appended. -/
theorem C157_update_shows {c : Config α H} (he : SpluContract c.ext) (m : Heap α H) (r : Refs) (cols : ℕ) (eu : Bool) (width : ℕ)
    (hr : r.x < m.next ∧ r.y < m.next ∧ (∀ a ∈ r.noise, a < m.next) ∧ r.hps < m.next)
    (hlen : (m.y r.y).length = (m.x r.x).length) (hadm : Admissible c (m.data r cols) (m.hps r.hps)) (as : List (Act α H)) :
    ∃ s, Shared.create c m r cols eu width = .ok s ∧ ∀ s₁, AllowedRun eu s as → s.run as = (s₁, .ok ()) →
      ∀ u : SharedUpdate, Allowed eu s₁ (.update u) → ∀ s₂, s₁.step (.update u) = (s₂, .ok ()) →
        s₂.shows.hps = s₁.shows.hps ∧
        (u.append = true → s₂.shows.data.x = s₁.shows.data.x ++ s₁.heap.x u.x ∧ s₂.shows.data.y = s₁.shows.data.y ++ s₁.heap.y u.y ∧
          ∀ a v, u.noise = some a → s₁.shows.data.noiseVar = some v → s₂.shows.data.noiseVar = some (v ++ s₁.heap.noise a)) ∧
        (u.append = false → s₂.shows.data.x = s₁.heap.x u.x ∧ s₂.shows.data.y = s₁.heap.y u.y ∧
          s₂.shows.data.noiseVar = u.noise.map s₁.heap.noise) := by
  obtain ⟨s, hs, e1, e2, g, hsh⟩ := create_good he m r cols eu width hlen hadm
  refine ⟨s, hs, fun s₁ hal hrun u hu s₂ h => ?_⟩
  have gs : SaneShared c eu s := by
    unfold SaneShared
    rw [hsh]
    exact good_sane (f := plainFns c) (s := (⟨m.data r cols, width, m.hps r.hps⟩, ())) (by rw [withArgs_plain]; exact g)
  obtain ⟨g1, hr1⟩ := shared_run as gs (by unfold RefsOk; rw [e1, e2]; exact hr) hal hrun
  have hx := (shared_update g1 hr1 u hu.1 s₂ h).1
  refine ⟨by rw [hx]; rfl, fun ha => ?_, fun ha => ?_⟩
  · rw [hx]
    refine ⟨?_, ?_, fun a v hn hv => ?_⟩
    · simp [Spec.step, specData, SharedUpdate.load, ha]
    · simp [Spec.step, specData, SharedUpdate.load, ha]
    · simp [Spec.step, specData, SharedUpdate.load, ha, hn, hv]
  · rw [hx]
    simp [Spec.step, specData, SharedUpdate.load, ha]

/-- **C157** (the GP does not write). `set_hyperparameters` and `update_gp_data` leave every array that existed before as it is, also when they
raise. -/
theorem C157_reads_only (s : Shared α H) (a : Act α H) (h : (∃ b, a = .setHps b) ∨ ∃ u, a = .update u) (b : ℕ) (hb : b < s.heap.next) :
    (s.step a).1.heap.x b = s.heap.x b ∧ (s.step a).1.heap.y b = s.heap.y b ∧ (s.step a).1.heap.noise b = s.heap.noise b ∧
      (s.step a).1.heap.hps b = s.heap.hps b := by
  rcases h with ⟨c, rfl⟩ | ⟨u, rfl⟩
  · exact ⟨rfl, rfl, rfl, rfl⟩
  · simp only [Shared.step]
    split
    · simp [Heap.alloc, Function.update_of_ne hb.ne]
    · exact ⟨rfl, rfl, rfl, rfl⟩

/-- A write into one of the data arrays below an address. -/
def DataWrite (n : ℕ) : Act α H → Prop
  | .writeX a _ => a < n
  | .writeY a _ => a < n
  | .writeNoise a _ => a < n
  | _ => False

/-- **C157** (appended data are safe). After an append nothing the caller writes into the arrays that existed before it, be it the
original ones or the ones just passed in, changes the GP in any way. -/
theorem C157_after_append (s s' : Shared α H) (u : SharedUpdate) (hu : u.append = true) (h : s.step (.update u) = (s', .ok ()))
    (as : List (Act α H)) (has : ∀ a ∈ as, DataWrite s.heap.next a) : (s'.run as).1.view = s'.view ∧ (s'.run as).2 = .ok () := by
  have hr : s'.refs.x = s.heap.next ∧ s'.refs.y = s.heap.next ∧ ∀ a ∈ s'.refs.noise, a = s.heap.next := by
    simp only [Shared.step, hu, if_true, Prod.mk.injEq] at h
    obtain ⟨h, -⟩ := h
    subst h
    refine ⟨rfl, rfl, fun a ha => ?_⟩
    simp only [Option.mem_def, Option.map_eq_some_iff] at ha
    obtain ⟨_, _, rfl⟩ := ha
    rfl
  clear h
  induction as generalizing s' with
  | nil => exact ⟨rfl, rfl⟩
  | cons a as ih =>
    have ha := has a (by simp)
    have hs : ∃ t, s'.step a = (t, .ok ()) ∧ t.view = s'.view ∧ t.refs = s'.refs := by
      cases a with
      | writeX b v =>
        refine ⟨_, rfl, ?_, rfl⟩
        have : s'.refs.x ≠ b := by simp only [DataWrite] at ha; omega
        simp only [Shared.view, Heap.data, Function.update_of_ne this]
      | writeY b v =>
        refine ⟨_, rfl, ?_, rfl⟩
        have : s'.refs.y ≠ b := by simp only [DataWrite] at ha; omega
        simp only [Shared.view, Heap.data, Function.update_of_ne this]
      | writeNoise b v =>
        refine ⟨_, rfl, ?_, rfl⟩
        have : s'.refs.noise.map (Function.update s'.heap.noise b v) = s'.refs.noise.map s'.heap.noise := by
          cases hn : s'.refs.noise with
          | none => rfl
          | some c =>
            have hc := hr.2.2 c (by simp [hn])
            have : c ≠ b := by simp only [DataWrite] at ha; omega
            simp [Function.update_of_ne this]
        simp only [Shared.view, Heap.data, this]
      | _ => simp [DataWrite] at ha
    obtain ⟨t, ht, hv, htr⟩ := hs
    have := ih t (fun a ha => has a (by simp [ha])) (by rw [htr]; exact hr)
    rw [Shared.run, ht]
    exact ⟨this.1.trans hv, this.2⟩

/-- **C157** (what the GP answers meanwhile; partial because it is neither the model before nor the one after). After the contents of the arrays
have changed, the posterior mean combines both: the covariance with the data, the prior mean at the prediction points and the hyperparameters
are those in memory now, `K + V`, the values and the prior mean at the data are those of construction. -/
theorem C157_prediction_partial {c : Config α H} (he : SpluContract c.ext) (m : Heap α H) (r : Refs) (cols : ℕ) (eu : Bool) (width : ℕ)
    (hlen : (m.y r.y).length = (m.x r.x).length) (hadm : Admissible c (m.data r cols) (m.hps r.hps)) :
    ∃ s, Shared.create c m r cols eu width = .ok s ∧ ∀ (m' : Heap α H) (hx : (m.x r.x).length = (m'.x r.x).length) (xs : List α)
      (i : Fin xs.length) (j : ℕ), posteriorMean ({ s with heap := m' } : Shared α H).view.toGP xs i j
        = condMean (KVmat c (m.data r cols) (m.hps r.hps)) (Matrix.of fun l z => c.kernel (m'.hps r.hps) ((m'.x r.x).get (l.cast hx)) (xs.get z))
            (meanAt c (m'.data r cols) (m'.hps r.hps) xs) (meanAt c (m.data r cols) (m.hps r.hps) (m.x r.x)) (yCol (m.data r cols) j) i := by
  obtain ⟨s, hs, e1, e2, g, hsh⟩ := create_good he m r cols eu width hlen hadm
  refine ⟨s, hs, fun m' hx xs i j => ?_⟩
  have hcols : s.obj.data.cur.cols = cols := congrArg Data.cols g.data
  obtain ⟨gcfg, -, gdata, -, ghps, -, -, -, -, -, con, -⟩ := g
  have hk := con.kvinvY_eq
  have hm := con.m_eq
  subst e1 e2
  subst hcols
  subst gcfg
  have hsol := consistent_solve con hadm.posDef
  simp only [Shared.view, Obj.toGP] at hsol hk hm
  unfold condMean
  rw [posteriorMean, evalAt_apply, Pi.add_apply]
  refine congrArg₂ (· + ·) rfl ?_
  simp only [Shared.view, Obj.toGP, Matrix.mulVec, dotProduct, Matrix.transpose_apply]
  rw [Finset.sum_range]
  refine Fintype.sum_equiv (finCongr hx.symm) _ _ fun l => ?_
  refine congrArg₂ (· * ·) (gram_apply _ (m'.x s.refs.x) xs l i) ?_
  rw [hk, solveY]
  refine (hsol _ (finCongr hx.symm l)).trans ?_
  simp only [Matrix.mulVec, dotProduct]
  refine Finset.sum_congr rfl fun z _ => ?_
  rw [hm]
  refine congrArg₂ (· * ·) rfl ?_
  rw [evalAt_apply]
  rfl

/-! ## Violations -/

/-- The arrays of the caller: one value `2` with noise variance `1`, hyperparameter `1`. -/
noncomputable def shHeap : Heap ℕ ℝ := ⟨fun _ => [0], fun _ => [[2]], fun _ => [1], fun _ => 1, 1⟩

/-- The GP is given the arrays at address `0`. -/
def shRefs : Refs := ⟨0, 0, some 0, 0⟩

/-- C157 is violated for hyperparameters: with the kernel `k = h` (a constant function with variance `h`) and prior mean `0`, a GP is built on
one value `2` with noise variance `1` and `h = 1`. When the caller then sets their array to `4`, the GP predicts `4` at its data point, which
is none of the predictions `2h/(h+1)` of any constant with variance `h`. -/
theorem C157_hyperparameters_violated :
    ∃ s, Shared.create (withArgs kCfg kFns 1) shHeap shRefs 1 true 1 = .ok s ∧ posteriorMean s.view.toGP [0] 0 0 = 1 ∧
      posteriorMean (s.step (.writeHps 0 4)).1.view.toGP [0] 0 0 = 4 ∧ (s.step (.writeHps 0 4)).1.shows.hps = 4 ∧
      ∀ h : ℝ, 0 ≤ h → h * 2 / (h + 1) < 4 := by
  have ha : Admissible (withArgs kCfg kFns 1) (shHeap.data shRefs 1) (shHeap.hps shRefs.hps) :=
    kAdm 1 (by norm_num) _ [1] rfl rfl (by simp)
  obtain ⟨s, hs, hp⟩ := C157_prediction_partial cholExt_contract shHeap shRefs 1 true 1 rfl ha
  obtain ⟨s', hs', e1, e2, g, hsh⟩ := create_good cholExt_contract shHeap shRefs 1 true 1 rfl ha
  have e : s' = s := Except.ok.inj (hs'.symm.trans hs)
  subst e
  refine ⟨s', hs, ?_, ?_, ?_, fun h hh => ?_⟩
  · have h1 := hp shHeap rfl [0] pz 0
    have h2 : ({ s' with heap := shHeap } : Shared ℕ ℝ) = s' := by rw [← e1]
    rw [h2] at h1
    refine h1.trans ((kPred 1 1 (by norm_num)).1.trans (by norm_num))
  · have h1 := hp { shHeap with hps := Function.update shHeap.hps 0 4 } rfl [0] pz 0
    have h2 : ({ s' with heap := { shHeap with hps := Function.update shHeap.hps 0 4 } } : Shared ℕ ℝ) = (s'.step (.writeHps 0 4)).1 := by
      simp only [Shared.step, e1]
    rw [h2] at h1
    refine h1.trans ?_
    have h3 := (kPred 1 4 (by norm_num)).1
    refine Eq.trans ?_ (h3.trans (by norm_num))
    refine congrFun (congrArg₂ (fun k (mx : Fin ([0] : List ℕ).length → ℝ) => condMean (KVmat (withArgs kCfg kFns 1) kData 1) k mx
      (meanAt (withArgs kCfg kFns 1) kData 1 kData.x) (yCol kData 0)) ?_ rfl) pz
    ext a b
    simp [Kmat, withArgs, kFns, shRefs]
    rfl
  · simp [Shared.shows, Shared.step, e1, e2, shRefs]
  · rw [div_lt_iff₀ (by linarith)]
    linarith

/-- A kernel without correlations, `k(a, b) = [a = b]`. -/
noncomputable def spotFns : ArgFns Unit ℕ ℝ := ⟨fun _ _ a b => if a = b then 1 else 0, some fun _ _ _ => 0, none⟩

/-- C157 is violated for inputs: a GP with uncorrelated values is told that the value at `0` is `2`, and then the caller uses the array of the
input for their next measurement at `1`. From then on the GP attributes the value to the point `1` and knows nothing about `0`. -/
theorem C157_inputs_violated :
    ∃ s, Shared.create (withArgs kCfg spotFns ()) shHeap shRefs 1 true 1 = .ok s ∧
      posteriorMean s.view.toGP [0] 0 0 = 1 ∧ posteriorMean s.view.toGP [1] 0 0 = 0 ∧
      posteriorMean (s.step (.writeX 0 [1])).1.view.toGP [0] 0 0 = 0 ∧ posteriorMean (s.step (.writeX 0 [1])).1.view.toGP [1] 0 0 = 1 := by
  have ha : Admissible (withArgs kCfg spotFns ()) (shHeap.data shRefs 1) (shHeap.hps shRefs.hps) := by
    refine measured_admissible _ rfl _ _ ⟨fun a b => by simp [withArgs, spotFns, eq_comm], fun n (x : Fin n → ℕ) (w : Fin n → ℝ) => ?_⟩ [1] rfl
      rfl (by simp)
    have : ∑ i, ∑ j, w i * w j * (withArgs kCfg spotFns ()).kernel (shHeap.hps shRefs.hps) (x i) (x j)
        = ∑ c ∈ Finset.univ.image x, (∑ i, if x i = c then w i else (0 : ℝ)) ^ 2 := by
      have e : ∀ c : ℕ, (∑ i, if x i = c then w i else (0 : ℝ)) ^ 2 = ∑ i, ∑ j, w i * w j * if x i = c ∧ x j = c then (1 : ℝ) else 0 := by
        intro c
        rw [sq, Finset.sum_mul_sum]
        refine Finset.sum_congr rfl fun i _ => Finset.sum_congr rfl fun j _ => ?_
        by_cases h1 : x i = c <;> by_cases h2 : x j = c <;> simp [h1, h2]
      simp only [e]
      conv_rhs => rw [Finset.sum_comm]
      refine Finset.sum_congr rfl fun i _ => ?_
      conv_rhs => rw [Finset.sum_comm]
      refine Finset.sum_congr rfl fun j _ => ?_
      rw [← Finset.mul_sum]
      congr 1
      rw [Finset.sum_eq_single (x i) (fun c _ hc => by simp [Ne.symm hc]) (fun hc => by simp at hc)]
      simp [withArgs, spotFns, eq_comm]
    rw [this]
    exact Finset.sum_nonneg fun c _ => sq_nonneg _
  obtain ⟨s, hs, hp⟩ := C157_prediction_partial cholExt_contract shHeap shRefs 1 true 1 rfl ha
  obtain ⟨s', hs', e1, e2, -⟩ := create_good cholExt_contract shHeap shRefs 1 true 1 rfl ha
  have e : s' = s := Except.ok.inj (hs'.symm.trans hs)
  subst e
  have hKV : (KVmat (withArgs kCfg spotFns ()) (shHeap.data shRefs 1) (shHeap.hps shRefs.hps))⁻¹ = Matrix.diagonal fun _ => (2 : ℝ)⁻¹ := by
    have : KVmat (withArgs kCfg spotFns ()) (shHeap.data shRefs 1) (shHeap.hps shRefs.hps) = Matrix.diagonal fun _ => (2 : ℝ) := by
      ext i j
      have hi : i = j := Subsingleton.elim (α := Fin 1) _ _
      subst hi
      have hi0 : (i : ℕ) = 0 := by have := i.isLt; simp [Heap.data, shHeap] at this; omega
      rw [Matrix.diagonal_apply_eq, KVmat, Matrix.add_apply]
      have hV : (calcV (withArgs kCfg spotFns ()) (shHeap.data shRefs 1) (shHeap.hps shRefs.hps) (shHeap.data shRefs 1).x).mat
          (shHeap.data shRefs 1).x.length i i = 1 := by
        simp only [calcV, withArgs, kCfg, spotFns, Heap.data, shHeap, shRefs, Noise.mat]
        refine (Matrix.diagonal_apply_eq _ _).trans ?_
        simp [hi0]
      rw [hV]
      simp only [Kmat, withArgs, spotFns, Matrix.of_apply, if_true]
      norm_num
    rw [this]
    refine Matrix.inv_eq_right_inv ?_
    rw [Matrix.diagonal_mul_diagonal]
    ext i j
    simp [Matrix.diagonal_apply, Matrix.one_apply]
  have key : ∀ (v p : ℕ), posteriorMean ({ s' with heap := { shHeap with x := Function.update shHeap.x 0 [v] } } : Shared ℕ ℝ).view.toGP [p] 0 0
      = if v = p then 1 else 0 := by
    intro v p
    refine (hp { shHeap with x := Function.update shHeap.x 0 [v] } (by simp [shRefs, shHeap]) [p] (⟨0, by simp⟩ : Fin 1) 0).trans ?_
    unfold condMean
    rw [hKV, Pi.add_apply]
    simp only [Matrix.mulVec, dotProduct, Matrix.transpose_apply, Matrix.of_apply]
    have hu : ∀ F : Fin (shHeap.data shRefs 1).x.length → ℝ, ∑ i, F i = F (⟨0, by simp [Heap.data, shHeap]⟩) := fun F => Fin.sum_univ_one F
    simp only [hu]
    simp only [meanAt, meanFn, withArgs, spotFns, shRefs, Matrix.diagonal_apply_eq, Pi.sub_apply, yCol]
    simp [Heap.data, Data.yMat, shHeap]
    refine if_congr Iff.rfl ?_ rfl
    refine (congrArg₂ (· * ·) (Matrix.diagonal_apply_eq _ _) (show _ = (2 : ℝ) from ?_)).trans (by norm_num)
    show (2 : ℝ) - 0 = 2
    norm_num
  have h0 : ({ s' with heap := { shHeap with x := Function.update shHeap.x 0 [0] } } : Shared ℕ ℝ) = s' := by
    have : Function.update shHeap.x 0 [0] = shHeap.x := Function.update_eq_self 0 shHeap.x
    rw [this, ← e1]
  have h1 : ({ s' with heap := { shHeap with x := Function.update shHeap.x 0 [1] } } : Shared ℕ ℝ) = (s'.step (.writeX 0 [1])).1 := by
    simp only [Shared.step, e1]
  refine ⟨s', hs, ?_, ?_, ?_, ?_⟩
  · rw [← h0, key]; simp
  · rw [← h0, key]; simp
  · rw [← h1, key]; simp
  · rw [← h1, key]; simp

/-! ## Examples -/

theorem kAdmH (h : ℝ) (hh : 0 ≤ h) (d : Data ℕ) (v : List ℝ) (hv : d.noiseVar = some v) (hl : v.length = d.x.length)
    (hpos : ∀ x ∈ v, 0 < x) : Admissible (withArgs kCfg kFns 1) d h := by
  refine measured_admissible _ rfl d h ⟨fun _ _ => rfl, fun n (x : Fin n → ℕ) (w : Fin n → ℝ) => ?_⟩ v hv hl hpos
  have : ∑ i, ∑ j, w i * w j * (withArgs kCfg kFns 1).kernel h (x i) (x j) = h * ((∑ i, w i) * ∑ j, w j) := by
    rw [Finset.sum_mul_sum, Finset.mul_sum]
    refine Finset.sum_congr rfl fun i _ => ?_
    rw [Finset.mul_sum]
    refine Finset.sum_congr rfl fun j _ => ?_
    simp only [withArgs, kFns]
    ring
  rw [this]
  exact mul_nonneg hh (mul_self_nonneg _)

/-- C157_flush on the arrays above: hyperparameter and input are overwritten in place, and `set_hyperparameters` with the same array then gives
the GP with input `1` and hyperparameter `4`. -/
example : ∃ s s₂ fresh, Shared.create (withArgs kCfg kFns 1) shHeap shRefs 1 true 1 = .ok s ∧
    s.run [.writeHps 0 4, .writeX 0 [1], .setHps 0] = (s₂, .ok ()) ∧
    build (withArgs kCfg kFns 1) ⟨[1], [[2]], 1, some [1]⟩ true 1 4 = .ok fresh ∧ Same s₂.view fresh := by
  have ha : Admissible (withArgs kCfg kFns 1) (shHeap.data shRefs 1) (shHeap.hps shRefs.hps) :=
    kAdm 1 (by norm_num) _ [1] rfl rfl (by simp)
  obtain ⟨s, hs, hf⟩ := C157_flush cholExt_contract shHeap shRefs 1 true 1 (by simp [shHeap, shRefs]) rfl ha [.writeHps 0 4, .writeX 0 [1]]
  obtain ⟨s', hs', e1, e2, g, hsh⟩ := create_good cholExt_contract shHeap shRefs 1 true 1 rfl ha
  have e : s' = s := Except.ok.inj (hs'.symm.trans hs)
  subst e
  have hcols : s'.obj.data.cur.cols = 1 := congrArg Data.cols g.data
  have hw : s'.obj.data.width = 1 := g.width
  obtain ⟨s₁, h₁⟩ : ∃ s₁, s'.run [.writeHps 0 4, .writeX 0 [1]] = (s₁, .ok ()) := ⟨_, rfl⟩
  have e₁ : s₁ = ⟨{ shHeap with hps := Function.update shHeap.hps 0 4, x := Function.update shHeap.x 0 [1] }, shRefs, s'.obj⟩ := by
    simp only [Shared.run, Shared.step, Prod.mk.injEq, and_true, e1, e2] at h₁
    exact h₁.symm
  have hdat : s₁.shows.data = ⟨[1], [[2]], 1, some [1]⟩ := by
    rw [e₁]
    simp only [Shared.shows, Heap.data, hcols]
    simp [shRefs, shHeap]
  have hh : s₁.heap.hps 0 = 4 := by rw [e₁]; simp
  obtain ⟨s₂, fr, h1, h2, h3⟩ := hf s₁ (by
      simp [AllowedRun, Allowed, Shared.step, e1, shHeap]) h₁ 0 (by rw [e₁]; simp [shHeap])
    (by rw [hdat, hh]; exact kAdmH 4 (by norm_num) _ [1] rfl rfl (by simp))
  have hwid : s₁.shows.width = 1 := by rw [e₁]; exact hw
  rw [hdat, hh, hwid] at h2
  refine ⟨s', s₂, fr, hs, ?_, h2, h3⟩
  have : ∀ (t : Shared ℕ ℝ) a b c t₁, t.run [a, b] = (t₁, .ok ()) → t.run [a, b, c] = t₁.run [c] := by
    intro t a b c t₁ h
    simp only [Shared.run] at h ⊢
    rcases hA : t.step a with ⟨u, eA | ⟨⟩⟩
    · rw [hA] at h; simp at h
    · rw [hA] at h
      simp only at h ⊢
      rcases hB : u.step b with ⟨v, eB | ⟨⟩⟩
      · rw [hB] at h; simp at h
      · rw [hB] at h
        simp only [Prod.mk.injEq, and_true] at h
        subst h
        rfl
  rw [this _ _ _ _ _ h₁]
  simp only [Shared.run, h1]

/-- C157_after_append: the same arrays are appended to the data, then the caller writes into them. -/
example : ∃ s s', Shared.create (withArgs kCfg kFns 1) shHeap shRefs 1 true 1 = .ok s ∧
    s.step (.update ⟨0, 0, some 0, 1, 1, true, none⟩) = (s', .ok ()) ∧ s'.shows.data.x = [0, 0] ∧
    (s'.run [.writeX 0 [7], .writeY 0 [[9]], .writeNoise 0 [3]]).1.view = s'.view := by
  have ha : Admissible (withArgs kCfg kFns 1) (shHeap.data shRefs 1) (shHeap.hps shRefs.hps) :=
    kAdm 1 (by norm_num) _ [1] rfl rfl (by simp)
  obtain ⟨s, hs, e1, e2, g, hsh⟩ := create_good cholExt_contract shHeap shRefs 1 true 1 rfl ha
  obtain ⟨o, ho, g'⟩ := updateGpData_good _ cholExt_contract (fun _ _ _ => rfl) true _ s.view g
    (SharedUpdate.load ⟨0, 0, some 0, 1, 1, true, none⟩ shHeap)
    ⟨⟨rfl, rfl, rfl, fun _ => rfl, fun _ _ => rfl⟩, kAdm 1 (by norm_num) _ [1, 1] rfl rfl (by simp),
      fun _ _ => .inr (C40_measured_noise_kept _ rfl _ _ _ rfl [1] [1] rfl rfl rfl rfl)⟩
  obtain ⟨s', h'⟩ : ∃ s', s.step (.update ⟨0, 0, some 0, 1, 1, true, none⟩) = (s', .ok ()) := by
    simp only [Shared.step, e1, ho]
    exact ⟨_, rfl⟩
  refine ⟨s, s', hs, h', ?_, (C157_after_append s s' _ rfl h' _ (by simp [DataWrite, e1, shHeap])).1⟩
  have hx := congrArg Data.x g'.data
  have h2 := h'
  simp only [Shared.step, e1, ho, Prod.mk.injEq, and_true, if_true] at h2
  rw [← h2]
  simp only [Shared.shows, Heap.data, Heap.alloc, Function.update_self]
  exact hx

/-- C157_update_shows: the array of the input is overwritten, then appended. -/
example : ∃ s, Shared.create (withArgs kCfg kFns 1) shHeap shRefs 1 true 1 = .ok s ∧
    ∀ s₁, s.run [.writeX 0 [1]] = (s₁, .ok ()) → ∀ s₂, s₁.step (.update ⟨0, 0, some 0, 1, 1, true, none⟩) = (s₂, .ok ()) →
      s₂.shows.data.x = [1, 1] := by
  have ha : Admissible (withArgs kCfg kFns 1) (shHeap.data shRefs 1) (shHeap.hps shRefs.hps) :=
    kAdm 1 (by norm_num) _ [1] rfl rfl (by simp)
  obtain ⟨s, hs, hf⟩ := C157_update_shows cholExt_contract shHeap shRefs 1 true 1 (by simp [shHeap, shRefs]) rfl ha [.writeX 0 [1]]
  obtain ⟨s', hs', e1, e2, g, hsh⟩ := create_good cholExt_contract shHeap shRefs 1 true 1 rfl ha
  have e : s' = s := Except.ok.inj (hs'.symm.trans hs)
  subst e
  have hcols : s'.obj.data.cur.cols = 1 := congrArg Data.cols g.data
  have hw : s'.obj.data.width = 1 := g.width
  refine ⟨s', hs, fun s₁ h₁ s₂ h₂ => ?_⟩
  have e₁ : s₁ = ⟨{ shHeap with x := Function.update shHeap.x 0 [1] }, shRefs, s'.obj⟩ := by
    simp only [Shared.run, Shared.step, Prod.mk.injEq, and_true, e1, e2] at h₁
    exact h₁.symm
  have := (hf s₁ (by simp [AllowedRun, Allowed, e1, shHeap]) h₁ _ (by
    rw [e₁]
    refine ⟨⟨?_, ?_, rfl, fun _ => ?_, fun _ _ => ?_⟩, ?_, ?_, ?_⟩
    all_goals simp [SharedUpdate.load, shHeap, Shared.shows, Heap.data, shRefs, hcols, hw]) s₂ h₂).2.1 rfl
  rw [this.1, e₁]
  simp [Shared.shows, Heap.data, shRefs]

/-- C157_reads_only for an overwrite by the arrays the GP already has. -/
example (s : Shared ℕ ℝ) (h : 0 < s.heap.next) :
    (s.step (.update ⟨0, 0, some 0, 1, 1, false, none⟩)).1.heap.x 0 = s.heap.x 0 :=
  (C157_reads_only s _ (.inr ⟨_, rfl⟩) 0 h).1

end Verif.State
