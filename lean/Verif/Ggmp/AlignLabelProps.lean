import Verif.Ggmp.AlignCallModel
import Verif.Ggmp.AlignProps

/-!
C156: the order in which the local fits list their components does not matter for the alignment, and which calls of
`align_local_gmms` are answered.
-/

namespace Verif.Ggmp

open Matrix

variable {K n D : ℕ} {μ : Type}

/-- `p` is a cheapest way to match the components of `cur` to those of `ref`. -/
def Cheapest (e : AlignExt K μ) (ref cur : Mix K μ) (p : Equiv.Perm (Fin K)) : Prop :=
  ∀ q : Equiv.Perm (Fin K), ∑ k, e.w2 (ref.m k) (ref.c k) (cur.m (p k)) (cur.c (p k)) ≤
    ∑ k, e.w2 (ref.m k) (ref.c k) (cur.m (q k)) (cur.c (q k))

/-- All cheapest ways to match the components of `cur` to those of `ref` give the same list of components. -/
def Unambiguous (e : AlignExt K μ) (ref cur : Mix K μ) : Prop :=
  ∀ p q, Cheapest e ref cur p → Cheapest e ref cur q → ∀ k, cur.w (p k) = cur.w (q k) ∧ cur.m (p k) = cur.m (q k) ∧ cur.c (p k) = cur.c (q k)

/-- `b` lists the components of `a` in the order `s`. -/
def Listed (s : Equiv.Perm (Fin K)) (a b : Mix K μ) : Prop := ∀ k, b.w k = a.w (s k) ∧ b.m k = a.m (s k) ∧ b.c k = a.c (s k)

theorem listed_iff (s : Equiv.Perm (Fin K)) (a b : Mix K μ) : Listed s a b ↔ b = a.permute s := by
  constructor
  · intro h
    obtain ⟨w, m, c⟩ := b
    have h1 : w = fun k => a.w (s k) := funext fun k => (h k).1
    have h2 : m = fun k => a.m (s k) := funext fun k => (h k).2.1
    have h3 : c = fun k => a.c (s k) := funext fun k => (h k).2.2
    subst h1 h2 h3
    rfl
  · rintro rfl k
    exact ⟨rfl, rfl, rfl⟩

/-- One assignment: relabelling the reference by `s` and the mixture by `t` relabels the result by `s`. -/
theorem hungarian_relabel {e : AlignExt K μ} (he : e.Optimal) {ref cur : Mix K μ} (hu : Unambiguous e ref cur)
    (s t : Equiv.Perm (Fin K)) {p p' : Equiv.Perm (Fin K)} (h : e.hungarian ref cur = .ok p)
    (h' : e.hungarian (ref.permute s) (cur.permute t) = .ok p') : (cur.permute t).permute p' = (cur.permute p).permute s := by
  have hc : Cheapest e ref cur p := he _ p h
  have hc' : Cheapest e ref cur ((s.symm.trans p').trans t) := by
    intro r
    have h1 := he _ p' h' ((s.trans r).trans t.symm)
    simp only [AlignExt.cost, Mix.permute, Equiv.trans_apply, Equiv.apply_symm_apply] at h1
    have e1 := Equiv.sum_comp s fun k => e.w2 (ref.m k) (ref.c k) (cur.m (r k)) (cur.c (r k))
    have e2 := Equiv.sum_comp s fun k => e.w2 (ref.m k) (ref.c k) (cur.m (t (p' (s.symm k)))) (cur.c (t (p' (s.symm k))))
    simp only [Equiv.symm_apply_apply] at e2
    simp only [Equiv.trans_apply]
    rw [← e1, ← e2]
    exact h1
  have hk := fun k => hu _ _ hc' hc (s k)
  simp only [Equiv.trans_apply, Equiv.symm_apply_apply] at hk
  symm
  rw [← listed_iff] at *
  intro k
  exact ⟨(hk k).1.symm, (hk k).2.1.symm, (hk k).2.2.symm⟩

theorem permute_refl (a : Mix K μ) : a.permute (Equiv.refl _) = a := rfl

theorem alignLoop_relabel {e : AlignExt K μ} (he : e.Optimal) (toFirst : Bool) (s : Equiv.Perm (Fin K)) (first : Mix K μ)
    (l l' : List (Mix K μ)) : ∀ (prev : Mix K μ) (out out' : List (Mix K μ × Equiv.Perm (Fin K))),
    List.Forall₂ (fun a b => ∃ t, Listed t a b) l l' → alignLoop e toFirst first prev l = .ok out →
    alignLoop e toFirst (first.permute s) (prev.permute s) l' = .ok out' →
    (∀ (i : ℕ) (a : Mix K μ) (r : Mix K μ), l[i]? = some a →
      (if toFirst then some first else (prev :: out.map Prod.fst)[i]?) = some r → Unambiguous e r a) →
    out'.map Prod.fst = out.map fun o => o.1.permute s := by
  induction l generalizing l' with
  | nil =>
    intro prev out out' hl h h' _
    cases hl
    simp only [alignLoop, Except.ok.injEq] at h h'
    subst h h'
    rfl
  | cons a l ih =>
    intro prev out out' hl h h' hu
    cases hl with
    | @cons _ b _ l' hab hl =>
      obtain ⟨t, ht⟩ := hab
      rw [listed_iff] at ht
      subst ht
      unfold alignLoop at h h'
      cases hp : e.hungarian (if toFirst then first else prev) a with
      | error m => rw [hp] at h; cases h
      | ok p =>
        have hite : (if toFirst then first.permute s else prev.permute s) = (if toFirst then first else prev).permute s := by
          cases toFirst <;> rfl
        rw [hite] at h'
        cases hp' : e.hungarian ((if toFirst then first else prev).permute s) (a.permute t) with
        | error m => rw [hp'] at h'; cases h'
        | ok p' =>
          rw [hp] at h
          rw [hp'] at h'
          simp only [bind, Except.bind] at h h'
          have hk := hungarian_relabel he (hu 0 a (if toFirst then first else prev) rfl (by cases toFirst <;> rfl)) s t hp hp'
          rw [hk] at h'
          cases hr : alignLoop e toFirst first (a.permute p) l with
          | error m => rw [hr] at h; cases h
          | ok o =>
            cases hr' : alignLoop e toFirst (first.permute s) ((a.permute p).permute s) l' with
            | error m => rw [hr'] at h'; cases h'
            | ok o' =>
              rw [hr] at h
              rw [hr'] at h'
              simp only [Except.ok.injEq] at h h'
              subst h h'
              have := ih l' (a.permute p) o o' hl hr hr' fun i c r hc hr => hu (i + 1) c r (by simpa using hc) (by simpa using hr)
              simp [this]

/-- **C156** (sequence). Let every local fit list its components in another order. If at every step of the alignment the cheapest
match is unambiguous, the aligned mixtures are the same as before, all listed in the order chosen by the first fit. -/
theorem C156_sequence {e : AlignExt K μ} (he : e.Optimal) (toFirst : Bool) (a b : Mix K μ) (s : Equiv.Perm (Fin K)) (hab : Listed s a b)
    (l l' : List (Mix K μ)) (hl : List.Forall₂ (fun a b => ∃ t, Listed t a b) l l') (out out' : List (Mix K μ × Equiv.Perm (Fin K)))
    (h : alignSequence e toFirst (a :: l) = .ok out) (h' : alignSequence e toFirst (b :: l') = .ok out')
    (hu : ∀ (i : ℕ) (c : Mix K μ) (r : Mix K μ × Equiv.Perm (Fin K)), l[i]? = some c → out[if toFirst then 0 else i]? = some r →
      Unambiguous e r.1 c) :
    List.Forall₂ (fun o o' : Mix K μ × Equiv.Perm (Fin K) => Listed s o.1 o'.1) out out' := by
  rw [listed_iff] at hab
  subst hab
  unfold alignSequence at h h'
  simp only at h h'
  cases hr : alignLoop e toFirst a a l with
  | error m => rw [hr] at h; cases h
  | ok o =>
    cases hr' : alignLoop e toFirst (a.permute s) (a.permute s) l' with
    | error m => rw [hr'] at h'; cases h'
    | ok o' =>
      rw [hr] at h
      rw [hr'] at h'
      simp only [bind, Except.bind, Except.ok.injEq] at h h'
      subst h h'
      have key := alignLoop_relabel he toFirst s a l l' a o o' hl hr hr' fun i c r hc hr => by
        cases toFirst with
        | true =>
          simp only [if_true, Option.some.injEq] at hr
          subst hr
          exact hu i c (a, Equiv.refl _) hc rfl
        | false =>
          simp only [Bool.false_eq_true, if_false] at hr hu
          have e1 : (a :: o.map Prod.fst) = ((a, Equiv.refl _) :: o).map Prod.fst := rfl
          rw [e1, List.getElem?_map, Option.map_eq_some_iff] at hr
          obtain ⟨w, hw, rfl⟩ := hr
          exact hu i c w hc hw
      refine List.Forall₂.cons ((listed_iff _ _ _).2 rfl) ?_
      have e2 : List.Forall₂ (fun x y => y = x.permute s) (o.map Prod.fst) (o'.map Prod.fst) := by
        rw [key]
        clear hr hu key
        induction o with
        | nil => exact List.Forall₂.nil
        | cons x o ih => exact List.Forall₂.cons rfl (by simpa [Function.comp_def] using ih)
      rw [List.forall₂_map_left_iff, List.forall₂_map_right_iff] at e2
      exact e2.imp fun x y hxy => (listed_iff _ _ _).2 hxy

theorem alignAlong_relabel {e : AlignExt K μ} (he : e.Optimal) (l l' : Fin n → Mix K μ) (hl : ∀ v, ∃ t, Listed t (l v) (l' v))
    (parents : Fin n → Mark n) (s : Equiv.Perm (Fin K)) (todo : List (Fin n)) :
    ∀ (done : List (Fin n)) (a a' r r' : Fin n → Option (Mix K μ × Equiv.Perm (Fin K))), (done ++ todo).Nodup →
      (∀ i, (a i).isSome ↔ i ∈ done) →
      (∀ v ∈ todo, ∃ p, parents v = .parent p ∧ ∀ l₁ l₂, done ++ todo = l₁ ++ v :: l₂ → p ∈ l₁) →
      (∀ i, (a' i).map Prod.fst = (a i).map fun o => o.1.permute s) →
      alignAlong e l parents a todo = .ok r → alignAlong e l' parents a' todo = .ok r' →
      (∀ v p ref, v ∈ todo → parents v = .parent p → r p = some ref → Unambiguous e ref.1 (l v)) →
      ∀ i, (r' i).map Prod.fst = (r i).map fun o => o.1.permute s := by
  induction todo with
  | nil =>
    intro done a a' r r' _ _ _ haa h h' _
    simp only [alignAlong, Except.ok.injEq] at h h'
    subst h h'
    exact haa
  | cons v rest ih =>
    intro done a a' r r' hnd hsome hpar haa h h' hu
    have hspec := (alignAlong_spec e l parents (v :: rest) done a hnd hsome hpar).2 r h
    obtain ⟨p, hp, hbef⟩ := hpar v (by simp)
    have hpd : p ∈ done := hbef done rest rfl
    obtain ⟨ref, href⟩ := Option.isSome_iff_exists.1 ((hsome p).2 hpd)
    have hrp : r p = some ref := by
      rw [hspec.1 p (fun hpt => (List.nodup_append.1 hnd).2.2 p hpd p hpt rfl), href]
    have e1 : done ++ v :: rest = (done ++ [v]) ++ rest := by simp
    have hap := haa p
    rw [href] at hap
    simp only [Option.map_some, Option.map_eq_some_iff] at hap
    obtain ⟨ref', href', hreq⟩ := hap
    obtain ⟨t, ht⟩ := hl v
    rw [listed_iff] at ht
    unfold alignAlong at h h'
    simp only [hp, href, href'] at h h'
    rw [hreq, ht] at h'
    cases hq : e.hungarian ref.1 (l v) with
    | error m => rw [hq] at h; cases h
    | ok q =>
      cases hq' : e.hungarian (ref.1.permute s) ((l v).permute t) with
      | error m => rw [hq'] at h'; cases h'
      | ok q' =>
        rw [hq] at h
        rw [hq'] at h'
        simp only [bind, Except.bind] at h h'
        have hk := hungarian_relabel he (hu v p ref (by simp) hp hrp) s t hq hq'
        refine ih (done ++ [v]) _ _ r r' (e1 ▸ hnd) (fun i => ?_) (fun w hw => ?_) (fun i => ?_) h h' fun w p' ref' hw => hu w p' ref' (by simp [hw])
        · by_cases hi : i = v
          · simp [hi]
          · simp [hi, hsome i]
        · rw [← e1]
          exact hpar w (List.mem_cons_of_mem _ hw)
        · by_cases hi : i = v
          · simp [hi, hk]
          · simp [hi, haa i]

/-- **C156** (tree). Let every local fit list its components in another order. If along every edge of the tree the cheapest match is
unambiguous, the aligned mixtures are the same as before, all listed in the order chosen by the fit at the root. -/
theorem C156_mst {e : AlignExt K μ} (he : e.Optimal) (mst : (Fin n → Fin n → ℝ) → Fin n → Fin n → ℝ) (x : Fin n → Fin D → ℝ)
    (root : Fin n) (l l' : Fin n → Mix K μ) (hl : ∀ v, ∃ t, Listed t (l v) (l' v)) (s : Equiv.Perm (Fin K))
    (hs : Listed s (l root) (l' root)) (r r' : Fin n → Option (Mix K μ × Equiv.Perm (Fin K)))
    (h : alignMst e mst x l root = .ok r) (h' : alignMst e mst x l' root = .ok r')
    (hu : ∀ v p ref, (buildInputMst mst x root).parents v = .parent p → r p = some ref → Unambiguous e ref.1 (l v)) (v : Fin n) :
    (∀ o, r v = some o → ∃ o', r' v = some o' ∧ Listed s o.1 o'.1) ∧ (r v = none → r' v = none) := by
  have hpf := C73_parents_first mst x root
  have key : (r' v).map Prod.fst = (r v).map fun o => o.1.permute s := by
    cases ho : (buildInputMst mst x root).order with
    | nil => have := hpf.head; rw [ho] at this; simp at this
    | cons w t =>
      have hh := hpf.head
      rw [ho] at hh
      simp only [List.head?_cons, Option.some.injEq] at hh
      subst hh
      have hnd := hpf.nodup
      have hb := hpf.before
      rw [ho] at hnd hb
      unfold alignMst at h h'
      simp only [ho, List.tail_cons] at h h'
      refine alignAlong_relabel he l l' hl _ s t [w] _ _ r r' (by simpa using hnd) (fun i => ?_) (fun v hv => ?_) (fun i => ?_) h h'
        (fun v p ref _ hvp hr => hu v p ref hvp hr) v
      · by_cases hi : i = w <;> simp [hi]
      · refine hb v (by simp [hv]) ?_
        rintro rfl
        exact (List.nodup_cons.1 hnd).1 hv
      · by_cases hi : i = w
        · simp [hi, (listed_iff _ _ _).1 hs]
        · simp [hi]
  constructor
  · intro o ho
    rw [ho] at key
    simp only [Option.map_some, Option.map_eq_some_iff] at key
    obtain ⟨o', ho', hoo⟩ := key
    exact ⟨o', ho', (listed_iff _ _ _).2 hoo⟩
  · intro ho
    rw [ho] at key
    simpa using key

/-! ### The call -/

/-- A point no farther from the mean of the inputs than any other, the first such. -/
def FirstCentral (x : Fin n → Fin D → ℝ) (r : Fin n) : Prop :=
  ∀ i, (∑ d, (x r d - (∑ j, x j d) / n) ^ 2 ≤ ∑ d, (x i d - (∑ j, x j d) / n) ^ 2) ∧
    (i < r → ∑ d, (x r d - (∑ j, x j d) / n) ^ 2 < ∑ d, (x i d - (∑ j, x j d) / n) ^ 2)

/-- **C156** (root). Without `root` the labels are those of the input closest to the mean of the inputs, the first one if there are
several. -/
theorem C156_default_root (x : Fin n → Fin D → ℝ) (r : Fin n) : resolveRoot x none = .ok r ↔ FirstCentral x r := by
  have hd : ∀ i, Kernels.distance (x i) (fun d => (∑ j, x j d) / (n : ℝ)) = √(∑ d, (x i d - (∑ j, x j d) / n) ^ 2) := fun i => rfl
  have hp : ∀ i, 0 ≤ ∑ d, (x i d - (∑ j, x j d) / (n : ℝ)) ^ 2 := fun i => Finset.sum_nonneg fun _ _ => sq_nonneg _
  have h1 : resolveRoot x none = .ok r ↔ chooseRoot x = some r := by
    unfold resolveRoot
    cases chooseRoot x with
    | none => simp
    | some q => simp
  rw [h1]
  unfold chooseRoot
  rw [List.argmin_eq_some_iff]
  simp only [List.mem_finRange, true_and, hd, List.idxOf_finRange, forall_true_left]
  constructor
  · rintro ⟨h2, h3⟩ i
    have h2' := (Real.sqrt_le_sqrt_iff (hp i)).1 (h2 i)
    refine ⟨h2', fun hi => lt_of_le_of_ne h2' fun he => ?_⟩
    have := h3 i (by rw [he])
    exact absurd hi (by simpa using this)
  · intro h
    refine ⟨fun i => Real.sqrt_le_sqrt (h i).1, fun i hi => ?_⟩
    by_contra hc
    have := (h i).2 (by simpa using hc)
    exact absurd ((Real.sqrt_le_sqrt_iff (hp r)).1 hi) (not_le.2 this)

/-- What a call with the metric `"w2"` must satisfy. -/
def CallOk (lower : String → String) (c : AlignCall) (x : Option (List (Fin D → ℝ))) (l : List (Mix K μ)) : Prop :=
  l ≠ [] ∧ (lower c.method = "sequence" ∧ (lower c.reference = "previous" ∨ lower c.reference = "first") ∨
    lower c.method = "mst" ∧ (∃ xs, x = some xs ∧ xs.length = l.length) ∧ ∀ r, c.root = some r → 0 ≤ r ∧ r < l.length)

theorem withMetric_w2 (e : AlignExt K μ) (lower : String → String) (metric : String) (h : lower metric = "w2") :
    e.withMetric lower metric = e := by
  unfold AlignExt.withMetric
  simp [h]

theorem exists_root (x : Fin n → Fin D → ℝ) (root : Option ℤ) :
    (∃ r, resolveRoot x root = .ok r) ↔ 0 < n ∧ ∀ r, root = some r → 0 ≤ r ∧ r < n := by
  cases root with
  | none =>
    simp only [reduceCtorEq, false_imp_iff, implies_true, and_true]
    constructor
    · rintro ⟨r, -⟩
      exact r.pos
    · intro hn
      haveI : Nonempty (Fin n) := ⟨⟨0, hn⟩⟩
      unfold resolveRoot
      simp only
      cases hc : chooseRoot x with
      | some r => exact ⟨r, rfl⟩
      | none =>
        unfold chooseRoot at hc
        rw [List.argmin_eq_none, List.finRange_eq_nil_iff] at hc
        omega
  | some r =>
    simp only [Option.some.injEq, forall_eq']
    unfold resolveRoot
    simp only
    by_cases h : 0 ≤ r ∧ r < n
    · simp only [h, and_self, dite_true]
      exact ⟨fun _ => ⟨by omega, trivial⟩, fun _ => ⟨_, rfl⟩⟩
    · simp only [h, dite_false, and_false, iff_false]
      rintro ⟨q, hq⟩
      cases hq

/-- **C156** (calls). With the metric `"w2"` and a solver that always answers, exactly these calls are answered: there are mixtures, and
either the method is `"sequence"` with a reference `"previous"` or `"first"`, whatever `x_data` and `root`, or it is `"mst"` with one point
per mixture and a root among them if one is given, whatever `reference`. -/
theorem C156_answered (e : AlignExt K μ) (he : ∀ C, ∃ p, e.assign C = .ok p) (lower : String → String)
    (mst : ∀ n, (Fin n → Fin n → ℝ) → Fin n → Fin n → ℝ) (c : AlignCall) (hw : lower c.metric = "w2")
    (x : Option (List (Fin D → ℝ))) (l : List (Mix K μ)) : (∃ out, alignLocal e lower mst c x l = .ok out) ↔ CallOk lower c x l := by
  unfold alignLocal CallOk
  rw [withMetric_w2 e lower _ hw]
  by_cases hl : l = []
  · simp only [hl, if_true, ne_eq, not_true_eq_false, false_and, iff_false]
    rintro ⟨out, h⟩
    split_ifs at h
    cases x <;> cases h
  have hpos : 0 < l.length := List.length_pos_iff.2 hl
  simp only [hl, if_false, ne_eq, not_false_eq_true, true_and]
  by_cases hs : lower c.method = "sequence"
  · have hne : lower c.method ≠ "mst" := by rw [hs]; decide
    simp only [hs, if_true, true_and]
    have hne' : ¬ ("sequence" : String) = "mst" := by decide
    simp only [hne', false_and, or_false]
    split_ifs with hr
    · obtain ⟨out, ho⟩ := C72_sequence_total e (decide (lower c.reference = "first")) l hl he
      simp only [hr, iff_true]
      exact ⟨out.map some, by rw [ho]; rfl⟩
    · simp only [hr, iff_false]
      rintro ⟨out, h⟩
      cases h
  · simp only [hs, if_false, false_and, false_or]
    by_cases hm : lower c.method = "mst"
    · simp only [hm, if_true, true_and]
      cases x with
      | none => simp
      | some xs =>
        simp only [Option.some.injEq, exists_eq_left']
        by_cases hlen : xs.length = l.length
        · simp only [hlen, dite_true, true_and]
          have hroot := exists_root (fun i : Fin l.length => xs[i]) c.root
          simp only [hpos, true_and] at hroot
          rw [← hroot]
          cases hr : resolveRoot (fun i : Fin l.length => xs[i]) c.root with
          | error m =>
            constructor
            · rintro ⟨out, h⟩; cases h
            · rintro ⟨out, h⟩; cases h
          | ok r =>
            refine ⟨fun _ => ⟨r, rfl⟩, fun _ => ?_⟩
            obtain ⟨h1, -⟩ := C72_mst e (mst l.length) (fun i : Fin l.length => xs[i]) (fun i => l[i]) r
            cases ho : alignMst e (mst l.length) (fun i : Fin l.length => xs[i]) (fun i => l[i]) r with
            | error m =>
              obtain ⟨C, hC⟩ := h1 m ho
              obtain ⟨p, hp⟩ := he C
              rw [hp] at hC
              cases hC
            | ok out => exact ⟨List.ofFn out, by simp only [bind, Except.bind, ho]⟩
        · simp only [hlen, dite_false, false_and, iff_false]
          rintro ⟨out, h⟩
          cases h
    · simp only [hm, if_false, false_and, iff_false]
      rintro ⟨out, h⟩
      cases h

/-- **C156** (results). The answer has one entry per mixture; an entry lists the components of its mixture, weights, means and covariances
moved together. With the method `"sequence"` no entry is missing and the first mixture is as given; with `"mst"` the one at the root is. -/
theorem C156_results (e : AlignExt K μ) (lower : String → String) (mst : ∀ n, (Fin n → Fin n → ℝ) → Fin n → Fin n → ℝ) (c : AlignCall)
    (x : Option (List (Fin D → ℝ))) (l : List (Mix K μ)) (out : List (Option (Mix K μ × Equiv.Perm (Fin K))))
    (h : alignLocal e lower mst c x l = .ok out) :
    out.length = l.length ∧ (∀ (i : ℕ) o, out[i]? = some (some o) → ∃ a, l[i]? = some a ∧ Reordered a o.1 o.2) ∧
    (lower c.method = "sequence" → (∀ o ∈ out, o ≠ none) ∧ ∀ a ∈ l.head?, ∃ p, out.head? = some (some (a, p))) ∧
    (lower c.method = "mst" → ∀ r : ℕ, c.root = some (r : ℤ) → ∃ a p, l[r]? = some a ∧ out[r]? = some (some (a, p))) := by
  unfold alignLocal at h
  by_cases hl : l = []
  · simp only [hl, if_true] at h
    split_ifs at h
    cases x <;> cases h
  simp only [hl, if_false] at h
  split_ifs at h with hs hr hm
  · generalize e.withMetric lower c.metric = e' at h
    cases ho : alignSequence e' (decide (lower c.reference = "first")) l with
    | error m => rw [ho] at h; cases h
    | ok o =>
      rw [ho] at h
      simp only [bind, Except.bind, Except.ok.injEq] at h
      subst h
      obtain ⟨h1, h2⟩ := C72_sequence e' _ l o ho
      refine ⟨by simpa using h1.length_eq.symm, fun i q hq => ?_, fun _ => ⟨fun q hq => ?_, fun a ha => ?_⟩, fun hc => ?_⟩
      · rw [List.getElem?_map, Option.map_eq_some_iff] at hq
        obtain ⟨q', hq', hqq⟩ := hq
        simp only [Option.some.injEq] at hqq
        subst hqq
        obtain ⟨hi, hqi⟩ := List.getElem?_eq_some_iff.1 hq'
        have hi' : i < l.length := by rw [h1.length_eq]; exact hi
        refine ⟨l[i], List.getElem?_eq_getElem hi', ?_⟩
        have := h1.get hi' hi
        simp only [List.get_eq_getElem] at this
        rw [hqi] at this
        exact this
      · obtain ⟨q', -, rfl⟩ := List.mem_map.1 hq
        simp
      · cases o with
        | nil =>
          simp only [List.head?_nil, Option.map_none] at h2
          rw [← h2] at ha
          cases ha
        | cons q o =>
          simp only [List.head?_cons, Option.map_some] at h2
          rw [← h2] at ha
          simp only [Option.mem_def, Option.some.injEq] at ha
          subst ha
          exact ⟨q.2, rfl⟩
      · rw [hs] at hc
        exact absurd hc (by decide)
  · generalize e.withMetric lower c.metric = e' at h
    cases x with
    | none => cases h
    | some xs =>
      simp only at h
      split_ifs at h with hlen
      cases hr : resolveRoot (fun i : Fin l.length => xs[i]) c.root with
      | error m => simp only [hr, bind, Except.bind] at h; cases h
      | ok r =>
        cases ho : alignMst e' (mst l.length) (fun i : Fin l.length => xs[i]) (fun i => l[i]) r with
        | error m => simp only [hr, ho, bind, Except.bind] at h; cases h
        | ok o =>
          simp only [hr, ho, bind, Except.bind, Except.ok.injEq] at h
          subst h
          obtain ⟨h1, h2, h3, -⟩ := (C72_mst e' (mst l.length) (fun i : Fin l.length => xs[i]) (fun i => l[i]) r).2 o ho
          refine ⟨by simp, fun i q hq => ?_, fun hc => absurd hc hs, fun _ k hk => ?_⟩
          · rw [List.getElem?_ofFn] at hq
            split_ifs at hq with hi
            simp only [Option.some.injEq] at hq
            refine ⟨l[i], List.getElem?_eq_getElem hi, ?_⟩
            by_cases hv : (⟨i, hi⟩ : Fin l.length) ∈ (buildInputMst (mst l.length) (fun i : Fin l.length => xs[i]) r).order
            · obtain ⟨q', hq', hre⟩ := h2 _ hv
              rw [hq] at hq'
              simp only [Option.some.injEq] at hq'
              subst hq'
              exact hre
            · rw [h3 _ hv] at hq
              cases hq
          · rw [hk] at hr
            unfold resolveRoot at hr
            simp only at hr
            split_ifs at hr with hb
            simp only [Except.ok.injEq] at hr
            have hk' : k < l.length := by omega
            have hrk : r = ⟨k, hk'⟩ := by rw [← hr]; simp
            subst hrk
            refine ⟨l[k], Equiv.refl _, List.getElem?_eq_getElem hk', ?_⟩
            rw [List.getElem?_ofFn, dif_pos hk', h1]
            rfl

/-- **C156** (metric). The metric is looked at only when there is something to match: with one mixture every metric is accepted, with two or
more the method `"sequence"` refuses every other one than `"w2"`. -/
theorem C156_metric (e : AlignExt K μ) (lower : String → String) (mst : ∀ n, (Fin n → Fin n → ℝ) → Fin n → Fin n → ℝ) (c : AlignCall)
    (hm : lower c.method = "sequence") (hr : lower c.reference = "previous") (x : Option (List (Fin D → ℝ))) (a b : Mix K μ)
    (l : List (Mix K μ)) :
    alignLocal e lower mst c x [a] = .ok [some (a, Equiv.refl _)] ∧
      (lower c.metric ≠ "w2" → alignLocal e lower mst c x (a :: b :: l) = .error "ValueError: Currently supported metric is 'w2'.") := by
  constructor
  · unfold alignLocal
    simp [hm, hr, alignSequence, alignLoop, bind, Except.bind]
  · intro hw
    unfold alignLocal
    simp [hm, hr, alignSequence, alignLoop, AlignExt.hungarian, AlignExt.withMetric, hw, bind, Except.bind]

/-- **C156** (reference). With the method `"sequence"` and an optimal solver no other order of the components of a mixture is closer to the
mixture before it as aligned, or with the reference `"first"` to the first mixture. -/
theorem C156_reference (e : AlignExt K μ) (he : e.Optimal) (lower : String → String)
    (mst : ∀ n, (Fin n → Fin n → ℝ) → Fin n → Fin n → ℝ) (c : AlignCall) (hm : lower c.method = "sequence") (hw : lower c.metric = "w2")
    (x : Option (List (Fin D → ℝ))) (l : List (Mix K μ)) (out : List (Option (Mix K μ × Equiv.Perm (Fin K))))
    (h : alignLocal e lower mst c x l = .ok out) (i : ℕ) (a : Mix K μ) (o r : Mix K μ × Equiv.Perm (Fin K)) (ha : l[i + 1]? = some a)
    (ho : out[i + 1]? = some (some o)) :
    (lower c.reference = "first" → out[0]? = some (some r) → Closest e r.1 a o.1) ∧
      (lower c.reference = "previous" → out[i]? = some (some r) → Closest e r.1 a o.1) := by
  unfold alignLocal at h
  rw [withMetric_w2 e lower _ hw] at h
  split_ifs at h with hl hr
  cases hs : alignSequence e (decide (lower c.reference = "first")) l with
  | error m => rw [hs] at h; cases h
  | ok q =>
    rw [hs] at h
    simp only [bind, Except.bind, Except.ok.injEq] at h
    subst h
    have hget : ∀ (j : ℕ) (z : Mix K μ × Equiv.Perm (Fin K)), (q.map some)[j]? = some (some z) → q[j]? = some z := by
      intro j z hz
      rw [List.getElem?_map, Option.map_eq_some_iff] at hz
      obtain ⟨z', hz', hzz⟩ := hz
      rw [hz', Option.some.inj hzz]
    have key := C72_sequence_closest e he _ l q hs i a o r ha (hget _ _ ho)
    refine ⟨fun hf h0 => key ?_, fun hf h0 => key ?_⟩
    · simpa [hf] using hget _ _ h0
    · have hne : ¬ lower c.reference = "first" := by rw [hf]; decide
      simpa [hne] using hget _ _ h0

/-! ### Ambiguous matches -/

/-- Components with the moments `m k` and weights `w k`. -/
def mix2 (w m c : Fin 2 → ℝ) : Mix 2 ℝ := ⟨w, m, c⟩

/-- **C156** fails for ambiguous matches: weights play no part in the matching. If the second fit finds two components with the same mean and
covariance and different weights, then the order in which it lists them decides which weight gets which label, whatever the solver. -/
theorem C156_weights_violated (e : AlignExt 2 ℝ) (he : ∀ C, ∃ p, e.assign C = .ok p) (toFirst : Bool) (a b b' : Mix 2 ℝ)
    (ha : a.m 0 ≠ a.m 1) (hm : b.m 0 = b.m 1) (hc : b.c 0 = b.c 1) (hw : b.w 0 ≠ b.w 1) (hb : Listed (Equiv.swap 0 1) b b') :
    ∃ out out', alignSequence e toFirst [a, b] = .ok out ∧ alignSequence e toFirst [a, b'] = .ok out' ∧
      ∀ s, ¬ List.Forall₂ (fun o o' : Mix 2 ℝ × Equiv.Perm (Fin 2) => Listed s o.1 o'.1) out out' := by
  have hbm : ∀ i j, b.m i = b.m j := by
    intro i j
    fin_cases i <;> fin_cases j <;> simp [hm]
  have hbc : ∀ i j, b.c i = b.c j := by
    intro i j
    fin_cases i <;> fin_cases j <;> simp [hc]
  have hcost : e.cost a b' = e.cost a b := by
    funext i j
    simp only [AlignExt.cost]
    rw [(hb j).2.1, (hb j).2.2, hbm _ j, hbc _ j]
  obtain ⟨p, hp⟩ := he (e.cost a b)
  have h1 : ∀ l, e.hungarian a l = e.assign (e.cost a l) := fun _ => rfl
  refine ⟨[(a, Equiv.refl _), (b.permute p, p)], [(a, Equiv.refl _), (b'.permute p, p)], ?_, ?_, fun s hs => ?_⟩
  · simp [alignSequence, alignLoop, h1, hp, bind, Except.bind]
  · simp [alignSequence, alignLoop, h1, hcost, hp, bind, Except.bind]
  · cases hs with
    | cons h2 h3 =>
      cases h3 with
      | cons h3 _ =>
        have hs0 : s 0 = 0 := by
          rcases Fin.exists_fin_two.1 ⟨s 0, rfl⟩ with h | h
          · exact h
          · have := (h2 0).2.1
            rw [h] at this
            exact absurd this ha
        have hs1 : s 1 = 1 := by
          rcases Fin.exists_fin_two.1 ⟨s 1, rfl⟩ with h | h
          · exact absurd (s.injective (h.trans hs0.symm)) (by decide)
          · exact h
        have hw' : ∀ k, b'.w (p k) = b.w (p k) := by
          intro k
          have := (h3 k).1
          have hk : s k = k := by fin_cases k <;> simp [hs0, hs1]
          rw [hk] at this
          exact this
        have hw0 := hw' (p.symm 0)
        rw [Equiv.apply_symm_apply, (hb 0).1, Equiv.swap_apply_left] at hw0
        exact hw hw0.symm

/-! ### A case -/

/-- Squared differences of means and deviations: the squared distance of one-dimensional normal distributions. -/
def exampleExt (assign : (Fin 2 → Fin 2 → ℝ) → Except String (Equiv.Perm (Fin 2))) : AlignExt 2 ℝ :=
  ⟨fun m c m' c' => (m - m') ^ 2 + (c - c') ^ 2, assign⟩

theorem perm_fin_two (p : Equiv.Perm (Fin 2)) : p = Equiv.refl _ ∨ p = Equiv.swap 0 1 := by
  rcases Fin.exists_fin_two.1 ⟨p 0, rfl⟩ with h | h
  · left
    ext k
    fin_cases k
    · simp [h]
    · rcases Fin.exists_fin_two.1 ⟨p 1, rfl⟩ with h' | h'
      · exact absurd (p.injective (h'.trans h.symm)) (by decide)
      · simp [h']
  · right
    ext k
    fin_cases k
    · simp [h]
    · rcases Fin.exists_fin_two.1 ⟨p 1, rfl⟩ with h' | h'
      · simp [h']
      · exact absurd (p.injective (h'.trans h.symm)) (by decide)

/-- Components at 0 and 5 next to components at 1 and 6: the match is unambiguous. -/
example (assign) : Unambiguous (exampleExt assign) (mix2 ![1 / 4, 3 / 4] ![0, 5] ![1, 1]) (mix2 ![1 / 3, 2 / 3] ![6, 1] ![1, 2]) := by
  have h : ∀ p, Cheapest (exampleExt assign) (mix2 ![1 / 4, 3 / 4] ![0, 5] ![1, 1]) (mix2 ![1 / 3, 2 / 3] ![6, 1] ![1, 2]) p →
      p = Equiv.swap 0 1 := by
    intro p hp
    rcases perm_fin_two p with rfl | rfl
    · have := hp (Equiv.swap 0 1)
      simp [exampleExt, mix2, Fin.sum_univ_two] at this
      norm_num at this
    · rfl
  intro p q hp hq k
  rw [h p hp, h q hq]
  exact ⟨rfl, rfl, rfl⟩

/-- The two relabelled mixtures of `C156_weights_violated`. -/
example : Listed (Equiv.swap 0 1) (mix2 ![1 / 3, 2 / 3] ![1, 1] ![2, 2]) (mix2 ![2 / 3, 1 / 3] ![1, 1] ![2, 2]) := by
  intro k
  fin_cases k <;> simp [mix2]

/-- A call that is answered: three mixtures, three points on a line, the root given. -/
example (a : Mix 2 ℝ) : CallOk (D := 1) id ⟨"w2", "mst", "none", some 2⟩ (some [![0], ![1], ![3]]) [a, a, a] := by
  refine ⟨by simp, Or.inr ⟨rfl, ⟨_, rfl, rfl⟩, fun r hr => ?_⟩⟩
  simp only [Option.some.injEq] at hr
  subst hr
  simp

/-- The middle one of three points is the root. -/
example : FirstCentral (![![0], ![2], ![3]] : Fin 3 → Fin 1 → ℝ) 1 := by
  intro i
  fin_cases i <;> simp [Fin.sum_univ_three] <;> norm_num


end Verif.Ggmp
