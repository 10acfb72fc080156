import Verif.Ggmp.PackModel

/-!
C68: packing of the GGMP parameters.
-/

namespace Verif.Ggmp

variable {α β γ : Type}

theorem mapM_index (w : List α) : (List.range w.length).mapM (index w) = .ok w := by
  have h : ∀ (k : Nat) (l : List α), (∀ i (h : i < l.length), w[k + i]? = some l[i]) →
      (List.range' k l.length).mapM (index w) = .ok l := by
    intro k l
    induction l generalizing k with
    | nil => intro _; rfl
    | cons a l ih =>
      intro h
      have h0 := h 0 (by simp)
      have hs := ih (k + 1) fun i hi => by
        have := h (i + 1) (by simpa using hi)
        rw [Nat.add_right_comm, Nat.add_assoc]
        simpa using this
      simp only [List.length_cons, List.range'_succ, List.mapM_cons, index, bind, Except.bind, pure, Except.pure]
      simp only [Nat.add_zero, List.getElem_cons_zero] at h0
      rw [h0]
      simp only [hs]
  have := h 0 w fun i hi => by simp [hi]
  rwa [List.range_eq_range']

theorem mapM_ok {f : γ → Except String α} {g : γ → α} (l : List γ) (h : ∀ a ∈ l, f a = .ok (g a)) :
    l.mapM f = .ok (l.map g) := by
  induction l with
  | nil => rfl
  | cons a l ih =>
    simp only [List.mapM_cons, h a (by simp), ih fun b hb => h b (List.mem_cons_of_mem a hb), bind, Except.bind, pure,
      Except.pure, List.map_cons]

/-- Packing with the right lengths is concatenation. -/
theorem vectorize_ok (w : List α) (hps : List (List α)) :
    vectorize w.length (hps.map List.length) w hps = .ok (w ++ hps.flatten) := by
  have h : (List.range (hps.map List.length).length).mapM (fun i =>
      (List.range ((hps.map List.length).getD i 0)).mapM fun j => do
        let h ← index hps i
        index h j) = .ok ((List.range hps.length).map fun i => hps.getD i []) := by
    rw [List.length_map]
    refine mapM_ok _ fun i hi => ?_
    have hi' : i < hps.length := by simpa using hi
    have e : index hps i = .ok hps[i] := by simp [index, hi']
    simp only [e, bind, Except.bind]
    have := mapM_index hps[i]
    simpa [hi'] using this
  have e : (List.range hps.length).map (fun i => hps.getD i []) = hps := by
    apply List.ext_getElem
    · simp
    · intro i h1 h2
      simp [h2]
  unfold vectorize
  rw [mapM_index, h, e]
  rfl

theorem slices_flatten (p q : List α) (hps : List (List α)) :
    slices (p ++ hps.flatten ++ q) p.length (hps.map List.length) = hps := by
  induction hps generalizing p with
  | nil => rfl
  | cons h hs ih =>
    simp only [List.map_cons, slices, List.flatten_cons]
    congr 1
    · simp
    · have := ih (p ++ h)
      simpa [List.append_assoc] using this

theorem devectorize_flatten (w : List α) (hps : List (List α)) :
    devectorize w.length (hps.map List.length) (w ++ hps.flatten) = (w, hps) := by
  unfold devectorize
  have := slices_flatten w [] hps
  simp only [List.append_nil] at this
  rw [this]
  simp

theorem slices_lengths (v : List α) (k : Nat) (nh : List Nat) (h : v.length = k + nh.sum) :
    (slices v k nh).map List.length = nh ∧ (slices v k nh).flatten = v.drop k := by
  induction nh generalizing k with
  | nil =>
    simp only [List.sum_nil, Nat.add_zero] at h
    simp [slices, ← h]
  | cons n ns ih =>
    simp only [List.sum_cons] at h
    obtain ⟨h1, h2⟩ := ih (k + n) (by omega)
    constructor
    · simp only [slices, List.map_cons, h1, List.length_take, List.length_drop]
      congr 1
      omega
    · simp only [slices, List.flatten_cons, h2]
      rw [← List.drop_drop, List.take_append_drop]

/-- C68: unpacking the vector of a new object gives back its weights and hyperparameters; the bounds come back as well, if
every component has as many rows of bounds as hyperparameters. -/
theorem C68_new_roundtrip (w : List α) (wb : List β) (hps : List (List α)) (hb : List (List β)) (o : HpsObj α β)
    (h : HpsObj.new w wb hps hb = .ok o) :
    devectorize o.nw o.nh o.vec = (w, hps) ∧
      (hb.map List.length = hps.map List.length → devectorize o.nw o.nh o.vecBounds = (wb, hb)) := by
  unfold HpsObj.new at h
  split at h
  · cases h
  · split at h
    · cases h
    · rename_i h1 h2
      rw [vectorize_ok] at h
      simp only [bind, Except.bind] at h
      split at h
      · cases h
      · rename_i b hbv
        injection h with h
        subst h
        refine ⟨devectorize_flatten w hps, fun hl => ?_⟩
        have hw : w.length = wb.length := by simpa using h2
        rw [hw, ← hl, vectorize_ok] at hbv
        injection hbv with hbv
        subst hbv
        simp only
        rw [hw, ← hl]
        exact devectorize_flatten wb hb

/-- C68: every vector of the right length is the packing of what it unpacks to. -/
theorem C68_vector_roundtrip (nw : Nat) (nh : List Nat) (v : List α) (h : v.length = nw + nh.sum) :
    vectorize nw nh (devectorize nw nh v).1 (devectorize nw nh v).2 = .ok v := by
  obtain ⟨h1, h2⟩ := slices_lengths v nw nh h
  have hw : (v.take nw).length = nw := by
    rw [List.length_take]; omega
  have := vectorize_ok (v.take nw) (slices v nw nh)
  rw [hw, h1, h2, List.take_append_drop] at this
  exact this

/-- C68: replacing the parameters by others of the same shape keeps the round trip. -/
theorem C68_set_roundtrip (o : HpsObj α β) (w : List α) (hps : List (List α)) (hw : w.length = o.nw)
    (hh : hps.map List.length = o.nh) (hl : hps.length = o.hpsBounds.length) (hlw : w.length = o.weightsBounds.length) :
    (o.set w hps).2 = .ok () ∧ (o.set w hps).1.weights = w ∧ (o.set w hps).1.hps = hps ∧
      devectorize (o.set w hps).1.nw (o.set w hps).1.nh (o.set w hps).1.vec = (w, hps) := by
  have e : vectorize o.nw o.nh w hps = .ok (w ++ hps.flatten) := by
    rw [← hw, ← hh]; exact vectorize_ok w hps
  simp only [HpsObj.set, hl, hlw, ne_eq, not_true_eq_false, if_false, e]
  refine ⟨trivial, trivial, trivial, ?_⟩
  rw [← hw, ← hh]
  exact devectorize_flatten w hps

theorem zip_flatten (a : List (List α)) (b : List (List β)) (h : a.map List.length = b.map List.length) :
    (List.zipWith List.zip a b).flatten = List.zip a.flatten b.flatten := by
  induction a generalizing b with
  | nil => simp
  | cons x xs ih =>
    cases b with
    | nil => simp at h
    | cons y ys =>
      simp only [List.map_cons, List.cons.injEq] at h
      simp only [List.zipWith_cons_cons, List.flatten_cons, ih ys h.2]
      rw [List.zip_append h.1]

/-- C68: parameters and bounds are packed in the same order: packing the parameters paired with their bounds gives the
packed parameters paired with the packed bounds. -/
theorem C68_bounds_order (w : List α) (wb : List β) (hps : List (List α)) (hb : List (List β)) (o : HpsObj α β)
    (hl : hb.map List.length = hps.map List.length) (h : HpsObj.new w wb hps hb = .ok o) :
    vectorize o.nw o.nh (List.zip w wb) (List.zipWith List.zip hps hb) = .ok (List.zip o.vec o.vecBounds) ∧
      o.vec.length = o.vecBounds.length := by
  unfold HpsObj.new at h
  split at h
  · cases h
  · split at h
    · cases h
    · rename_i h1 h2
      have hw : w.length = wb.length := by simpa using h2
      have hb2 : vectorize w.length (hps.map List.length) wb hb = .ok (wb ++ hb.flatten) := by
        rw [hw, ← hl]; exact vectorize_ok wb hb
      rw [vectorize_ok, hb2] at h
      simp only [bind, Except.bind] at h
      injection h with h
      subst h
      have e1 : (List.zip w wb).length = w.length := by simp [hw]
      have e2 : (List.zipWith List.zip hps hb).map List.length = hps.map List.length := by
        clear h1 h2 hb2 hw e1
        induction hps generalizing hb with
        | nil => simp
        | cons x xs ih =>
          cases hb with
          | nil => simp at hl
          | cons y ys =>
            simp only [List.map_cons, List.cons.injEq] at hl
            simp [ih ys hl.2, hl.1]
      have := vectorize_ok (List.zip w wb) (List.zipWith List.zip hps hb)
      rw [e1, e2, zip_flatten _ _ hl.symm] at this
      constructor
      · simp only
        rw [this, List.zip_append hw]
      · simp [hw, hl]

/-- C68 fails for `set` with a longer component: it is accepted and the surplus entries are dropped from the vector. -/
theorem C68_longer_component_violated : ∃ (o : HpsObj Nat Nat) (w : List Nat) (hps : List (List Nat)),
    HpsObj.new [1] [0] [[2]] [[0]] = .ok o ∧ (o.set w hps).2 = .ok () ∧ (o.set w hps).1.hps = hps ∧
      devectorize (o.set w hps).1.nw (o.set w hps).1.nh (o.set w hps).1.vec ≠ (w, hps) :=
  ⟨⟨[1], [[2]], [0], [[0]], 1, [1], [1, 2], [0, 0]⟩, [5], [[6, 7]], rfl, rfl, rfl, by simp [HpsObj.set, vectorize, devectorize,
    slices, index, List.range, List.range.loop, bind, Except.bind, pure, Except.pure]⟩

/-- A shorter component is refused, but only after the attributes were replaced: vector and attributes then disagree. -/
theorem C68_shorter_component_violated : ∃ (o : HpsObj Nat Nat) (w : List Nat) (hps : List (List Nat)),
    HpsObj.new [1] [0] [[2, 3]] [[0, 0]] = .ok o ∧ (∃ e, (o.set w hps).2 = .error e) ∧ (o.set w hps).1.hps = hps ∧
      (o.set w hps).1.vec = o.vec ∧ o.hps ≠ hps :=
  ⟨⟨[1], [[2, 3]], [0], [[0, 0]], 1, [2], [1, 2, 3], [0, 0, 0]⟩, [5], [[6]], rfl, ⟨"IndexError", rfl⟩, rfl, rfl, by simp⟩

/-- C68 for the moments of a component. -/
theorem C68_likelihood_roundtrip (mean variance m v : List α) (h : m.length = mean.length) :
    ((Lik.new mean variance).setMoments m v).ravel ((Lik.new mean variance).setMoments m v).unravel = (m, v) := by
  simp [Lik.new, Lik.setMoments, Lik.ravel, Lik.unravel, ← h]

example : ∃ o : HpsObj Nat (Nat × Nat), HpsObj.new [1, 2] [(0, 1), (0, 1)] [[3, 4], [], [5]] [[(0, 9), (0, 8)], [], [(1, 7)]] = .ok o ∧
    o.vec = [1, 2, 3, 4, 5] ∧ devectorize o.nw o.nh o.vec = ([1, 2], [[3, 4], [], [5]]) ∧
    devectorize o.nw o.nh o.vecBounds = ([(0, 1), (0, 1)], [[(0, 9), (0, 8)], [], [(1, 7)]]) := by
  refine ⟨⟨[1, 2], [[3, 4], [], [5]], [(0, 1), (0, 1)], [[(0, 9), (0, 8)], [], [(1, 7)]], 2, [2, 0, 1], [1, 2, 3, 4, 5],
    [(0, 1), (0, 1), (0, 9), (0, 8), (1, 7)]⟩, rfl, rfl, rfl, rfl⟩

example : (⟨[1], [[2, 3]], [0], [[0, 0]], 1, [2], [1, 2, 3], [0, 0, 0]⟩ : HpsObj Nat Nat).set [4] [[5, 6]]
    = (⟨[4], [[5, 6]], [0], [[0, 0]], 1, [2], [4, 5, 6], [0, 0, 0]⟩, .ok ()) := rfl

end Verif.Ggmp
