import Verif.LinAlg.OptionsModel
import Verif.LinAlg.KrylovProps

/-!
C135: settings of the sparse iterative solvers, and right-hand sides with several columns.
-/

namespace Verif.LinAlg

open Verif.Train (Dict Val Str dictGet?)

variable {n : ℕ}

/-- C135: the iteration limit of a solver is its own entry if that is a number, the common entry if there is none of its
own, and scipy's default if there is neither. -/
theorem C135_limit (args : Dict) (key : Str) (hk : key = cgIterKey ∨ key = minresIterKey) :
    (∀ z : ℤ, args.lookup key = some (.int z) → krylovMaxiter args key = .ok (some z)) ∧
    (∀ z : ℤ, args.lookup key = none → args.lookup krylovIterKey = some (.int z) →
      krylovMaxiter args key = .ok (some z)) ∧
    (args.lookup key = none → args.lookup krylovIterKey = none → krylovMaxiter args key = .ok none) ∧
    (∀ other : Val, krylovMaxiter ((if key = cgIterKey then minresIterKey else cgIterKey, other) :: args) key
      = krylovMaxiter args key) := by
  have hd : ∀ k, dictGet? args k = args.lookup k := fun _ => rfl
  refine ⟨fun z h => ?_, fun z h h' => ?_, fun h h' => ?_, fun v => ?_⟩
  · unfold krylovMaxiter; rw [hd, h]; rfl
  · unfold krylovMaxiter; rw [hd, hd, h, h']; rfl
  · unfold krylovMaxiter; rw [hd, hd, h, h']
  · have h1 : (key == if key = cgIterKey then minresIterKey else cgIterKey) = false := by
      rcases hk with rfl | rfl <;> decide
    have h2 : (krylovIterKey == if key = cgIterKey then minresIterKey else cgIterKey) = false := by
      rcases hk with rfl | rfl <;> decide
    simp only [krylovMaxiter, dictGet?, List.lookup_cons, h1, h2]

/-- C135 is violated by an entry that spells out the documented default: `sparse_cg_maxiter = None` (documented: use
scipy's default, with the common limit applying if the key is not set) switches off the common limit, although the
dictionary without it would use it. -/
theorem C135_explicit_default_violated (key : Str) (hk : key = cgIterKey ∨ key = minresIterKey) (z : ℤ) :
    krylovMaxiter [(krylovIterKey, .int z)] key = .ok (some z) ∧
    krylovMaxiter [(key, .none), (krylovIterKey, .int z)] key = .ok none := by
  have h1 : (key == krylovIterKey) = false := by rcases hk with rfl | rfl <;> decide
  refine ⟨(C135_limit _ key hk).2.1 z ?_ (by rw [List.lookup_cons, beq_self_eq_true]), ?_⟩
  · rw [List.lookup_cons, h1]; rfl
  · unfold krylovMaxiter dictGet?
    rw [List.lookup_cons, beq_self_eq_true]
    rfl

/-- C135: MINRES and CG use their own tolerance if it is set, whatever else is set, and `1e-5` if no tolerance is set. -/
theorem C135_tolerance_partial (args : Dict) (v : Val) :
    (args.lookup cgTolKey = some v → cgTol args = v) ∧
    (args.lookup minresTolKey = some v → minresTol args = v) ∧
    (args.lookup minresTolKey = none → minresTol args = .real 1e-5) ∧
    (args.lookup cgTolKey = none → args.lookup legacyTolKey = none →
      args.lookup minresTolKey = none → cgTol args = .real 1e-5) := by
  refine ⟨fun h => ?_, fun h => ?_, fun h => ?_, fun h1 h2 h3 => ?_⟩
  · unfold cgTol dictGet?; rw [h]
  · unfold minresTol dictGet?; rw [h]; rfl
  · unfold minresTol dictGet?; rw [h]; rfl
  · unfold cgTol dictGet?; rw [h1, h2, h3]; rfl

/-- C135 is violated by the tolerance of CG: its documented default is `1e-5`, but it follows the tolerance given for
MINRES. -/
theorem C135_tolerance_violated (v : Val) : cgTol [(minresTolKey, v)] = v := by
  have h1 : (cgTolKey == minresTolKey) = false := by decide
  have h2 : (legacyTolKey == minresTolKey) = false := by decide
  unfold cgTol dictGet?
  rw [List.lookup_cons, h1, List.lookup_cons, h2, List.lookup_cons, beq_self_eq_true]
  rfl

/-- C135: block CG is used exactly if one of the two toggles asks for it, columnwise CG exactly if neither does and the
mode, if given, is one of the two names for it. -/
theorem C135_block_toggle (lower : Str → Str) (hl : lower "single".toList = "single".toList) (args : Dict) :
    (krylovMode lower args = .ok true ↔ (∃ v, args.lookup blockKey = some v ∧ v.truthy = true) ∨
      ∃ s, args.lookup modeKey = some (.str s) ∧ (lower s = "block".toList ∨ lower s = "block_cg".toList)) ∧
    (krylovMode lower args = .ok false ↔ (∀ v, args.lookup blockKey = some v → v.truthy = false) ∧
      (args.lookup modeKey = none ∨
        ∃ s, args.lookup modeKey = some (.str s) ∧ (lower s = "single".toList ∨ lower s = "columnwise".toList))) := by
  have hmem : ∀ (t : Str) (l : List (Str × Bool)) b, l.lookup t = some b → (t, b) ∈ l := by
    intro t l b
    induction l with
    | nil => simp
    | cons e l ih =>
      rw [List.lookup_cons]
      intro h
      split at h
      · rename_i he
        have he := eq_of_beq he
        obtain rfl := Option.some.inj h
        subst he; simp
      · exact List.mem_cons_of_mem _ (ih h)
  have hal : ∀ t : Str, krylovAliases.lookup t = some true ↔ t = "block".toList ∨ t = "block_cg".toList := by
    intro t
    constructor
    · intro h
      simpa [krylovAliases] using hmem t _ _ h
    · rintro (rfl | rfl) <;> decide
  have hal' : ∀ t : Str, krylovAliases.lookup t = some false ↔ t = "single".toList ∨ t = "columnwise".toList := by
    intro t
    constructor
    · intro h
      simpa [krylovAliases] using hmem t _ _ h
    · rintro (rfl | rfl) <;> decide
  have hmatch : ∀ (s : Str) (c : Bool), ((match krylovAliases.lookup (lower s) with
      | some b => (.ok b : Except String Bool)
      | none => .error "ValueError: Unknown sparse Krylov mode") = .ok c) ↔ krylovAliases.lookup (lower s) = some c := by
    intro s c
    cases krylovAliases.lookup (lower s) <;> simp
  have hsingle : krylovAliases.lookup (lower "single".toList) = some false := by rw [hl]; decide
  unfold krylovMode dictGet?
  by_cases ht : ((args.lookup blockKey).getD (.bool false)).truthy = true
  · rw [if_pos ht]
    cases hlk : args.lookup blockKey with
    | none => rw [hlk] at ht; simp [Val.truthy] at ht
    | some v =>
      rw [hlk] at ht
      refine ⟨iff_of_true rfl (Or.inl ⟨v, rfl, ht⟩), iff_of_false (by simp) fun h => ?_⟩
      have := h.1 v rfl
      rw [Option.getD_some, this] at ht
      simp at ht
  · rw [if_neg ht]
    have hno : ∀ v, args.lookup blockKey = some v → v.truthy = false := by
      intro v hv
      rw [hv] at ht
      exact Bool.eq_false_iff.2 ht
    have hno' : ¬ ∃ v, args.lookup blockKey = some v ∧ v.truthy = true := by
      rintro ⟨v, hv, h⟩
      rw [hno v hv] at h
      simp at h
    cases hlk : args.lookup modeKey with
    | none =>
      simp only [Option.getD_none, hsingle]
      refine ⟨iff_of_false (by simp) ?_, iff_of_true (by simp) ⟨hno, Or.inl trivial⟩⟩
      rintro (h | ⟨s, h, _⟩)
      · exact hno' h
      · simp at h
    | some v =>
      cases v with
      | str s =>
        simp only [Option.getD_some]
        refine ⟨(hmatch s true).trans ((hal _).trans ⟨fun h => Or.inr ⟨s, rfl, h⟩, ?_⟩),
          (hmatch s false).trans ((hal' _).trans ⟨fun h => ⟨hno, Or.inr ⟨s, rfl, h⟩⟩, ?_⟩)⟩
        · rintro (h | ⟨t, h, h'⟩)
          · exact absurd h hno'
          · cases h; exact h'
        · rintro ⟨_, h | ⟨t, h, h'⟩⟩
          · simp at h
          · cases h; exact h'
      | _ =>
        refine ⟨iff_of_false (by simp) ?_, iff_of_false (by simp) ?_⟩
        · rintro (h | ⟨s, h, _⟩)
          · exact hno' h
          · simp at h
        · rintro ⟨_, h | ⟨s, h, _⟩⟩ <;> simp at h

theorem foldl_update {γ : Type} (f : ℕ → γ) (g : ℕ → ℤ) (z : ℕ → γ) : ∀ m : ℕ,
    (List.range m).foldl (fun (st : (ℕ → γ) × ℕ) i => (Function.update st.1 i (f i), if g i ≠ 0 then st.2 + 1 else st.2)) (z, 0)
      = (fun j => if j < m then f j else z j, ((List.range m).filter fun i => g i ≠ 0).length) := by
  intro m
  induction m with
  | zero => simp
  | succ m ih =>
    rw [List.range_succ, List.foldl_append, ih]
    simp only [List.foldl_cons, List.foldl_nil, List.filter_append, List.length_append, Prod.mk.injEq]
    refine ⟨?_, ?_⟩
    · funext j
      by_cases h : j = m
      · subst h; simp
      · rw [Function.update_of_ne h]
        have : j < m + 1 ↔ j < m := by omega
        simp only [this]
    · by_cases h : g m = 0 <;> simp [h]

/-- C135: the columns of a MINRES solve are independent of each other: column `j` of the result is the result of a solve
for column `j` alone, with column `j` of the guess, and there is one warning for every column that failed. -/
theorem C135_minres_columns (minres : Val → Option ℤ → (Fin n → ℝ) → Option (Fin n → ℝ) → (Fin n → ℝ) × ℤ)
    (args : Dict) (V : ℕ → Fin n → ℝ) (x0 : Option (ℕ → Fin n → ℝ)) (cols : ℕ) (X : ℕ → Fin n → ℝ) (w : ℕ)
    (h : sparseMinres minres args V x0 cols = .ok (X, w)) :
    (∀ j < cols, ∃ wj, sparseMinres minres args (fun _ => V j) (x0.map fun x _ => x j) 1 = .ok (fun i => if i = 0 then X j else 0, wj) ∧
      wj ≤ 1) ∧
    ((∃ wj : ℕ → ℕ, (∀ j < cols, ∃ Y, sparseMinres minres args (fun _ => V j) (x0.map fun x _ => x j) 1 = .ok (Y, wj j)) ∧
      w = ∑ j ∈ Finset.range cols, wj j)) := by
  unfold sparseMinres at h ⊢
  cases hm : krylovMaxiter args minresIterKey with
  | error e => rw [hm] at h; simp at h
  | ok maxiter =>
    rw [hm] at h
    simp only [Except.ok.injEq] at h
    set F : ℕ → (Fin n → ℝ) × ℤ := fun i => minres (minresTol args) maxiter (V i) (x0.map fun x => x i) with hF
    have hall := foldl_update (fun i => (F i).1) (fun i => (F i).2) (fun _ _ => (0 : ℝ)) cols
    have h' := hall.symm.trans h
    obtain ⟨hX, hw⟩ := Prod.mk.inj h'
    have hone : ∀ j, (List.range 1).foldl (fun (st : (ℕ → Fin n → ℝ) × ℕ) i =>
        (Function.update st.1 i (minres (minresTol args) maxiter (V j) ((x0.map fun x _ => x j).map fun x => x i)).1,
          if (minres (minresTol args) maxiter (V j) ((x0.map fun x _ => x j).map fun x => x i)).2 ≠ 0 then st.2 + 1 else st.2))
        (fun _ _ => (0 : ℝ), 0) = (fun i => if i = 0 then (F j).1 else 0, if (F j).2 ≠ 0 then 1 else 0) := by
      intro j
      have e : ∀ i : ℕ, ((x0.map fun x (_ : ℕ) => x j).map fun x => x i) = x0.map fun x => x j := by
        intro i; cases x0 <;> rfl
      simp only [e]
      have := foldl_update (fun _ => (F j).1) (fun _ => (F j).2) (fun _ _ => (0 : ℝ)) 1
      refine this.trans ?_
      refine Prod.ext ?_ ?_
      · funext i
        by_cases hi : i = 0
        · simp [hi]
        · have : ¬ i < 1 := by omega
          simp [hi, this]; rfl
      · by_cases hz : (F j).2 = 0 <;> simp [hz]
    refine ⟨fun j hj => ⟨if (F j).2 ≠ 0 then 1 else 0, ?_, ?_⟩, fun j => if (F j).2 ≠ 0 then 1 else 0, fun j _ => ⟨fun i => if i = 0 then (F j).1 else 0, ?_⟩, ?_⟩
    · simp only [Except.ok.injEq]
      refine (hone j).trans ?_
      rw [← hX]
      simp only [hj, if_true]
    · split_ifs <;> omega
    · simp only [Except.ok.injEq]
      exact hone j
    · rw [← hw]
      clear * -
      induction cols with
      | zero => simp
      | succ m ih =>
        rw [List.range_succ, List.filter_append, List.length_append, ih, Finset.sum_range_succ]
        congr 1
        by_cases hz : (F m).2 = 0 <;> simp [hz]

/-- C135: a MINRES solve without warning solved every column, if that is what a zero exit code of scipy means. -/
theorem C135_minres_solved (A : Matrix (Fin n) (Fin n) ℝ) (tol : ℝ)
    (minres : Val → Option ℤ → (Fin n → ℝ) → Option (Fin n → ℝ) → (Fin n → ℝ) × ℤ) (args : Dict)
    (hc : ∀ mi, CGContract tol A (minres (minresTol args) mi)) (V : ℕ → Fin n → ℝ) (x0 : Option (ℕ → Fin n → ℝ)) (cols : ℕ)
    (X : ℕ → Fin n → ℝ) (h : sparseMinres minres args V x0 cols = .ok (X, 0)) :
    ∀ j < cols, ColumnSolved tol A (V j) (X j) := by
  intro j hj
  unfold sparseMinres at h
  cases hm : krylovMaxiter args minresIterKey with
  | error e => rw [hm] at h; simp at h
  | ok mi =>
    rw [hm] at h
    simp only [Except.ok.injEq] at h
    have hall := foldl_update (fun i => (minres (minresTol args) mi (V i) (x0.map fun x => x i)).1)
      (fun i => (minres (minresTol args) mi (V i) (x0.map fun x => x i)).2) (fun _ _ => (0 : ℝ)) cols
    obtain ⟨hX, hw⟩ := Prod.mk.inj (hall.symm.trans h)
    rw [← hX]
    simp only [hj, if_true]
    refine hc mi _ _ ?_
    rw [List.length_eq_zero_iff, List.filter_eq_nil_iff] at hw
    have := hw j (List.mem_range.2 hj)
    simpa using this

/-- C135: block CG with blocks of one column is columnwise CG: same result, and a warning in the same cases. -/
theorem C135_block_size_one (cg : (Fin n → ℝ) → Option (Fin n → ℝ) → (Fin n → ℝ) × ℤ)
    (A : Matrix (Fin n) (Fin n) ℝ) (M : Option ((Fin n → ℝ) → Fin n → ℝ))
    (solve : ∀ k, Matrix (Fin k) (Fin k) ℝ → Matrix (Fin k) (Fin k) ℝ → Option (Matrix (Fin k) (Fin k) ℝ))
    (tol : ℝ) (maxiter : Option ℤ) (bs : ℤ) (hbs : bs ≤ 1) (V : ℕ → Fin n → ℝ) (x0 : Option (ℕ → Fin n → ℝ)) (cols : ℕ) :
    sparseConjGrad cg A M solve tol maxiter true (some bs) V x0 cols = sparseConjGrad cg A M solve tol maxiter false none V x0 cols := by
  unfold sparseConjGrad
  by_cases hc : 1 < cols
  · rw [if_pos ⟨rfl, hc⟩, if_neg (by simp)]
    have hb : (max 1 (min ((some bs).getD (cols : ℤ)) cols)).toNat = 1 := by
      simp only [Option.getD_some]
      have : min bs (cols : ℤ) ≤ 1 := (min_le_left _ _).trans hbs
      rw [max_eq_left this]; rfl
    simp only [hb]
    have hstarts : blockStarts cols 1 = List.range cols := by simp [blockStarts]
    rw [hstarts]
    have hone : ∀ st, cgOneBlock cg A M solve tol maxiter V x0 st 1 =
        (Matrix.of fun i _ => (cg (V st) (x0.map fun x => x st)).1 i, (cg (V st) (x0.map fun x => x st)).2) := by
      intro st
      unfold cgOneBlock blockCG
      rw [dif_pos rfl]
      have e1 : (fun i => colBlock V st 1 i ⟨0, by omega⟩) = V st := by funext i; simp [colBlock]
      have e2 : ((x0.map fun x => colBlock x st 1).map fun x i => x i ⟨0, by omega⟩) = x0.map fun x => x st := by
        cases x0 with
        | none => rfl
        | some x => simp [colBlock]
      simp only [e1, e2]
    have hgen : ∀ (m : ℕ), m ≤ cols → cgBlocks cg A M solve tol maxiter V x0 cols 1 (List.range m) (fun _ _ => 0, []) =
        (fun j => if j < m then (cg (V j) (x0.map fun x => x j)).1 else fun _ => 0,
          (List.range m).map fun j => (cg (V j) (x0.map fun x => x j)).2) := by
      have happ : ∀ (l : List ℕ) (e : ℕ) st, cgBlocks cg A M solve tol maxiter V x0 cols 1 (l ++ [e]) st =
          cgBlocks cg A M solve tol maxiter V x0 cols 1 [e] (cgBlocks cg A M solve tol maxiter V x0 cols 1 l st) := by
        intro l
        induction l with
        | nil => intro e st; rfl
        | cons a l ih => intro e st; exact ih e _
      intro m
      induction m with
      | zero => intro _; simp [cgBlocks]
      | succ m ih =>
        intro hm
        rw [List.range_succ, happ, ih (by omega)]
        have hw : min (m + 1) cols - m = 1 := by omega
        have hblk : ∀ w, w = 1 → ∀ R : ℕ → Fin n → ℝ, writeBlock R m (cgOneBlock cg A M solve tol maxiter V x0 m w).1 =
              (fun j => if j = m then (cg (V m) (x0.map fun x => x m)).1 else R j) ∧
            (cgOneBlock cg A M solve tol maxiter V x0 m w).2 = (cg (V m) (x0.map fun x => x m)).2 := by
          rintro w rfl R
          rw [hone]
          refine ⟨?_, rfl⟩
          funext j i
          simp only [writeBlock]
          by_cases hj : j = m
          · subst hj; simp
          · rw [if_neg hj]
            split_ifs with h
            · omega
            · rfl
        rw [cgBlocks, cgBlocks, (hblk _ hw _).1, (hblk _ hw (fun _ _ => 0)).2]
        refine Prod.ext ?_ ?_
        · funext j
          by_cases hj : j = m
          · subst hj; simp
          · have : j < m + 1 ↔ j < m := by omega
            simp only [if_neg hj, this]
        · simp
    rw [hgen cols le_rfl]
    simp [List.any_map, Function.comp_def]
  · rw [if_neg (fun h => hc h.2), if_neg (fun h => hc h.2)]

/-- C135, by the names of the settings as a user writes them: each of them has its effect. -/
theorem C135_documented_names (lower : Str → Str) (hl : lower "single".toList = "single".toList) (args : Dict) :
    (∀ z : ℤ, args.lookup "sparse_cg_maxiter".toList = some (.int z) → krylovMaxiter args cgIterKey = .ok (some z)) ∧
    (∀ z : ℤ, args.lookup "sparse_minres_maxiter".toList = some (.int z) → krylovMaxiter args minresIterKey = .ok (some z)) ∧
    (∀ z : ℤ, args.lookup "sparse_cg_maxiter".toList = none → args.lookup "sparse_minres_maxiter".toList = none →
      args.lookup "sparse_krylov_maxiter".toList = some (.int z) →
      krylovMaxiter args cgIterKey = .ok (some z) ∧ krylovMaxiter args minresIterKey = .ok (some z)) ∧
    (∀ v, args.lookup "sparse_cg_tol".toList = some v → cgTol args = v) ∧
    (∀ v, args.lookup "sparse_cg_tol".toList = none → args.lookup "cg_minres_tol".toList = some v → cgTol args = v) ∧
    (∀ v, args.lookup "sparse_minres_tol".toList = some v → minresTol args = v) ∧
    (∀ v : Val, v.truthy = true → args.lookup "sparse_block_krylov".toList = some v → krylovMode lower args = .ok true) ∧
    (lower "block".toList = "block".toList → args.lookup "sparse_krylov_mode".toList = some (.str "block".toList) →
      krylovMode lower args = .ok true) := by
  have h1 := C135_limit args cgIterKey (.inl rfl)
  have h2 := C135_limit args minresIterKey (.inr rfl)
  refine ⟨h1.1, h2.1, fun z a b c => ⟨h1.2.1 z a c, h2.2.1 z b c⟩, fun v => (C135_tolerance_partial args v).1, fun v a b => ?_,
    fun v => (C135_tolerance_partial args v).2.1, fun v ht a => (C135_block_toggle lower hl args).1.2 (.inl ⟨v, a, ht⟩),
    fun hb a => (C135_block_toggle lower hl args).1.2 (.inr ⟨_, a, .inl hb⟩)⟩
  change args.lookup cgTolKey = none at a
  change args.lookup legacyTolKey = some v at b
  simp [cgTol, dictGet?, a, b]

example : krylovMaxiter [("sparse_minres_maxiter".toList, .int 7)] minresIterKey = .ok (some 7) :=
  (C135_documented_names id rfl _).2.1 7 rfl

example : krylovMaxiter [(krylovIterKey, .int 7), (cgIterKey, .int 3)] cgIterKey = .ok (some 3) :=
  (C135_limit _ _ (Or.inl rfl)).1 3 rfl

example : krylovMode (fun s => s.map Char.toLower) [(modeKey, .str "Block".toList)] = .ok true :=
  (C135_block_toggle _ (by decide) _).1.2 (Or.inr ⟨"Block".toList, rfl, Or.inl (by decide)⟩)

example : cgTol [(minresTolKey, .real 0.1), (cgTolKey, .real 1e-3)] = .real 1e-3 :=
  (C135_tolerance_partial _ _).1 rfl

/-- A solver for the identity that always succeeds. -/
example : ∀ j : ℕ, j < 2 → ColumnSolved (1 / 10) (1 : Matrix (Fin 1) (Fin 1) ℝ) (fun _ => (j : ℝ))
    ((fun (j : ℕ) _ => if j < 2 then (j : ℝ) else 0) j) := by
  refine C135_minres_solved (n := 1) 1 (1 / 10) (fun _ _ b _ => (b, 0)) [] (fun mi b x0 _ => ?_) (fun j _ => (j : ℝ)) none 2 _ ?_
  · simp [ColumnSolved]
  · unfold sparseMinres
    have : krylovMaxiter [] minresIterKey = .ok none := by simp [krylovMaxiter, dictGet?]
    rw [this]
    simp only [Except.ok.injEq]
    have h := foldl_update (fun (j : ℕ) (_ : Fin 1) => (j : ℝ)) (fun _ => 0) (fun _ _ => (0 : ℝ)) 2
    refine h.trans (Prod.ext ?_ (by simp))
    funext j i
    simp only
    split_ifs <;> rfl

end Verif.LinAlg
