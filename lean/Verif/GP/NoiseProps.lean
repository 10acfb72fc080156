import Verif.GP.NoiseModel
import Verif.GP.PostProps

/-! Properties C79 (measured noise) and C80 (forming `K + V`). -/

namespace Verif.GP

open Finset Verif.LinAlg

variable {α H : Type}

/-! ## C80 -/

/-- Specification: `K` and `V` have formats that can be added: `K` square, `V` of the same size (a vector standing for a
diagonal), and not a dense matrix on top of a sparse one. -/
def Compatible : Arr → Arr → Prop
  | .sparse r c _, .sparse r' c' _ => r = c ∧ r' = r ∧ c' = c
  | .sparse r c _, .vec len _ => r = c ∧ len = r
  | .dense r c _, .sparse r' c' _ => r = c ∧ r' = r ∧ c' = c
  | .dense r c _, .dense r' c' _ => r = c ∧ r' = r ∧ c' = c
  | .dense r c _, .vec len _ => r = c ∧ len = r
  | _, _ => False

/-- Entry of the matrix an array stands for as noise. -/
def Arr.asNoise : Arr → NMat
  | .vec _ v => fun i j => if i = j then v i else 0
  | .dense _ _ A => A
  | .sparse _ _ A => A

/-- Entry of a covariance. -/
def Arr.asMat : Arr → NMat
  | .vec _ _ => fun _ _ => 0
  | .dense _ _ A => A
  | .sparse _ _ A => A

/-- Shape. -/
def Arr.rows : Arr → ℕ
  | .vec len _ => len
  | .dense r _ _ => r
  | .sparse r _ _ => r

def Arr.cols : Arr → ℕ
  | .vec _ _ => 1
  | .dense _ c _ => c
  | .sparse _ c _ => c

/-- Is it stored sparse? -/
def Arr.isSparse : Arr → Bool
  | .sparse _ _ _ => true
  | _ => false

theorem bcastDim_self (n : ℕ) : bcastDim n n = some n := by simp [bcastDim]

theorem bcastIx_lt {n i : ℕ} (h : i < n) : bcastIx n i = i := by
  unfold bcastIx
  split <;> omega

/-- C80: for every admissible combination of formats the call succeeds; the result is a new array of the covariance's
shape and storage whose entries are the sums; and no array that existed before — the stored covariance in particular —
has changed. Partial: see the two theorems that follow for what happens to other combinations. -/
theorem C80_sum_partial (h : Heap) (k v : ℕ) (K V : Arr) (hk : h[k]? = some K) (hv : h[v]? = some V)
    (hc : Compatible K V) :
    ∃ h' a R, addKVHeap h k v = .ok (h', a) ∧ h'[a]? = some R ∧ a ≠ k ∧ a ≠ v ∧
      (∀ b < h.length, h'[b]? = h[b]?) ∧ R.rows = K.rows ∧ R.cols = K.cols ∧ R.isSparse = K.isSparse ∧
      ∀ i < K.rows, ∀ j < K.cols, R.asMat i j = K.asMat i j + V.asNoise i j := by
  have hkl : k < h.length := (List.getElem?_eq_some_iff.1 hk).1
  have hvl : v < h.length := (List.getElem?_eq_some_iff.1 hv).1
  have alloc : ∀ R : Arr, (h ++ [R])[h.length]? = some R ∧ h.length ≠ k ∧ h.length ≠ v ∧
      ∀ b < h.length, (h ++ [R])[b]? = h[b]? := by
    intro R
    exact ⟨by simp, by omega, by omega, fun b hb => List.getElem?_append_left hb⟩
  have fin : ∀ R : Arr, addKVHeap h k v = .ok (h.alloc R) → R.rows = K.rows → R.cols = K.cols →
      R.isSparse = K.isSparse → (∀ i < K.rows, ∀ j < K.cols, R.asMat i j = K.asMat i j + V.asNoise i j) →
      ∃ h' a R, addKVHeap h k v = .ok (h', a) ∧ h'[a]? = some R ∧ a ≠ k ∧ a ≠ v ∧
      (∀ b < h.length, h'[b]? = h[b]?) ∧ R.rows = K.rows ∧ R.cols = K.cols ∧ R.isSparse = K.isSparse ∧
      ∀ i < K.rows, ∀ j < K.cols, R.asMat i j = K.asMat i j + V.asNoise i j := by
    intro R h1 h2 h3 h4 h5
    obtain ⟨a1, a2, a3, a4⟩ := alloc R
    exact ⟨_, _, R, h1, a1, a2, a3, a4, h2, h3, h4, h5⟩
  cases K with
  | vec n w => exact hc.elim
  | sparse r c A =>
    cases V with
    | dense r' c' B => exact hc.elim
    | vec len w =>
      obtain ⟨rfl, rfl⟩ := hc
      refine fin (.sparse len len fun i j => if i = j then A i i + w i else A i j) (by simp [addKVHeap, hk, hv]) rfl rfl rfl ?_
      intro i _ j _
      simp only [Arr.asMat, Arr.asNoise]
      by_cases hij : i = j
      · subst hij; simp
      · simp [hij]
    | sparse r' c' B =>
      obtain ⟨rfl, rfl, rfl⟩ := hc
      exact fin (.sparse c' c' fun i j => A i j + B i j) (by simp [addKVHeap, hk, hv]) rfl rfl rfl fun i _ j _ => rfl
  | dense r c A =>
    have two : ∀ B : NMat, r = c → npAdd2 r c A r c B = .ok (.dense r c fun i j => A (bcastIx r i) (bcastIx c j) + B (bcastIx r i) (bcastIx c j)) := by
      intro B _
      simp only [npAdd2, bcastDim_self]
    cases V with
    | sparse r' c' B =>
      obtain ⟨rfl, rfl, rfl⟩ := hc
      refine fin (.dense c' c' fun i j => A (bcastIx c' i) (bcastIx c' j) + B (bcastIx c' i) (bcastIx c' j))
        (by simp [addKVHeap, hk, hv, two B rfl, bind, Except.bind]) rfl rfl rfl fun i hi j hj => ?_
      simp only [Arr.asMat, Arr.asNoise, bcastIx_lt (show i < c' from hi), bcastIx_lt (show j < c' from hj)]
    | dense r' c' B =>
      obtain ⟨rfl, rfl, rfl⟩ := hc
      refine fin (.dense c' c' fun i j => A (bcastIx c' i) (bcastIx c' j) + B (bcastIx c' i) (bcastIx c' j))
        (by simp [addKVHeap, hk, hv, two B rfl, bind, Except.bind]) rfl rfl rfl fun i hi j hj => ?_
      simp only [Arr.asMat, Arr.asNoise, bcastIx_lt (show i < c' from hi), bcastIx_lt (show j < c' from hj)]
    | vec len w =>
      obtain ⟨rfl, rfl⟩ := hc
      refine fin (.dense len len fun i j => if i = j then A (bcastIx len (i % len)) (bcastIx len (i % len)) + w (bcastIx len (i % len)) else A i j) ?_ rfl rfl rfl ?_
      · simp [addKVHeap, hk, hv, bcastDim_self, fillDiagonal, bind, Except.bind]
      · intro i hi j _
        have hi' : i < len := hi
        simp only [Arr.asMat, Arr.asNoise]
        by_cases hij : i = j
        · subst hij
          simp [Nat.mod_eq_of_lt hi', bcastIx_lt hi']
        · simp [hij]

/-- C80: other combinations with a sparse covariance, a covariance that is not square or not a matrix, are rejected;
with a dense covariance of more than one row, noise is rejected unless one of its axes has length one. -/
theorem C80_rejects (h : Heap) (k v : ℕ) (K V : Arr) (hk : h[k]? = some K) (hv : h[v]? = some V)
    (hc : ¬ Compatible K V)
    (hb : K.isSparse = true ∨ K.rows ≠ K.cols ∨ (1 < K.rows ∧ V.rows ≠ 1 ∧ (V.cols ≠ 1 ∨ ∃ l w, V = .vec l w))) :
    ∃ e, addKVHeap h k v = .error e := by
  cases K with
  | vec n w => exact ⟨_, by simp only [addKVHeap, hk, hv]; rfl⟩
  | sparse r c A =>
    by_cases hrc : r = c
    · subst hrc
      cases V with
      | dense r' c' B => exact ⟨_, by simp [addKVHeap, hk, hv]; rfl⟩
      | vec len w =>
        have : len ≠ r := fun e => hc ⟨rfl, e⟩
        exact ⟨_, by simp [addKVHeap, hk, hv, this]; rfl⟩
      | sparse r' c' B =>
        have : ¬ (r' = r ∧ c' = r) := fun e => hc ⟨rfl, e.1, e.2⟩
        exact ⟨_, by simp only [addKVHeap, hk, hv, ne_eq, not_true_eq_false, if_false, if_neg this]; rfl⟩
    · exact ⟨_, by simp only [addKVHeap, hk, hv, ne_eq, hrc, not_false_eq_true, if_true]; rfl⟩
  | dense r c A =>
    by_cases hrc : r = c
    · subst hrc
      have hb' : 1 < r ∧ V.rows ≠ 1 ∧ (V.cols ≠ 1 ∨ ∃ l w, V = .vec l w) := by
        rcases hb with hb | hb | hb
        · simp [Arr.isSparse] at hb
        · exact absurd rfl hb
        · exact hb
      obtain ⟨h1, h2, h3⟩ := hb'
      have dim : ∀ m, m ≠ 1 → m ≠ r → bcastDim r m = none := by
        intro m hm hmr
        simp only [bcastDim]
        rw [if_neg (Ne.symm hmr), if_neg (by omega), if_neg hm]
      have two : ∀ r' c' B, r' ≠ 1 → c' ≠ 1 → ¬ (r' = r ∧ c' = r) →
          npAdd2 r r A r' c' B = .error "ValueError: operands could not be broadcast together" := by
        intro r' c' B hr' hc' hne
        simp only [npAdd2]
        by_cases e : r' = r
        · have : c' ≠ r := fun e' => hne ⟨e, e'⟩
          rw [dim c' hc' this]
          cases bcastDim r r' <;> rfl
        · rw [dim r' hr' e]
      cases V with
      | sparse r' c' B =>
        have hc' : c' ≠ 1 := by rcases h3 with h | ⟨l, w, h⟩; exact h; simp at h
        exact ⟨_, by simp [addKVHeap, hk, hv, two r' c' B h2 hc' (fun e => hc ⟨rfl, e.1, e.2⟩), bind, Except.bind]; rfl⟩
      | dense r' c' B =>
        have hc' : c' ≠ 1 := by rcases h3 with h | ⟨l, w, h⟩; exact h; simp at h
        exact ⟨_, by simp [addKVHeap, hk, hv, two r' c' B h2 hc' (fun e => hc ⟨rfl, e.1, e.2⟩), bind, Except.bind]; rfl⟩
      | vec len w =>
        exact ⟨_, by simp [addKVHeap, hk, hv, dim len h2 (fun e => hc ⟨rfl, e⟩)]; rfl⟩
    · exact ⟨_, by simp only [addKVHeap, hk, hv, ne_eq, hrc, not_false_eq_true, if_true]; rfl⟩

/-- C80 is violated by noise with an axis of length one on a dense covariance: a `1 x n` array (for instance a noise
function that forgets to squeeze) is accepted and added to every row, off-diagonal entries included. -/
theorem C80_broadcast_violated (h : Heap) (k v n : ℕ) (K V : NMat) (hn : 1 < n) (hk : h[k]? = some (.dense n n K))
    (hv : h[v]? = some (.dense 1 n V)) :
    ∃ h' a R, addKVHeap h k v = .ok (h', a) ∧ h'[a]? = some (.dense n n R) ∧
      ∀ i < n, ∀ j < n, R i j = K i j + V 0 j := by
  refine ⟨h ++ [.dense n n fun i j => K (bcastIx n i) (bcastIx n j) + V (bcastIx 1 i) (bcastIx n j)], h.length,
    fun i j => K (bcastIx n i) (bcastIx n j) + V (bcastIx 1 i) (bcastIx n j), ?_, ?_, ?_⟩
  · simp only [addKVHeap, hk, hv, npAdd2, bcastDim, if_true, bind, Except.bind, ne_eq, not_true_eq_false, if_false]
    rw [if_neg (by omega), if_neg (by omega)]
    rfl
  · simp
  · intro i hi j hj
    beta_reduce; rw [bcastIx_lt hi, bcastIx_lt hj]; rfl

/-- A sparse covariance with a noise vector. -/
example : ∃ h' a R, addKVHeap [.sparse 2 2 fun i j => i + j, .vec 2 fun i => 5 + i] 0 1 = .ok (h', a) ∧
    h'[a]? = some R ∧ a ≠ 0 ∧ R.isSparse = true ∧ R.asMat 1 1 = 8 ∧ R.asMat 0 1 = 1 := by
  obtain ⟨h', a, R, h1, h2, h3, -, -, -, -, h4, h5⟩ := C80_sum_partial
    [.sparse 2 2 fun i j => i + j, .vec 2 fun i => 5 + i] 0 1 _ _ rfl rfl ⟨rfl, rfl⟩
  refine ⟨h', a, R, h1, h2, h3, h4, ?_, ?_⟩
  · rw [h5 1 (by decide) 1 (by decide)]; norm_num [Arr.asMat, Arr.asNoise]
  · rw [h5 0 (by decide) 1 (by decide)]; norm_num [Arr.asMat, Arr.asNoise]

/-- A dense matrix on a sparse covariance is rejected. -/
example : ∃ e, addKVHeap [.sparse 2 2 fun _ _ => 1, .dense 2 2 fun _ _ => 1] 0 1 = .error e :=
  C80_rejects _ 0 1 _ _ rfl rfl (fun h => h) (Or.inl rfl)

/-- A noise description as an array. -/
def Noise.toArr : Noise → Arr
  | .diag len v => .vec len v
  | .dense r c A => .dense r c A
  | .sparse r c A => .sparse r c A

/-- The simple model used elsewhere agrees with this one whenever the noise fits. -/
theorem addKV_agrees (n : ℕ) (K : NMat) (sp : Bool) (V : Noise) (hV : V.Fits n sp) (KV : NMat)
    (hKV : addKV sp n n K V = .ok KV) :
    let Ka : Arr := if sp then .sparse n n K else .dense n n K
    ∃ h' a R, addKVHeap [Ka, V.toArr] 0 1 = .ok (h', a) ∧ h'[a]? = some R ∧ ∀ i < n, ∀ j < n, R.asMat i j = KV i j := by
  intro Ka
  have hc : Compatible Ka V.toArr := by
    cases V <;> cases sp <;> simp_all [Noise.Fits, Compatible, Ka, Noise.toArr]
  obtain ⟨h', a, R, h1, h2, -, -, -, hr, hcol, -, h5⟩ := C80_sum_partial [Ka, V.toArr] 0 1 Ka V.toArr rfl rfl hc
  have e1 : Ka.rows = n := by cases sp <;> rfl
  have e2 : Ka.cols = n := by cases sp <;> rfl
  have e3 : Ka.asMat = K := by cases sp <;> rfl
  refine ⟨h', a, R, h1, h2, fun i hi j hj => ?_⟩
  rw [h5 i (by rw [e1]; exact hi) j (by rw [e2]; exact hj), e3]
  cases V with
  | diag len v =>
    have : len = n := hV
    subst this
    have : KV = fun i j => if i = j then K i i + v i else K i j := by
      cases sp <;> simp [addKV] at hKV <;> exact hKV.symm
    rw [this]
    by_cases hij : i = j
    · subst hij; simp [Arr.asNoise, Noise.toArr]
    · simp [Arr.asNoise, Noise.toArr, hij]
  | dense r c A =>
    obtain ⟨rfl, rfl, rfl⟩ := hV
    simp [addKV] at hKV
    rw [← hKV]; rfl
  | sparse r c A =>
    obtain ⟨rfl, rfl⟩ := hV
    cases sp <;> simp [addKV] at hKV <;> (rw [← hKV]; rfl)

/-! ## C79 -/

/-- C79: at construction, and after every later change (C40), each training point carries its own measured variance. -/
theorem C79_training_points (c : Config α H) (hc : c.noise = .measured) (d : Data α) (h : H) (v : List ℝ)
    (hv : d.noiseVar = some v) (hl : v.length = d.x.length) :
    ∀ i j : Fin d.x.length, (calcV c d h d.x).mat d.x.length i j = if i = j then v.getD i 0 else 0 := by
  intro i j
  have e : calcV c d h d.x = .diag v.length fun i => v.getD i 0 := by simp [calcV, hc, hv, hl]
  rw [e]
  simp only [Noise.mat, Matrix.diagonal_apply]

/-- C79: at a prediction set of another size the average measured variance is used for every point, in the noise matrix
and in what `add_noise` adds to the variances and the diagonal of the covariance. -/
theorem C79_elsewhere_partial (gp : GP α H) (hc : gp.cfg.noise = .measured) (v : List ℝ)
    (hv : gp.data.noiseVar = some v) (xs : List α) (hl : xs.length ≠ v.length) (w : ℕ → ℝ) (S : NMat) :
    ∃ w' S', addNoise gp xs w (some S) = .ok (w', some S') ∧ (∀ i, w' i = w i + v.sum / v.length) ∧
      ∀ i j, S' i j = S i j + if i = j then v.sum / v.length else 0 := by
  refine ⟨fun i => w i + v.sum / v.length, fun i j => S i j + if i = j then v.sum / v.length else 0, ?_, fun _ => rfl,
    fun _ _ => rfl⟩
  simp only [addNoise, calcV, hc, hv, Option.getD_some, if_neg hl, if_true, Option.map_some]

/-- C79 is violated by a prediction set of the size of the training set: whatever its points are, point `i` gets the
variance measured at training point `i`. -/
theorem C79_same_size_violated (gp : GP α H) (hc : gp.cfg.noise = .measured) (v : List ℝ)
    (hv : gp.data.noiseVar = some v) (xs : List α) (hl : xs.length = v.length) (w : ℕ → ℝ) (S : NMat) :
    ∃ w' S', addNoise gp xs w (some S) = .ok (w', some S') ∧ ∀ i, w' i = w i + v.getD i 0 := by
  refine ⟨fun i => w i + v.getD i 0, fun i j => S i j + if i = j then v.getD i 0 else 0, ?_, fun _ => rfl⟩
  simp only [addNoise, calcV, hc, hv, Option.getD_some, if_pos hl, if_pos hl.symm, Option.map_some]

/-- Three prediction points away from the three training points with variances 1, 1/2, 1: the noise added to the second
is 1/2, not the average 5/6. -/
example (mode : Mode) (kv : KVState) (w : ℕ → ℝ) (S : NMat) :
    ∃ w' S', addNoise (⟨exCfg mode, exData, 3, fun _ => 0, fun _ _ => 0, .diag 0 fun _ => 0, kv⟩ : GP ℝ ℝ) [10, 20, 30] w (some S)
      = .ok (w', some S') ∧ w' 1 = w 1 + 1 / 2 ∧ w' 1 ≠ w 1 + ([1, 1 / 2, 1] : List ℝ).sum / 3 := by
  obtain ⟨w', S', h1, h2⟩ := C79_same_size_violated
    (⟨exCfg mode, exData, 3, fun _ => 0, fun _ _ => 0, .diag 0 fun _ => 0, kv⟩ : GP ℝ ℝ) rfl [1, 1 / 2, 1] rfl
    [10, 20, 30] rfl w S
  refine ⟨w', S', h1, by rw [h2]; simp, ?_⟩
  rw [h2]
  simp
  norm_num

example (mode : Mode) (kv : KVState) (w : ℕ → ℝ) (S : NMat) :
    ∃ w' S', addNoise (⟨exCfg mode, exData, 3, fun _ => 0, fun _ _ => 0, .diag 0 fun _ => 0, kv⟩ : GP ℝ ℝ) [10, 20] w (some S)
      = .ok (w', some S') ∧ w' 1 = w 1 + 5 / 6 := by
  obtain ⟨w', S', h1, h2, -⟩ := C79_elsewhere_partial
    (⟨exCfg mode, exData, 3, fun _ => 0, fun _ _ => 0, .diag 0 fun _ => 0, kv⟩ : GP ℝ ℝ) rfl [1, 1 / 2, 1] rfl
    [10, 20] (by simp) w S
  exact ⟨w', S', h1, by rw [h2]; norm_num⟩

end Verif.GP
