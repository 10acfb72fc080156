import Verif.GP.Spec
import Verif.GP.KVLemmas

/-! From the model of prediction to matrices. -/

namespace Verif.GP

open Finset Verif.LinAlg

variable {α H : Type}

theorem gram_apply (k : α → α → ℝ) (xs ys : List α) (i : Fin xs.length) (j : Fin ys.length) :
    gram k xs ys i j = Kmat k xs ys i j := by
  simp [gram, Kmat]

theorem evalAt_apply (f : α → ℝ) (xs : List α) (i : Fin xs.length) : evalAt f xs i = f xs[i] := by
  simp [evalAt]

theorem toMat_gram (k : α → α → ℝ) (xs : List α) : toMat xs.length (gram k xs xs) = Kmat k xs xs := by
  ext i j
  exact gram_apply k xs xs i j

/-- For fitting noise `addKV` returns the sum. -/
theorem addKV_ok {V : Noise} {n : ℕ} {sp : Bool} (h : V.Fits n sp) (K : NMat) :
    ∃ KV, addKV sp n n K V = .ok KV ∧ toMat n KV = toMat n K + V.mat n := by
  have hd : ∀ v : ℕ → ℝ, toMat n (fun i j => if i = j then K i i + v i else K i j)
      = toMat n K + Matrix.diagonal fun i : Fin n => v i := by
    intro v
    ext i j
    by_cases hij : i = j
    · subst hij; simp [toMat]
    · have : (i : ℕ) ≠ j := fun h => hij (Fin.ext h)
      simp [toMat, hij, this]
  cases V with
  | diag len v =>
    have hl : len = n := h
    subst hl
    cases sp <;> exact ⟨_, by simp [addKV], hd v⟩
  | dense r c V =>
    obtain ⟨rfl, rfl, rfl⟩ := h
    exact ⟨fun i j => K i j + V i j, by simp [addKV], by ext i j; simp [toMat, Noise.mat]⟩
  | sparse r c V =>
    obtain ⟨rfl, rfl⟩ := h
    cases sp <;>
    exact ⟨fun i j => K i j + V i j, by simp [addKV], by ext i j; simp [toMat, Noise.mat]⟩

/-- The stored state belongs to the stored data and hyperparameters. -/
structure Consistent (gp : GP α H) : Prop where
  m_eq : gp.m = evalAt (meanFn gp.cfg gp.data gp.hps) gp.data.x
  K_eq : toMat gp.data.x.length gp.K = Kmat (gp.cfg.kernel gp.hps) gp.data.x gp.data.x
  V_eq : gp.V = calcV gp.cfg gp.data gp.hps gp.data.x
  size_eq : gp.kv.factor.size = gp.data.x.length
  mode_eq : gp.kv.factor.mode = gp.cfg.mode
  repr : ∃ KV, gp.kv.factor.Represents KV ∧ toMat gp.data.x.length KV = KVmat gp.cfg gp.data gp.hps
  kvinvY_eq : gp.kv.kvinvY = solveY gp.kv.factor gp.data.yMat gp.m
  logdet_eq : gp.kv.logdetKV = logdet gp.cfg.ext gp.kv.factor

theorem refreshFull_ok (e : Ext) (he : SpluContract e) (mode : Mode) (sp : Bool) (n : ℕ) (K : NMat) (V : Noise)
    (y : NMat) (m : ℕ → ℝ) (hfit : V.Fits n sp) (hpd : (toMat n K + V.mat n).PosDef) :
    ∃ kv, refreshFull e mode sp n K V y m = .ok kv ∧ kv.factor.size = n ∧ kv.factor.mode = mode ∧
      (∃ KV, kv.factor.Represents KV ∧ toMat n KV = toMat n K + V.mat n) ∧
      kv.kvinvY = solveY kv.factor y m ∧ kv.logdetKV = logdet e kv.factor := by
  obtain ⟨KV, hKV, hmat⟩ := addKV_ok hfit K
  rw [← hmat] at hpd
  obtain ⟨f, hf, hs, hm, hr⟩ := setKV_ok e he mode n KV hpd
  refine ⟨⟨f, solveY f y m, logdet e f⟩, ?_, hs, hm, ⟨KV, hr, hmat⟩, rfl, rfl⟩
  simp [refreshFull, hKV, hf, bind, Except.bind]

theorem init_ok (c : Config α H) (d : Data α) (h : H) (he : SpluContract c.ext) (ha : Admissible c d h) :
    ∃ gp, init c d h = .ok gp ∧ Consistent gp ∧ gp.cfg = c ∧ gp.data = d ∧ gp.hps = h := by
  have hpd := ha.posDef
  rw [KVmat, ← toMat_gram] at hpd
  obtain ⟨kv, hkv, hs, hm, hr, hy, hl⟩ := refreshFull_ok c.ext he c.mode c.sparseK d.x.length
    (gram (c.kernel h) d.x d.x) (calcV c d h d.x) d.yMat (evalAt (meanFn c d h) d.x) ha.fits hpd
  refine ⟨⟨c, d, h, evalAt (meanFn c d h) d.x, gram (c.kernel h) d.x d.x, calcV c d h d.x, kv⟩, ?_,
    ⟨rfl, toMat_gram _ _, rfl, hs, hm, ?_, hy, hl⟩, rfl, rfl, rfl⟩
  · simp [init, hkv, bind, Except.bind]
  · show ∃ KV, kv.factor.Represents KV ∧ toMat d.x.length KV = KVmat c d h
    rw [KVmat, ← toMat_gram]
    exact hr

theorem solve_factor {f : Factor} {KV : NMat} {n : ℕ} (hs : f.size = n) (hr : f.Represents KV)
    (hpd : (toMat n KV).PosDef) (b : ℕ → ℝ) (i : Fin n) :
    solve f b i = ((toMat n KV)⁻¹.mulVec fun l : Fin n => b l) i := by
  subst hs
  exact solve_eq hr hpd b i

theorem consistent_solve {gp : GP α H} (hc : Consistent gp)
    (hpd : (KVmat gp.cfg gp.data gp.hps).PosDef) (b : ℕ → ℝ) (i : Fin gp.data.x.length) :
    solve gp.kv.factor b i = ((KVmat gp.cfg gp.data gp.hps)⁻¹.mulVec fun l => b l) i := by
  obtain ⟨KV, hr, hmat⟩ := hc.repr
  rw [← hmat] at hpd ⊢
  exact solve_factor hc.size_eq hr hpd b i

theorem consistent_mean {gp : GP α H} (hc : Consistent gp) (hpd : (KVmat gp.cfg gp.data gp.hps).PosDef)
    (xs : List α) (i : Fin xs.length) (j : ℕ) :
    posteriorMean gp xs i j = specMean gp.cfg gp.data gp.hps xs j i := by
  rw [posteriorMean, evalAt_apply, Finset.sum_range, specMean, condMean, Pi.add_apply]
  congr 1
  simp only [Matrix.mulVec, dotProduct, Matrix.transpose_apply]
  refine Finset.sum_congr rfl fun l _ => ?_
  rw [gram_apply, hc.kvinvY_eq, solveY, consistent_solve hc hpd, hc.m_eq]
  congr 1
  simp only [Matrix.mulVec, dotProduct]
  refine Finset.sum_congr rfl fun a _ => ?_
  rw [evalAt_apply]
  rfl

theorem pyRange_cover {p cs j : ℕ} (hcs : 1 ≤ cs) (hj : j < p) :
    ∃ s ∈ pyRange p cs, s ≤ j ∧ j < min (s + cs) p := by
  refine ⟨j / cs * cs, ?_, Nat.div_mul_le_self j cs, ?_⟩
  · rw [pyRange, List.mem_map]
    refine ⟨j / cs, ?_, rfl⟩
    rw [List.mem_range, Nat.div_lt_iff_lt_mul (by omega)]
    have h1 := Nat.div_add_mod (p + cs - 1) cs
    have h2 := Nat.mod_lt (p + cs - 1) (show cs > 0 by omega)
    have h3 : (p + cs - 1) / cs * cs = cs * ((p + cs - 1) / cs) := Nat.mul_comm _ _
    omega
  · have h1 := Nat.div_add_mod j cs
    have h2 := Nat.mod_lt j (show cs > 0 by omega)
    have h3 : j / cs * cs = cs * (j / cs) := Nat.mul_comm _ _
    simp only [lt_min_iff]
    omega

/-- The chunked product is the product. -/
theorem crossSolveProduct_eq (f : Factor) (n p : ℕ) (k : NMat) (chunk : ℕ) (junk : NMat) (i j : ℕ) (hj : j < p) :
    crossSolveProduct f n p k chunk junk i j = ∑ l ∈ range n, k l i * solve f (fun l => k l j) l := by
  have key : ∀ (cs : ℕ) (starts : List ℕ) (junk : NMat),
      ((∃ s ∈ starts, s ≤ j ∧ j < min (s + cs) p) ∨
        junk i j = ∑ l ∈ range n, k l i * solve f (fun l => k l j) l) →
      starts.foldl (fun product start => fun i j =>
        if start ≤ j ∧ j < min (start + cs) p then
          ∑ l ∈ range n, k l i * solve f (fun l => k l j) l
        else product i j) junk i j = ∑ l ∈ range n, k l i * solve f (fun l => k l j) l := by
    intro cs starts
    induction starts with
    | nil => intro junk h; simpa using h
    | cons s rest ih =>
      intro junk h
      rw [List.foldl_cons]
      apply ih
      by_cases hs : s ≤ j ∧ j < min (s + cs) p
      · right; rw [if_pos hs]
      · rcases h with ⟨s', hs', hcov⟩ | h
        · rcases List.mem_cons.1 hs' with rfl | hmem
          · exact absurd hcov hs
          · exact Or.inl ⟨s', hmem, hcov⟩
        · right; rw [if_neg hs, h]
  exact key _ _ junk (Or.inl (pyRange_cover (by omega) hj))

theorem consistent_cross {gp : GP α H} (hc : Consistent gp) (hpd : (KVmat gp.cfg gp.data gp.hps).PosDef)
    (xs : List α) (chunk : ℕ) (junk : NMat) (i j : Fin xs.length) :
    gram (gp.cfg.kernel gp.hps) xs xs i j
      - crossSolveProduct gp.kv.factor gp.data.x.length xs.length (gram (gp.cfg.kernel gp.hps) gp.data.x xs)
          chunk junk i j
      = specCov gp.cfg gp.data gp.hps xs i j := by
  rw [crossSolveProduct_eq _ _ _ _ _ _ _ _ j.2, gram_apply, specCov, condCov, Matrix.sub_apply, Matrix.mul_assoc,
    Matrix.mul_apply, Finset.sum_range]
  congr 1
  refine Finset.sum_congr rfl fun l _ => ?_
  rw [gram_apply, consistent_solve hc hpd, Matrix.transpose_apply]
  congr 1
  simp only [Matrix.mulVec, dotProduct, Matrix.mul_apply]
  exact Finset.sum_congr rfl fun a _ => by rw [gram_apply]

theorem consistent_einsum {gp : GP α H} (hc : Consistent gp) (I : NMat)
    (hI : gp.kv.factor.kvinv = some I) (xs : List α) (i : Fin xs.length) :
    gram (gp.cfg.kernel gp.hps) xs xs i i
      - ∑ j ∈ range gp.data.x.length, ∑ l ∈ range gp.data.x.length,
          gram (gp.cfg.kernel gp.hps) gp.data.x xs j i * I j l * gram (gp.cfg.kernel gp.hps) gp.data.x xs l i
      = specCov gp.cfg gp.data gp.hps xs i i := by
  obtain ⟨KV, hr, hmat⟩ := hc.repr
  have hinv : toMat gp.data.x.length I = (KVmat gp.cfg gp.data gp.hps)⁻¹ := by
    rw [← hmat, ← hc.size_eq]
    cases hf : gp.kv.factor with
    | chol n F => rw [hf] at hI; simp [Factor.kvinv] at hI
    | cholInv n F J =>
      rw [hf] at hI hr
      simp only [Factor.kvinv, Option.some.injEq] at hI
      subst hI
      exact hr.2
    | inv n KV J =>
      rw [hf] at hI hr
      simp only [Factor.kvinv, Option.some.injEq] at hI
      subst hI
      exact hr.2
    | lu n F => rw [hf] at hI; simp [Factor.kvinv] at hI
    | raw n F => rw [hf] at hI; simp [Factor.kvinv] at hI
  rw [specCov, condCov_diag, gram_apply]
  congr 1
  rw [← hinv]
  simp only [dotProduct, Matrix.mulVec, Finset.sum_range, Finset.mul_sum]
  refine Finset.sum_congr rfl fun a _ => Finset.sum_congr rfl fun b _ => ?_
  rw [gram_apply, gram_apply, toMat, Matrix.of_apply]
  ring

end Verif.GP
