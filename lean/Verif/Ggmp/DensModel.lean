import Verif.Ggmp.EmModel
import Mathlib.Analysis.SpecialFunctions.Pow.NNReal

/-!
Model of the density helpers of ggmp.py: normalisation on a grid, histogram densities, the rows of the EM objective, and
the distances between densities.

Simplifications: exact reals (so the sum `z` is always finite); an array of length `n` is a function of which only the
values below `n` matter. `np.gradient` raises for fewer than two grid points.
-/

namespace Verif.Ggmp

open Finset

/-- `np.abs(np.gradient(domain))` for a grid of `n` points: one-sided differences at the ends, half the central difference
inside. -/
noncomputable def spacing (n : ℕ) (x : ℕ → ℝ) (i : ℕ) : ℝ :=
  if i = 0 then |x 1 - x 0| else if i = n - 1 then |x (n - 1) - x (n - 2)| else |(x (i + 1) - x (i - 1)) / 2|

/-- `np.maximum(density, 0.0)`. -/
noncomputable def pos (d : ℕ → ℝ) (i : ℕ) : ℝ := max (d i) 0

/-- `_normalize_pdf(domain, density)`, ggmp.py:933-951: `n` and `n'` are the lengths of the two arrays. Returns the
density and the spacing. -/
noncomputable def normalizePdf (n : ℕ) (x : ℕ → ℝ) (n' : ℕ) (d : ℕ → ℝ) : Except String ((ℕ → ℝ) × (ℕ → ℝ)) :=
  if n ≠ n' then .error "ValueError: domain and density must have the same shape"
  else if n < 2 then .error "ValueError: Shape of array too small to calculate a numerical gradient"
  else
    let dx := spacing n x
    let z := ∑ i ∈ range n, pos d i * dx i
    if z ≤ 0 then .ok (fun _ => 1 / n, fun _ => 1 / n)
    else .ok (fun i => pos d i / z, dx)

/-- `empirical_pdf_from_samples`, ggmp.py:954-964, after `np.histogram`: `edges` has `bins + 1` entries. -/
noncomputable def empiricalPdf (bins : ℕ) (edges hist : ℕ → ℝ) : Except String ((ℕ → ℝ) × (ℕ → ℝ)) :=
  normalizePdf bins (fun i => 1 / 2 * (edges i + edges (i + 1))) bins fun i => max (hist i) (1 / (10 : ℝ) ^ 12)

/-- One station of `model.y_data`. -/
structure Station where
  n : ℕ
  x : ℕ → ℝ
  n' : ℕ
  d : ℕ → ℝ

variable {K : ℕ}

/-- The loop of `prepare_station_terms_density`, ggmp.py:2330-2342, flattened to rows; `logPdf i x k` is the log density of
component `k` of station `i` at `x`. -/
noncomputable def stationRows (logPdf : ℕ → ℝ → Fin K → ℝ) : ℕ → List Station → Except String (List (Row K))
  | _, [] => .ok []
  | i, s :: ss => do
      let (p, dx) ← normalizePdf s.n s.x s.n' s.d
      let rest ← stationRows logPdf (i + 1) ss
      .ok ((List.range s.n).map (fun j => ⟨p j * dx j, logPdf i (s.x j)⟩) ++ rest)

/-- `np.maximum(p, 0)` divided by `sum(p * dx) + 1e-300`, ggmp.py:2409-2412, 2421-2424, 2434-2437. -/
noncomputable def unit (n : ℕ) (x p : ℕ → ℝ) (i : ℕ) : ℝ := pos p i / (∑ i ∈ range n, pos p i * spacing n x i + tiny)

/-- `bhattacharyya_distance`, ggmp.py:2402-2414, arrays of one length `n ≥ 2`. -/
noncomputable def bhattacharyya (n : ℕ) (x p q : ℕ → ℝ) : ℝ :=
  -Real.log (max (∑ i ∈ range n, √(max (unit n x p i * unit n x q i) 0) * spacing n x i) tiny)

/-- `kl_divergence`, ggmp.py:2417-2427. -/
noncomputable def klDivergence (n : ℕ) (x p q : ℕ → ℝ) : ℝ :=
  ∑ i ∈ range n, unit n x p i * (Real.log (unit n x p i + tiny) - Real.log (unit n x q i + tiny)) * spacing n x i

/-- `wasserstein_1d`, ggmp.py:2430-2441. -/
noncomputable def wasserstein1d (n : ℕ) (x p q : ℕ → ℝ) : ℝ :=
  ∑ i ∈ range n, |∑ j ∈ range (i + 1), unit n x p j * spacing n x j - ∑ j ∈ range (i + 1), unit n x q j * spacing n x j|
    * spacing n x i

end Verif.Ggmp
