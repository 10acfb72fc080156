import Mathlib.Analysis.SpecialFunctions.Log.Basic
import Mathlib.Analysis.Real.Sqrt
import Mathlib.Analysis.SpecialFunctions.Trigonometric.Basic
import Mathlib.Algebra.BigOperators.Fin

/-!
Model of the error metrics of a GP, gp.py:1754-2150.

`m` and `v` stand for the posterior mean and variance at `n` test points (for several outputs: at all entries of the array),
`y` for the test values. Every function but `picp` and `mpiw` asserts that the shapes agree; the model has them equal. `ppf` and
`pdf`, `cdf` are the functions of `scipy.stats.norm`. A division by zero (NaN or infinity with a warning) has value `none`
where it can occur for well-formed arguments.
-/

namespace Verif.Metrics

open Finset

variable {n : ℕ}

/-- `np.mean` of `n` values. -/
noncomputable def mean (f : Fin n → ℝ) : ℝ := (∑ i, f i) / n

/-- `rmse`, gp.py:1784-1805. -/
noncomputable def rmse (y m : Fin n → ℝ) : ℝ := √((∑ i, (y i - m i) ^ 2) / n)

/-- `mae`, gp.py:1994-2014. -/
noncomputable def mae (y m : Fin n → ℝ) : ℝ := mean fun i => |y i - m i|

/-- `r2`, gp.py:1854-1874. -/
noncomputable def r2 (y m : Fin n → ℝ) : Option ℝ :=
  open Classical in
  let ssRes := ∑ i, (y i - m i) ^ 2
  let ssTot := ∑ i, (y i - mean y) ^ 2
  if ssTot = 0 then none else some (1 - ssRes / ssTot)

/-- `z = norm.ppf(1 - (1 - interval) / 2)`, gp.py:1901, 1957, 1986. -/
noncomputable def zOf (ppf : ℝ → ℝ) (interval : ℝ) : ℝ := ppf (1 - (1 - interval) / 2)

/-- `lower_bounds`, gp.py:1902, 1987, for a variance that is not negative (otherwise the square root is NaN). -/
noncomputable def lower (ppf : ℝ → ℝ) (interval : ℝ) (m v : ℝ) : ℝ := m - zOf ppf interval * √v

/-- `upper_bounds`, gp.py:1903, 1988. -/
noncomputable def upper (ppf : ℝ → ℝ) (interval : ℝ) (m v : ℝ) : ℝ := m + zOf ppf interval * √v

/-- `picp`, gp.py:1876-1908, for values with the shape of the posterior mean. -/
noncomputable def picp (ppf : ℝ → ℝ) (y m v : Fin n → ℝ) (interval : ℝ) : ℝ :=
  open Classical in
  mean fun i => if lower ppf interval (m i) (v i) ≤ y i ∧ y i ≤ upper ppf interval (m i) (v i) then 1 else 0

/-- `picp` for values of shape `(n, 1)` and a posterior mean of shape `(n,)`: there is no check of the shapes, and the
comparison broadcasts to all pairs. -/
noncomputable def picpColumn (ppf : ℝ → ℝ) (y m v : Fin n → ℝ) (interval : ℝ) : ℝ :=
  open Classical in
  mean fun i => mean fun j => if lower ppf interval (m j) (v j) ≤ y i ∧ y i ≤ upper ppf interval (m j) (v j) then 1 else 0

/-- `mpiw`, gp.py:1937-1958. -/
noncomputable def mpiw (ppf : ℝ → ℝ) (v : Fin n → ℝ) (interval : ℝ) : ℝ := mean fun i => 2 * zOf ppf interval * √(max (v i) 0)

/-- `interval_score`, gp.py:1960-1992. -/
noncomputable def intervalScore (ppf : ℝ → ℝ) (y m v : Fin n → ℝ) (interval : ℝ) : ℝ :=
  mean fun i =>
    (upper ppf interval (m i) (v i) - lower ppf interval (m i) (v i))
      + 2 / (1 - interval) * max (lower ppf interval (m i) (v i) - y i) 0
      + 2 / (1 - interval) * max (y i - upper ppf interval (m i) (v i)) 0

/-- `nlpd`, gp.py:1827-1852, for positive variances. -/
noncomputable def nlpd (y m v : Fin n → ℝ) : ℝ :=
  mean fun i => 1 / 2 * Real.log (2 * Real.pi * v i) + 1 / 2 * (y i - m i) ^ 2 / v i

/-- `msll`, gp.py:2040-2071: `data` are the training values. -/
noncomputable def msll {N : ℕ} (data : Fin N → ℝ) (y m v : Fin n → ℝ) : ℝ :=
  let bm := mean data
  let bv := mean fun i => (data i - mean data) ^ 2
  mean (fun i => 1 / 2 * Real.log (2 * Real.pi * v i) + 1 / 2 * (y i - m i) ^ 2 / v i)
    - mean fun i => 1 / 2 * Real.log (2 * Real.pi * bv) + 1 / 2 * (y i - bm) ^ 2 / bv

/-- One term of `_crps_s`, gp.py:1755-1758. -/
noncomputable def crpsTerm (pdf cdf : ℝ → ℝ) (x mu sigma : ℝ) : ℝ :=
  |sigma * (1 / √Real.pi - 2 * pdf ((x - mu) / sigma) - (x - mu) / sigma * (2 * cdf ((x - mu) / sigma) - 1))|

/-- The first value of `crps`, gp.py:1761-1782. -/
noncomputable def crps (pdf cdf : ℝ → ℝ) (y m v : Fin n → ℝ) : ℝ := mean fun i => crpsTerm pdf cdf (y i) (m i) √(v i)

/-- `gaussian_1d`, gp.py:2129-2150. -/
noncomputable def gaussian1d (x mu sigma : ℝ) : ℝ :=
  1 / (√(2 * Real.pi) * sigma) * Real.exp (-((x - mu) ^ 2) / (2 * sigma ^ 2))

end Verif.Metrics
