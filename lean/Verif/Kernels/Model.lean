import Mathlib.Analysis.SpecialFunctions.Pow.Real
import Mathlib.Analysis.SpecialFunctions.Trigonometric.Basic
import Mathlib.Data.Real.Sqrt

/-!
Model of the kernels of kernels.py and of the default kernel of gp_prior.py.

Arrays of distances are processed elementwise by the code, so a kernel of a distance is a function `ℝ → ℝ`. A point with
`D` coordinates is a function `Fin D → ℝ`. Floats are exact reals; hence a division by a zero length scale (`inf`/`nan`
in the code) is not represented and the theorems assume nonzero length scales.
-/

namespace Verif.Kernels

/-- `squared_exponential_kernel(distance, length)`, kernels.py:16-33. -/
noncomputable def squaredExponential (d l : ℝ) : ℝ := Real.exp (-(d ^ 2) / (2 * l ^ 2))

/-- `squared_exponential_kernel_robust(distance, phi)`, kernels.py:36-53. -/
noncomputable def squaredExponentialRobust (d φ : ℝ) : ℝ := Real.exp (-(d ^ 2) * φ ^ 2)

/-- `exponential_kernel(distance, length)`, kernels.py:56-74. -/
noncomputable def exponential (d l : ℝ) : ℝ := Real.exp (-d / l)

/-- `exponential_kernel_robust(distance, phi)`, kernels.py:77-95. -/
noncomputable def exponentialRobust (d φ : ℝ) : ℝ := Real.exp (-d * φ ^ 2)

/-- `matern_kernel_diff1(distance, length)`, kernels.py:98-118. -/
noncomputable def matern1 (d l : ℝ) : ℝ := (1 + √3 * d / l) * Real.exp (-(√3 * d) / l)

/-- `matern_kernel_diff1_grad(distance, dist_der)`, kernels.py:121-141. -/
noncomputable def matern1Grad (d dd : ℝ) : ℝ :=
  √3 * dd * Real.exp (-(√3 * d)) - (1 + √3 * d) * (√3 * dd) * Real.exp (-(√3 * d))

/-- `matern_kernel_diff1_robust(distance, phi)`, kernels.py:144-163. -/
noncomputable def matern1Robust (d φ : ℝ) : ℝ := (1 + √3 * d * φ ^ 2) * Real.exp (-(√3 * d) * φ ^ 2)

/-- `matern_kernel_diff2(distance, length)`, kernels.py:166-188. -/
noncomputable def matern2 (d l : ℝ) : ℝ :=
  (1 + √5 * d / l + 5 * d ^ 2 / (3 * l ^ 2)) * Real.exp (-(√5 * d) / l)

/-- `matern_kernel_diff2_robust(distance, phi)`, kernels.py:191-213. -/
noncomputable def matern2Robust (d φ : ℝ) : ℝ :=
  (1 + √5 * d * φ ^ 2 + 5 * d ^ 2 * (3 * φ ^ 4)) * Real.exp (-(√5 * d) * φ ^ 2)

/-- `sparse_kernel(distance, radius)`, kernels.py:216-238: a zero distance is replaced by `10e-6`, then distances above the
radius by the radius. -/
noncomputable def sparseKernel (d r : ℝ) : ℝ :=
  let d₁ := if d = 0 then 1 / 100000 else d
  let d₂ := if d₁ > r then r else d₁
  √2 / (3 * √Real.pi) *
    (3 * (d₂ / r) ^ 2 * Real.log (d₂ / r / (1 + √(1 - (d₂ / r) ^ 2))) + (2 * (d₂ / r) ^ 2 + 1) * √(1 - (d₂ / r) ^ 2))

/-- `periodic_kernel(distance, length, p)`, kernels.py:241-261. -/
noncomputable def periodic (d l p : ℝ) : ℝ := Real.exp (-(2 / l ^ 2) * Real.sin (Real.pi * d / p) ^ 2)

/-- `linear_kernel(x1, x2, hp1, hp2, hp3)`, kernels.py:264-287. -/
def linear (x y hp1 hp2 hp3 : ℝ) : ℝ := hp1 + hp2 * (x - hp3) * (y - hp3)

/-- `dot_product_kernel(x1, x2, hp, matrix)`, kernels.py:290-311. -/
def dotProduct {D : ℕ} (x y : Fin D → ℝ) (hp : ℝ) (M : Fin D → Fin D → ℝ) : ℝ := hp + ∑ a, x a * ∑ b, M a b * y b

/-- `polynomial_kernel(x1, x2, p)`, kernels.py:316-333, for a degree that is a natural number. -/
def polynomial {D : ℕ} (x y : Fin D → ℝ) (p : ℕ) : ℝ := (1 + ∑ a, x a * y a) ^ p

/-- The polynomial shared by the Wendland kernels, kernels.py:351-352, 378-379, 527-528. -/
def wendlandPoly (d : ℝ) : ℝ := (1 - d) ^ 8 * (32 * d ^ 3 + 25 * d ^ 2 + 8 * d + 1)

/-- `wendland_kernel(d)`, kernels.py:336-352: one entry of the returned matrix (that the code also overwrites its argument in place is not modelled here). -/
noncomputable def wendland (d : ℝ) : ℝ := wendlandPoly (if d > 1 then 1 else d)

/-- `get_distance_matrix(x1, x2)`, kernels.py:440-458: one entry. -/
noncomputable def distance {D : ℕ} (x y : Fin D → ℝ) : ℝ := √(∑ i, (x i - y i) ^ 2)

/-- `get_anisotropic_distance_matrix(x1, x2, hps)`, kernels.py:461-481: one entry. The same sum is in
`_default_kernel` (gp_prior.py:396-399) and in the Wendland kernels (kernels.py:374-376, 520-522, there without `abs`,
which a square does not notice). -/
noncomputable def anisoDistance {D : ℕ} (x y : Fin D → ℝ) (l : Fin D → ℝ) : ℝ := √(∑ i, |(x i - y i) / l i| ^ 2)

/-- `wendland_anisotropic(x1, x2, hps)`, kernels.py:355-379: one entry; `a = hps[0]`, `l i = hps[1+i]`. -/
noncomputable def wendlandAniso {D : ℕ} (x y : Fin D → ℝ) (a : ℝ) (l : Fin D → ℝ) : ℝ :=
  a * wendland (anisoDistance x y l)

/-- `_g(x, x0, w, l)`, kernels.py:484-487: one entry. -/
noncomputable def basis {D m : ℕ} (x : Fin D → ℝ) (x0 : Fin m → Fin D → ℝ) (w : Fin m → ℝ) (l : ℝ) : ℝ :=
  ∑ c, w c * Real.exp (-(distance x (x0 c) ^ 2) / l)

/-- `non_stat_kernel(x1, x2, x0, w, l)`, kernels.py:382-404: one entry. -/
noncomputable def nonStat {D m : ℕ} (x y : Fin D → ℝ) (x0 : Fin m → Fin D → ℝ) (w : Fin m → ℝ) (l : ℝ) : ℝ :=
  basis x x0 w l * basis y x0 w l

/-- `_dgdw(x, x0, w, l)`, kernels.py:490-493: entry for basis function `c`. -/
noncomputable def basisDw {D m : ℕ} (x : Fin D → ℝ) (x0 : Fin m → Fin D → ℝ) (l : ℝ) (c : Fin m) : ℝ :=
  Real.exp (-(distance x (x0 c) ^ 2) / l)

/-- `_dgdl(x, x0, w, l)`, kernels.py:496-499: one entry. -/
noncomputable def basisDl {D m : ℕ} (x : Fin D → ℝ) (x0 : Fin m → Fin D → ℝ) (w : Fin m → ℝ) (l : ℝ) : ℝ :=
  ∑ c, w c * Real.exp (-(distance x (x0 c) ^ 2) / l) * (distance x (x0 c) ^ 2 / l ^ 2)

/-- `non_stat_kernel_gradient(x1, x2, x0, w, l)`, kernels.py:408-437: the entry of the first `len(w)` slices. -/
noncomputable def nonStatDw {D m : ℕ} (x y : Fin D → ℝ) (x0 : Fin m → Fin D → ℝ) (w : Fin m → ℝ) (l : ℝ) (c : Fin m) : ℝ :=
  basisDw x x0 l c * basis y x0 w l + basisDw y x0 l c * basis x x0 w l

/-- The entry of the last slice of `non_stat_kernel_gradient`, kernels.py:432-436. -/
noncomputable def nonStatDl {D m : ℕ} (x y : Fin D → ℝ) (x0 : Fin m → Fin D → ℝ) (w : Fin m → ℝ) (l : ℝ) : ℝ :=
  basisDl x x0 w l * basis y x0 w l + basisDl y x0 w l * basis x x0 w l

/-- `bump(d, r, beta, ampl)`, kernels.py:890-918: one entry. -/
noncomputable def bump (d r β ampl : ℝ) : ℝ :=
  let a := 1 - d ^ 2 / r ^ 2
  if a > 0 then ampl * Real.exp (-β / a + β) else 0

/-- `sle_kernel(x1, x2, hps, args)`, kernels.py:921-956: one entry; `xs` are the training points,
`hps = [h0, radius, beta, h3]`. -/
noncomputable def sle {D m : ℕ} (x y : Fin D → ℝ) (xs : Fin m → Fin D → ℝ) (h0 r β h3 : ℝ) : ℝ :=
  h0 * Real.exp (-(√(∑ c, (bump (distance x (xs c)) r β 1 - bump (distance y (xs c)) r β 1) ^ 2)) ^ 2 / h3)

/-- `GPprior._default_kernel(x1, x2, hps)`, gp_prior.py:377-400: one entry; `a = hps[0]`, `l i = hps[1+i]`. -/
noncomputable def defaultKernel {D : ℕ} (x y : Fin D → ℝ) (a : ℝ) (l : Fin D → ℝ) : ℝ :=
  a * matern1 (anisoDistance x y l) 1

/-- `dddh` of `_default_kernel_analytical_gradient`, gp_prior.py:429-433: one entry for length scale `k`. -/
noncomputable def distanceDl {D : ℕ} (x y : Fin D → ℝ) (l : Fin D → ℝ) (k : Fin D) : ℝ :=
  if anisoDistance x y l ≠ 0 then -|x k - y k| ^ 2 / (l k ^ 3 * anisoDistance x y l) else 0

/-- `_default_kernel_analytical_gradient`, gp_prior.py:422-436: one entry of slice `k + 1`. -/
noncomputable def defaultGradLength {D : ℕ} (x y : Fin D → ℝ) (a : ℝ) (l : Fin D → ℝ) (k : Fin D) : ℝ :=
  a * matern1Grad (anisoDistance x y l) (distanceDl x y l k)

/-- `_default_kernel_analytical_gradient`, gp_prior.py:435: one entry of slice 0. -/
noncomputable def defaultGradAmplitude {D : ℕ} (x y : Fin D → ℝ) (l : Fin D → ℝ) : ℝ := matern1 (anisoDistance x y l) 1

end Verif.Kernels
