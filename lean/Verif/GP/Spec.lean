import Verif.GP.Model
import Verif.GP.Gauss

/-! Specification vocabulary for the properties of predictions and likelihood: covariance matrices written entry by
entry, positive semidefinite kernels, well-formed inputs. -/

namespace Verif.GP

open Matrix

variable {α H : Type}

/-- The covariance matrix of two point lists. -/
def Kmat (k : α → α → ℝ) (xs ys : List α) : Matrix (Fin xs.length) (Fin ys.length) ℝ :=
  Matrix.of fun i j => k xs[i] ys[j]

/-- A noise description as a matrix. -/
def Noise.mat (V : Noise) (n : ℕ) : Matrix (Fin n) (Fin n) ℝ :=
  match V with
  | .diag _ v => Matrix.diagonal fun i => v i
  | .dense _ _ V => Matrix.of fun i j => V i j
  | .sparse _ _ V => Matrix.of fun i j => V i j

/-- The noise has the size of the data and its storage is one `addKV` accepts. -/
def Noise.Fits (V : Noise) (n : ℕ) (sparseK : Bool) : Prop :=
  match V with
  | .diag len _ => len = n
  | .dense r c _ => r = n ∧ c = n ∧ sparseK = false
  | .sparse r c _ => r = n ∧ c = n

/-- `K + V` of a data set and hyperparameters. -/
noncomputable def KVmat (c : Config α H) (d : Data α) (h : H) : Matrix (Fin d.x.length) (Fin d.x.length) ℝ :=
  Kmat (c.kernel h) d.x d.x + (calcV c d h d.x).mat d.x.length

/-- A symmetric positive semidefinite kernel. -/
def IsPSDKernel (k : α → α → ℝ) : Prop :=
  (∀ a b, k a b = k b a) ∧
  ∀ (n : ℕ) (x : Fin n → α) (w : Fin n → ℝ), 0 ≤ ∑ i, ∑ j, w i * w j * k (x i) (x j)

/-- The inputs of the constructor fit together and `K + V` is positive definite (what every direct mode needs). -/
structure Admissible (c : Config α H) (d : Data α) (h : H) : Prop where
  fits : (calcV c d h d.x).Fits d.x.length c.sparseK
  posDef : (KVmat c d h).PosDef

/-- The prior mean at the data and the prediction points, and one column of the values. -/
noncomputable def meanAt (c : Config α H) (d : Data α) (h : H) (xs : List α) : Fin xs.length → ℝ :=
  fun i => meanFn c d h xs[i]

/-- Column `j` of the values. -/
def yCol (d : Data α) (j : ℕ) : Fin d.x.length → ℝ := fun i => d.yMat i j

/-- Posterior mean, specification: conditional mean of the joint Gaussian. -/
noncomputable def specMean (c : Config α H) (d : Data α) (h : H) (xs : List α) (j : ℕ) : Fin xs.length → ℝ :=
  condMean (KVmat c d h) (Kmat (c.kernel h) d.x xs) (meanAt c d h xs) (meanAt c d h d.x) (yCol d j)

/-- Posterior covariance, specification. -/
noncomputable def specCov (c : Config α H) (d : Data α) (h : H) (xs : List α) :
    Matrix (Fin xs.length) (Fin xs.length) ℝ :=
  condCov (KVmat c d h) (Kmat (c.kernel h) d.x xs) (Kmat (c.kernel h) xs xs)

end Verif.GP
