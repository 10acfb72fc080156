import Verif.GP.InfoModel

/-! Model of `gp_relative_information_entropy_set`, `/repo/fvgp/gp_posterior.py`. -/

namespace Verif.GP

open Verif.LinAlg Matrix

variable {α H : Type}

/-- The loop of `gp_relative_information_entropy_set`, gp_posterior.py:521-523, from row `i` on. `arrayInput` tells
whether the rows are arrays; an entry of a list that is not an array has no `reshape`. `junk i` is the content of the
uninitialised arrays in pass `i`. -/
noncomputable def rieLoop (gp : GP α H) (lstsq : {n m : Type} → Matrix n n ℝ → Matrix n m ℝ → Matrix n m ℝ)
    (arrayInput noisy : Bool) (chunk : ℕ) (junk : ℕ → NMat) : ℕ → List α → Except String (List ℝ)
  | _, [] => .ok []
  | i, x :: xs =>
    if arrayInput then do
      let r ← gpRIE gp lstsq [x] noisy chunk (junk i)
      let rs ← rieLoop gp lstsq arrayInput noisy chunk junk (i + 1) xs
      .ok (r :: rs)
    else .error "AttributeError: object has no attribute 'reshape'"

/-- `gp_relative_information_entropy_set(x_pred, add_noise)`, gp_posterior.py:515-526: the array under `"RIE"`.
Single-task, one output column, rows of the right length. -/
noncomputable def gpRIESet (gp : GP α H) (lstsq : {n m : Type} → Matrix n n ℝ → Matrix n m ℝ → Matrix n m ℝ)
    (xs : List α) (arrayInput noisy : Bool) (chunk : ℕ) (junk : ℕ → NMat) : Except String (List ℝ) :=
  rieLoop gp lstsq arrayInput noisy chunk junk 0 xs

end Verif.GP
