import Verif.State.Model

/-! Histories in which exceptions are caught: the caller of gp.py:672-749 goes on with the object the failed call has left behind. -/

namespace Verif.State

open Verif.GP Verif.LinAlg

variable {α H : Type}

/-- A sequence of calls of `set_hyperparameters` (gp.py:672-687) and `update_gp_data` (gp.py:689-749), each in a `try` block: the object in the
end and the outcome of every call. -/
noncomputable def runCaught (o : Obj α H) : List (Op α H) → Obj α H × List (Except String Unit)
  | [] => (o, [])
  | op :: ops => ((runCaught (apply o op).1 ops).1, (apply o op).2 :: (runCaught (apply o op).1 ops).2)

end Verif.State
