import Verif.Spec.Timed
/-!
# A pool of slots
-/

namespace Aio.Spec.Pool
variable {α : Type}

/-- This stream has completed by time `t`. -/
def completedBy (t : Nat) (cs : List (Notif α × Nat)) : Bool :=
  cs.any fun
    | (.completed, c) => decide (c ≤ t)
    | _ => false

/-- How many of these streams have completed by time `t`. -/
def completions (t : Nat) (css : List (List (Notif α × Nat))) : Nat := (css.filter (completedBy t)).length

end Aio.Spec.Pool
