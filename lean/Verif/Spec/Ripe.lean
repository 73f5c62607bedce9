import Verif.Spec.Timed
/-!
# What is due after a delay
-/

namespace Aio.Spec.Ripe
open Spec.Timed
variable {α : Type}

/-- What was sent before `now`. -/
def sentBefore (now : Nat) (cs : List (Notif α × Nat)) : List (Notif α × Nat) := cs.filter fun c => decide (c.2 < now)

/-- The values and errors among `cs`, each `e` later, as far as that is before `now`. -/
def ripe (e now : Nat) (cs : List (Notif α × Nat)) : List (Notif α × Nat) := sentBefore now ((noDone cs).map fun c => (c.1, c.2 + e))

end Aio.Spec.Ripe
