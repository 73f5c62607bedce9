import Verif.Model.Iterator
/-!
# Vocabulary for the claims about async iteration
-/

namespace Aio.Iterator
variable {α : Type}

/-- The calls of `asend`/`athrow`/`aclose`. -/
def made (ls : List (Label α)) : List (Notif α) := ls.filterMap fun | .call n => some n | _ => none

/-- How `__anext__` ends on an event. -/
def Took.of : Notif α → Took α
  | .next v => .value v
  | .error e => .raised e
  | .completed => .stop

/-- The values the iteration has yielded. -/
def yielded (l : List (Took α)) : List α := l.filterMap fun | .value v => some v | _ => none

/-- The values among events. -/
def valuesOf (l : List (Notif α)) : List α := l.filterMap fun | .next v => some v | _ => none

/-- Every call was made when all earlier ones had returned. -/
def Sequential (ls : List (Label α)) : Prop :=
  ∀ p n q s, ls = p ++ .call n :: q → LTS.run step init p = some s → ∀ x ∈ s.calls, x = .returned

end Aio.Iterator
