/-!
# Values before a pause

Over lists of values with their times; nothing here mentions the model.
-/

namespace Aio.Spec.Pauses
variable {α : Type}

/-- The values that nothing follows within `d`, each `e` later, as far as that time has passed. -/
def pauses (d e now : Nat) : List (α × Nat) → List (α × Nat)
  | [] => []
  | (v, t) :: rest => if t + e < now ∧ ∀ c ∈ rest, t + d < c.2 then (v, t + e) :: pauses d e now rest else pauses d e now rest

end Aio.Spec.Pauses
