import Verif.Model.HotCatch
import Verif.Spec.Hot
/-!
# What should be heard of `catch` over subjects
-/

namespace Aio.HotCatch
open Spec
variable {C α : Type}

/-- What has been called on the subjects. -/
def made (ls : List (Label α)) : List (Nat × Notif α) := ls.filterMap fun | .call i n => some (i, n) | _ => none

/-- What comes, if subject `cur` is listened to: its values and its completion; when it fails, the subject is listened to that the handler
names for the error, if it does. `c`: the state of the handler; `before`: what has been called before. -/
def heard (h : C → Err → C × Except Err Nat) : C → Nat → List (Nat × Notif α) → List (Nat × Notif α) → List (Notif α)
  | _, _, _, [] => []
  | c, cur, before, (i, n) :: calls =>
    if i = cur ∧ Hot.ended i before = false then
      match n with
      | .next v => .next v :: heard h c cur (before ++ [(i, .next v)]) calls
      | .completed => .completed :: heard h c cur (before ++ [(i, .completed)]) calls
      | .error e =>
        match h c e with
        | (c', .ok j) => heard h c' j (before ++ [(i, .error e)]) calls
        | (c', .error _) => heard h c' cur (before ++ [(i, .error e)]) calls
    else heard h c cur (before ++ [(i, n)]) calls

/-- What has been called on subject `i`. -/
def callsOn (i : Nat) (calls : List (Nat × Notif α)) : List (Notif α) := calls.filterMap fun c => if c.1 = i then some c.2 else none

/-- The values and the completion; nothing any more when there is an error. -/
def hushed : List (Notif α) → List (Notif α)
  | [] => []
  | .next v :: ns => .next v :: hushed ns
  | .completed :: _ => [.completed]
  | .error _ :: _ => []

end Aio.HotCatch
