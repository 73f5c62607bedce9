import Verif.Model.Deadline
import Verif.Spec.Timed
/-!
# What `run` with a timeout is supposed to do
-/

namespace Aio.Spec.Deadline
variable {α : Type}

/-- What `run` makes of a stream, and when; `last` is the value before. -/
def outcomeFrom : Option α → List (Notif α × Nat) → Option (RunUntil.Outcome α × Nat)
  | _, [] => none
  | _, (.next v, _) :: cs => outcomeFrom (some v) cs
  | _, (.error e, t) :: _ => some (.raised e, t)
  | none, (.completed, t) :: _ => some (.cancelled, t)
  | some v, (.completed, t) :: _ => some (.value (some v), t)

/-- The end of a stream with times, as `run` reports it: its last value, its error, or a cancellation if there was no value. -/
def outcome (cs : List (Notif α × Nat)) : Option (RunUntil.Outcome α × Nat) := outcomeFrom none cs

end Aio.Spec.Deadline
namespace Aio.Deadline
variable {α : Type}

/-- The time after a schedule. -/
def clock : List (Label α) → Nat
  | [] => 0
  | .tick d :: ls => d + clock ls
  | _ :: ls => clock ls

/-- The events that the source sends, with their times; `t` is the time at the start. -/
def arrivalsFrom : Nat → List (Label α) → List (Notif α × Nat)
  | _, [] => []
  | t, .tick d :: ls => arrivalsFrom (t + d) ls
  | t, .event n :: ls => (n, t) :: arrivalsFrom t ls
  | t, _ :: ls => arrivalsFrom t ls

/-- Nothing goes wrong: the task of `run` is not cancelled, `subscribe_async` and `dispose_async` do not raise. -/
def Undisturbed (l : RunUntil.Label α) : Prop := l = .subscribed ∨ l = .resume ∨ l = .timeout ∨ l = .disposed

end Aio.Deadline
