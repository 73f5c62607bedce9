import Verif.Spec.Pool
/-!
# Jobs: what takes how long
-/

namespace Aio.Spec.Jobs
variable {ω α : Type}

/-- A job that was begun at time `j.1` and takes `j.2` is in progress at time `t`. -/
def running (t : Nat) (j : Nat × Nat) : Bool := j.1 ≤ t && t < j.1 + j.2

/-- A job that was begun at time `i.2` has returned by time `t`. -/
def returned (dur : ω → Nat) (res : ω → Except Err α) (t : Nat) (i : ω × Nat) : Bool :=
  match res i.1 with
  | .ok _ => i.2 + dur i.1 ≤ t
  | .error _ => false

/-- What it sends when it is over. -/
def result (res : ω → Except Err α) (x : ω) : Notif α :=
  match res x with
  | .ok v => .next v
  | .error e => .error e

/-- How much of these jobs has been done by time `t`. -/
def done (t : Nat) (js : List (Nat × Nat)) : Nat := (js.map fun j => min j.2 (t - j.1)).sum

/-- When these jobs were begun and how long they take. -/
def begun (dur : ω → Nat) (is : List (ω × Nat)) : List (Nat × Nat) := is.map fun i => (i.2, dur i.1)

end Aio.Spec.Jobs
