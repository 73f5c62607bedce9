import Verif.Spec.Stream
/-!
# Streams with times
-/

namespace Aio.Spec.Timed
variable {ι α β : Type}

/-- What has been sent up to time `t`. -/
def upto (t : Nat) (cs : List (ι × Nat)) : List ι := (cs.filter fun c => c.2 ≤ t).map (·.1)

/-- In the order of time. -/
def InTime (cs : List (ι × Nat)) : Prop := cs.Pairwise fun a b => a.2 ≤ b.2

/-- Up to and including the first terminal event. -/
def cut : List (Notif α × Nat) → List (Notif α × Nat)
  | [] => []
  | (.next v, t) :: cs => (.next v, t) :: cut cs
  | (.error e, t) :: _ => [(.error e, t)]
  | (.completed, t) :: _ => [(.completed, t)]

/-- An event with its value mapped. -/
def mapEvent (f : α → β) : Notif α → Notif β
  | .next v => .next (f v)
  | .error e => .error e
  | .completed => .completed

/-- The values, with their times. -/
def valuesAt (cs : List (Notif α × Nat)) : List (α × Nat) :=
  cs.filterMap fun
    | (.next v, t) => some (v, t)
    | _ => none

/-- The errors, with their times. -/
def errors (cs : List (Notif β × Nat)) : List (Notif α × Nat) :=
  cs.filterMap fun
    | (.error e, t) => some (.error e, t)
    | _ => none

/-- Without the completions. -/
def noDone (cs : List (Notif α × Nat)) : List (Notif α × Nat) :=
  cs.filter fun
    | (.completed, _) => false
    | _ => true

/-- Without the errors. -/
def noErrors (cs : List (Notif α × Nat)) : List (Notif α × Nat) :=
  cs.filter fun
    | (.error _, _) => false
    | _ => true

end Aio.Spec.Timed
