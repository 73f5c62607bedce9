import Verif.Model.Debounce
/-!
# What `debounce` should do

In terms of the events of a schedule with their times, read off the labels alone.
-/

namespace Aio.Spec.Debounce
variable {α : Type}
open Aio.Debounce (Label)

/-- The time after a schedule. -/
def clock : List (Label α) → Nat
  | [] => 0
  | .tick d :: ls => d + clock ls
  | _ :: ls => clock ls

/-- The events that the source sends, with their times; `t` is the time at the start. -/
def arrivalsFrom : Nat → List (Label α) → List (Notif α × Nat)
  | _, [] => []
  | t, .tick d :: ls => arrivalsFrom (t + d) ls
  | t, .event n :: ls => (n, t) :: arrivalsFrom t ls
  | t, _ :: ls => arrivalsFrom t ls

def arrivals (ls : List (Label α)) : List (Notif α × Nat) := arrivalsFrom 0 ls

/-- The values of a stream with times. -/
def timedValues : List (Notif α × Nat) → List (α × Nat)
  | [] => []
  | (.next v, t) :: rest => (v, t) :: timedValues rest
  | _ :: rest => timedValues rest

/-- What an observer behind a `safe_observer` gets to see of what is posted: all up to and including
the first terminal (C03). -/
def seen : List (Notif α × Nat) → List (Notif α × Nat)
  | [] => []
  | (.next v, t) :: rest => (.next v, t) :: seen rest
  | (.error e, t) :: _ => [(.error e, t)]
  | (.completed, t) :: _ => [(.completed, t)]

/-- `out` (the emitted values with times) are the values of the events with the numbers `ks`; each is
emitted at least `seconds` after its arrival, and in the time between no newer value arrived, and no
terminal. -/
def Debounced (seconds : Nat) (arrived : List (Notif α × Nat)) (ks : List Nat) (out : List (α × Nat)) : Prop :=
  ks.Pairwise (· < ·) ∧ ks.length = out.length ∧
  ∀ (p k : Nat) (v : α) (t : Nat), ks[p]? = some k → out[p]? = some (v, t) →
    ∃ tk : Nat, arrived[k]? = some (.next v, tk) ∧ tk + seconds ≤ t ∧
      ∀ (j : Nat) (n : Notif α) (tj : Nat), arrived[j]? = some (n, tj) → k < j ∨ n.isTerminal = true → tk + seconds ≤ tj

end Aio.Spec.Debounce
