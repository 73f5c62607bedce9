import Verif.Model.Delay
/-!
# What `delay` should do

The events of a schedule with their times, read off the labels alone, and what a delayed stream has
to look like.
-/

namespace Aio.Spec.Delay
variable {α : Type}
open Aio.Delay (Label)

/-- The time after a schedule: the sum of the ticks (of the loop clock). -/
def clock : List (Label α) → Nat
  | [] => 0
  | .tick _ d :: ls => d + clock ls
  | _ :: ls => clock ls

/-- The events that the source sends to subscription `i`, with the times at which it sends them; `t`
is the time at the start. -/
def arrivalsFrom (i : Nat) : Nat → List (Label α) → List (Notif α × Nat)
  | _, [] => []
  | t, .tick _ d :: ls => arrivalsFrom i (t + d) ls
  | t, .event j n :: ls => if j = i then (n, t) :: arrivalsFrom i t ls else arrivalsFrom i t ls
  | t, _ :: ls => arrivalsFrom i t ls

def arrivals (i : Nat) (ls : List (Label α)) : List (Notif α × Nat) := arrivalsFrom i 0 ls

/-- The two clocks run alike. -/
def Synchronous (ls : List (Label α)) : Prop := ∀ dw dl : Nat, Label.tick dw dl ∈ ls → dw = dl

/-- No subscription is disposed. -/
def Undisposed (ls : List (Label α)) : Prop := ∀ i : Nat, Label.dispose i ∉ ls

/-- The observer of subscription `i` never raises. -/
def Unraised (i : Nat) (ls : List (Label α)) : Prop := Label.raise i ∉ ls

/-- The observer sees the source's notifications in order: none added, repeated, changed or skipped. -/
def InOrder (arrived delivered : List (Notif α × Nat)) : Prop :=
  delivered.map Prod.fst <+: arrived.map Prod.fst

/-- No notification is delivered less than `seconds` after its arrival. -/
def NeverEarly (seconds : Nat) (arrived delivered : List (Notif α × Nat)) : Prop :=
  ∀ (k : Nat) (a d : Notif α × Nat), arrived[k]? = some a → delivered[k]? = some d → a.2 + seconds ≤ d.2

/-- The same stream, `seconds` later. -/
def shifted (seconds : Nat) (arrived : List (Notif α × Nat)) : List (Notif α × Nat) :=
  arrived.map fun p => (p.1, p.2 + seconds)

end Aio.Spec.Delay
