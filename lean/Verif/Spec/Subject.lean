import Verif.Model.Subject
/-!
# Vocabulary for the claims about AsyncSubject

Everything is read off the schedule, except the log of the observers' method calls.
-/

namespace Aio.Subject
variable {α : Type}

/-- Bookkeeping of subscriptions: how many `subscribe_async` calls were made, whether the subject was
disposed, and the subscriptions that exist, oldest first, as (number, observer). -/
structure Tally where
  count : Nat
  disposed : Bool
  live : List (Nat × Nat)

def Tally.next (t : Tally) : Label α → Tally
  | .subscribe o => { t with count := t.count + 1, live := if t.disposed then t.live else t.live ++ [(t.count, o)] }
  | .unsubscribe k => { t with live := t.live.filter (·.1 ≠ k) }
  | .dispose => { t with disposed := true }
  | _ => t

def tally (ls : List (Label α)) : Tally := ls.foldl Tally.next ⟨0, false, []⟩

/-- The subscriptions that exist after the schedule, oldest first, as (number, observer). -/
def live (ls : List (Label α)) : List (Nat × Nat) := (tally ls).live

/-- The subject was disposed. -/
def Disposed (ls : List (Label α)) : Prop := .dispose ∈ ls

/-- `athrow` or `aclose` was called (before the subject was disposed). -/
def Ended (ls : List (Label α)) : Prop :=
  ∃ a n b, ls = a ++ .call n :: b ∧ ¬ Disposed a ∧ ∀ v, n ≠ .next v

/-- The calls of `asend`/`athrow`/`aclose`. -/
def made (ls : List (Label α)) : List (Notif α) := ls.filterMap fun | .call n => some n | _ => none

/-- The observers that were passed to `subscribe_async`. -/
def passed (ls : List (Label α)) : List Nat := ls.filterMap fun | .subscribe o => some o | _ => none

/-- The deliveries that call number `c` has made, in order. -/
def deliveries (c : Nat) (s : State α) : List (Nat × Notif α) :=
  s.log.filterMap fun (c', o, n) => if c' = c then some (o, n) else none

end Aio.Subject
