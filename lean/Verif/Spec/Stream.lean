import Verif.Base.Notif
/-!
# Specification vocabulary for streams

Nothing in this file mentions the implementation.
-/

namespace Aio.Spec
variable {α β : Type}

/-- How (whether) a stream has ended. -/
inductive End where
  | running
  | failed (e : Err)
  | done
  deriving DecidableEq, Repr

/-- A stream as an Rx user thinks of it: some values, then possibly an end. -/
structure Story (α : Type) where
  vals : List α
  fin : End
  deriving DecidableEq, Repr

/-- The terminal notification(s) of an ending. -/
def End.events : End → List (Notif α)
  | .running => []
  | .failed e => [.error e]
  | .done => [.completed]

/-- The notification sequence of a stream: all values, then the ending. -/
def Story.events (s : Story α) : List (Notif α) := s.vals.map .next ++ s.fin.events

/-- The Rx grammar `OnNext* (OnError | OnCompleted)?`. -/
def Grammar (ns : List (Notif α)) : Prop := ∃ s : Story α, ns = s.events

/-- Reading an arbitrary (possibly ill-formed) sequence of notifications as a stream: everything
after the first terminal notification is ignored. -/
def story : List (Notif α) → Story α
  | [] => ⟨[], .running⟩
  | .next v :: ns => ⟨v :: (story ns).vals, (story ns).fin⟩
  | .error e :: _ => ⟨[], .failed e⟩
  | .completed :: _ => ⟨[], .done⟩

/-- The values of a stream before its end. -/
def values (ns : List (Notif α)) : List α := (story ns).vals

/-- A sequence of notifications up to and including the first terminal one. -/
def cut (ns : List (Notif α)) : List (Notif α) := (story ns).events

end Aio.Spec
