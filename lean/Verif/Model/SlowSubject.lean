import Verif.Model.Subject
/-!
# `AsyncSubject` whose subscribers take time

subject.py:97-166, on a clock. What the subject does is `Subject.step`; here the methods of the observers take time: observer `o`
takes `d o n` over the notification `n` (an `asleep` in it, an HTTP request; 0: it only posts to a mailbox). The clock is
idealised as in the tests' virtual loop (testing/virtual_events.py:32-123): code takes no time, and the clock moves on only when nothing
can run.
-/

namespace Aio.SlowSubject
variable {α : Type}

/-- The subject; the time; when the method that call number `c` awaits will be over; the calls of the observers' methods, as in
`Subject.State.log`, with the times. -/
structure State (α : Type) where
  sub : Subject.State α
  now : Nat
  due : Nat → Nat
  told : List ((Nat × Nat × Notif α) × Nat)

/-- subject.py:106-110, at time 0 -/
def init : State α := ⟨Subject.init, 0, fun _ => 0, []⟩

inductive Label (α : Type) where
  /-- something happens to the subject -/
  | act (l : Subject.Label α)
  /-- the clock moves on -/
  | tick
  deriving DecidableEq, Repr

/-- Whether the method that call number `c` awaits is over. -/
def State.over (s : State α) (c : Nat) : Bool :=
  match s.sub.calls[c]? with
  | some (.running _ _ _) => s.due c ≤ s.now
  | _ => false

/-- Returns and exceptions of observers' methods (`await obv.asend(value)`, lines 123, 133, 143) have their time; everything else
may happen at any time. -/
def State.allows (s : State α) : Subject.Label α → Bool
  | .ret c => s.over c
  | .raise c _ => s.over c
  | _ => true

/-- The methods called in a step are noted with the time, and with the time at which they will be over. -/
def State.note (d : Nat → Notif α → Nat) (s : State α) (x : Nat × Nat × Notif α) : State α :=
  { s with due := fun c => if c = x.1 then s.now + d x.2.1 x.2.2 else s.due c, told := s.told ++ [(x, s.now)] }

def step (d : Nat → Notif α → Nat) (guard : Bool) (s : State α) : Label α → Option (State α)
  | .act l =>
    if s.allows l then
      (Subject.step guard s.sub l).map fun u => (u.log.drop s.sub.log.length).foldl (State.note d) { s with sub := u }
    else none
  | .tick =>
    if (List.range s.sub.calls.length).any s.over then none
    else some { s with now := s.now + 1 }

end Aio.SlowSubject
