import Verif.Model.Subject
/-!
# Observers that send to the subject that they are subscribed to

An observer `a` of an `AsyncSubject` (subject.py:97-166) whose methods call `asend`/`athrow`/`aclose` of the same subject. `f n` is what it sends, one after the other, when it gets `n`:
`for m in f(n): await subject.asend(m)`. Two ways to subscribe it: directly, or behind an operator with a `safe_observer` (observers.py:151-199), e.g. `pipe(subject, skip(0))`.
-/

namespace Aio.Feedback
open Subject
variable {α : Type}

/-! ### directly -/

/-- The task that sends. `stack`: the calls of the subject's methods that are in progress in it, the innermost first: the number of the call, and what the observer's method that it awaits has still to send. -/
structure State (α : Type) where
  subj : Subject.State α
  stack : List (Nat × List (Notif α))
  deriving DecidableEq, Repr

/-- Call number `c` has called the method of an observer, or is over. Simplified: nobody disposes the subject, so it does not raise. -/
def enter (a : Nat) (f : Notif α → List (Notif α)) (t : Subject.State α) (c : Nat) (stack : List (Nat × List (Notif α))) : State α :=
  match t.calls[c]? with
  | some (.running n o _) => ⟨t, (c, if o = a then f n else []) :: stack⟩
  | _ => ⟨t, stack⟩

/-- Somebody calls a method of the subject: subject.py:116-143. -/
def call (a : Nat) (f : Notif α → List (Notif α)) (s : State α) (n : Notif α) : State α :=
  enter a f (s.subj.begin n) s.subj.calls.length s.stack

/-- What the task does next: the observer `a` sends something, or the method of an observer returns and the loop of the subject goes on (122-123, 132-133, 142-143). -/
def step (a : Nat) (f : Notif α → List (Notif α)) (s : State α) : Option (State α) :=
  match s.stack with
  | [] => none
  | (c, m :: ms) :: stack => some (call a f ⟨s.subj, (c, ms) :: stack⟩ m)
  | (c, []) :: stack =>
    match s.subj.calls[c]? with
    | some (.running n _ rest) => some (enter a f (s.subj.loop c n rest) c stack)
    | _ => none

/-- `k` steps. -/
def steps (a : Nat) (f : Notif α → List (Notif α)) : Nat → State α → Option (State α)
  | 0, s => some s
  | k + 1, s => (step a f s).bind (steps a f k)

/-! ### behind a mailbox -/

/-- `taken`: how many of the messages posted to `a`'s mailbox its worker has taken. Simplified: the methods of the other observers do not suspend, so that a call of the subject's method is done in one segment; for
observers that do see C98. -/
structure Boxed (α : Type) where
  subj : Subject.State α
  taken : Nat
  deriving DecidableEq, Repr

/-- The loop of call number `c`, when every method that it awaits returns at once. `a`'s method posts (observers.py:190-197), which does not suspend either. -/
def finish (c : Nat) (n : Notif α) : List Nat → Subject.State α → Subject.State α
  | [], s => s.loop c n []
  | o :: rest, s => finish c n rest (s.loop c n (o :: rest))

/-- A call of one of the subject's methods, subject.py:116-143. -/
def broadcast (s : Subject.State α) (n : Notif α) : Subject.State α :=
  match (s.begin n).calls[s.calls.length]? with
  | some (.running _ _ rest) => finish s.calls.length n rest (s.begin n)
  | _ => s.begin n

/-- What has been posted to the mailbox of `a`. -/
def posted (a : Nat) (s : Subject.State α) : List (Notif α) := s.log.filterMap fun x => if x.2.1 = a then some x.2.2 else none

inductive Label (α : Type) where
  /-- somebody else calls a method of the subject -/
  | send (n : Notif α)
  /-- `a`'s worker takes a message and calls `a`'s method, observers.py:170-184 -/
  | take
  deriving DecidableEq, Repr

/-- One segment. After a terminal message the worker is gone (observers.py:179-184). -/
def boxedStep (a : Nat) (f : Notif α → List (Notif α)) (s : Boxed α) : Label α → Option (Boxed α)
  | .send n => some { s with subj := broadcast s.subj n }
  | .take =>
    match (posted a s.subj)[s.taken]? with
    | none => none
    | some n =>
      if ((posted a s.subj).take s.taken).any Notif.isTerminal then none
      else some ⟨(f n).foldl broadcast s.subj, s.taken + 1⟩

end Aio.Feedback
