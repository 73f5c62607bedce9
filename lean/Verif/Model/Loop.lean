import Verif.Model.Work
import Verif.Model.Iterator
/-!
# `async for` with a body that takes time

`async for x in to_async_iterable(pipe(source, map_async(f), ...)): body`, on a clock: the worker of `safe_observer` (observers.py:151-199) runs the operators,
as in `Model/Work.lean`; the observer at the end is the `AsyncIteratorObserver` (observers.py:20-94, `Model/Iterator.lean`), whose methods return only when
the loop has come for what was sent.
-/

namespace Aio

/-- The iterator at the end of a pipeline: each method is one call of its own. -/
def Handler.iterator {β : Type} : Handler Unit β β where
  asend _ v := .call (.next v) (.done ())
  athrow _ e := .call (.error e) (.done ())
  aclose _ := .call .completed (.done ())

namespace Loop
variable {α β σ : Type}

inductive PC (β σ : Type) where
  /-- at `await inbox.receive()`, 170 -/
  | waiting (s : σ)
  /-- about to go on -/
  | running (k : Co β (Option σ))
  /-- asleep until `due` -/
  | asleep (due : Nat) (k : Co β (Option σ))
  /-- in a method of the iterator -/
  | calling (k : Co β (Option σ))
  | halted

inductive Body where
  /-- the loop is in `__anext__` -/
  | asking
  /-- its body ends at `due` -/
  | busy (due : Nat)
  /-- the loop has ended -/
  | over
  deriving DecidableEq, Repr

/-- `sent`: what the calls of `__anext__` have returned or raised, and when; `.completed` is StopAsyncIteration. -/
structure State (α β σ : Type) where
  inbox : List (Notif α)
  pc : PC β σ
  it : Iterator.State β
  body : Body
  now : Nat
  sent : List (Notif β × Nat)

/-- `event`: a call on the safe observer, 190-197; `receive`: the worker takes a message; `go`: it goes on to its next sleep or call; `wake`: the sleep is
over; `back`: the call on the iterator has returned; `subscribed`: `subscribe_async` returns in the first `__anext__` (observers.py:72); `run`: the next task
goes on that is scheduled in the iterator; `anext`: the body is over, the loop calls `__anext__`; `tick`: time passes. -/
inductive Label (α : Type) where
  | event (n : Notif α)
  | receive
  | go
  | wake
  | back
  | subscribed
  | run
  | anext
  | tick (d : Nat)
  deriving DecidableEq, Repr

/-- The iterator has gone on to `it`; if `__anext__` has returned a value, the loop begins its body: if it is the `i`-th, it takes `m i v`, or ends the
loop (`break`, `return`, an exception). An exception in `__anext__` ends the loop. -/
def absorb (m : Nat → β → Option Nat) (s : State α β σ) (it : Iterator.State β) : State α β σ :=
  match it.taken.drop s.it.taken.length with
  | [.value v] =>
    { s with
      it
      body := match m s.sent.length v with
        | some d => .busy (s.now + d)
        | none => .over
      sent := s.sent ++ [(.next v, s.now)] }
  | [.stop] => { s with it, body := .over, sent := s.sent ++ [(.completed, s.now)] }
  | [.raised e] => { s with it, body := .over, sent := s.sent ++ [(.error e, s.now)] }
  | _ => { s with it }

/-- Has every call on the iterator returned? -/
def returned (it : Iterator.State β) : Bool := it.calls.all fun | .returned => true | _ => false

/-- Something is to be done before `d` later. -/
def ready (s : State α β σ) (d : Nat) : Bool :=
  (match s.pc with
    | .waiting _ => !s.inbox.isEmpty
    | .running _ => true
    | .asleep due _ => due < s.now + d
    | .calling _ => returned s.it
    | .halted => false) ||
  !s.it.ready.isEmpty || s.it.consumer = .subscribing ||
  (match s.body with
    | .busy due => due < s.now + d
    | _ => false)

/-- On a loop that is not overloaded. Simplified: a call on the iterator that raises (InvalidStateError) is not gone on with; with one worker that awaits
each call there is none. -/
def step (o : Handler σ α β) (m : Nat → β → Option Nat) (gone : Nat) (s : State α β σ) : Label α → Option (State α β σ)
  | .event n => some { s with inbox := s.inbox ++ [n] }
  | .receive =>
    match s.pc, s.inbox with
    | .waiting t, n :: q => some { s with inbox := q, pc := .running (Work.body o gone t n) }
    | _, _ => none
  | .go =>
    match s.pc with
    | .running (.done (some t)) => some { s with pc := .waiting t }
    | .running (.done none) => some { s with pc := .halted }
    | .running (.raise _) => some { s with pc := .halted }
    | .running (.wait d k) => some { s with pc := .asleep (s.now + d) k }
    | .running (.call n k) => (Iterator.step s.it (.call n)).map fun it => { s with it, pc := .calling k }
    | _ => none
  | .wake =>
    match s.pc with
    | .asleep due k => if due ≤ s.now then some { s with pc := .running k } else none
    | _ => none
  | .back =>
    match s.pc with
    | .calling k => if returned s.it then some { s with pc := .running k } else none
    | _ => none
  | .subscribed => (Iterator.step s.it .subscribed).map (absorb m s)
  | .run => (Iterator.step s.it .run).map (absorb m s)
  | .anext =>
    match s.body with
    | .busy due => if due ≤ s.now then (Iterator.step s.it .anext).map (absorb m { s with body := .asking }) else none
    | _ => none
  | .tick d => if ready s d then none else some { s with now := s.now + d }

/-- The loop as the last stage of a pipeline; it begins at the time of the subscription, in its first `__anext__`. -/
def stage (o : Handler σ α β) (s0 : σ) (m : Nat → β → Option Nat) (gone : Nat) : Stage (State α β σ) (Label α) α β where
  init t := ⟨[], .waiting s0, { Iterator.init with consumer := .subscribing }, .asking, t, []⟩
  step := step o m gone
  event := .event
  tick := .tick
  own
    | .event _ | .tick _ => false
    | _ => true
  now s := s.now
  calls s := s.sent

end Loop
end Aio
