import Verif.Model.Iterator
/-!
# `AsyncIteratorObserver.dispose_async`, and iterating again after it

observers.py:70-86. `Model.Iterator` is about one subscription that stays. Here `_subscription` is in the model: `wait_for_push`
subscribes whenever it is None (71-72), also after a disposal, and `dispose_async` (83-86) disposes the subscription and forgets it.
`AsyncDisposable` makes the observer a context manager, whose exit is a call of `dispose_async`.

Simplified: `subscribe_async` of the source does not raise, and no task that is suspended in here is cancelled. The source is not
part of the model: it, and everybody else, may call the observer at any time, also when its subscription has been disposed.
-/

namespace Aio.IterDispose
variable {α : Type}

/-- A subscription that the observer has made: how many times its `dispose_async` was called, returned, and raised. -/
structure Sub where
  asked : Nat
  released : Nat
  raised : Nat
  deriving DecidableEq, Repr

/-- A call of the observer's `dispose_async`. -/
inductive Disposer where
  /-- at `await self._subscription.dispose_async()` (85), of this subscription -/
  | disposing (k : Nat)
  | returned
  | raised
  deriving DecidableEq, Repr

/-- `cur`: `self._subscription`; `subs`: all subscriptions that were made, the oldest first. -/
structure State (α : Type) where
  it : Iterator.State α
  cur : Option Nat
  subs : List Sub
  disposers : List Disposer
  deriving DecidableEq, Repr

/-- `__init__`, 23-32. -/
def init : State α := ⟨Iterator.init, none, [], []⟩

inductive Label (α : Type) where
  /-- a producer calls `asend(v)`, `athrow(e)` or `aclose()` -/
  | call (n : Notif α)
  /-- the consumer calls `__anext__()` -/
  | anext
  /-- the source's `subscribe_async` returns -/
  | subscribed
  /-- the first scheduled task goes on -/
  | run
  /-- somebody calls `dispose_async()` of the observer -/
  | dispose
  /-- the subscription's `dispose_async()` returns to that call of `dispose_async()` -/
  | disposed (d : Nat)
  /-- it raises -/
  | disposeRaises (d : Nat)
  deriving DecidableEq, Repr

/-- One atomic segment. -/
def step (s : State α) : Label α → Option (State α)
  | .call n => (Iterator.step s.it (.call n)).map fun it => { s with it }
  | .run => (Iterator.step s.it .run).map fun it => { s with it }
  | .anext =>
    if Iterator.isTurn s.it.ready then none
    else if s.it.consumer = .fresh ∨ s.it.consumer = .idle then
      -- 71-74
      match s.cur with
      | none => some { s with it := { s.it with consumer := .subscribing } }
      | some _ => some { s with it := s.it.receive }
    else none
  | .subscribed =>
    if Iterator.isTurn s.it.ready then none
    else if s.it.consumer = .subscribing then
      -- 72-74
      some { s with it := s.it.receive, cur := some s.subs.length, subs := s.subs ++ [⟨0, 0, 0⟩] }
    else none
  | .dispose =>
    match s.cur with
    -- 84, 86
    | none => some { s with disposers := s.disposers ++ [.returned] }
    -- 85
    | some k => some { s with
        disposers := s.disposers ++ [.disposing k]
        subs := s.subs.modify k fun u => { u with asked := u.asked + 1 } }
  | .disposed d =>
    match s.disposers[d]? with
    -- 86
    | some (.disposing k) => some { s with
        cur := none
        disposers := s.disposers.set d .returned
        subs := s.subs.modify k fun u => { u with released := u.released + 1 } }
    | _ => none
  | .disposeRaises d =>
    match s.disposers[d]? with
    | some (.disposing k) => some { s with
        disposers := s.disposers.set d .raised
        subs := s.subs.modify k fun u => { u with raised := u.raised + 1 } }
    | _ => none

/-- What can happen with a source whose `subscribe_async`, and the `dispose_async` of its subscriptions, return without suspending,
such as a subject (subject.py:145-163). -/
inductive Plain (α : Type) where
  | call (n : Notif α)
  | anext
  | run
  | dispose
  deriving DecidableEq, Repr

/-- A segment with such a source: `subscribe_async` and `dispose_async` are over before anybody else goes on. -/
def plain (s : State α) : Plain α → Option (State α)
  | .call n => step s (.call n)
  | .run => step s .run
  | .anext => (step s .anext).bind fun s' => if s'.it.consumer = .subscribing then step s' .subscribed else some s'
  | .dispose => (step s .dispose).bind fun s' =>
    match s.cur with
    | none => some s'
    | some _ => step s' (.disposed s.disposers.length)

end Aio.IterDispose
