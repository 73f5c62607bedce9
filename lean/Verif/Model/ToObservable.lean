import Verif.Base.Notif
import Verif.Base.LTS
/-!
# `to_observable`

leave.py:32-65: one subscription of the RxPY observable. `obv` is the observer that RxPY passes to `subscribe`; its
methods are synchronous and are taken to return. `Disposable` (RxPY) runs its action at the first `dispose()` only.
-/

namespace Aio.ToObservable
variable {α : Type}

/-- The task that runs `start()`. -/
inductive Start where
  /-- created, not run yet (line 53) -/
  | created
  /-- at `await source.subscribe_async(...)` (50) -/
  | subscribing
  | done
  | failed (e : Err)
  deriving DecidableEq, Repr

/-- `subscription`: line 37, 50; `inTasks`: whether `task` is in the set `tasks`; `keyErrors`: KeyErrors that a
callback of the loop raised (the loop's exception handler gets them); `notified`: whether the done callback ran;
`isDisposed`: of the RxPY `Disposable`; `disposing`: tasks with `subscription.dispose_async()` that have been created
but not run; `disposals`: calls of `subscription.dispose_async()`; `forwarded`: calls of methods of `obv`. -/
structure State (α : Type) where
  start : Start
  subscription : Bool
  inTasks : Bool
  notified : Bool
  keyErrors : Nat
  isDisposed : Bool
  disposing : Nat
  disposals : Nat
  forwarded : List (Notif α)
  deriving DecidableEq, Repr

/-- After `subscribe` (36-63) has returned. -/
def init : State α := ⟨.created, false, true, false, 0, false, 0, 0, []⟩

inductive Label (α : Type) where
  /-- the task of `start()` runs for the first time -/
  | start
  /-- the source calls the `AsyncAnonymousObserver` (lines 41-48) -/
  | event (n : Notif α)
  /-- `subscribe_async` returns, 50-51 -/
  | subscribed
  | subscribeRaises (e : Err)
  /-- the done callback of the task, 55 -/
  | doneCallback
  /-- the user disposes the RxPY disposable, 57-60 -/
  | dispose
  /-- a task with `subscription.dispose_async()` runs -/
  | disposeTask
  deriving DecidableEq, Repr

/-- `tasks.remove(task)` in the done callback. -/
def State.discard (s : State α) : State α :=
  if s.inTasks then { s with inTasks := false } else { s with keyErrors := s.keyErrors + 1 }

/-- One atomic segment. -/
def step (s : State α) : Label α → Option (State α)
  | .start => match s.start with
    | .created => some { s with start := .subscribing }
    | _ => none
  | .event n => match s.start with
    | .created => none
    | .failed _ => none
    | _ => some { s with forwarded := s.forwarded ++ [n] }
  | .subscribed => match s.start with
    -- `tasks.remove(task)` in line 51 finds the task: only the done callback removes it otherwise
    | .subscribing => some { s with subscription := true, inTasks := false, start := .done }
    | _ => none
  | .subscribeRaises e => match s.start with
    | .subscribing => some { s with start := .failed e }
    | _ => none
  | .doneCallback => match s.start, s.notified with
    | .done, false => some (State.discard { s with notified := true })
    | .failed _, false => some (State.discard { s with notified := true })
    | _, _ => none
  | .dispose =>
    if s.isDisposed then some s
    else if s.subscription then some { s with isDisposed := true, disposing := s.disposing + 1 }
    else some { s with isDisposed := true }
  | .disposeTask =>
    if 0 < s.disposing then some { s with disposing := s.disposing - 1, disposals := s.disposals + 1 } else none

end Aio.ToObservable
