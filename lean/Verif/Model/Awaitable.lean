import Verif.Base.Notif
import Verif.Base.LTS
/-!
# `AsyncAwaitableObserver` and `run`

observers.py:249-318, subscription.py:17-44. All that the methods of the observer do to its state they do
before their first suspension (the await of the user's callback), so that a history of calls is a list, also
when calls overlap. What the callbacks do is not modelled: nothing depends on it except the outcome of the call
that awaits them.
-/

namespace Aio.Awaitable
variable {α : Type}

/-- The observer is a future itself (`class AsyncAwaitableObserver(Future, ...)`, line 249). The value may be
`None`, the initial `_last_value` (line 274). -/
inductive Fut (α : Type) where
  | pending
  | result (v : Option α)
  | exception (e : Err)
  | cancelled
  deriving DecidableEq, Repr

/-- Lines 262-276. `_last_value`, `_is_stopped`, `_has_value` and the future. -/
structure State (α : Type) where
  fut : Fut α
  last : Option α
  isStopped : Bool
  hasValue : Bool
  deriving DecidableEq, Repr

def init : State α := ⟨.pending, none, false, false⟩

inductive Label (α : Type) where
  /-- somebody calls `asend(v)`, `athrow(e)` or `aclose()` -/
  | call (n : Notif α)
  /-- somebody calls `dispose()` -/
  | dispose
  /-- somebody cancels the future (`asyncio.wait_for` when the time is up) -/
  | cancel
  deriving DecidableEq, Repr

/-- How a call goes on. -/
inductive Reply where
  /-- it returns at once -/
  | ignored
  /-- it awaits the user's callback, and then returns or raises what the callback raises -/
  | callback
  | raised (e : Err)
  deriving DecidableEq, Repr

/-- `Future.set_result`/`set_exception`: an `InvalidStateError` if the future is done. (`set_exception` also
raises a TypeError if the exception is a `StopIteration`; exceptions are opaque here.) -/
def State.settle (s : State α) (f : Fut α) : State α × Reply :=
  match s.fut with
  | .pending => ({ s with fut := f }, .callback)
  | _ => (s, .raised .invalidState)

/-- `Future.cancel`: nothing happens if the future is done. -/
def State.cancel (s : State α) : State α :=
  match s.fut with
  | .pending => { s with fut := .cancelled }
  | _ => s

/-- `asend` 278-287, `athrow` 289-298, `aclose` 300-313 (simplified: no logging), up to the await of the
callback. -/
def State.call (s : State α) (n : Notif α) : State α × Reply :=
  if s.isStopped then (s, .ignored)
  else match n with
    | .next v => ({ s with last := some v, hasValue := true }, .callback)
    | .error e => State.settle { s with isStopped := true } (.exception e)
    | .completed =>
      if s.hasValue then State.settle { s with isStopped := true } (.result s.last)
      else (State.cancel { s with isStopped := true }, .callback)

/-- One atomic step; `dispose` is 315-318. -/
def step (s : State α) : Label α → State α
  | .call n => (s.call n).1
  | .dispose => { s with isStopped := true }
  | .cancel => s.cancel

/-- A history. -/
def run (s : State α) (ls : List (Label α)) : State α := ls.foldl step s

end Aio.Awaitable

namespace Aio.RunUntil
variable {α : Type}

/-- How `run(source)` ends. -/
inductive Outcome (α : Type) where
  | value (v : Option α)
  | raised (e : Err)
  | cancelled
  | timedOut
  /-- `source.subscribe_async` raised -/
  | noSubscription (e : Err)
  /-- the disposable's `dispose_async` raised -/
  | disposeRaised (e : Err)
  deriving DecidableEq, Repr

/-- subscription.py:41-44. -/
inductive Phase (α : Type) where
  /-- `await source.subscribe_async(obv)`, 42 -/
  | subscribing
  /-- `await asyncio.wait_for(obv, timeout)`, 44 -/
  | waiting
  /-- `__aexit__` of the `async with`: `await dispose_async()` of the subscription -/
  | disposing (o : Outcome α)
  | done (o : Outcome α)
  deriving DecidableEq, Repr

/-- The observer `obv`, where `run` is, and how often it called `dispose_async` of the subscription. -/
structure State (α : Type) where
  obv : Awaitable.State α
  phase : Phase α
  disposals : Nat
  deriving DecidableEq, Repr

def init : State α := ⟨Awaitable.init, .subscribing, 0⟩

inductive Label (α : Type) where
  /-- something happens to the observer (whoever does it: the source, or the user with the observer passed in) -/
  | obv (l : Awaitable.Label α)
  /-- `subscribe_async` returns -/
  | subscribed
  | subscribeRaises (e : Err)
  /-- the future is done and `wait_for` returns its result or raises its exception -/
  | resume
  /-- the time is up: `wait_for` cancels the future and raises TimeoutError. (If the future has got its result
  but `run` has not been resumed yet, newer versions of Python do this too.) -/
  | timeout
  /-- the task in which `run` runs is cancelled while it waits -/
  | cancel
  | disposed
  | disposeRaises (e : Err)
  deriving DecidableEq, Repr

/-- Leave the `async with` block: the subscription's `dispose_async` is called. -/
def State.leave (s : State α) (o : Outcome α) : State α :=
  { s with phase := .disposing o, disposals := s.disposals + 1 }

def step (s : State α) : Label α → Option (State α)
  | .obv l => some { s with obv := Awaitable.step s.obv l }
  | .subscribed => match s.phase with
    | .subscribing => some { s with phase := .waiting }
    | _ => none
  | .subscribeRaises e => match s.phase with
    | .subscribing => some { s with phase := .done (.noSubscription e) }
    | _ => none
  | .resume => match s.phase, s.obv.fut with
    | .waiting, .result v => some (s.leave (.value v))
    | .waiting, .exception e => some (s.leave (.raised e))
    | .waiting, .cancelled => some (s.leave .cancelled)
    | _, _ => none
  | .timeout => match s.phase with
    | .waiting => some (State.leave { s with obv := s.obv.cancel } .timedOut)
    | _ => none
  | .cancel => match s.phase with
    | .waiting => some (State.leave { s with obv := s.obv.cancel } .cancelled)
    | _ => none
  | .disposed => match s.phase with
    | .disposing o => some { s with phase := .done o }
    | _ => none
  | .disposeRaises e => match s.phase with
    | .disposing _ => some { s with phase := .done (.disposeRaised e) }
    | _ => none

end Aio.RunUntil
