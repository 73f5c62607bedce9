import Verif.Base.Notif
import Verif.Base.LTS
/-!
# `AsyncIteratorObserver`

observers.py:20-94. Any number of producers, which call `asend`/`athrow`/`aclose` whenever they like (a call is
numbered when it is made), and one consumer task that calls `__anext__`.

The event loop runs what is scheduled in order. `ready` holds what is scheduled of the tasks that wait in this
object: the consumer, and the suspended calls. Everybody else is outside, and comes in with a `call` at any time.
The one thing that cannot happen between two entries that were scheduled by the same segment is a turn of the
consumer: these two entries are next to each other in the loop's queue (only the code that awaits the first
of them may go on in between, in its own task, and call again).

Cancelling a task that is suspended in here is not modelled.
-/

namespace Aio.Iterator
variable {α : Type}

/-- One call of `asend`/`athrow`/`aclose`. -/
inductive Call (α : Type) where
  /-- in the loop of `_serialize_access` (62-66), at `await fut` -/
  | blocked (n : Notif α)
  /-- at `await self._pull` (56) -/
  | sending (n : Notif α)
  | returned
  | raised (e : Err)
  deriving DecidableEq, Repr

inductive Consumer where
  /-- has not called `__anext__` yet -/
  | fresh
  /-- in its first `__anext__`, at `await self._source.subscribe_async(self)` (72) -/
  | subscribing
  /-- not in `__anext__` -/
  | idle
  /-- in `__anext__`, at `await self._push` (74) -/
  | waiting
  deriving DecidableEq, Repr

/-- How a call of `__anext__` ended. -/
inductive Took (α : Type) where
  | value (v : α)
  /-- `aclose`: StopAsyncIteration, which ends an `async for` -/
  | stop
  | raised (e : Err)
  deriving DecidableEq, Repr

inductive Waiter where
  /-- the consumer, at `await self._push` -/
  | consumer
  /-- the call at `await self._pull` -/
  | pull (c : Nat)
  /-- a call at `await fut` in `_serialize_access` -/
  | turn (c : Nat)
  deriving DecidableEq, Repr

/-- `push`, `pull`: the futures (`none`/`false`: not done); `awaiters`: for each future in `_awaiters` the call
that waits for it and whether it is done; `busy`. The rest is bookkeeping. `handed`: which calls have set `_push`,
and with what. -/
structure State (α : Type) where
  push : Option (Notif α)
  pull : Bool
  awaiters : List (Nat × Bool)
  busy : Bool
  consumer : Consumer
  calls : List (Call α)
  ready : List Waiter
  handed : List (Nat × Notif α)
  taken : List (Took α)
  deriving DecidableEq, Repr

/-- `__init__`, 23-32. -/
def init : State α := ⟨none, false, [], false, .fresh, [], [], [], []⟩

inductive Label (α : Type) where
  /-- a producer calls `asend(v)`, `athrow(e)` or `aclose()` -/
  | call (n : Notif α)
  /-- the consumer calls `__anext__()` -/
  | anext
  /-- `subscribe_async` returns -/
  | subscribed
  /-- the first scheduled task goes on -/
  | run
  deriving DecidableEq, Repr

/-- After `self._busy = True` (68): lines 39-40, 46-47, 52-53, and `_wait_for_pull` up to its await. -/
def State.handOver (s : State α) (c : Nat) (n : Notif α) : State α :=
  match s.push with
  | some _ => { s with calls := s.calls.set c (.raised .invalidState) }
  | none =>
    let s : State α := { s with
      push := some n
      handed := s.handed ++ [(c, n)]
      ready := if s.consumer = Consumer.waiting then s.ready ++ [.consumer] else s.ready }
    if s.pull then
      -- `await self._pull` does not suspend; 57-58
      { s with pull := false, busy := false, calls := s.calls.set c .returned }
    else { s with calls := s.calls.set c (.sending n) }

/-- `_serialize_access`, 60-68. -/
def State.access (s : State α) (c : Nat) (n : Notif α) : State α :=
  if s.busy then { s with awaiters := s.awaiters ++ [(c, false)], calls := s.calls.set c (.blocked n) }
  else State.handOver { s with busy := true } c n

/-- Is the call at `await self._pull` (56)? -/
def isSending : Option (Call α) → Bool
  | some (.sending _) => true
  | _ => false

/-- The consumer after `await self._push`, 74-81. `senders`: the calls at `await self._pull`. An exception in
`_push` goes to the caller of `__anext__` at once. -/
def State.take (s : State α) (n : Notif α) : State α :=
  match n with
  | .error e => { s with consumer := .idle, taken := s.taken ++ [.raised e] }
  | .completed => { s with consumer := .idle, taken := s.taken ++ [.stop] }
  | .next v =>
    if s.pull then
      -- `set_result` of a future that is done
      { s with push := none, consumer := .idle, taken := s.taken ++ [.raised .invalidState] }
    else
      let senders := (List.range s.calls.length).filter fun c => isSending s.calls[c]?
      let s : State α := { s with push := none, pull := true, ready := s.ready ++ senders.map .pull }
      match s.awaiters with
      | [] => { s with consumer := .idle, taken := s.taken ++ [.value v] }
      | (_, true) :: _ => { s with consumer := .idle, taken := s.taken ++ [.raised .invalidState] }
      | (c, false) :: as =>
        { s with awaiters := (c, true) :: as, ready := s.ready ++ [.turn c], consumer := .idle,
                 taken := s.taken ++ [.value v] }

/-- `value = await self._push`, 74. -/
def State.receive (s : State α) : State α :=
  match s.push with
  | some n => s.take n
  | none => { s with consumer := .waiting }

def isTurn : List Waiter → Bool
  | .turn _ :: _ => true
  | _ => false

/-- One atomic segment. -/
def step (s : State α) : Label α → Option (State α)
  | .call n => some (State.access { s with calls := s.calls ++ [.returned] } s.calls.length n)
  | .anext =>
    if isTurn s.ready then none
    else match s.consumer with
      | .fresh => some { s with consumer := .subscribing }
      | .idle => some s.receive
      | _ => none
  | .subscribed =>
    if isTurn s.ready then none
    else match s.consumer with
      | .subscribing => some s.receive
      | _ => none
  | .run =>
    match s.ready with
    | [] => none
    | .consumer :: ready =>
      match s.push with
      | some n => some (State.take { s with ready } n)
      | none => none
    | .pull c :: ready =>
      -- 57-58
      some { s with ready, pull := false, busy := false, calls := s.calls.set c .returned }
    | .turn c :: ready =>
      -- 66
      match s.calls[c]? with
      | some (.blocked n) => some (State.access { s with ready, awaiters := s.awaiters.filter (·.1 ≠ c) } c n)
      | _ => none

end Aio.Iterator
