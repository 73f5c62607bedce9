import Verif.Base.Notif
import Verif.Base.LTS
/-!
# `of_async_iterable`: several subscriptions of one async iterable (`aioreactive/create.py` 79-110)

`Model.Create.OfAsyncIterable` is one subscription. Here is what happens if there are several: `async for` (create.py 90)
calls `aiter(iterable)`, which makes a new iterator if `iterable` is a container (a class whose `__aiter__` does so), but
returns `iterable` itself if that is an async generator, the usual argument. An async generator refuses a second
`__anext__` while one is going on (`RuntimeError: anext(): asynchronous generator is already running`), and it is finished
once an exception, here the `CancelledError` of a task that awaits its `__anext__`, has gone through it.
-/

namespace Aio.AsyncSource
variable {α : Type}

inductive Kind where
  | container
  | generator
  deriving DecidableEq, Repr

/-- Where the worker of a subscription is. create.py 89-98. -/
inductive PC where
  /-- the task was created (101) but has not run yet -/
  | fresh
  /-- at `async for`, 90, waiting for `__anext__` -/
  | pulling
  /-- at `await observer.asend(value)`, 92 -/
  | sending
  /-- it has called `aclose`, 97 -/
  | ended
  /-- an exception ended it: the `RuntimeError` of 90, or its cancellation -/
  | dead
  deriving DecidableEq, Repr

/-- `pos`, `running`, `finished`: the async generator: how many items it has yielded, the subscription whose `__anext__` is going
on, and whether it is finished; `own`: the positions of the iterators of each subscription if `iterable` is a container;
`calls`: the calls that each worker has made on its observer. -/
structure State (α : Type) where
  subs : Nat
  pos : Nat
  running : Option Nat
  finished : Bool
  own : Nat → Nat
  pc : Nat → PC
  calls : Nat → List (Notif α)

def init : State α := ⟨0, 0, none, false, fun _ => 0, fun _ => .fresh, fun _ => []⟩

/-- `subscribe`: somebody subscribes; `start k`: the task of subscription `k` begins; `answer k`: its `__anext__` returns the next item
or raises `StopAsyncIteration`; `sent k`: its observer's `asend` returns; `dispose k`: its subscription is disposed, and the
cancellation reaches its task. Simplification: finite iterables that raise nothing and do not catch a cancellation, and
observers that do not raise (C23 has those). -/
inductive Label where
  | subscribe
  | start (k : Nat)
  | answer (k : Nat)
  | sent (k : Nat)
  | dispose (k : Nat)
  deriving DecidableEq, Repr

/-- `f` with `x` at `k`. -/
def put {β : Type} (f : Nat → β) (k : Nat) (x : β) : Nat → β := fun j => if j = k then x else f j

/-- The worker of `k` ends the loop and calls `aclose`. create.py 97 -/
def State.close (s : State α) (k : Nat) : State α :=
  { s with pc := put s.pc k .ended, calls := put s.calls k (s.calls k ++ [.completed]) }

/-- The head of the `async for` loop: the worker of `k` calls `__anext__`. create.py 90. The `RuntimeError` is raised
outside of the `try`, so the observer does not hear of it. -/
def State.pull (kind : Kind) (s : State α) (k : Nat) : State α :=
  match kind with
  | .container => { s with pc := put s.pc k .pulling }
  | .generator =>
    if s.running.isSome then { s with pc := put s.pc k .dead }
    else if s.finished then s.close k
    else { s with running := some k, pc := put s.pc k .pulling }

/-- `__anext__` of `k` ends. create.py 90-92, 97 -/
def State.answer (kind : Kind) (items : List α) (s : State α) (k : Nat) : State α :=
  match kind with
  | .container =>
    match items[s.own k]? with
    | some x => { s with own := put s.own k (s.own k + 1), pc := put s.pc k .sending, calls := put s.calls k (s.calls k ++ [.next x]) }
    | none => s.close k
  | .generator =>
    match items[s.pos]? with
    | some x => { s with pos := s.pos + 1, running := none, pc := put s.pc k .sending, calls := put s.calls k (s.calls k ++ [.next x]) }
    | none => { s.close k with running := none, finished := true }

/-- `task.cancel()`. create.py 83-85 -/
def State.cancel (kind : Kind) (s : State α) (k : Nat) : State α :=
  match kind, s.pc k with
  | .generator, .pulling => { s with running := none, finished := true, pc := put s.pc k .dead }
  | _, .ended => s
  | _, _ => { s with pc := put s.pc k .dead }

def step (kind : Kind) (items : List α) (s : State α) : Label → Option (State α)
  /- create.py 82-107 -/
  | .subscribe => some { s with subs := s.subs + 1 }
  /- create.py 89-90 -/
  | .start k => if k < s.subs ∧ s.pc k = .fresh then some (s.pull kind k) else none
  | .answer k => if s.pc k = .pulling then some (s.answer kind items k) else none
  /- create.py 92, 90 -/
  | .sent k => if s.pc k = .sending then some (s.pull kind k) else none
  | .dispose k => if k < s.subs then some (s.cancel kind k) else none

end Aio.AsyncSource
