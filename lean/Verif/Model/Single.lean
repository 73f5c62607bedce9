import Verif.Base.Notif
import Verif.Base.LTS
/-!
# `AsyncSingleSubject`

subject.py:16-94. Any number of callers; the calls `asend`/`athrow`/`aclose` are numbered in the order in
which they are made. Observers are objects (`o : Nat`); their methods may suspend and raise.

`await self._wait` (lines 45, 55, 67) suspends only if the future `_wait` is not done. A future that gets its
result schedules those that wait for it in the order in which they started to wait, and the event loop runs
what is scheduled in order.
-/

namespace Aio.Single
variable {α : Type}

/-- The future `self._wait`. -/
inductive Wait where
  | pending
  | done
  | cancelled
  deriving DecidableEq, Repr

/-- One call of `asend`/`athrow`/`aclose`. -/
inductive Call (α : Type) where
  /-- at `await self._wait`, not scheduled -/
  | waiting (n : Notif α)
  /-- at `await self._wait`, scheduled since `_wait` has its result -/
  | woken (n : Notif α)
  /-- at the await of the observer's method (49, 59, 72) -/
  | sending (n : Notif α)
  | returned
  | raised (e : Err)
  /-- in `while self._observer is None: await self._wait` with `_wait` done: awaiting a future that is done
  does not suspend, so this loop runs for ever and nothing else in the program does -/
  | spinning
  deriving DecidableEq, Repr

/-- `wait`, `observer`, `isDisposed`, `isStopped`: the attributes of lines 28-31. The rest is bookkeeping:
the calls; the woken calls in the order in which they were scheduled; for each `subscribe_async` call
whether it succeeded (`false`: it raised ObjectDisposedException); the calls of observers' methods, as
(number of the call, observer, notification). -/
structure State (α : Type) where
  wait : Wait
  observer : Option Nat
  isDisposed : Bool
  isStopped : Bool
  calls : List (Call α)
  ready : List Nat
  subs : List Bool
  log : List (Nat × Nat × Notif α)
  deriving DecidableEq, Repr

/-- `__init__`, lines 25-31. -/
def init : State α := ⟨.pending, none, false, false, [], [], [], []⟩

inductive Label (α : Type) where
  /-- somebody calls `asend(v)`, `athrow(e)` or `aclose()` -/
  | call (n : Notif α)
  /-- the call that was scheduled first of those that were woken goes on -/
  | wake
  /-- the observer's method that call number `c` awaits returns -/
  | ret (c : Nat)
  /-- it raises (or the caller's task is cancelled there) -/
  | raise (c : Nat) (e : Err)
  /-- the task in which call number `c` waits for an observer is cancelled -/
  | cancel (c : Nat)
  /-- somebody calls `subscribe_async(o)` -/
  | subscribe (o : Nat)
  /-- somebody calls `dispose_async()` of the subject or of a subscription -/
  | dispose
  deriving DecidableEq, Repr

/-- The end of `asend` (48-49), `athrow` (57-60), `aclose` (69-73) with `o = self._observer`. -/
def State.forward (s : State α) (c : Nat) (n : Notif α) (o : Nat) : State α :=
  match n with
  | .next _ =>
    if s.isStopped then { s with calls := s.calls.set c .returned }
    else { s with calls := s.calls.set c (.sending n), log := s.log ++ [(c, o, n)] }
  | _ =>
    if s.isDisposed then { s with calls := s.calls.set c (.raised .objectDisposed) }
    else if s.isStopped then { s with calls := s.calls.set c .returned }
    else { s with calls := s.calls.set c (.sending n), log := s.log ++ [(c, o, n)] }

/-- `while self._observer is None: await self._wait` (43-46, 54-55, 65-67) and what follows. -/
def State.attempt (s : State α) (c : Nat) (n : Notif α) : State α :=
  match s.observer with
  | some o => s.forward c n o
  | none =>
    match s.wait with
    | .pending => { s with calls := s.calls.set c (.waiting n) }
    | .done => { s with calls := s.calls.set c .spinning }
    | .cancelled => { s with calls := s.calls.set c (.raised .cancelled) }

/-- A new call, up to its first suspension. `asend` starts with `check_disposed()` (40). -/
def State.begin (s : State α) (n : Notif α) : State α :=
  match n, s.isDisposed with
  | .next _, true => { s with calls := s.calls ++ [.raised .objectDisposed] }
  | _, _ => State.attempt { s with calls := s.calls ++ [.returned] } s.calls.length n

/-- Schedule a call that waits. -/
def Call.wake : Call α → Call α
  | .waiting n => .woken n
  | x => x

/-- Cancelling a task that awaits a future cancels the future, and so everybody who waits for it. -/
def Call.abort : Call α → Call α
  | .waiting _ => .raised .cancelled
  | x => x

def Call.isWaiting : Call α → Bool
  | .waiting _ => true
  | _ => false

def Call.isSpinning : Call α → Bool
  | .spinning => true
  | _ => false

/-- The numbers of the calls that wait, oldest first. -/
def State.waiters (s : State α) : List Nat :=
  (List.range s.calls.length).filter fun c => (s.calls[c]?.map Call.isWaiting).getD false

/-- One atomic segment. -/
def step (s : State α) (l : Label α) : Option (State α) :=
  -- the event loop is stuck in a `while` loop
  if s.calls.any Call.isSpinning then none else
  match l with
  | .call n => some (s.begin n)
  | .wake =>
    match s.ready with
    | [] => none
    | c :: ready =>
      match s.calls[c]? with
      | some (.woken n) => some (State.attempt { s with ready } c n)
      | _ => none
  | .ret c =>
    match s.calls[c]? with
    | some (.sending (.next _)) => some { s with calls := s.calls.set c .returned }
    -- 60, 73
    | some (.sending _) => some { s with calls := s.calls.set c .returned, isStopped := true }
    | _ => none
  | .raise c e =>
    match s.calls[c]? with
    | some (.sending _) => some { s with calls := s.calls.set c (.raised e) }
    | _ => none
  | .cancel c =>
    match s.calls[c]? with
    | some (.waiting _) => some { s with wait := .cancelled, calls := s.calls.map Call.abort }
    -- simplified: the exception is thrown into the call when its turn comes
    | some (.woken _) => some { s with calls := s.calls.set c (.raised .cancelled), ready := s.ready.erase c }
    | _ => none
  -- 81-94
  | .subscribe o =>
    if s.isDisposed then some { s with subs := s.subs ++ [false] }
    else if s.wait = Wait.pending then
      some { s with observer := some o, subs := s.subs ++ [true], wait := .done, calls := s.calls.map Call.wake,
                    ready := s.ready ++ s.waiters }
    else some { s with observer := some o, subs := s.subs ++ [true] }
  -- 75-79
  | .dispose => some { s with observer := none, isDisposed := true }

end Aio.Single
