import Verif.Base.LTS
import Verif.Base.Notif
/-!
# `delay`

`aioreactive/timeshift.py:33-100`. One application `delay(seconds)(source)` with any number of
subscriptions: the cancellation token is made per application (50-51), everything else per
subscription.

Time is a natural number of (arbitrarily small) ticks. There are two clocks: the *wall* clock
`datetime.now(timezone.utc)`, which stamps the messages (62, 87), and the *loop* clock, by which
`asyncio.sleep` (65) measures. On a normal event loop both advance alike; `VirtualTimeEventLoop`
moves the loop clock only (testing/virtual_events.py:97). `seconds` is a natural number: a negative
number behaves like 0, as then line 64 is never true.

What the `expression` package does to the worker task when the token is cancelled is left open: the
label `kill` may or may not happen after that.
-/

namespace Aio.Delay
variable {α : Type}

inductive Worker (α : Type) where
  /-- the worker task has been created (82, 84) but has not run yet -/
  | fresh
  /-- at `await inbox.receive()`, 60 -/
  | receiving
  /-- inside `await asyncio.sleep(seconds)` until `wake` on the loop clock, 65 -/
  | sleeping (n : Notif α) (wake : Nat)
  /-- inside the call on the observer, 70, 73 or 76 -/
  | calling (n : Notif α)
  /-- returned because of the token (58) -/
  | finished
  /-- the observer raised, or the task was cancelled -/
  | dead
  deriving DecidableEq, Repr

structure Sub (α : Type) where
  /-- the mailbox: notifications with their due times on the wall clock, 87-88 -/
  queue : List (Notif α × Nat)
  worker : Worker α
  /-- the calls made on the observer, each with its time on the loop clock -/
  delivered : List (Notif α × Nat)
  /-- how often `subscription.dispose_async()` was called, 96 -/
  disposed : Nat
  deriving DecidableEq, Repr

structure State (α : Type) where
  wall : Nat
  loop : Nat
  /-- `token.is_cancellation_requested` -/
  cancelled : Bool
  subs : List (Sub α)
  deriving DecidableEq, Repr

/-- 50-51 -/
def init : State α := ⟨0, 0, false, []⟩

inductive Label (α : Type) where
  /-- `subscribe_async` up to the subscription to the source, 53-91 -/
  | subscribe
  /-- the source calls the observer of subscription `i`: `fn`, 86-88 -/
  | event (i : Nat) (n : Notif α)
  /-- first step of worker `i`, 57 -/
  | start (i : Nat)
  /-- worker `i` takes the oldest message, 60-65 -/
  | receive (i : Nat)
  /-- the sleep of worker `i` is over, 65 -/
  | wake (i : Nat)
  /-- the observer call of worker `i` returns / raises -/
  | ret (i : Nat)
  | raise (i : Nat)
  /-- `cancel()` of subscription `i`, 93-96 -/
  | dispose (i : Nat)
  /-- the worker task `i` is cancelled because of the token -/
  | kill (i : Nat)
  /-- time passes -/
  | tick (dwall dloop : Nat)
  deriving DecidableEq, Repr

/-- Replace subscription `i`. -/
def State.upd (s : State α) (i : Nat) (b : Sub α) : State α := { s with subs := s.subs.set i b }

/-- The call on the observer, 67-79. -/
def Sub.call (b : Sub α) (now : Nat) (n : Notif α) : Sub α :=
  { b with worker := .calling n, delivered := b.delivered ++ [(n, now)] }

/-- One pass from the message to the sleep or to the call, 62-79. -/
def Sub.handle (b : Sub α) (wall loop : Nat) (n : Notif α) (due : Nat) : Sub α :=
  if due > wall then { b with worker := .sleeping n (loop + (due - wall)) } else b.call loop n

/-- The head of `loop`: 57-60. -/
def loopHead (cancelled : Bool) : Worker α := if cancelled then .finished else .receiving

/-- What a label does to its subscription. `seconds` is the argument of `delay`. -/
def subStep (seconds : Nat) (s : State α) (b : Sub α) : Label α → Option (Sub α)
  | .event _ n => some { b with queue := b.queue ++ [(n, s.wall + seconds)] }
  | .start _ =>
    match b.worker with
    | .fresh => some { b with worker := loopHead s.cancelled }
    | _ => none
  | .receive _ =>
    match b.worker, b.queue with
    | .receiving, (n, due) :: q => some (Sub.handle { b with queue := q } s.wall s.loop n due)
    | _, _ => none
  | .wake _ =>
    match b.worker with
    | .sleeping n w => if w ≤ s.loop then some (b.call s.loop n) else none
    | _ => none
  | .ret _ =>
    match b.worker with
    | .calling _ => some { b with worker := loopHead s.cancelled }
    | _ => none
  | .raise _ =>
    match b.worker with
    | .calling _ => some { b with worker := .dead }
    | _ => none
  | .dispose _ => some { b with disposed := b.disposed + 1 }
  | .kill _ => if s.cancelled then some { b with worker := .dead } else none
  | _ => none

/-- One atomic segment. -/
def step (seconds : Nat) (s : State α) (l : Label α) : Option (State α) :=
  match l with
  | .subscribe => some { s with subs := s.subs ++ [⟨[], .fresh, [], 0⟩] }
  | .tick dw dl => some { s with wall := s.wall + dw, loop := s.loop + dl }
  | .event i _ | .start i | .receive i | .wake i | .ret i | .raise i | .kill i =>
    match s.subs[i]? with
    | none => none
    | some b => (subStep seconds s b l).map (s.upd i)
  | .dispose i =>
    match s.subs[i]? with
    | none => none
    | some b => (subStep seconds s b l).map ({ s with cancelled := true }.upd i)

/-- Nothing is left to do at the present time for a subscription, and the next thing to do is at
least `d` away. -/
def Sub.calm (b : Sub α) (loop d : Nat) : Bool :=
  match b.worker with
  | .fresh => false
  | .receiving => b.queue.isEmpty
  | .sleeping _ w => decide (loop + d ≤ w)
  | .calling _ => false
  | .finished => true
  | .dead => true

/-- Time passes only when every task waits, and never beyond the end of a sleep: the observers
return at once and the loop runs what is ready before time advances. The clocks run alike. -/
def prompt (s : State α) : Label α → Bool
  | .tick dw dl => dw == dl && s.subs.all fun b => b.calm s.loop dl
  | _ => true

/-- The steps of a prompt event loop. -/
def promptStep (seconds : Nat) (s : State α) (l : Label α) : Option (State α) :=
  if prompt s l then step seconds s l else none

end Aio.Delay
