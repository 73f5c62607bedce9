import Verif.Base.LTS
import Verif.Base.Notif
/-!
# `interval` and `timer`

create.py:202-236. Time is a natural number of (arbitrarily small) ticks; `seconds` and `period` are
integers in that unit (`asyncio.sleep` with a negative argument behaves like `sleep(0)`). The
observer is called directly and may suspend arbitrarily long or raise.
-/

namespace Aio.Interval

inductive PC where
  /-- the task exists but has not run yet -/
  | fresh
  /-- inside `await asyncio.sleep(..)` until `wake`, 215; `next` is the value to send then -/
  | sleeping (wake next : Nat)
  /-- inside `await aobv.asend(next)`, 216 -/
  | sending (next : Nat)
  /-- inside `await aobv.aclose()`, 219 -/
  | closing
  | dead
  deriving DecidableEq, Repr

structure State where
  now : Nat
  pc : PC
  /-- `task.cancel()` was called and the `CancelledError` has not been thrown yet -/
  cancelling : Bool
  /-- calls made on the observer, with their times -/
  calls : List (Nat × Notif Nat)
  deriving DecidableEq, Repr

/-- subscribed at time `t0` -/
def init (t0 : Nat) : State := ⟨t0, .fresh, false, []⟩

inductive Label where
  /-- time passes -/
  | tick
  /-- first step of the task -/
  | start
  /-- the sleep is over -/
  | wake
  /-- the observer call in progress returns / raises -/
  | ret
  | raise (e : Err)
  /-- `dispose_async()` of the subscription: cancels the task -/
  | dispose
  /-- the pending `CancelledError` is thrown where the task is suspended: at the sleep, or in the call of an observer, which does not catch it -/
  | thrown
  /-- the observer, suspended in the call in progress, catches the `CancelledError` and returns -/
  | swallow
  deriving DecidableEq, Repr

/-- `return TailCall(period, next + 1)` or the end, after `asend` returned: 218-222, then the head of
`handler`, 215. -/
def afterSend (period : Int) (s : State) (next : Nat) : State :=
  if period = 0 then { s with pc := .closing, calls := s.calls ++ [(s.now, .completed)] }
  else { s with pc := .sleeping (s.now + period.toNat) (next + 1) }

/-- One atomic segment. -/
def step (seconds period : Int) (s : State) : Label → Option State
  | .tick => some { s with now := s.now + 1 }
  | .start =>
    match s.pc with
    | .fresh =>
      if s.cancelling then some { s with pc := .dead, cancelling := false }
      else some { s with pc := .sleeping (s.now + seconds.toNat) 0 }
    | _ => none
  | .wake =>
    match s.pc with
    | .sleeping w n =>
      if w ≤ s.now ∧ s.cancelling = false then
        some { s with pc := .sending n, calls := s.calls ++ [(s.now, .next n)] }
      else none
    | _ => none
  | .ret =>
    match s.pc with
    | .sending n => some (afterSend period s n)
    | .closing => some { s with pc := .dead }
    | _ => none
  | .raise _ =>
    match s.pc with
    | .sending _ => some { s with pc := .dead }
    | .closing => some { s with pc := .dead }
    | _ => none
  | .dispose => some { s with cancelling := true }
  | .thrown =>
    match s.pc with
    | .fresh | .dead => none
    | .sleeping _ _ | .sending _ | .closing => if s.cancelling then some { s with pc := .dead, cancelling := false } else none
  | .swallow =>
    if s.cancelling then
      match s.pc with
      | .sending n => some (afterSend period { s with cancelling := false } n)
      | .closing => some { s with pc := .dead, cancelling := false }
      | _ => none
    else none

/-- Some part of the program could run now. -/
def busy (s : State) : Bool :=
  match s.pc with
  | .fresh => true
  | .sleeping w _ => decide (w ≤ s.now) || s.cancelling
  | .sending _ => true
  | .closing => true
  | .dead => false

/-- Schedules in which everything that can run does so before time passes (a loop that is not
overloaded and an observer that returns at once). -/
def promptStep (seconds period : Int) (s : State) (l : Label) : Option State :=
  if l = .tick ∧ busy s = true then none else step seconds period s l

end Aio.Interval
