import Verif.Base.LTS
import Verif.Base.Notif
/-!
# `debounce`

`aioreactive/timeshift.py:103-163`, one subscription. Time is a natural number of (arbitrarily
small) ticks, `seconds` is a natural number of them (`asyncio.sleep` treats a negative number like
0). The worker calls only the safe observer, whose methods post to a mailbox and return (see
`Model/Safe.lean`), so it handles a message without suspending; the state records what it posts,
with the time. The first step of the worker task, which only starts to wait, is part of its first
`receive`.
-/

namespace Aio.Debounce
variable {α : Type}

/-- A task made by `obv`, 145-150. -/
inductive Timer where
  /-- made (150), has not run yet -/
  | fresh
  /-- inside `await asyncio.sleep(seconds)`, 147 -/
  | sleeping (wake : Nat)
  /-- has posted its message (148) -/
  | done
  deriving DecidableEq, Repr

structure State (α : Type) where
  now : Nat
  /-- the number of calls of `obv`, which is the next number of `indexer`, 139, 142 -/
  nextIndex : Nat
  /-- mailbox of the agent -/
  inbox : List (Notif α × Int)
  /-- one task per call of `obv`, task `k` for the call with `index = k` -/
  timers : List (Notif α × Timer)
  /-- `current_index` -/
  current : Int
  /-- calls on the safe observer, with their times -/
  posted : List (Notif α × Nat)
  /-- how often the subscription to the source was disposed, 156 -/
  disposed : Nat
  deriving DecidableEq, Repr

/-- 107-139; the loop starts with -1 (135). -/
def init : State α := ⟨0, 0, [], [], -1, [], 0⟩

inductive Label (α : Type) where
  /-- the source calls `obv`, 141-150 -/
  | event (n : Notif α)
  /-- first step of task `k`, 145-147 -/
  | start (k : Nat)
  /-- the sleep of task `k` is over: it posts, 148 -/
  | wake (k : Nat)
  /-- the worker handles the oldest message, 116-133 -/
  | receive
  /-- `cancel()`, 155-157 -/
  | dispose
  /-- time passes -/
  | tick (d : Nat)
  deriving DecidableEq, Repr

/-- The `match` of the worker, 118-131: the new `current_index` and the call on the safe observer. -/
def handle (current : Int) : Notif α × Int → Int × Option (Notif α)
  | (.next x, index) =>
    if index = current then (index, some (.next x))
    else if index > current then (index, none)
    else (current, none)
  | (.error err, _) => (current, some (.error err))
  | (.completed, _) => (current, some .completed)

/-- One atomic segment. `dispose` posts the class `OnCompleted` instead of an instance (157); the
worker treats it like a completion (`case _`, 130). -/
def step (seconds : Nat) (s : State α) : Label α → Option (State α)
  | .event n => some { s with
      nextIndex := s.nextIndex + 1
      inbox := s.inbox ++ [(n, (s.nextIndex : Int))]
      timers := s.timers ++ [(n, .fresh)] }
  | .start k =>
    match s.timers[k]? with
    | some (n, .fresh) => some { s with timers := s.timers.set k (n, .sleeping (s.now + seconds)) }
    | _ => none
  | .wake k =>
    match s.timers[k]? with
    | some (n, .sleeping w) =>
      if w ≤ s.now then some { s with timers := s.timers.set k (n, .done), inbox := s.inbox ++ [(n, (k : Int))] }
      else none
    | _ => none
  | .receive =>
    match s.inbox with
    | m :: rest => some { s with
        inbox := rest
        current := (handle s.current m).1
        posted := s.posted ++ (handle s.current m).2.toList.map fun n => (n, s.now) }
    | [] => none
  | .dispose => some { s with disposed := s.disposed + 1, inbox := s.inbox ++ [(.completed, 0)] }
  | .tick d => some { s with now := s.now + d }

/-- Time passes only when every task waits, and never beyond the end of a sleep. -/
def prompt (s : State α) : Label α → Bool
  | .tick d => s.inbox.isEmpty && s.timers.all fun p =>
      match p.2 with
      | .fresh => false
      | .sleeping w => decide (s.now + d ≤ w)
      | .done => true
  | _ => true

/-- The steps of a prompt event loop. -/
def promptStep (seconds : Nat) (s : State α) (l : Label α) : Option (State α) :=
  if prompt s l then step seconds s l else none

end Aio.Debounce
