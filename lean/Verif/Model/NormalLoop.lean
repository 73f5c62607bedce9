import Verif.Model.VirtualTime
/-!
# A normal event loop

What testing/virtual_events.py:32-40 compares itself with ("works the same way as a normal event loop except that time is virtual"): `asyncio.BaseEventLoop`, whose `_run_once`
`VirtualTimeEventLoop` overrides (testing/virtual_events.py:55-122); the rest it inherits. The loop here is the ideal one: callbacks take no time, `select` returns exactly when the next timer is due,
and the resolution of the clock is finer than any two due times that differ. There is no I/O.
-/

namespace Aio.VirtualTime

/-- `select(timeout)`: returns at once if a callback is ready, and waits for the next timer if not. -/
def State.select (s : State) : State :=
  match s.scheduled, s.ready with
  | x :: _, [] => { s with time := max x.2 s.time }
  | _, _ => s

/-- `while self._scheduled: ...`: all timers that are due become ready, whether or not callbacks are ready already. `fuel`: the number of timers. -/
def State.dueReady (h : Heap) : Nat → State → State
  | fuel + 1, s =>
    match s.scheduled with
    | x :: xs => if x.2 ≤ s.time then dueReady h fuel { s with ready := s.ready ++ [(x.1, some x.2)], scheduled := h.pop (x :: xs) } else s
    | [] => s
  | 0, s => s

/-- The normal loop: only the beginning of `_run_once` is different. -/
def normal (h : Heap) (s : State) : Label → Option State
  | .runOnce =>
    if s.todo = none then
      let s := (s.cleanUp h).select
      let s := s.dueReady h s.scheduled.length
      some { s with todo := some s.ready.length, inCallback := false }
    else none
  | l => step h s l

/-! ## Programs -/

/-- What a callback does: `call_soon`, `call_later(delay)`, `cancel` of a handle (by its number). -/
inductive Act where
  | soon
  | later (delay : Int)
  | cancel (i : Nat)
  deriving DecidableEq, Repr

/-- The label of an action. `call_later` is `call_at(time() + delay)`. -/
def Act.label (s : State) : Act → Label
  | .soon => .callSoon
  | .later d => .callAt (s.time + d)
  | .cancel i => .cancel i

/-- A callback, or the code before the loop is started, does something. What is impossible is skipped (`cancel` of a handle that does not exist). -/
def perform (loop : State → Label → Option State) (s : State) (as : List Act) : State :=
  as.foldl (fun s a => (loop s (a.label s)).getD s) s

/-- The callbacks of one `_run_once`. `P`: any deterministic code; what it does depends on which callbacks have run, and when (the last one is the one that runs). -/
def callbacks (loop : State → Label → Option State) (P : List Entry → List Act) : Nat → State → State
  | 0, s => s
  | k + 1, s =>
    let s1 := (loop s .next).getD s
    callbacks loop P k (if s1.log.length = s.log.length then s1 else perform loop s1 (P s1.log))

/-- One `_run_once`. -/
def iteration (loop : State → Label → Option State) (P : List Entry → List Act) (s : State) : State :=
  let s := (loop s .runOnce).getD s
  let s := callbacks loop P s.ready.length s
  (loop s .done).getD s

/-- The program, for `n` iterations of the loop; `P []` is done before. -/
def execute (loop : State → Label → Option State) (P : List Entry → List Act) : Nat → State
  | 0 => perform loop init (P [])
  | n + 1 => iteration loop P (execute loop P n)

/-- Which callbacks ran when. -/
def State.output (s : State) : List (Nat × Int) := s.log.map fun e => (e.id, e.time)

end Aio.VirtualTime
