import Verif.Base.LTS
/-!
# `VirtualTimeEventLoop`

testing/virtual_events.py:32-123, with what it inherits from `asyncio.BaseEventLoop`: `call_soon`, `call_at` (and
`call_later`, which is `call_at(time() + delay)`) and `Handle.cancel`.

`heapq` is a parameter: three operations on lists with the heap's smallest element in front. `TimerHandle`s are
compared by due time only, so that the order of timers with the same due time is up to `heapq`. The theorems are
about any operations that obey `Heap.Laws`. Times are integers: nothing but their order matters, except in the
arguments of the callers.

The loop runs in one thread: between two callbacks nothing happens. (`call_soon_threadsafe` from other threads is not
modelled.) The debug mode, which only measures times (lines 111-120), is left out. A callback that raises is
caught by `Handle._run`, and the loop goes on; so how a callback ends does not matter.
-/

namespace Aio.VirtualTime

/-- `heappop` (without the element returned, the first one), `heappush` and `heapify`. A timer: its number and its
due time `_when`. -/
structure Heap where
  pop : List (Nat × Int) → List (Nat × Int)
  push : List (Nat × Int) → Nat × Int → List (Nat × Int)
  heapify : List (Nat × Int) → List (Nat × Int)

/-- What the documentation of `heapq` promises. -/
structure Heap.Laws (h : Heap) where
  isHeap : List (Nat × Int) → Prop
  nil : isHeap []
  min : ∀ {x xs}, isHeap (x :: xs) → ∀ y ∈ xs, x.2 ≤ y.2
  pop : ∀ {x xs}, isHeap (x :: xs) → isHeap (h.pop (x :: xs)) ∧ (h.pop (x :: xs)).Perm xs
  push : ∀ {xs} x, isHeap xs → isHeap (h.push xs x) ∧ (h.push xs x).Perm (x :: xs)
  heapify : ∀ xs, isHeap (h.heapify xs) ∧ (h.heapify xs).Perm xs

/-- A callback that was run: the number of its handle, the due time if it was a timer's, the time, and how many
handles there were. -/
structure Entry where
  id : Nat
  due : Option Int
  time : Int
  known : Nat
  deriving DecidableEq, Repr

/-- `time`: `_time`; `ready`: `_ready`; `scheduled`: `_scheduled`; `cancelled`: the handles with `_cancelled`; `count`:
`_timer_cancelled_count`; `todo`: what is left of the `for` loop (107), `none` outside of `_run_once`; `inCallback`:
`handle._run()` (122) is running. Bookkeeping: `made`: for every handle the due time and the time when it was made;
`log`: the callbacks that were started. -/
structure State where
  time : Int
  ready : List (Nat × Option Int)
  scheduled : List (Nat × Int)
  cancelled : List Nat
  count : Int
  todo : Option Nat
  inCallback : Bool
  made : List (Option Int × Int)
  log : List Entry
  deriving DecidableEq, Repr

/-- Lines 43-50. -/
def init : State := ⟨0, [], [], [], 0, none, false, [], []⟩

inductive Label where
  /-- `call_soon(callback)` -/
  | callSoon
  /-- `call_at(when, callback)` -/
  | callAt (w : Int)
  /-- `cancel()` of a handle -/
  | cancel (i : Nat)
  /-- `_run_once`, 64-106 -/
  | runOnce
  /-- the next turn of the loop in 107-122 -/
  | next
  /-- `_run_once` returns -/
  | done
  deriving DecidableEq, Repr

/-- Lines 83-86: `while self._scheduled and self._scheduled[0]._cancelled`. `fuel`: the length of the heap. -/
def dropCancelled (h : Heap) (cancelled : List Nat) : Nat → List (Nat × Int) → Int → List (Nat × Int) × Int
  | fuel + 1, x :: xs, count =>
    if x.1 ∈ cancelled then dropCancelled h cancelled fuel (h.pop (x :: xs)) (count - 1) else (x :: xs, count)
  | _, xs, count => (xs, count)

/-- Lines 64-86. `_timer_cancelled_count / sched_count > 0.5`. -/
def State.cleanUp (h : Heap) (s : State) : State :=
  if 100 < s.scheduled.length ∧ (s.scheduled.length : Int) < 2 * s.count then
    { s with scheduled := h.heapify (s.scheduled.filter (·.1 ∉ s.cancelled)), count := 0 }
  else
    let (scheduled, count) := dropCancelled h s.cancelled s.scheduled.length s.scheduled s.count
    { s with scheduled, count }

/-- Lines 92-98. The loop ends after one turn, since then `_ready` is not empty. -/
def State.advance (h : Heap) (s : State) : State :=
  match s.scheduled, s.ready with
  | x :: xs, [] => { s with time := max x.2 s.time, ready := [(x.1, some x.2)], scheduled := h.pop (x :: xs) }
  | _, _ => s

/-- Whether the user's code is running: in a callback, or before the loop is started. -/
def State.userCode (s : State) : Bool := s.todo.isNone || s.inCallback

/-- One atomic segment. -/
def step (h : Heap) (s : State) : Label → Option State
  | .callSoon =>
    if s.userCode then
      some { s with ready := s.ready ++ [(s.made.length, none)], made := s.made ++ [(none, s.time)] }
    else none
  | .callAt w =>
    if s.userCode then
      some { s with scheduled := h.push s.scheduled (s.made.length, w), made := s.made ++ [(some w, s.time)] }
    else none
  | .cancel i =>
    if s.userCode ∧ i < s.made.length then
      if i ∈ s.cancelled then some s
      else some { s with
        cancelled := i :: s.cancelled
        -- `_timer_handle_cancelled`: only if `handle._scheduled`
        count := if i ∈ s.scheduled.map (·.1) then s.count + 1 else s.count }
    else none
  | .runOnce =>
    if s.todo = none then
      let s := (s.cleanUp h).advance h
      some { s with todo := some s.ready.length, inCallback := false }
    else none
  | .next =>
    match s.todo, s.ready with
    | some (k + 1), (i, due) :: ready =>
      if i ∈ s.cancelled then some { s with ready, todo := some k, inCallback := false }
      else some { s with ready, todo := some k, inCallback := true,
                         log := s.log ++ [⟨i, due, s.time, s.made.length⟩] }
    | _, _ => none
  | .done => if s.todo = some 0 then some { s with todo := none, inCallback := false } else none

end Aio.VirtualTime
