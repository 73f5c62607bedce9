import Verif.Model.VirtualTime
/-!
# `heapq`

The module of the standard library with which `BaseEventLoop.call_at` and `VirtualTimeEventLoop._run_once` keep the
timers (virtual_events.py:78, 85, 94). CPython 3.12, Lib/heapq.py:132-278. `TimerHandle.__lt__` compares `_when`.

`_siftdown` and `_siftup` take the new item out, move others into the gap and put the item into the last gap; here it
is swapped along, which comes to the same.
-/

namespace Aio.VirtualTime.Heapq

abbrev T := Nat × Int

/-- The due time at an index. -/
def key (l : List T) (i : Nat) : Int := (l.getD i (0, 0)).2

def swap (l : List T) (i j : Nat) : List T := (l.set i (l.getD j (0, 0))).set j (l.getD i (0, 0))

/-- `_siftdown`, 207-219. The first argument is fuel: `pos` is enough. -/
def siftdown : Nat → List T → Nat → Nat → List T
  | 0, l, _, _ => l
  | fuel + 1, l, start, pos =>
    if start < pos then
      let parent := (pos - 1) / 2
      if key l pos < key l parent then siftdown fuel (swap l pos parent) start parent else l
    else l

/-- The child that moves up, 268-270. -/
def smaller (l : List T) (child : Nat) : Nat :=
  if child + 1 < l.length ∧ ¬ key l child < key l (child + 1) then child + 1 else child

/-- The loop of `_siftup`, 265-274. Fuel: `len(heap)` is enough. -/
def bubble : Nat → List T → Nat → List T × Nat
  | 0, l, pos => (l, pos)
  | fuel + 1, l, pos =>
    if 2 * pos + 1 < l.length then
      let child := smaller l (2 * pos + 1)
      bubble fuel (swap l pos child) child
    else (l, pos)

/-- `_siftup`, 260-278. -/
def siftup (l : List T) (pos : Nat) : List T :=
  let r := bubble l.length l pos
  siftdown r.2 r.1 pos r.2

/-- `heappop`, 137-145: what is left. -/
def pop (l : List T) : List T :=
  match l.getLast? with
  | none => []
  | some last => if l.dropLast.isEmpty then [] else siftup (l.dropLast.set 0 last) 0

/-- `heappush`, 132-135. -/
def push (l : List T) (x : T) : List T := siftdown l.length (l ++ [x]) 0 l.length

/-- `heapify`, 170-179. -/
def heapify (l : List T) : List T := (List.range (l.length / 2)).reverse.foldl siftup l

end Heapq

def heapq : Heap := ⟨Heapq.pop, Heapq.push, Heapq.heapify⟩

end Aio.VirtualTime
