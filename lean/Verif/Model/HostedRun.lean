import Verif.Model.Deadline
import Verif.Model.Hosted
/-!
# `run(source, timeout=...)` on the `VirtualTimeEventLoop`

subscription.py:17-44 (`Model/Deadline.lean`), called in a task on the virtual loop.
-/

namespace Aio
variable {S L T α : Type}

/-- The task that calls `run`: it waits for the future of its observer or for the timer of `wait_for` (subscription.py:44). Simplified: the `subscribe_async` and the `dispose_async`
of the source do not wait for anything but may give way to other tasks; when the timer is due, it counts whether the future is done when the task goes on (CPython may also raise TimeoutError
if the future got its result after the timer was due, at the same time). -/
def Deadline.host : Stage.Host (State α) (Label α) Unit where
  names _ := [()]
  need s _ :=
    match s.run.phase with
    | .subscribing => .soon
    | .waiting =>
      if pending s.run.obv.fut then
        match s.deadline with
        | some w => .until w
        | none => .nothing
      else .soon
    | .disposing _ => .soon
    | .done _ => .nothing
  turn s _ :=
    match s.run.phase with
    | .subscribing => [.main .subscribed]
    | .waiting =>
      if pending s.run.obv.fut then
        match s.deadline with
        | some _ => [.main .timeout]
        | none => []
      else [.main .resume]
    | .disposing _ => [.main .disposed]
    | .done _ => []

/-- `disp`: the segments of the source that `dispose_async` of its subscription causes (none, if that is left out). -/
def Deadline.disposing (disp : List L) : L ⊕ Label α → List (L ⊕ Label α)
  | .inr (.main .disposed) => disp.map .inl ++ [.inr (.main .disposed)]
  | l => [l]

/-- `run(source, timeout=timeout)`, where the `dispose_async` at the end of the `async with` (subscription.py:42) disposes the source. -/
def Clocked.ran (q : Clocked S L α) (disp : List L) (timeout : Int) : Clocked (S × Deadline.State α) (L ⊕ Deadline.Label α) (RunUntil.Outcome α) :=
  { q.through (Deadline.stage true timeout) with act := fun s l => LTS.run (q.through (Deadline.stage true timeout)).act s (Deadline.disposing disp l) }

/-- The tasks of the source, and the one that calls `run`. `others`: what other code may do to the source (it has no access to its subscription). -/
def Host.ran (H : Host S L T) (others : L → Bool) : Host (S × Deadline.State α) (L ⊕ Deadline.Label α) (T ⊕ Unit) :=
  { H.through Deadline.host with outside := fun
    | .inl l => others l
    | .inr _ => false }

end Aio
