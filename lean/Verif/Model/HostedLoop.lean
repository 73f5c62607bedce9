import Verif.Model.Hosted
import Verif.Model.Loop
/-!
# `async for` on the `VirtualTimeEventLoop`

Two tasks: the worker of `safe_observer` (observers.py:151-199), which ends up in the methods of the `AsyncIteratorObserver` (observers.py:20-94), and
the one with the `async for` (`Model/Loop.lean`).
-/

namespace Aio.Loop
variable {α β σ : Type}

inductive Task where
  | worker
  | consumer
  deriving DecidableEq, Repr

/-- Whom the iterator has scheduled first: the consumer, whose `await self._push` (observers.py:74) is over, or a call, whose `await self._pull` (56) or
`await fut` (65) is. -/
def next (it : Iterator.State β) : Option Task :=
  match it.ready with
  | [] => none
  | .consumer :: _ => some .consumer
  | _ :: _ => some .worker

/-- `run`, if it can be. It always can, see `turn_worker` and `turn_consumer`. -/
def runs (it : Iterator.State β) : List (Label α) := if (Iterator.step it .run).isSome then [.run] else []

/-- The worker waits for a message (170), in one of the functions for the end of a sleep, or in the iterator for the consumer. The consumer waits in `__anext__` for the
subscription (72) or for the future `_push` (74), or in its body for the end of a sleep. Simplified: what a function or the body awaits is a sleep;
between two sleeps or calls the worker may give way to other tasks; the subscription takes one turn. -/
def host : Stage.Host (State α β σ) (Label α) Task where
  names _ := [.worker, .consumer]
  need s
    | .worker =>
      if next s.it = some .worker then .soon
      else match s.pc with
        | .waiting _ => if s.inbox.isEmpty then .nothing else .soon
        | .running _ => .soon
        | .asleep due _ => .until due
        | .calling _ => if returned s.it then .soon else .nothing
        | .halted => .nothing
    | .consumer =>
      if next s.it = some .consumer ∨ s.it.consumer = .subscribing then .soon
      else match s.body with
        | .busy due => .until due
        | _ => .nothing
  turn s
    | .worker =>
      if next s.it = some .worker then runs s.it
      else match s.pc with
        | .waiting _ => if s.inbox.isEmpty then [] else [.receive]
        | .running _ => [.go]
        | .asleep _ _ => [.wake]
        | .calling _ => if returned s.it then [.back] else []
        | .halted => []
    | .consumer =>
      if next s.it = some .consumer then runs s.it
      else if s.it.consumer = .subscribing then
        if (Iterator.step s.it .subscribed).isSome then [.subscribed] else []
      else match s.body with
        | .busy _ => if (Iterator.step s.it .anext).isSome then [.anext] else []
        | _ => []

end Aio.Loop
