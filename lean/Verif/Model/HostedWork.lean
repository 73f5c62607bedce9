import Verif.Model.Hosted
import Verif.Model.Work
/-!
# Async functions that take time on the `VirtualTimeEventLoop`

The worker of `safe_observer` (observers.py:151-199) is one task; a function or an observer that takes time is one that awaits `asyncio.sleep`
(`Model/Work.lean`).
-/

namespace Aio.Work
variable {α β σ : Type}

/-- The task of the worker. It waits for a message (170), or in one of the functions for the end of a sleep. Simplified: what a function awaits is a
sleep; between two sleeps or calls it may give way to other tasks. -/
def host : Stage.Host (State α β σ) (Label α) Unit where
  names _ := [()]
  need s _ :=
    match s.pc with
    | .waiting _ => if s.inbox.isEmpty then .nothing else .soon
    | .running _ => .soon
    | .asleep due _ => .until due
    | .halted => .nothing
  turn s _ :=
    match s.pc with
    | .waiting _ => if s.inbox.isEmpty then [] else [.receive]
    | .running _ => [.go]
    | .asleep _ _ => [.wake]
    | .halted => []

end Aio.Work
