import Verif.Model.Work
/-!
# `pipe(single(x), map_async(f), ...)` as an inner observable

create.py:112-126, observers.py:151-199, transform.py:61-75. The subscription that `single` returns does nothing when it is disposed (`AsyncDisposable.empty()`, create.py:124), and the worker
of its safe observer, which calls the async functions, has no token with which it could be stopped (observers.py:186-188). So there is no segment for the disposal.
-/

namespace Aio
variable {ω α : Type}

/-- `pipe(single(x), op1, op2, ...)` with async functions that take time, subscribed at time `t`: `subscribe_async` makes both calls on the safe observer (create.py:119-124), then its worker goes on.
The observer at the end is one that only posts, such as that of `switch_latest` (transform.py:268-278). On a loop that is not overloaded. -/
def Linger.clocked (ops : Ops ω α) (x : ω) (t : Nat) : Clocked (Work.State ω α Nat) (Work.Label ω) α where
  init := ⟨[.next x, .completed], .waiting 0, t, []⟩
  act s
    | .receive => Work.step (ops.handler (Handler.final fun _ _ => (0, none))) 0 s .receive
    | .go => Work.step (ops.handler (Handler.final fun _ _ => (0, none))) 0 s .go
    | .wake => Work.step (ops.handler (Handler.final fun _ _ => (0, none))) 0 s .wake
    | _ => none
  pass s d := Work.step (ops.handler (Handler.final fun _ _ => (0, none))) 0 s (.tick d)
  now s := s.now
  calls s := s.sent

/-- `pipe(single(x), map_async(search))`, where `search(x)` takes `dur x` and returns `g x`. -/
def Linger.search (dur : ω → Nat) (g : ω → α) (x : ω) (t : Nat) : Clocked (Work.State ω α Nat) (Work.Label ω) α := clocked (.map (fun x => (dur x, .ok (g x))) .nil) x t

end Aio
