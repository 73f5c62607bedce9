import Verif.Model.Slow
import Verif.Model.Iterator
/-!
# `async for x in to_async_iterable(pipe(source, op1, ..., opn))`

leave.py 17-29 and observables.py 36-59: `__aiter__` makes an `AsyncIteratorObserver` (observers.py 20-94, `Model.Iterator`), whose
first `__anext__` subscribes to the pipeline (`Model.Slow`: workers suspend). The calls on the iterator are made by the last worker
of the pipeline, or in the source's task if the pipeline has no mailbox; either way each of them is awaited before the next one is
made. The source posts (or calls) whatever it likes from the time it is subscribed to, and its `subscribe_async` does not wait for
these calls (`Model.Iterate` is about sources that do).

Simplified: the last worker may take its next message out of its mailbox while its last call is not over; it cannot do anything
with it that can be seen.
-/

namespace Aio.AsyncFor
variable {α γ : Type}

/-- `ps`: the pipeline; `it`: the iterator. `outs` records the calls made on the iterator. -/
structure State (c : Chain α γ) where
  ps : c.compileSlow.SlowSt
  it : Iterator.State γ
  outs : List (Notif γ)

inductive Label (c : Chain α γ) where
  /-- the loop calls `__anext__()` -/
  | anext
  /-- `subscribe_async` returns -/
  | subscribed
  /-- the source posts to its safe observer, or calls the first operator -/
  | post (n : Notif α)
  /-- a worker of the pipeline takes a step -/
  | worker (l : c.compileSlow.SlowLab)
  /-- the first task goes on that is scheduled and waits in the iterator -/
  | resume

def init (c : Chain α γ) : State c := ⟨c.slowProc.init, Iterator.init, []⟩

/-- Has every call on the iterator returned? -/
def idle (it : Iterator.State γ) : Bool := it.calls.all fun | .returned => true | _ => false

/-- The pipeline goes on to `ps`; if it makes a call on the iterator, the one before must be over. -/
def move {c : Chain α γ} (s : State c) (ps : c.compileSlow.SlowSt) : List (Notif γ) → Option (State c)
  | [] => some { s with ps }
  | [n] => if idle s.it then (Iterator.step s.it (.call n)).map fun it => ⟨ps, it, s.outs ++ [n]⟩ else none
  | _ => none

/-- One atomic segment. -/
def step {c : Chain α γ} (s : State c) : Label c → Option (State c)
  | .anext => (Iterator.step s.it .anext).map fun it => { s with it }
  | .subscribed => (Iterator.step s.it .subscribed).map fun it => { s with it }
  | .resume => (Iterator.step s.it .run).map fun it => { s with it }
  | .post n => if s.it.consumer = .fresh then none else move s (c.slowProc.feed s.ps n).1 (c.slowProc.feed s.ps n).2
  | .worker l =>
    match c.slowProc.step s.ps l with
    | none => none
    | some (ps, o) => move s ps o

end Aio.AsyncFor
