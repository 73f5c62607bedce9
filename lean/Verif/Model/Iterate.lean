import Verif.Model.Iterator
/-!
# `async for` over a source that sends from within its `subscribe_async`

observers.py:70-79 (`wait_for_push` awaits `self._source.subscribe_async(self)` in the first `__anext__`), with a
source whose `subscribe_async` awaits calls of the observer, one after the other, before it returns: `empty()`
(create.py:129-136, one call of `aclose`), or a `subscribe` function given to `create` (35-41). The operators that call
their observer directly (`map`, `filter`, `scan`, ...) pass such calls on within `subscribe_async` too.

The rest of the object is `Iterator.State`, with its atomic segments.
-/

namespace Aio.Iterate
variable {α : Type}

/-- `todo`: the calls that `subscribe_async` has yet to make; `cur`: the number of the call that it awaits. -/
structure State (α : Type) where
  it : Iterator.State α
  todo : List (Notif α)
  cur : Option Nat
  deriving DecidableEq, Repr

def init (es : List (Notif α)) : State α := ⟨Iterator.init, es, none⟩

/-- `empty()`, create.py:132-134. -/
def empty : List (Notif α) := [.completed]

/-- Has the call that `subscribe_async` awaits returned? -/
def State.free (s : State α) : Bool :=
  match s.cur with
  | none => true
  | some c => match s.it.calls[c]? with
    | some .returned => true
    | _ => false

inductive Label (α : Type) where
  /-- `__anext__()` -/
  | anext
  /-- somebody else calls `asend`, `athrow` or `aclose` -/
  | call (n : Notif α)
  /-- `subscribe_async` goes on: its next call, or it returns -/
  | source
  /-- the first scheduled task goes on -/
  | run
  deriving DecidableEq, Repr

def step (s : State α) : Label α → Option (State α)
  | .anext => (Iterator.step s.it .anext).map fun it => { s with it }
  | .call n => (Iterator.step s.it (.call n)).map fun it => { s with it }
  | .run => (Iterator.step s.it .run).map fun it => { s with it }
  | .source =>
    if s.it.consumer = .subscribing ∧ s.free = true then
      match s.todo with
      | n :: todo => (Iterator.step s.it (.call n)).map fun it => ⟨it, todo, some s.it.calls.length⟩
      | [] => (Iterator.step s.it .subscribed).map fun it => { s with it }
    else none

end Aio.Iterate
