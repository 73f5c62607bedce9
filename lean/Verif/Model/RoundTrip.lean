import Verif.Model.AsyncFor
import Verif.Model.Create
/-!
# `from_async_iterable(to_async_iterable(pipe(source, op1, ..., opn)))`

The worker of `of_async_iterable` (create.py:89-98, `Model.Create`) runs an `async for` over the iterator of the pipeline (`Model.AsyncFor`): when a call of `__anext__` returns, the worker goes on with it in the same
segment, and when the observer's `asend` returns it calls `__anext__` again. Simplified: the subscription is not disposed.
-/

namespace Aio.RoundTrip
variable {α γ : Type}

/-- `loop`: pipeline and iterator; `w`: the worker of `of_async_iterable`. -/
structure State (c : Chain α γ) where
  loop : AsyncFor.State c
  w : OfAsyncIterable.State γ

inductive Label (c : Chain α γ) where
  /-- first step of the worker, create.py:90 -/
  | start
  /-- anything of pipeline and iterator but a call of `__anext__` -/
  | inner (l : AsyncFor.Label c)
  /-- the call of the observer that the worker awaits returns / raises -/
  | ret
  | raise (e : Err)

def init (c : Chain α γ) : State c := ⟨AsyncFor.init c, OfAsyncIterable.init⟩

/-- If `__anext__` has returned (or raised), the worker goes on: create.py:90-92, 97. -/
def goesOn {c : Chain α γ} (s : State c) (loop : AsyncFor.State c) : Option (State c) :=
  match loop.it.taken[s.loop.it.taken.length]? with
  | none => some { s with loop }
  | some (.value v) => (OfAsyncIterable.step s.w (.item v)).map fun w => ⟨loop, w⟩
  | some .stop => (OfAsyncIterable.step s.w .stop).map fun w => ⟨loop, w⟩
  | some (.raised e) => (OfAsyncIterable.step s.w (.fails e)).map fun w => ⟨loop, w⟩

/-- The worker calls `__anext__`. -/
def anext {c : Chain α γ} (s : State c) : Option (State c) := (AsyncFor.step s.loop .anext).bind (goesOn s)

/-- One atomic segment. -/
def step {c : Chain α γ} (s : State c) : Label c → Option (State c)
  | .start => (OfAsyncIterable.step s.w .start).bind fun w => anext { s with w }
  | .inner .anext => none
  | .inner l => (AsyncFor.step s.loop l).bind (goesOn s)
  | .ret =>
    match OfAsyncIterable.step s.w .ret with
    | none => none
    | some w =>
      match w.pc with
      | .pulling => anext { s with w }
      | _ => some { s with w }
  | .raise e => (OfAsyncIterable.step s.w (.raise e)).map fun w => { s with w }

end Aio.RoundTrip
