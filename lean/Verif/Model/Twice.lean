import Verif.Model.Iterator
/-!
# An iterator that has been subscribed, too

README.md:157-160:

    obv = rx.AsyncIteratorObserver(xs)
    async with await xs.subscribe_async(obv) as subscription:
        async for x in obv:
            ...

`obv` is subscribed to `xs` by the program, and by its own first `__anext__` (observers.py:71-72) once more. Each subscription of a cold `xs` (`from_iterable`: C94) has a worker of its own, which makes its calls on `obv` one
after the other (C02).
Simplified: the subscriptions are not disposed (the program leaves the `async with` only when the loop is over).
-/

namespace Aio.Twice
variable {α : Type}

/-- The worker of a subscription: the events that it still has to tell, and the number of its last call. -/
structure Worker (α : Type) where
  todo : List (Notif α)
  cur : Option Nat

/-- `outer`: the subscription of the program; `inner`: the one that the iterator makes. -/
structure State (α : Type) where
  it : Iterator.State α
  outer : Worker α
  inner : Worker α

/-- `ns`: what every subscription of `xs` is told. -/
def init (ns : List (Notif α)) : State α := ⟨Iterator.init, ⟨ns, none⟩, ⟨ns, none⟩⟩

inductive Label (α : Type) where
  /-- a worker makes its next call -/
  | outer
  | inner
  /-- something in the iterator, but no call on it -/
  | loop (l : Iterator.Label α)

/-- The worker is not in the middle of a call: `await aobv.asend(...)` of observers.py:172-184 has returned. -/
def free (it : Iterator.State α) (w : Worker α) : Bool :=
  match w.cur with
  | none => true
  | some c => match it.calls[c]? with
    | some .returned => true
    | _ => false

/-- The next call of a worker. -/
def next (it : Iterator.State α) (w : Worker α) : Option (Iterator.State α × Worker α) :=
  match w.todo with
  | [] => none
  | n :: todo => if free it w then (Iterator.step it (.call n)).map fun it' => (it', ⟨todo, some it.calls.length⟩) else none

/-- One atomic segment. The inner subscription is made by the first `__anext__`. -/
def step (s : State α) : Label α → Option (State α)
  | .outer => (next s.it s.outer).map fun (it, w) => { s with it, outer := w }
  | .inner => if s.it.consumer = .fresh then none else (next s.it s.inner).map fun (it, w) => { s with it, inner := w }
  | .loop (.call _) => none
  | .loop l => (Iterator.step s.it l).map fun it => { s with it }

end Aio.Twice
