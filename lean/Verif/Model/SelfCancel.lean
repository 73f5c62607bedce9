import Verif.Base.Notif
/-!
# Code that disposes the subscription in whose task it runs

`interval` and `from_async_iterable` await their observer in the task that `dispose_async` of the subscription cancels (create.py:25-32, 83-98, 213-225). If the observer, or an operator such as `catch`
(transform.py:419), disposes the subscription in this task, the task cancels itself: nothing happens at once, but the next time that it suspends `CancelledError` is raised in it (CPython 3.12,
asyncio/tasks.py: `cancel` sets `_must_cancel`, `__step` looks at it).

The code that such a task executes is described by what it does in the end: it acts, awaits, disposes, one after the other. Simplified: nobody catches `CancelledError`, and there is no `finally`.
-/

namespace Aio.SelfCancel
variable {ε α : Type}

/-- `effect e`: something that can be seen; `await`: it suspends; `dispose`: `await subscription.dispose_async()`, which itself does not suspend. -/
inductive Op (ε : Type) where
  | effect (e : ε)
  | await
  | dispose
  deriving DecidableEq, Repr

/-- What a call does, and the exception that it ends with. -/
structure Prog (ε : Type) where
  ops : List (Op ε)
  raises : Option Err
  deriving DecidableEq, Repr

def Prog.done : Prog ε := ⟨[], none⟩
def Prog.wait : Prog ε := ⟨[.await], none⟩

/-- `await p; await q` -/
def Prog.andThen (p q : Prog ε) : Prog ε :=
  match p.raises with
  | none => ⟨p.ops ++ q.ops, q.raises⟩
  | some _ => p

/-- `try: await p except Exception as ex: await h(ex); return`, then `q`. -/
def Prog.attempt (p : Prog ε) (h : Err → Prog ε) (q : Prog ε) : Prog ε :=
  match p.raises with
  | none => ⟨p.ops ++ q.ops, q.raises⟩
  | some e => if e = .cancelled then p else ⟨p.ops ++ (h e).ops, (h e).raises⟩

/-- What can be seen of a task that executes the code. `cancels`: whether `dispose` cancels this very task; `b`: whether it has been cancelled; `ds`: at which of its suspensions other code
disposes the subscription meanwhile. A suspended task that is not cancelled is resumed. -/
def exec (cancels : Bool) : List (Op ε) → Bool → List Bool → List ε
  | [], _, _ => []
  | .effect e :: ops, b, ds => e :: exec cancels ops b ds
  | .await :: ops, b, ds => if cancels && (b || ds.headD false) then [] else exec cancels ops (b || ds.headD false) ds.tail
  | .dispose :: ops, _, ds => exec cancels ops true ds

/-- An observer. -/
structure Observer (α ε : Type) where
  asend : α → Prog ε
  athrow : Err → Prog ε
  aclose : Prog ε

/-- `n` rounds of `handler` of `interval` from value `k` on, create.py:214-222; `asyncio.sleep` always suspends. -/
def interval (o : Observer Nat ε) (period : Int) : Nat → Nat → Prog ε
  | 0, _ => .done
  | n + 1, k => Prog.wait.andThen ((o.asend k).andThen (if period = 0 then o.aclose else interval o period n (k + 1)))

/-- `worker` of `of_async_iterable`, create.py:89-98, for an iterable that yields `xs` and ends. An item says whether `__anext__` suspends before it returns the value; `last`: whether it does before the end. -/
def iterable (o : Observer α ε) (last : Bool) : List (Bool × α) → Prog ε
  | [] => (if last then Prog.wait else .done).andThen o.aclose
  | (w, v) :: xs => (if w then Prog.wait else .done).andThen ((o.asend v).attempt o.athrow (iterable o last xs))

/-- The observer that `map_async(f)` subscribes, transform.py:47-56, 71-73: `f v` awaits and acts, and returns or raises. -/
def mapped (f : α → Prog ε × α) (o : Observer α ε) : Observer α ε where
  asend v := (f v).1.andThen (o.asend (f v).2)
  athrow := o.athrow
  aclose := o.aclose

/-- The observer that `catch(handler)` subscribes: `athrow` disposes the source and subscribes to what the handler returned. `subscribe x`: what `x.subscribe_async` does. transform.py:407-421. -/
def caught {ω : Type} (handler : Err → Except Err ω) (subscribe : ω → Prog ε) (o : Observer α ε) : Observer α ε where
  asend := o.asend
  athrow e :=
    match handler e with
    | .error e' => ⟨[], some e'⟩
    | .ok x => ⟨.dispose :: (subscribe x).ops, (subscribe x).raises⟩
  aclose := o.aclose

/-- `message_loop` of `safe_observer` for the messages that it gets, observers.py:170-184. Its task is not the one that the subscription cancels. `receive` may suspend. Simplified: the disposal of its
`disposable` before a terminal event is not shown, as it cancels another task. -/
def mailbox (o : Observer α ε) : List (Notif α) → Prog ε
  | [] => .done
  | .next v :: ns => Prog.wait.andThen ((o.asend v).attempt o.athrow (mailbox o ns))
  | .error e :: _ => Prog.wait.andThen (o.athrow e)
  | .completed :: _ => Prog.wait.andThen o.aclose

end Aio.SelfCancel
