import Verif.Base.LTS
import Verif.Model.Safe
/-!
# `create.py`: sources that deliver through a `safe_observer`

`of_async_worker` (create.py:44-56) creates a canceller, a safe observer around the subscriber's
observer with the canceller as its disposable, and starts the worker task with the canceller's token.
`Producer` is the worker task (its atomic segments and what they post to the safe observer);
`Producer.step` is the whole subscription: the worker task, the safe observer's worker
(`Safe.step`), and somebody calling `dispose_async()` on the subscription at any time.
-/

namespace Aio
variable {S L α : Type}

/-- A task that posts to a safe observer. -/
structure Producer (S L α : Type) where
  init : S
  /-- one atomic segment: new state and the notifications posted, in order -/
  step : S → L → Option (S × List (Notif α))
  /-- `cancel()` of the canceller, create.py:28-30 -/
  dispose : S → S

namespace Producer

/-- State of one subscription. `posts` records everything posted so far (it is not part of the
program's state; `safe.inbox` is). -/
structure State (S α : Type) where
  src : S
  posts : List (Notif α)
  safe : Safe.State α

/-- `own l`: the producer's task runs; `dispose`: the subscription is disposed from outside; the
others: the safe observer's worker (see `Safe.Label`). -/
inductive Label (L : Type) where
  | own (l : L)
  | dispose
  | receive
  | ret
  | raise (e : Err)
  deriving DecidableEq

def start (p : Producer S L α) : State S α := ⟨p.init, [], Safe.init⟩

/-- One atomic segment of the subscription. When the safe worker takes up a terminal notification it
calls `dispose_async()` of the same disposable (observers.py:178, 182). -/
def next (p : Producer S L α) (s : State S α) : Label L → Option (State S α)
  | .own l =>
    match p.step s.src l with
    | none => none
    | some (t, o) =>
      some ⟨t, s.posts ++ o, { s.safe with inbox := s.safe.inbox ++ o }⟩
  | .dispose => some { s with src := p.dispose s.src }
  | .receive =>
    match Safe.step s.safe .receive with
    | none => none
    | some t =>
      some { s with safe := t, src := match t.pc with
                                      | .disposing _ => p.dispose s.src
                                      | _ => s.src }
  | .ret => (Safe.step s.safe .ret).map fun t => { s with safe := t }
  | .raise e => (Safe.step s.safe (.raise e)).map fun t => { s with safe := t }

/-- The calls that the subscriber's observer received. -/
def State.received (s : State S α) : List (Notif α) := Safe.calls s.safe.log

/-- Nothing is left to do: neither the producer's task nor the safe worker can run. -/
def Idle (p : Producer S L α) (s : State S α) : Prop :=
  (∀ l, p.step s.src l = none) ∧ Safe.Drained s.safe

/-- No observer call raises in this schedule (and neither does the disposable). -/
def NoRaise (ls : List (Label L)) : Prop := ∀ e, Label.raise e ∉ ls

end Producer

/-- State of a task that was started with a cancellation token, for the sources whose worker runs in
one go: has it run, and was the token cancelled? -/
structure OneShot where
  fresh : Bool
  cancelled : Bool
  deriving DecidableEq, Repr

/-- `aiotools.start(worker(safe_obv, token), token)` for a worker without suspension points
(create.py:53). `kill`: whether cancelling the token also cancels the task (package `expression`; a
task that is cancelled before its first step never runs). -/
def oneShot (kill : Bool) (worker : Py Bool (Notif α) Unit) : Producer OneShot Unit α where
  init := ⟨true, false⟩
  step s _ :=
    if s.fresh then
      if kill && s.cancelled then some ({ s with fresh := false }, [])
      else some ({ s with fresh := false }, (worker s.cancelled).out)
    else none
  dispose s := { s with cancelled := true }

/-- The safe observer as its producers see it, from code whose state is the token. -/
def poster : Observer Bool (Notif α) α where
  asend v := Py.emit (.next v)
  athrow e := Py.emit (.error e)
  aclose := Py.emit .completed

/-- `token.throw_if_cancellation_requested()`; raises an exception of the package `expression`
(here: `user 0`). -/
def throwIfCancelled : Py Bool (Notif α) Unit := fun c =>
  if c then ⟨.error (.user 0), c, []⟩ else ⟨.ok (), c, []⟩

/-- What the iterator does after its last element: stop, or raise. -/
def iterEnd : Option Err → Py Bool (Notif α) Unit
  | none => Py.ret ()
  | some e => Py.raise e

/-- The worker of `of_seq` for an iterable that yields `xs` and then ends or raises. create.py:168-179.
Iterables without end are not modelled (the `for` loop would never give control back). -/
def ofSeqWorker (xs : List α) (last : Option Err) : Py Bool (Notif α) Unit := do
  Py.forEach xs fun x => do
    throwIfCancelled
    Py.tryExcept (poster.asend x) fun ex => poster.athrow ex
  iterEnd last
  poster.aclose

/-- `of_seq` / `from_iterable`. create.py:161-181, __init__.py (`from_iterable`). -/
def ofSeq (kill : Bool) (xs : List α) (last : Option Err) : Producer OneShot Unit α :=
  oneShot kill (ofSeqWorker xs last)

/-- `fail`. create.py:148-158. -/
def failing (kill : Bool) (error : Err) : Producer OneShot Unit α :=
  oneShot kill (poster.athrow error)

/-- `single`. create.py:112-126. The posts are made by `subscribe_async` itself, before it returns a
disposable (the empty one), so nobody can dispose before. -/
def single (value : α) : Producer OneShot Unit α where
  init := ⟨true, false⟩
  step s _ :=
    if s.fresh then
      some ({ s with fresh := false }, ((do poster.asend value; poster.aclose) s.cancelled).out)
    else none
  dispose s := s

/-- `never`. create.py:139-145: the observer is ignored. -/
def never : Producer Unit Unit α where
  init := ()
  step _ _ := none
  dispose s := s

/-- `empty`. create.py:129-136: the subscriber's observer is called directly (no safe observer) with
no suspension before it. -/
def emptySubscribe {σ ο : Type} (aobv : Observer σ ο α) : Py σ ο Unit := do
  aobv.aclose

namespace OfAsync

/-- Where the worker of `of_async` is. create.py:66-74. -/
inductive PC where
  | fresh
  /-- inside `await workflow`, 68 -/
  | awaiting
  | finished
  deriving DecidableEq, Repr

structure St where
  pc : PC
  cancelled : Bool
  deriving DecidableEq, Repr

/-- `start`: the task begins; `outcome r`: the workflow returns or raises. After a cancellation the
workflow normally raises `CancelledError`, but it may also catch it and do anything else. -/
inductive Lab (α : Type) where
  | start
  | outcome (r : Except Err α)

/-- The worker after `await workflow` ended: 68-74. -/
def after (r : Except Err α) : Py Bool (Notif α) Unit :=
  Py.tryFinally
    (Py.tryExcept (do let v ← Py.call r; poster.asend v) fun ex => poster.athrow ex)
    poster.aclose

end OfAsync

/-- `of_async`. create.py:59-76. -/
def ofAsync (kill : Bool) : Producer OfAsync.St (OfAsync.Lab α) α where
  init := ⟨.fresh, false⟩
  step s l :=
    match l, s.pc with
    | .start, .fresh =>
      if kill && s.cancelled then some ({ s with pc := .finished }, [])
      else some ({ s with pc := .awaiting }, [])
    | .outcome r, .awaiting =>
      some ({ s with pc := .finished }, (OfAsync.after r s.cancelled).out)
    | _, _ => none
  dispose s := { s with cancelled := true }

end Aio

namespace Aio.Defer
variable {σ ο : Type}

/-- `defer`. create.py:184-199. Observables are the values of `ω`; `subscribe o aobv` is
`o.subscribe_async(aobv)`, `fail e` is the observable `fail(e)`. -/
def subscribe {ω κ : Type} (factory : Py σ ο ω) (fail : Err → ω) (sub : ω → κ → Py σ ο Unit)
    (aobv : κ) : Py σ ο Unit := do
  let result ← Py.tryExcept factory fun ex => pure (fail ex)
  sub result aobv

end Aio.Defer

namespace Aio.OfAsyncIterable
variable {α : Type}

/-- Where the worker task of `of_async_iterable` is. create.py:89-98. -/
inductive PC (α : Type) where
  | fresh
  /-- inside `await it.__anext__()` of the `async for`, 90 -/
  | pulling
  /-- inside `await observer.asend(value)`, 92 -/
  | sending (v : α)
  /-- inside `await observer.athrow(ex)`, 94 -/
  | rethrowing (e : Err)
  /-- inside `await observer.aclose()`, 97 -/
  | closing
  | dead
  deriving DecidableEq, Repr

structure State (α : Type) where
  pc : PC α
  /-- `task.cancel()` was called and the `CancelledError` was not thrown yet -/
  cancelling : Bool
  log : List (Safe.Event α)
  deriving Repr

def init : State α := ⟨.fresh, false, []⟩

inductive Label (α : Type) where
  /-- first step of the task -/
  | start
  /-- the iterable yields a value / is exhausted / raises -/
  | item (v : α)
  | stop
  | fails (e : Err)
  /-- the observer call in progress returns / raises -/
  | ret
  | raise (e : Err)
  /-- `cancel()`, 83-85 -/
  | dispose
  /-- asyncio throws the pending `CancelledError` at the await in progress, and the code called
  there does not catch it -/
  | cancelled
  deriving DecidableEq, Repr

/-- One atomic segment. The disposable's `if task` is always true (a task is truthy). The set `tasks`
only keeps a reference to the task; it is modelled in `Model/IterTasks.lean`. -/
def step (s : State α) : Label α → Option (State α)
  | .start =>
    match s.pc with
    | .fresh => if s.cancelling then some { s with pc := .dead } else some { s with pc := .pulling }
    | _ => none
  | .item v =>
    match s.pc with
    | .pulling => some { s with pc := .sending v, log := s.log ++ [.start (.next v)] }
    | _ => none
  | .stop =>
    match s.pc with
    | .pulling => some { s with pc := .closing, log := s.log ++ [.start .completed] }
    | _ => none
  | .fails _ =>
    match s.pc with
    -- the `try` (91-95) is inside the loop: an exception of the iterable ends the task
    | .pulling => some { s with pc := .dead }
    | _ => none
  | .ret =>
    match s.pc with
    | .sending v => some { s with pc := .pulling, log := s.log ++ [.finish (.next v)] }
    | .rethrowing e => some { s with pc := .dead, log := s.log ++ [.finish (.error e)] }
    | .closing => some { s with pc := .dead, log := s.log ++ [.finish .completed] }
    | _ => none
  | .raise e =>
    match s.pc with
    | .sending v =>
      if e = .cancelled then
        some { s with pc := .dead, log := s.log ++ [.raised (.next v) e] }
      else
        some { s with pc := .rethrowing e, log := s.log ++ [.raised (.next v) e, .start (.error e)] }
    | .rethrowing e' => some { s with pc := .dead, log := s.log ++ [.raised (.error e') e] }
    | .closing => some { s with pc := .dead, log := s.log ++ [.raised .completed e] }
    | _ => none
  | .dispose => some { s with cancelling := true }
  | .cancelled =>
    if s.cancelling then
      match s.pc with
      | .pulling => some { s with pc := .dead, cancelling := false }
      | .sending v => some { pc := .dead, cancelling := false,
                             log := s.log ++ [.raised (.next v) .cancelled] }
      | .rethrowing e => some { pc := .dead, cancelling := false,
                                log := s.log ++ [.raised (.error e) .cancelled] }
      | .closing => some { pc := .dead, cancelling := false,
                           log := s.log ++ [.raised .completed .cancelled] }
      | _ => none
    else none

/-- The values the iterable yielded in a schedule. -/
def items : List (Label α) → List α
  | [] => []
  | .item v :: ls => v :: items ls
  | _ :: ls => items ls

end Aio.OfAsyncIterable
