import Verif.Model.Create
/-!
# Several subscriptions of one `of_async`

create.py:59-76: `of_async(workflow)` closes over one awaitable, and the worker of every subscription awaits it. Awaiting a
coroutine object a second time raises `RuntimeError` (at once, whether it is still running or finished); a future or task
can be awaited by anyone at any time, and a task that is cancelled while it awaits a future cancels that future.
-/

namespace Aio.SharedAwait
variable {α : Type}

inductive Kind where
  | coroutine
  | future
  deriving DecidableEq, Repr

/-- One subscription's worker. -/
inductive Sub (α : Type) where
  | fresh
  /-- at `await workflow`, 68 -/
  | awaiting
  /-- past it, with what came out of the await -/
  | got (r : Except Err α)

/-- `awaited`: the coroutine object was awaited once; `result`: how the workflow ended. -/
structure State (α : Type) where
  kind : Kind
  awaited : Bool
  result : Option (Except Err α)
  subs : List (Sub α)

def init (kind : Kind) : State α := ⟨kind, false, none, []⟩

inductive Label (α : Type) where
  /-- somebody subscribes -/
  | subscribe
  /-- the worker of a subscription begins -/
  | start (i : Nat)
  /-- the workflow returns or raises -/
  | outcome (r : Except Err α)
  /-- the worker of a subscription goes on -/
  | resume (i : Nat)
  /-- the subscription is disposed while its worker awaits, and the token cancels the task -/
  | cancel (i : Nat)

def Sub.isAwaiting : Sub α → Bool
  | .awaiting => true
  | _ => false

def step (s : State α) : Label α → Option (State α)
  | .subscribe => some { s with subs := s.subs ++ [.fresh] }
  | .start i =>
    match s.subs[i]? with
    | some .fresh =>
      match s.kind with
      | .coroutine =>
        if s.awaited then some { s with subs := s.subs.set i (.got (.error .runtimeError)) }
        else some { s with awaited := true, subs := s.subs.set i .awaiting }
      | .future =>
        match s.result with
        | some r => some { s with subs := s.subs.set i (.got r) }
        | none => some { s with subs := s.subs.set i .awaiting }
    | _ => none
  | .outcome r =>
    match s.result with
    | some _ => none
    | none =>
      match s.kind with
      -- a coroutine object runs only while it is awaited
      | .coroutine => if s.subs.any Sub.isAwaiting then some { s with result := some r } else none
      | .future => some { s with result := some r }
  | .resume i =>
    match s.subs[i]?, s.result with
    | some .awaiting, some r => some { s with subs := s.subs.set i (.got r) }
    | _, _ => none
  | .cancel i =>
    match s.subs[i]?, s.result with
    | some .awaiting, none => some { s with result := some (.error .cancelled) }
    | _, _ => none

/-- What the worker of subscription `i` has posted to its safe observer. 66-74 -/
def State.posts (s : State α) (i : Nat) : List (Notif α) :=
  match s.subs[i]? with
  | some (.got r) => (OfAsync.after r false).out
  | _ => []

end Aio.SharedAwait
