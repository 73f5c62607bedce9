import Verif.Model.Create

/-!
# The set `tasks` of `of_async_iterable`

`of_async_iterable` keeps the tasks of its subscriptions in a set shared by all of them, so that they
are not collected while they run. The workers are those of `Aio.OfAsyncIterable`.
-/

namespace Aio.IterTasks
variable {α : Type}

/-- create.py:79-80. Subscription number `i` is the `i`-th call of `subscribe_async`, and names its
task. -/
structure State (α : Type) where
  /-- the workers, one per subscription. create.py:89-98 -/
  subs : List (OfAsyncIterable.State α)
  /-- the set `tasks`, 80 -/
  tasks : List Nat
  /-- the workers whose `tasks.remove(task)` raised `KeyError` -/
  missing : List Nat
  deriving Repr

/-- create.py:80. -/
def init : State α := ⟨[], [], []⟩

inductive Label (α : Type) where
  /-- a call of `subscribe_async`, 82-107 -/
  | subscribe
  /-- a segment of the worker of subscription `i`, or the disposal of that subscription -/
  | at (i : Nat) (l : OfAsyncIterable.Label α)
  deriving DecidableEq, Repr

/-- `tasks.remove(task)`, create.py:98. -/
def remove (s : State α) (i : Nat) : State α :=
  if i ∈ s.tasks then { s with tasks := s.tasks.filter (· != i) }
  else { s with missing := s.missing ++ [i] }

/-- One atomic segment. `create_task` and `tasks.add` (101-106) are one segment, without an await
between them; `create_task` does not raise inside a running loop. `tasks.remove` runs in the segment
in which `await observer.aclose()` (97) returns, and in no other. -/
def step (s : State α) : Label α → Option (State α)
  | .subscribe =>
    some { s with subs := s.subs ++ [OfAsyncIterable.init], tasks := s.tasks ++ [s.subs.length] }
  | .at i l =>
    match s.subs[i]? with
    | none => none
    | some w =>
      match OfAsyncIterable.step w l with
      | none => none
      | some w' =>
        let s' := { s with subs := s.subs.set i w' }
        match l, w.pc with
        | .ret, .closing => some (remove s' i)
        | _, _ => some s'

end Aio.IterTasks
