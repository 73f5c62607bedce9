import Verif.Model.Nested
/-!
# `of_async` on a clock

create.py:59-76 behind `merge_inner`: `flat_map(lambda x: of_async(work(x)))`, as in examples/parallel/parallel.py:29-39. The workflow is a
coroutine that takes some time from when it is awaited.
-/

namespace Aio.Job
variable {ω α : Type}

/-- `sub`: the task, the safe observer and its worker (`Model/Create.lean`); `due`: when the workflow will have ended, once it has been awaited;
`sent`: the calls on the subscriber's observer. -/
structure State (α : Type) where
  sub : Producer.State OfAsync.St α
  now : Nat
  due : Nat
  sent : List (Notif α × Nat)

/-- Simplified: nobody disposes the subscription (`merge_inner` does so only when it is disposed itself or its source fails), and the calls
on the observer do not raise (that of `merge_inner` only posts, combine.py:70-77). -/
inductive Label where
  /-- the task begins and awaits the workflow, create.py:68 -/
  | start
  /-- the workflow has ended; the task goes on, 68-74 -/
  | wake
  /-- the safe observer's worker takes a message; what it awaits returns -/
  | receive
  | ret
  deriving DecidableEq, Repr

/-- A segment of the subscription, and the calls that it makes. -/
def move (s : State α) (l : Producer.Label (OfAsync.Lab α)) : Option (State α) :=
  match (ofAsync true).next s.sub l with
  | none => none
  | some t => some { s with sub := t, sent := s.sent ++ (t.received.drop s.sub.received.length).map fun n => (n, s.now) }

/-- A task that has not begun or a worker with something to do. -/
def busy (s : State α) : Bool :=
  s.sub.src.pc = .fresh ||
    match s.sub.safe.pc with
    | .halted => false
    | .waiting => !s.sub.safe.inbox.isEmpty
    | _ => true

/-- `of_async(workflow)`, subscribed at time `t0`, where the workflow takes `dur` and ends as `r` says; on a loop that is not overloaded, so
that no time passes while a task is ready. -/
def clocked (dur : Nat) (r : Except Err α) (t0 : Nat) : Clocked (State α) Label α where
  init := ⟨(ofAsync true).start, t0, 0, []⟩
  act s
    | .start => move { s with due := s.now + dur } (.own .start)
    | .wake => if s.due ≤ s.now then move s (.own (.outcome r)) else none
    | .receive => move s .receive
    | .ret => move s .ret
  pass s d := if busy s || (s.sub.src.pc = .awaiting && s.due < s.now + d) then none else some { s with now := s.now + d }
  now s := s.now
  calls s := s.sent

end Aio.Job

namespace Aio
variable {ω α : Type}

/-- `flat_map(lambda x: of_async(work(x)))`: what each value is mapped to. -/
def jobs (dur : ω → Nat) (res : ω → Except Err α) (x : ω) (t : Nat) : Clocked (Job.State α) Job.Label α := Job.clocked (dur x) (res x) t

end Aio
