import Verif.Model.HostedSwitch
/-!
# `of_async` behind `switch_latest`

`flat_map_latest(lambda x: of_async(work(x)))`: as in `Model/Jobs.lean`, but the subscription may be disposed, which cancels the task (create.py:25-32, 53).
-/

namespace Aio.Query
variable {α : Type}

/-- `since`: when the subscription was disposed first (this is not part of the program; it is there to be spoken about). -/
structure State (α : Type) where
  job : Job.State α
  since : Option Nat

inductive Label where
  /-- a segment as in `Model/Jobs.lean` -/
  | job (l : Job.Label)
  /-- `CancelledError` is raised in `await workflow`, create.py:68 -/
  | thrown
  /-- `dispose_async` of the subscription, create.py:28-30 -/
  | dispose
  deriving DecidableEq, Repr

/-- `of_async(workflow)`, subscribed at time `t0`, where the workflow takes `dur` and ends as `r` says unless it is cancelled. A task that is cancelled gets `CancelledError` when it
goes on, also if what it awaited has ended in the meantime; then it only closes the observer (create.py:73-74). Simplified: the workflow does not catch `CancelledError`.
create.py:44-76. -/
def clocked (dur : Nat) (r : Except Err α) (t0 : Nat) : Clocked (State α) Label α where
  init := ⟨(Job.clocked dur r t0).init, none⟩
  act s
    | .job l => if l = .wake ∧ s.job.sub.src.cancelled then none else ((Job.clocked dur r t0).act s.job l).map fun j => { s with job := j }
    | .thrown => if s.job.sub.src.cancelled then (Job.move s.job (.own (.outcome (.error .cancelled)))).map fun j => { s with job := j } else none
    | .dispose => (Job.move s.job .dispose).map fun j => ⟨j, some (s.since.getD s.job.now)⟩
  pass s d := if s.job.sub.src.pc = .awaiting ∧ s.job.sub.src.cancelled then none else ((Job.clocked dur r t0).pass s.job d).map fun j => { s with job := j }
  now s := s.job.now
  calls s := s.job.sent

/-- The task that awaits the workflow (`true`) is scheduled when it is cancelled; the worker of the safe observer (`false`) is not cancelled. create.py:59-76, observers.py:151-199. -/
def host : Host (State α) Label Bool where
  names _ := [true, false]
  need s
    | true => if s.job.sub.src.pc = .awaiting ∧ s.job.sub.src.cancelled then .soon else Job.host.need s.job true
    | false => Job.host.need s.job false
  turn s
    | true => if s.job.sub.src.pc = .awaiting ∧ s.job.sub.src.cancelled then [.thrown] else (Job.host.turn s.job true).map .job
    | false => (Job.host.turn s.job false).map .job
  outside l := l = .dispose

end Aio.Query

namespace Aio
variable {ω α : Type}

/-- `flat_map_latest(lambda x: of_async(work(x)))`: what each value is mapped to. -/
def queries (dur : ω → Nat) (res : ω → Except Err α) (x : ω) (t : Nat) : Clocked (Query.State α) Query.Label α := Query.clocked (dur x) (res x) t

end Aio
