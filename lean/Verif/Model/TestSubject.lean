import Verif.Model.VirtualTime
import Verif.Base.Notif
/-!
# The test subjects' timed methods

`aioreactive/testing/subject.py:12-114` (`AsyncSubjectBase`) on `VirtualTimeEventLoop`: `asend_at`,
`athrow_at`, `aclose_at`, and `asend_later_scheduled`, `athrow_later_scheduled`,
`close_later_scheduled`. A *job* is one call of such a method. `self.asend(..)`, `self.athrow(..)`,
`self.aclose()` themselves may suspend arbitrarily long and raise (`AsyncSubject` and
`AsyncSingleSubject` are modelled in `Model/Subject.lean` and `Model/Single.lean`); recorded is when
they are called.

The event loop is `Model/VirtualTime.lean`. `asyncio.ensure_future` makes a task whose first step is
a `call_soon` handle; `asyncio.sleep(d)` is, for `d ≤ 0`, a bare yield (a `call_soon` handle for the
next step) and otherwise a timer, whose callback sets the result of a future, whose callback is
a `call_soon` handle for the next step of the task (CPython 3.12, asyncio/tasks.py, futures.py).
-/

namespace Aio.TestSubject
variable {α : Type}
open Aio.VirtualTime (Heap)

/-- Which method was called. -/
inductive Kind where
  /-- `.._at(when, ..)` -/
  | at (w : Int)
  /-- `.._later_scheduled(delay, ..)` -/
  | later (d : Int)
  deriving DecidableEq, Repr

inductive St where
  /-- `call_at(when, callback)` was called: 36, 67, 98 -/
  | scheduled
  /-- the task was made (33, 51, 64, 83, 95, 113) and has not run yet -/
  | created
  /-- inside `asyncio.sleep` (46, 78, 108), waiting for the timer -/
  | sleeping
  /-- the sleep is over, the task is about to go on -/
  | resumed
  /-- inside `await self.asend(value)` etc. (27, 47, 58, 79, 90, 109) -/
  | sending
  /-- the task has returned -/
  | finished
  /-- the task has ended with an exception -/
  | failed
  deriving DecidableEq, Repr

structure Job (α : Type) where
  ev : Notif α
  kind : Kind
  /-- when the method was called -/
  made : Int
  st : St
  /-- the handle in the event loop that leads on -/
  handle : Option Nat
  /-- whether the variable `task` that `worker` sees is set (28, 48, 59, 80, 91, 110) -/
  var : Bool
  /-- whether the task is in `_running_tasks` -/
  inSet : Bool
  deriving DecidableEq, Repr

structure State (α : Type) where
  vt : VirtualTime.State
  jobs : List (Job α)
  /-- calls of `self.asend`, `self.athrow`, `self.aclose` by jobs: job, event, time -/
  sent : List (Nat × Notif α × Int)
  deriving DecidableEq, Repr

def init : State α := ⟨VirtualTime.init, [], []⟩

inductive Label (α : Type) where
  /-- `asend_at(when, value)`, `athrow_at(when, err)`, `aclose_at(when)` -/
  | sendAt (n : Notif α) (w : Int)
  /-- `asend_later_scheduled(delay, value)` etc. -/
  | sendLater (n : Notif α) (d : Int)
  /-- the event loop and other code in it, except the start of a callback -/
  | loop (l : VirtualTime.Label)
  /-- the event loop starts the next callback -/
  | next
  /-- `self.asend(..)` of job `j` returns, and the rest of `worker` runs -/
  | ret (j : Nat)
  /-- it raises -/
  | raise (j : Nat)
  deriving DecidableEq, Repr

/-- Whether `callback` assigns the variable `task` of the method: it does in `asend_at` and
`athrow_at` (`nonlocal task`, 32, 63) and does not in `aclose_at` (95: a variable of `callback`). -/
def callbackAssigns : Notif α → Bool
  | .next _ => true
  | .error _ => true
  | .completed => false

/-- `await self.asend(value)` of job `j` begins. -/
def State.send (s : State α) (j : Nat) (b : Job α) : State α :=
  { s with
    jobs := s.jobs.set j { b with st := .sending, handle := none }
    sent := s.sent ++ [(j, b.ev, s.vt.time)] }

/-- The callback that the loop has just started belongs to job `j`. -/
def State.runJob (h : Heap) (s : State α) (j : Nat) (b : Job α) : Option (State α) :=
  match b.st with
  | .scheduled =>
    -- `callback`: 31-34, 62-65, 94-96
    (VirtualTime.step h s.vt .callSoon).map fun vt => { s with
      vt
      jobs := s.jobs.set j { b with st := .created, handle := some s.vt.made.length, var := callbackAssigns b.ev, inSet := true } }
  | .created =>
    match b.kind with
    | .at _ => some (s.send j b)
    | .later d =>
      if d ≤ 0 then
        (VirtualTime.step h s.vt .callSoon).map fun vt => { s with
          vt
          jobs := s.jobs.set j { b with st := .resumed, handle := some s.vt.made.length } }
      else
        (VirtualTime.step h s.vt (.callAt (s.vt.time + d))).map fun vt => { s with
          vt
          jobs := s.jobs.set j { b with st := .sleeping, handle := some s.vt.made.length } }
  | .sleeping =>
    (VirtualTime.step h s.vt .callSoon).map fun vt => { s with
      vt
      jobs := s.jobs.set j { b with st := .resumed, handle := some s.vt.made.length } }
  | .resumed => some (s.send j b)
  | _ => none

/-- Labels of the event loop that other code may cause. The handles of the jobs are not known to
others, so nobody cancels them. -/
def allowed (s : State α) : VirtualTime.Label → Bool
  | .cancel i => s.jobs.all fun b => b.handle != some i
  | .next => false
  | _ => true

/-- One atomic segment. -/
def step (h : Heap) (s : State α) : Label α → Option (State α)
  | .sendAt n w =>
    (VirtualTime.step h s.vt (.callAt w)).map fun vt => { s with
      vt
      jobs := s.jobs ++ [⟨n, .at w, s.vt.time, .scheduled, some s.vt.made.length, false, false⟩] }
  | .sendLater n d =>
    -- `task = ensure_future(worker())` assigns the method's variable: 51, 83, 113
    (VirtualTime.step h s.vt .callSoon).map fun vt => { s with
      vt
      jobs := s.jobs ++ [⟨n, .later d, s.vt.time, .created, some s.vt.made.length, true, true⟩] }
  | .loop l =>
    if allowed s l then (VirtualTime.step h s.vt l).map fun vt => { s with vt } else none
  | .next =>
    match VirtualTime.step h s.vt .next, s.vt.ready with
    | some vt, (i, _) :: _ =>
      let s' := { s with vt }
      if vt.inCallback then
        match s.jobs.findIdx? fun b => b.handle == some i with
        | some j =>
          match s.jobs[j]? with
          | some b => s'.runJob h j b
          | none => none
        | none => some s'
      else some s'
    | _, _ => none
  | .ret j =>
    match s.jobs[j]? with
    | some b =>
      if b.st = .sending then
        -- `if task: self._running_tasks.remove(task)`
        some { s with jobs := s.jobs.set j { b with st := .finished, inSet := b.inSet && !b.var } }
      else none
    | none => none
  | .raise j =>
    match s.jobs[j]? with
    | some b => if b.st = .sending then some { s with jobs := s.jobs.set j { b with st := .failed } } else none
    | none => none

end Aio.TestSubject
