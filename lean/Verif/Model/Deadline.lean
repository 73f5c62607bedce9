import Verif.Model.Awaitable
import Verif.Model.Clocked
/-!
# `run(source, timeout=...)` on the clock

subscription.py:17-44 with `AsyncAwaitableObserver` (observers.py:249-318), as in `Model/Awaitable.lean`, on one clock with its source.
`asyncio.wait_for(obv, timeout)` (line 44; CPython 3.12, asyncio/tasks.py) with `timeout > 0` makes a timer that is due `timeout` seconds
later, and awaits the future; when the timer is due, the future is cancelled and TimeoutError is raised. With `timeout ≤ 0` it returns
the result of a future that is done, and otherwise cancels it and raises TimeoutError at once (that it waits for the callbacks of the
cancelled future is left out).

The end of `run` is written as a call: `(.next o, t)`, it ended at time `t` with outcome `o`. Its source does not learn here that it has
been disposed.
-/

namespace Aio.Deadline
variable {α : Type}

/-- `deadline`: of the timer, once there is one. -/
structure State (α : Type) where
  now : Nat
  run : RunUntil.State α
  deadline : Option Nat
  over : List (Notif (RunUntil.Outcome α) × Nat)

def init (t : Nat) : State α := ⟨t, RunUntil.init, none, []⟩

inductive Label (α : Type) where
  /-- the source calls the observer -/
  | event (n : Notif α)
  | tick (d : Nat)
  | main (l : RunUntil.Label α)
  deriving DecidableEq, Repr

def pending : Awaitable.Fut α → Bool
  | .pending => true
  | _ => false

/-- `run` goes on as `r`. -/
def State.goOn (s : State α) (r : RunUntil.State α) : State α :=
  { s with run := r, over := match r.phase with
    | .done o => s.over ++ [(.next o, s.now)]
    | _ => s.over }

/-- One atomic segment. -/
def step (timeout : Int) (s : State α) : Label α → Option (State α)
  | .event n => some { s with run := { s.run with obv := Awaitable.step s.run.obv (.call n) } }
  | .tick d => some { s with now := s.now + d }
  | .main .subscribed =>
    match RunUntil.step s.run .subscribed with
    | none => none
    | some r =>
      if timeout ≤ 0 then (RunUntil.step r (if pending r.obv.fut then .timeout else .resume)).map s.goOn
      else some { s with run := r, deadline := some (s.now + timeout.toNat) }
  | .main .timeout =>
    match s.deadline with
    | none => none
    | some w => if w ≤ s.now then (RunUntil.step s.run .timeout).map s.goOn else none
  | .main (.obv _) => none
  | .main l => (RunUntil.step s.run l).map s.goOn

/-- Time passes only when `run` waits for its future or has ended, and not beyond the deadline. (The `subscribe_async` and the
`dispose_async` of the source do not take time.) -/
def prompt (s : State α) : Label α → Bool
  | .tick d =>
    match s.run.phase with
    | .subscribing => false
    | .waiting => pending s.run.obv.fut && (match s.deadline with
      | some w => decide (s.now + d ≤ w)
      | none => true)
    | .disposing _ => false
    | .done _ => true
  | _ => true

/-- The steps of a prompt event loop. -/
def promptStep (timeout : Int) (s : State α) (l : Label α) : Option (State α) :=
  if prompt s l then step timeout s l else none

/-- `run(source, timeout=timeout)` as the last stage of a pipeline. -/
def stage (prompt : Bool) (timeout : Int) : Stage (State α) (Label α) α (RunUntil.Outcome α) where
  init := init
  step := if prompt then promptStep timeout else step timeout
  event := .event
  tick := .tick
  own
    | .event _ | .tick _ => false
    | .main _ => true
  now s := s.now
  calls s := s.over

end Aio.Deadline
