import Verif.Model.Safe
import Verif.Model.Clocked
/-!
# An observer that takes its time

observers.py:151-199 on a clock: the worker of `safe_observer` (`Model/Safe.lean`) in front of an observer whose `asend` takes time, as a
stage behind any source.
-/

namespace Aio.Busy
variable {α : Type}

/-- The safe observer, the clock, the time at which the await in hand ends, and the calls on the observer with the times at which they
begin. -/
structure State (α : Type) where
  safe : Safe.State α
  now : Nat
  due : Nat
  sent : List (Notif α × Nat)

/-- `event`: a call on the safe observer, 190-197; `receive`, `ret`: the worker takes a message; what it awaits is over; `tick`: time passes. -/
inductive Label (α : Type) where
  | event (n : Notif α)
  | receive
  | ret
  | tick (d : Nat)
  deriving DecidableEq, Repr

/-- The worker has come to its next await: in `m i v` the time that the `i`-th call on the observer takes if it is `asend(v)` (line 173), and
the exception it raises at the end, if any; `gone`: the time that the disposable takes (178, 182). Simplified: the last call (175, 179 or 183)
takes no time; nothing follows. -/
def arrive (m : Nat → α → Nat × Option Err) (gone : Nat) (s : State α) (t : Safe.State α) : State α where
  safe := t
  now := s.now
  due := s.now + match t.pc with
    | .sending v => (m s.sent.length v).1
    | .disposing _ => gone
    | _ => 0
  sent := s.sent ++ ((Safe.calls t.log).drop (Safe.calls s.safe.log).length).map fun n => (n, s.now)

/-- How the await in hand ends. -/
def ending (m : Nat → α → Nat × Option Err) (s : State α) : Safe.Label α :=
  match s.safe.pc with
  | .sending v =>
    match (m (s.sent.length - 1) v).2 with
    | none => .ret
    | some e => .raise e
  | _ => .ret

/-- The worker does not wait until `d` later. -/
def ready (s : State α) (d : Nat) : Bool :=
  match s.safe.pc with
  | .waiting => !s.safe.inbox.isEmpty
  | .halted => false
  | _ => s.due < s.now + d

/-- On a loop that is not overloaded. -/
def step (m : Nat → α → Nat × Option Err) (gone : Nat) (s : State α) : Label α → Option (State α)
  | .event n => (Safe.step s.safe (.post n)).map fun t => { s with safe := t }
  | .receive => (Safe.step s.safe .receive).map (arrive m gone s)
  | .ret => if s.due ≤ s.now then (Safe.step s.safe (ending m s)).map (arrive m gone s) else none
  | .tick d => if ready s d then none else some { s with now := s.now + d }

/-- `safe_observer(obv, disposable)` as the last stage of a pipeline; its calls are those on `obv`. -/
def stage (m : Nat → α → Nat × Option Err) (gone : Nat) : Stage (State α) (Label α) α α where
  init t := ⟨Safe.init, t, t, []⟩
  step := step m gone
  event := .event
  tick := .tick
  own
    | .receive | .ret => true
    | _ => false
  now s := s.now
  calls s := s.sent

end Aio.Busy

namespace Aio.Interval

/-- `interval` with the time at which the call in hand on its observer returns. -/
structure Paced where
  st : State
  due : Nat

/-- create.py:202-227 with an observer whose `asend(k)` takes `e k`, on a loop that is not overloaded; `interval` calls its observer directly
(215). Nobody disposes, no call raises. -/
def pacedStep (seconds period : Int) (e : Nat → Nat) (s : Paced) : Label → Option Paced
  | .tick =>
    match s.st.pc with
    | .sleeping w _ => if w ≤ s.st.now then none else (step seconds period s.st .tick).map fun t => ⟨t, s.due⟩
    | .sending _ => if s.due ≤ s.st.now then none else (step seconds period s.st .tick).map fun t => ⟨t, s.due⟩
    | .dead => (step seconds period s.st .tick).map fun t => ⟨t, s.due⟩
    | _ => none
  | .start => (step seconds period s.st .start).map fun t => ⟨t, s.due⟩
  | .wake =>
    (step seconds period s.st .wake).map fun t =>
      match t.pc with
      | .sending k => ⟨t, t.now + e k⟩
      | _ => ⟨t, s.due⟩
  | .ret =>
    match s.st.pc with
    | .sending _ => if s.due ≤ s.st.now then (step seconds period s.st .ret).map fun t => ⟨t, s.due⟩ else none
    | _ => (step seconds period s.st .ret).map fun t => ⟨t, s.due⟩
  | _ => none

end Aio.Interval
