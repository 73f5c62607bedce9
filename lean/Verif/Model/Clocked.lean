import Verif.Model.Interval
import Verif.Model.Delay
import Verif.Model.Debounce
/-!
# Pipelines in which time passes

`pipe(interval(s, p), delay(d), debounce(e), ...)`: the parts of `Model/Interval.lean`, `Model/Delay.lean` and `Model/Debounce.lean` on
one event loop, so with one clock. Each of these parts is connected to the next one by a call that returns without suspending:
`interval` (create.py 215) and `delay` (timeshift.py 71-77) call their observer directly, the observers of `delay` (timeshift.py 85-87)
and of `debounce` (timeshift.py 134-143) only post and start a task.
-/

namespace Aio
variable {S L T M α β : Type}

/-- Time passes, or something happens. -/
inductive Time (L : Type) where
  | pass (d : Nat)
  | act (l : L)
  deriving DecidableEq, Repr

/-- Something that makes calls at certain times. `calls`: all the calls it has made, with their times. -/
structure Clocked (S L α : Type) where
  init : S
  act : S → L → Option S
  pass : S → Nat → Option S
  now : S → Nat
  calls : S → List (Notif α × Nat)

def Clocked.step (q : Clocked S L α) (s : S) : Time L → Option S
  | .pass d => q.pass s d
  | .act l => q.act s l

/-- `interval(seconds, period)`, subscribed at time `t0`; `prompt`: on a loop that is not overloaded (`Interval.promptStep`). -/
def Interval.clocked (prompt : Bool) (t0 : Nat) (seconds period : Int) : Clocked State Label Nat where
  init := init t0
  act s l := if l = .tick then none else step seconds period s l
  pass s d := LTS.run (if prompt then promptStep seconds period else step seconds period) s (List.replicate d .tick)
  now s := s.now
  calls s := s.calls.map fun c => (c.2, c.1)

/-- A stage of such a pipeline: `event n` is the call that it gets, `tick d` the passing of time, `own m` tells which of the segments are
its own. `init t`: subscribed at time `t`. -/
structure Stage (T M α β : Type) where
  init : Nat → T
  step : T → M → Option T
  event : Notif α → M
  tick : Nat → M
  own : M → Bool
  now : T → Nat
  calls : T → List (Notif β × Nat)

/-- `delay(seconds)`, one subscription, with the wall clock in step with the clock of the loop. -/
def Delay.stage (prompt : Bool) (seconds : Nat) : Stage (State α) (Label α) α α where
  init t := ⟨t, t, false, [⟨[], .fresh, [], 0⟩]⟩
  step := if prompt then promptStep seconds else step seconds
  event := .event 0
  tick d := .tick d d
  own
    | .start 0 | .receive 0 | .wake 0 | .ret 0 | .raise 0 | .dispose 0 | .kill 0 => true
    | _ => false
  now s := s.loop
  calls s := match s.subs[0]? with
    | some b => b.delivered
    | none => []

/-- `debounce(seconds)`; the calls are those on its safe observer. -/
def Debounce.stage (prompt : Bool) (seconds : Nat) : Stage (State α) (Label α) α α where
  init t := { init with now := t }
  step := if prompt then promptStep seconds else step seconds
  event := .event
  tick := .tick
  own
    | .event _ | .tick _ => false
    | _ => true
  now s := s.now
  calls s := s.posted

/-- A stage behind a source: the calls that a segment of the source makes reach the stage in the same segment; the clock is common. -/
def Clocked.through (q : Clocked S L α) (o : Stage T M α β) : Clocked (S × T) (L ⊕ M) β where
  init := (q.init, o.init (q.now q.init))
  act s l :=
    match l with
    | .inl l =>
      match q.act s.1 l with
      | none => none
      | some s' => (LTS.run o.step s.2 (((q.calls s').drop (q.calls s.1).length).map fun c => o.event c.1)).map fun t => (s', t)
    | .inr m => if o.own m then (o.step s.2 m).map fun t => (s.1, t) else none
  pass s d :=
    match q.pass s.1 d with
    | none => none
    | some s' => (o.step s.2 (o.tick d)).map fun t => (s', t)
  now s := q.now s.1
  calls s := o.calls s.2

/-- The source's part of a schedule. -/
def Clocked.sources (ls : List (Time (L ⊕ M))) : List (Time L) :=
  ls.filterMap fun
    | .pass d => some (.pass d)
    | .act (.inl l) => some (.act l)
    | .act (.inr _) => none

end Aio
