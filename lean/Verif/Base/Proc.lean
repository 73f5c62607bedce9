import Verif.Base.Py
/-!
# Mailbox agents and asynchronous processes

`Agent` is the body of a mailbox worker: a state and a handler that consumes one message and
produces outputs. `Proc` is an asynchronous process: the environment may `feed` it an input at any
time (posting never blocks) and the scheduler may choose any enabled internal step at any time.
An execution is a list of such events; the theorems quantify over all of them.
-/

namespace Aio

/-- A message handler with state. -/
structure Agent (S ι ο : Type) where
  init : S
  recv : S → ι → S × List ο

namespace Agent
variable {S σ α ι μ ο : Type}

/-- Process a list of messages. -/
def run (a : Agent S ι ο) : S → List ι → S × List ο
  | s, [] => (s, [])
  | s, i :: is =>
    let r := a.recv s i
    let r' := a.run r.1 is
    (r'.1, r.2 ++ r'.2)

/-- The function from input sequences to output sequences computed by the handler. -/
def fn (a : Agent S ι ο) (is : List ι) : List ο := (a.run a.init is).2

/-- The agent that passes everything on. -/
def id : Agent Unit ι ι := ⟨(), fun _ i => ((), [i])⟩

/-- An observer called directly by its producer (no mailbox): the three methods are run one call
at a time, exceptions go to the caller (and are invisible here). -/
def ofObserver (obv : Observer σ ο α) (s0 : σ) : Agent σ (Notif α) ο where
  init := s0
  recv s n := ((obv.accept n s).st, (obv.accept n s).out)

end Agent

/-- An asynchronous process. -/
structure Proc (St Lab ι ο : Type) where
  init : St
  /-- the environment hands in an input (a call that runs to completion); this may already produce
  outputs -/
  feed : St → ι → St × List ο
  /-- one internal step chosen by the scheduler; `none`: not enabled -/
  step : St → Lab → Option (St × List ο)

namespace Proc
variable {S St St' Lab Lab' ι μ ο : Type}

/-- What can happen to a process: a call from outside or an internal step. -/
inductive Ev (ι Lab : Type) where
  | feed (i : ι)
  | step (l : Lab)

/-- The inputs handed in during an execution, in order. -/
def inputs : List (Ev ι Lab) → List ι
  | [] => []
  | .feed i :: es => i :: inputs es
  | .step _ :: es => inputs es

/-- Execute a list of events; `none` if a step was not enabled. The result is the final state and
all outputs in order. -/
def exec (p : Proc St Lab ι ο) : St → List (Ev ι Lab) → Option (St × List ο)
  | s, [] => some (s, [])
  | s, .feed i :: es =>
    match p.exec (p.feed s i).1 es with
    | none => none
    | some (s'', o') => some (s'', (p.feed s i).2 ++ o')
  | s, .step l :: es =>
    match p.step s l with
    | none => none
    | some (s', o) =>
      match p.exec s' es with
      | none => none
      | some (s'', o') => some (s'', o ++ o')

/-- The outputs of an execution from the start. -/
def outputs (p : Proc St Lab ι ο) (es : List (Ev ι Lab)) : Option (List ο) :=
  (p.exec p.init es).map (·.2)

/-- Nothing is left to do (until the environment calls again). -/
def Quiescent (p : Proc St Lab ι ο) (s : St) : Prop := ∀ l, p.step s l = none

/-- "Under every schedule the outputs are a prefix of `f inputs`, and when nothing is left to do
they are exactly `f inputs`." -/
def Implements (p : Proc St Lab ι ο) (f : List ι → List ο) : Prop :=
  ∀ es s out, p.exec p.init es = some (s, out) →
    out <+: f (inputs es) ∧ (p.Quiescent s → out = f (inputs es))

/-- "No schedule can run forever without new input": the step relation is well-founded. -/
def Terminates (p : Proc St Lab ι ο) : Prop :=
  ∀ s, Acc (fun s' s => ∃ l o, p.step s l = some (s', o)) s

/-- A worker behind a mailbox. State: the queue and the worker's state. The only internal step is
"take the oldest message and handle it". -/
def mailbox (a : Agent S ι ο) : Proc (List ι × S) Unit ι ο where
  init := ([], a.init)
  feed s i := ((s.1 ++ [i], s.2), [])
  step s _ :=
    match s with
    | ([], _) => none
    | (i :: q, t) => some ((q, (a.recv t i).1), (a.recv t i).2)

/-- Code that runs in the caller's task: no internal steps. -/
def direct (a : Agent S ι ο) : Proc S Empty ι ο where
  init := a.init
  feed s i := a.recv s i
  step _ l := nomatch l

/-- Hand in several inputs one after the other. -/
def feedAll (p : Proc St Lab ι ο) : St → List ι → St × List ο
  | s, [] => (s, [])
  | s, i :: is => ((feedAll p (p.feed s i).1 is).1, (p.feed s i).2 ++ (feedAll p (p.feed s i).1 is).2)

/-- Sequential composition: outputs of `p` are handed to `q` at once; the scheduler may interleave
internal steps of both in any way. -/
def seq (p : Proc St Lab ι μ) (q : Proc St' Lab' μ ο) : Proc (St × St') (Lab ⊕ Lab') ι ο where
  init := (p.init, q.init)
  feed s i :=
    let r := p.feed s.1 i
    let r' := q.feedAll s.2 r.2
    ((r.1, r'.1), r'.2)
  step s l :=
    match l with
    | .inl l =>
      match p.step s.1 l with
      | none => none
      | some (s', o) => some ((s', (q.feedAll s.2 o).1), (q.feedAll s.2 o).2)
    | .inr l =>
      match q.step s.2 l with
      | none => none
      | some (t, o) => some ((s.1, t), o)

end Proc
end Aio
