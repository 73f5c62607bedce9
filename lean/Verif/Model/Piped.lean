import Verif.Model.Behind
import Verif.Model.Slow
import Verif.Model.Interval
import Verif.Model.Awaitable
/-!
# Operators behind any source, and `run` at the end

`pipe(source, op1, ..., opn)` where `source` is anything that makes calls: a source of create.py, an interval, `merge_inner`,
`switch_latest`, `flat_map(f)`, or such a pipeline itself. The parts are modelled elsewhere; here what one of them sends is fed to
the next one, and all interleavings of their segments are executions.
-/

namespace Aio
variable {S L FS FL α β ω γ : Type}

/-- Something that makes calls on an observer, or posts to it: its atomic segments, and all calls made so far. -/
structure Source (S L α : Type) where
  init : S
  step : S → L → Option S
  out : S → List (Notif α)

/-- Calls are not taken back. -/
structure Source.Grows (q : Source S L α) : Prop where
  init : q.out q.init = []
  step : ∀ s l s', q.step s l = some s' → q.out s <+: q.out s'

/-- A task that posts to the safe observer which is the first stage of the pipeline (create.py 44-56, combine.py 52-157, transform.py
248-344). `none`: somebody disposes the subscription. -/
def Producer.source (p : Producer S L α) : Source (S × List (Notif α)) (Option L) α where
  init := (p.init, [])
  step s
    | none => some (p.dispose s.1, s.2)
    | some l => (p.step s.1 l).map fun r => (r.1, s.2 ++ r.2)
  out s := s.2

/-- `interval` and `timer`, create.py 202-236; they call the observer directly. -/
def Interval.source (t0 : Nat) (seconds period : Int) : Source Interval.State Interval.Label Nat where
  init := Interval.init t0
  step := Interval.step seconds period
  out s := s.calls.map (·.2)

/-- `merge_inner` or `switch_latest` behind something else: `flat_map(f)` and so on, `Model/Behind.lean`. -/
def Behind.source (f : Feeder FS FL ω) (q : Producer S (Merge.Label ω α) α) : Source (Behind.State FS S α) (Behind.Label FL ω α) α where
  init := Behind.start f q
  step := Behind.step f q
  out s := s.back.posts

namespace Piped

/-- The source, the pipeline's workers and the code in the source's task (`Model/Slow.lean`: every call and every post is a segment
of its own), and the calls made on the final observer. -/
structure State (S : Type) (c : Chain α γ) where
  src : S
  ps : c.compileSlow.SlowSt
  outs : List (Notif γ)

inductive Label (L : Type) (c : Chain α γ) where
  | source (l : L)
  | worker (l : c.compileSlow.SlowLab)

def init (q : Source S L α) (c : Chain α γ) : State S c := ⟨q.init, c.slowProc.init, []⟩

/-- One atomic segment. The calls that a segment of the source makes are handed to the pipeline in order. Simplified: nothing is said
here about who disposes the source and when (observers.py 178, 182, 218-226); the source has labels for that, they may occur at
any time. -/
def step (q : Source S L α) (c : Chain α γ) (s : State S c) : Label L c → Option (State S c)
  | .source l =>
    match q.step s.src l with
    | none => none
    | some t =>
      let r := c.slowProc.feedAll s.ps ((q.out t).drop (q.out s.src).length)
      some ⟨t, r.1, s.outs ++ r.2⟩
  | .worker l =>
    match c.slowProc.step s.ps l with
    | none => none
    | some (t, o) => some { s with ps := t, outs := s.outs ++ o }

/-- The source's part of a schedule. -/
def sources {c : Chain α γ} (ls : List (Label L c)) : List L := ls.filterMap fun | .source l => some l | .worker _ => none

end Piped

/-- A pipeline is a source again. -/
def Source.pipe (q : Source S L α) (c : Chain α γ) : Source (Piped.State S c) (Piped.Label L c) γ where
  init := Piped.init q c
  step := Piped.step q c
  out s := s.outs

/-- A source in front of `merge_inner` or `switch_latest`: `pipe(source, flat_map(f))`. -/
def Source.feeder (q : Source S L ω) : Feeder S L ω where
  init := q.init
  step s l := (q.step s l).map fun t => (t, (q.out t).drop (q.out s).length)

namespace Running

/-- `run(source)`: the source and what `RunUntil` is about, subscription.py 17-44. -/
structure State (S γ : Type) where
  src : S
  run : RunUntil.State γ

inductive Label (L γ : Type) where
  | source (l : L)
  | main (l : RunUntil.Label γ)

def init (q : Source S L γ) : State S γ := ⟨q.init, RunUntil.init⟩

/-- The calls of the source are made on the awaitable observer; nobody else calls it. -/
def step (q : Source S L γ) (s : State S γ) : Label L γ → Option (State S γ)
  | .source l => (q.step s.src l).map fun t =>
      ⟨t, { s.run with obv := Awaitable.run s.run.obv (((q.out t).drop (q.out s.src).length).map .call) }⟩
  | .main (.obv _) => none
  | .main l => (RunUntil.step s.run l).map fun r => { s with run := r }

/-- The source's part of a schedule. -/
def sources (ls : List (Label L γ)) : List L := ls.filterMap fun | .source l => some l | .main _ => none

end Running
end Aio
