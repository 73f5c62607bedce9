import Verif.Model.Nested
import Verif.Model.Timed
import Verif.Model.Slow
import Verif.Model.Autocomplete
/-!
# `flat_map` of observables that are themselves made with `flat_map`

`flat_map(f)` is `map(f)` followed by `merge_inner()` (transform.py:151-169). `Clocked.flatMapped` is again something that makes calls at certain times, so that it
can be the source or an inner observable of another `flat_map`.
-/

namespace Aio
variable {S L SO LO SI LI ω α : Type}

/-- Only with the steps that are `ok`, and time passes only when `rest`. -/
def Clocked.only (q : Clocked S L α) (rest : S → Bool) (ok : L → Bool) : Clocked S L α where
  init := q.init
  act s l := if ok l then q.act s l else none
  pass s d := if rest s then q.pass s d else none
  now := q.now
  calls := q.calls

namespace FlatMap

/-- The safe observer of `merge_inner` (combine.py:59) and the worker behind it. observers.py:151-199. -/
abbrev safe : Operator α α := Operator.id

/-- The segments of that worker: it takes a message; what it awaits returns. -/
def segments : List (safe (α := α)).protected.compileSlow.SlowLab := [.inl (), .inr ()]

abbrev State (SO SI ω α : Type) := Nested SO (Merge.State ω) SI ω α × Timed (safe (α := α)).protected.compileSlow.SlowSt (Notif α) (Notif α)
abbrev Label (LO LI ω α : Type) := Nested.Label LO LI ω α ⊕ (safe (α := α)).protected.compileSlow.SlowLab

/-- The worker of `merge_inner` has nothing to do (combine.py:81-131). -/
def settled (s : Merge.State ω) : Bool :=
  match s.pc with
  | .halted => true
  | .waiting => s.inbox.isEmpty
  | _ => false

/-- Neither that worker nor the one of the safe observer has anything to do. -/
def rest (s : State SO SI ω α) : Bool := settled s.1.prod && segments.all fun l => ((safe (α := α)).protected.slowProc.step s.2.ps l).isNone

/-- Simplified: nobody disposes, and no `subscribe_async` or `dispose_async` raises. -/
def ok : Label LO LI ω α → Bool
  | .inl (.own .cancel) | .inl (.own .subscribeFails) | .inl (.own .disposeFails) => false
  | _ => true

end FlatMap

/-- `pipe(o, flat_map(f))`, on a loop that is not overloaded. transform.py:151-169, combine.py:52-157. `fam x t` is the observable `f(x)`, subscribed at the time `t`. Simplified: `f` does not
raise; it is called in the segment in which the source sends `x` (`map`, transform.py:102-103, calls `merge_inner`'s observer, which only posts). -/
def Clocked.flatMapped (o : Clocked SO LO ω) (fam : ω → Nat → Clocked SI LI α) : Clocked (FlatMap.State SO SI ω α) (FlatMap.Label LO LI ω α) α :=
  ((o.merged fam 0).operate (FlatMap.safe (α := α)).protected.slowProc).only FlatMap.rest FlatMap.ok

/-- `pipe(o, map(f), merge_inner(max_concurrent))` on any loop, with anything that may fail and with `dispose_async` at any time; `flat_map(f)` with `max_concurrent` 0, the concatenation with 1. -/
def Clocked.flattened (o : Clocked SO LO ω) (fam : ω → Nat → Clocked SI LI α) (maxConcurrent : Int) : Clocked (FlatMap.State SO SI ω α) (FlatMap.Label LO LI ω α) α :=
  (o.merged fam maxConcurrent).operate (FlatMap.safe (α := α)).protected.slowProc

/-- `pipe(o, flat_map_latest(f))` on any loop, with anything that may fail and with `dispose_async` at any time. transform.py:366-381, 248-344. Simplified as `flatMapped`; an inner
observable whose `dispose_async` has returned sends no further values or errors. -/
def Clocked.flatMappedLatest (o : Clocked SO LO ω) (fam : ω → Nat → Clocked SI LI α) :
    Clocked (Nested SO (Switch.State ω) SI ω α × Timed (FlatMap.safe (α := α)).protected.compileSlow.SlowSt (Notif α) (Notif α)) (FlatMap.Label LO LI ω α) α :=
  (o.switched fam true).operate (FlatMap.safe (α := α)).protected.slowProc

/-- `interval(seconds, period)`, also `timer(seconds)` (`period` 0), subscribed at the time `t`, if nobody disposes it and the observer does not raise. create.py:202-236. -/
def FlatMap.intervals (seconds period : Int) (t : Nat) : Clocked Interval.State Interval.Label Nat :=
  (Interval.clocked true t seconds period).only (fun _ => true) fun
    | .dispose | .raise _ => false
    | _ => true

end Aio
