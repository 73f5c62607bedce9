import Verif.Model.HostedNested
/-!
# `switch_latest` on the `VirtualTimeEventLoop`

The worker of `switch_latest` (transform.py:282-315) is one task; it disposes the previous inner observable, which cancels the tasks of that observable.
-/

namespace Aio
variable {SO LO TO SI LI TI ω α : Type}

/-- The task of `interval(seconds, period)`, which other code may cancel by disposing the subscription (create.py:25-32): then it ends when it goes on. `CancelledError` is
raised in the sleep, or in the call of the observer if that has given way to other tasks (simplified: the observer does not catch it). create.py:202-236. -/
def Interval.cancellable : Host State Label Unit where
  names _ := [()]
  need s _ :=
    match s.pc with
    | .fresh => .soon
    | .sleeping w _ => if s.cancelling then .soon else .until w
    | .sending _ => .soon
    | .closing => .soon
    | .dead => .nothing
  turn s _ :=
    match s.pc with
    | .fresh => [.start]
    | .sleeping _ _ => if s.cancelling then [.thrown] else [.wake]
    | .sending _ => if s.cancelling then [.thrown] else [.ret]
    | .closing => if s.cancelling then [.thrown] else [.ret]
    | .dead => []
  outside l := l = .dispose

/-- The task of the worker: it waits for a message, or for a `subscribe_async` or `dispose_async` that it awaits. Simplified: these do not wait for anything
but may give way to other tasks. transform.py:282-315. -/
def Switch.turn (s : Switch.State ω) : List (Merge.Label ω α) :=
  match s.pc with
  | .waiting => if s.inbox.isEmpty then [] else [.receive]
  | .replacing _ _ => [.disposed]
  | .subscribing => [.subscribed]
  | .disposing _ => [.disposed]
  | .halted => []

/-- The inner observable whose `dispose_async` the worker awaits, by its place among those that were subscribed. transform.py:293, 308. -/
def Switch.replaced (s : Switch.State ω) : Option Nat :=
  match s.pc with
  | .replacing old _ => some (old - 1)
  | .disposing old => some (old - 1)
  | _ => none

/-- `disp`: the segment of an inner observable that `dispose_async` of its subscription causes. -/
def Nested.disposing (disp : LI) (s : Nested SO (Switch.State ω) SI ω α) : Nested.Label LO LI ω α → List (Nested.Label LO LI ω α)
  | .own .disposed =>
    match Switch.replaced s.prod with
    | some k => [.inner k disp, .own .disposed]
    | none => [.own .disposed]
  | l => [l]

/-- `switch_latest`, where the `dispose_async` that the worker awaits disposes the inner observable. `honour` as in `Model/Switch.lean`. -/
def Clocked.latest (o : Clocked SO LO ω) (fam : ω → Nat → Clocked SI LI α) (disp : LI) (honour : Bool) :
    Clocked (Nested SO (Switch.State ω) SI ω α) (Nested.Label LO LI ω α) α :=
  { o.switched fam honour with act := fun s l => LTS.run (o.switched fam honour).act s (Nested.disposing disp s l) }

/-- The tasks of the source, those of each inner observable that was subscribed (by its number), and the worker. Simplified: nobody disposes the subscription of `switch_latest`. -/
def Host.latest (H : Host SO LO TO) (I : Host SI LI TI) : Host (Nested SO (Switch.State ω) SI ω α) (Nested.Label LO LI ω α) (TO ⊕ (Nat × TI) ⊕ Unit) where
  names s := (H.names s.outer).map .inl ++
    ((List.range s.inners.length).flatMap (fun k =>
      match s.inners[k]? with
      | some i => (I.names i.2.2).map fun t => .inr (.inl (k, t))
      | none => []) ++
    [.inr (.inr ())])
  need s
    | .inl t => H.need s.outer t
    | .inr (.inl (k, t)) =>
      match s.inners[k]? with
      | some i => I.need i.2.2 t
      | none => .nothing
    | .inr (.inr ()) => if (Switch.turn (α := α) s.prod).isEmpty then .nothing else .soon
  turn s
    | .inl t => (H.turn s.outer t).map .outer
    | .inr (.inl (k, t)) =>
      match s.inners[k]? with
      | some i => (I.turn i.2.2 t).map (.inner k)
      | none => []
    | .inr (.inr ()) => (Switch.turn s.prod).map .own
  outside
    | .outer l => H.outside l
    | .inner _ _ => false
    | .own _ => false

end Aio
