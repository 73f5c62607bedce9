import Verif.Model.Hosted
import Verif.Model.Nested
import Verif.Model.Jobs
/-!
# `merge_inner` on the `VirtualTimeEventLoop`

The worker of `merge_inner` (combine.py:123-131) is one task; the source and the inner observables have tasks of their own.
-/

namespace Aio
variable {SO LO TO SI LI TI ω α : Type}

/-- The task of the worker: it waits for a message, or for a `subscribe_async` or `dispose_async` that it awaits. Simplified: these do not wait for anything
but may give way to other tasks. combine.py:123-131. -/
def Merge.turn (s : Merge.State ω) : List (Merge.Label ω α) :=
  match s.pc with
  | .waiting => if s.inbox.isEmpty then [] else [.receive]
  | .subscribing _ => [.subscribed]
  | .disposing _ => [.disposed]
  | .halted => []

/-- The tasks of the source, those of each inner observable that was subscribed (by its number), and the worker. Simplified: nobody disposes the subscription, and an
inner observable that is disposed (when the source has failed) goes on. -/
def Host.merged (H : Host SO LO TO) (I : Host SI LI TI) : Host (Nested SO (Merge.State ω) SI ω α) (Nested.Label LO LI ω α) (TO ⊕ (Nat × TI) ⊕ Unit) where
  names s := (H.names s.outer).map .inl ++
    ((List.range s.inners.length).flatMap (fun k =>
      match s.inners[k]? with
      | some i => (I.names i.2.2).map fun t => .inr (.inl (k, t))
      | none => []) ++
    [.inr (.inr ())])
  need s
    | .inl t => H.need s.outer t
    | .inr (.inl (k, t)) =>
      match s.inners[k]? with
      | some i => I.need i.2.2 t
      | none => .nothing
    | .inr (.inr ()) => if (Merge.turn (α := α) s.prod).isEmpty then .nothing else .soon
  turn s
    | .inl t => (H.turn s.outer t).map .outer
    | .inr (.inl (k, t)) =>
      match s.inners[k]? with
      | some i => (I.turn i.2.2 t).map (.inner k)
      | none => []
    | .inr (.inr ()) => (Merge.turn s.prod).map .own
  outside
    | .outer l => H.outside l
    | .inner _ l => I.outside l
    | .own _ => false

/-- The tasks of `of_async`: the one that awaits the workflow (`true`), and the worker of its safe observer (`false`). create.py:59-76, observers.py:151-199.
Simplified: what the workflow awaits is a sleep. -/
def Job.host : Host (Job.State α) Job.Label Bool where
  names _ := [true, false]
  need s
    | true =>
      match s.sub.src.pc with
      | .fresh => .soon
      | .awaiting => .until s.due
      | .finished => .nothing
    | false =>
      match s.sub.safe.pc with
      | .halted => .nothing
      | .waiting => if s.sub.safe.inbox.isEmpty then .nothing else .soon
      | _ => .soon
  turn s
    | true =>
      match s.sub.src.pc with
      | .fresh => [.start]
      | .awaiting => [.wake]
      | .finished => []
    | false =>
      match s.sub.safe.pc with
      | .halted => []
      | .waiting => if s.sub.safe.inbox.isEmpty then [] else [.receive]
      | _ => [.ret]
  outside _ := false

/-- The task of `of_seq` and of other sources whose task does all at once. create.py:161-181. -/
def OneShot.host : Host ((OneShot × List (Notif α)) × Nat × List (Notif α × Nat)) (Option Unit) Unit where
  names _ := [()]
  need s _ := if s.1.1.fresh then .soon else .nothing
  turn s _ := if s.1.1.fresh then [some ()] else []
  outside _ := false

end Aio
