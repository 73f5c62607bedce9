import Verif.Model.Pipeline
import Verif.Spec.Stream
/-!
# What it means for an operator to turn one stream into another

`exec` runs the pipeline under an arbitrary schedule: the list `es` says when the source makes a call
and which worker runs next. `inputs es` are the notifications the source sent.
-/

namespace Aio
open Spec
variable {α β : Type}

/-- The process delivers `G` of the source's stream: at any time under any schedule the calls made on
the final observer are an initial part of `G`'s notifications, when no worker has anything left to do
they are all of them, and the workers cannot run forever without new input. `dom` restricts the call
sequences the source may make. -/
structure Delivers {St Lab : Type} (p : Proc St Lab (Notif α) (Notif β))
    (dom : List (Notif α) → Prop) (G : Story α → Story β) : Prop where
  prefix_ : ∀ es s out, p.exec p.init es = some (s, out) → dom (Proc.inputs es) →
    out <+: (G (story (Proc.inputs es))).events
  all : ∀ es s out, p.exec p.init es = some (s, out) → dom (Proc.inputs es) → p.Quiescent s →
    out = (G (story (Proc.inputs es))).events
  ends : p.Terminates

/-- The operator computes `G`:
* behind a source that delivers through a `safe_observer` (or another operator that does), whatever
  calls are made on that;
* behind a source that calls the operator's observer directly, one call at a time, following the Rx
  grammar. -/
structure Operator.Computes (op : Operator α β) (G : Story α → Story β) : Prop where
  guarded : Delivers op.protected.proc (fun _ => True) G
  direct : Delivers op.direct.proc Grammar G

/-- Some schedule in which the source makes the calls `ns` on the operator's observer makes the
operator deliver `out`. Used to refute claims. -/
def Operator.CanDeliver (op : Operator α β) (ns : List (Notif α)) (out : List (Notif β)) : Prop :=
  ∃ es, Proc.inputs es = ns ∧ op.direct.proc.outputs es = some out

/-- For examples: the label "the worker takes one step" in a pipeline with one mailbox. -/
abbrev tick : Empty ⊕ Unit := .inr ()

end Aio
