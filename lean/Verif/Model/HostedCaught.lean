import Verif.Model.HostedNested
import Verif.Model.Caught
import Verif.Model.Create
/-!
# `catch` on the `VirtualTimeEventLoop`

The source and the observables that the handler returns have tasks of their own. What an activation of `action` (transform.py:404-421) awaits is
a task here; in the code it goes on in the task that called `athrow`.
-/

namespace Aio
variable {C S S₁ S₂ L L₁ L₂ T T₁ T₂ ω α : Type}

/-- The activation of `action` at position `j`: what it awaits returns. transform.py:419-421. -/
def Catch.turn (s : Catch.State C ω) (j : Nat) : List (Catch.Label α) :=
  match s.frames[j]? with
  | some (.disposing _ _) => [.disposed j]
  | some (.subscribing _) => [.subscribed j]
  | none => []

/-- The tasks of each source that was subscribed (by its number), and the activations of `action` that are suspended (by their position). Simplified: nobody
disposes the subscription, `subscribe_async` and `dispose_async` of a source do not raise and wait for nothing but may give way to other tasks, and a source that has
failed and is disposed goes on. transform.py:384-429. -/
def Host.caught (I : Host S L T) : Host (Caught C S ω α) (Caught.Label L α) ((Nat × T) ⊕ Nat) where
  names s :=
    ((List.range s.srcs.length).flatMap fun k =>
      match s.srcs[k]? with
      | some i => (I.names i.2.2).map fun t => .inl (k, t)
      | none => []) ++
    (List.range s.ctl.frames.length).map .inr
  need s
    | .inl (k, t) =>
      match s.srcs[k]? with
      | some i => I.need i.2.2 t
      | none => .nothing
    | .inr j => if j < s.ctl.frames.length then .soon else .nothing
  turn s
    | .inl (k, t) =>
      match s.srcs[k]? with
      | some i => (I.turn i.2.2 t).map (.source k)
      | none => []
    | .inr j => (Catch.turn s.ctl j).map .own
  outside
    | .source _ l => I.outside l
    | .own _ => false

/-- The tasks of observables of two kinds in one family. -/
def Host.sum (H₁ : Host S₁ L₁ T₁) (H₂ : Host S₂ L₂ T₂) : Host (S₁ ⊕ S₂) (L₁ ⊕ L₂) (T₁ ⊕ T₂) where
  names
    | .inl s => (H₁.names s).map .inl
    | .inr s => (H₂.names s).map .inr
  need
    | .inl s, .inl t => H₁.need s t
    | .inr s, .inr t => H₂.need s t
    | _, _ => .nothing
  turn
    | .inl s, .inl t => (H₁.turn s t).map .inl
    | .inr s, .inr t => (H₂.turn s t).map .inr
    | _, _ => []
  outside
    | .inl l => H₁.outside l
    | .inr l => H₂.outside l

/-- `fail(e)`, subscribed at time `t`. create.py:148-158. Simplified: without its safe observer. -/
abbrev Caught.failAt (t : Nat) (e : Err) : Clocked ((OneShot × List (Notif α)) × Nat × List (Notif α × Nat)) (Option Unit) α :=
  (failing true e).source.clocked t

/-- The observables of `retry`: the source, and `fail(e)`. transform.py:438-445. -/
def Caught.attempts (src : Nat → Clocked S L α) : Catch.Attempt → Nat →
    Clocked (S ⊕ ((OneShot × List (Notif α)) × Nat × List (Notif α × Nat))) (L ⊕ Option Unit) α
  | .source, t => (src t).left
  | .fail e, t => (failAt t e).right

/-- `pipe(source, retry(n))`, subscribed at time `t0`; the count is `n` then. transform.py:432-449. -/
abbrev Caught.retried (src : Nat → Clocked S L α) (n : Int) (t0 : Nat) := Clocked.caught (attempts src) Catch.factory false n .source t0

abbrev Caught.attemptHost (H : Host S L T) :
    Host (Caught C (S ⊕ ((OneShot × List (Notif α)) × Nat × List (Notif α × Nat))) Catch.Attempt α) (Caught.Label (L ⊕ Option Unit) α) ((Nat × (T ⊕ Unit)) ⊕ Nat) :=
  (H.sum OneShot.host).caught

abbrev Caught.retryHost (H : Host S L T) :
    Host (Caught Int (S ⊕ ((OneShot × List (Notif α)) × Nat × List (Notif α × Nat))) Catch.Attempt α) (Caught.Label (L ⊕ Option Unit) α) ((Nat × (T ⊕ Unit)) ⊕ Nat) :=
  attemptHost H

/-- `pipe(source, catch(lambda error: fail(g(error))))`, subscribed at time `t0`. -/
abbrev Caught.translated (src : Nat → Clocked S L α) (g : Err → Err) (t0 : Nat) :=
  Clocked.caught (attempts src) (Catch.pure fun e => .ok (.fail (g e))) false () .source t0

end Aio
