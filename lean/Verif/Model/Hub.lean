import Verif.Model.Subject
import Verif.Model.Pipeline
/-!
# Subscriptions of an operator chain to an `AsyncSubject`

`xs = pipe(subject, op1, op2, ..)`, and any number of `xs.subscribe_async(..)`. Every subscription runs the
`subscribe_async` functions of the operators again, so it has its own observer objects, mailboxes, workers and
variables (transform.py:48-54, 457-482; filtering.py:131-168, 189-202, 213-228, 242-257, 280-295; combine.py:340-365):
here its own copy of the state of the chain. The first observer of the chain is what the subject knows
(`o : Nat`, one per subscription).

The disposable that the user gets is the subject's own: `transform` and `scan` return what the source returns
(transform.py:53-54, 480-482), and so does `auto_detach` (observers.py:241-244). `auto_detach`'s worker may dispose
it too, at any time (observers.py:224-225): the label `unsubscribe` is whoever does it, as often as they like.

Not covered: operators that keep variables outside of `subscribe_async` (`retry`: `count`, transform.py:436;
`delay`: `cts`, timeshift.py:50; see `Model/Catch.lean` and `Model/Delay.lean`), and `zip_seq` over an iterator
(an iterable is a function here, so that every `iter(..)` starts anew).
-/

namespace Aio.Hub
variable {α γ : Type}

/-- `num`: the number of the subject's subscription; `ps`: the state of the chain of each subscription; `outs`: the
calls of each final observer. -/
structure State (c : Chain α γ) where
  sub : Subject.State α
  num : Nat → Option Nat
  ps : Nat → c.compile.St
  outs : Nat → List (Notif γ)

def init (c : Chain α γ) : State c := ⟨Subject.init, fun _ => none, fun _ => c.proc.init, fun _ => []⟩

inductive Label (c : Chain α γ) where
  /-- somebody calls `asend(v)`, `athrow(e)` or `aclose()` of the subject -/
  | call (n : Notif α)
  /-- the observer that call number `k` of the subject awaits returns -/
  | ret (k : Nat)
  /-- it raises -/
  | raise (k : Nat) (e : Err)
  /-- the chain is subscribed; `o` is the new observer object -/
  | subscribe (o : Nat)
  /-- the disposable of that subscription is disposed -/
  | unsubscribe (o : Nat)
  /-- the subject is disposed -/
  | dispose
  /-- a worker of the chain of subscription `o` handles a message -/
  | inner (o : Nat) (l : c.compile.Lab)

/-- The first observer of chain `o` gets `n`; a notification for somebody else leaves it alone. -/
def State.feed {c : Chain α γ} (s : State c) (o : Nat) (n : Notif α) : State c :=
  { s with
    ps := fun i => if i = o then (c.proc.feed (s.ps o) n).1 else s.ps i
    outs := fun i => if i = o then s.outs o ++ (c.proc.feed (s.ps o) n).2 else s.outs i }

/-- The subject does a step, and the observers that it calls run. -/
def State.subject {c : Chain α γ} (guard : Bool) (s : State c) (l : Subject.Label α) : Option (State c) :=
  (Subject.step guard s.sub l).map fun sub =>
    (sub.log.drop s.sub.log.length).foldl (fun s x => s.feed x.2.1 x.2.2) { s with sub }

/-- One atomic segment. -/
def step {c : Chain α γ} (guard : Bool) (s : State c) : Label c → Option (State c)
  | .call n => s.subject guard (.call n)
  | .ret k => s.subject guard (.ret k)
  | .raise k e => s.subject guard (.raise k e)
  | .subscribe o =>
    if (s.num o).isSome then none
    else (s.subject guard (.subscribe o)).map fun s' =>
      { s' with num := fun i => if i = o then some s.sub.subs.length else s'.num i }
  | .unsubscribe o =>
    match s.num o with
    | some k => s.subject guard (.unsubscribe k)
    | none => none
  | .dispose => s.subject guard .dispose
  | .inner o l =>
    match c.proc.step (s.ps o) l with
    | some (p, out) => some { s with
        ps := fun i => if i = o then p else s.ps i
        outs := fun i => if i = o then s.outs o ++ out else s.outs i }
    | none => none

end Aio.Hub
