import Verif.Model.Create
import Verif.Spec.Stream
/-!
# What it means for a source to deliver a notification sequence
-/

namespace Aio.Producer
open Spec
variable {S L α : Type}

/-- Steps that happen by themselves (everything but a disposal from outside). -/
def Internal : Label L → Prop
  | .dispose => False
  | _ => True

/-- A subscription to `p`, under schedules satisfying `ok`, delivers `out`: at any time the calls the
observer received are an initial part of `out`; once nothing is left to do they are all of `out`; and
the subscription always gets there: it can always go on until nothing is left to do, and it cannot go
on forever. Observers that raise are excluded here (see C05 for those). -/
structure Delivers (p : Producer S L α) (ok : List (Label L) → Prop) (out : List (Notif α)) :
    Prop where
  prefix_ : ∀ ls s, LTS.run p.next p.start ls = some s → NoRaise ls → ok ls → s.received <+: out
  all : ∀ ls s, LTS.run p.next p.start ls = some s → NoRaise ls → ok ls → p.Idle s →
    s.received = out
  finishes : ∀ ls s, LTS.run p.next p.start ls = some s → ∃ ls' s', (∀ l ∈ ls', Internal l) ∧
    NoRaise ls' ∧ LTS.run p.next s ls' = some s' ∧ p.Idle s'
  ends : ∀ s, Acc (fun s' s => ∃ l, Internal l ∧ p.next s l = some s') s

/-- Nobody disposes the subscription from outside. -/
def Kept (ls : List (Label L)) : Prop := Label.dispose ∉ ls

end Aio.Producer
