import Verif.Model.Clocked
import Verif.Spec.Timed
import Verif.Base.LTS
import Verif.Spec.Delivery
/-!
# When two observables look the same
-/

namespace Aio.Spec.Bind
open Spec.Timed
variable {S S' L L' ι α : Type}

/-- What has been sent up to time `t`, with the times. -/
def upTo (t : Nat) (cs : List (ι × Nat)) : List (ι × Nat) := cs.filter fun c => c.2 ≤ t

/-- Whatever has been scheduled, and at whatever time one looks: for every time `t` in the past, both have sent the same values at the same times up to `t` (only values that are sent at the same
time may be in another order), and if one of them had completed then so had the other. -/
def Alike (q : Clocked S L α) (r : Clocked S' L' α) : Prop :=
  ∀ ls s ls' s', LTS.run q.step q.init ls = some s → LTS.run r.step r.init ls' = some s' → ∀ t, t < q.now s → t < r.now s' →
    (upTo t (valuesAt (q.calls s))).Perm (upTo t (valuesAt (r.calls s'))) ∧ (.completed ∈ upto t (q.calls s) ↔ .completed ∈ upto t (r.calls s'))

/-- What it sends depends on the time only, not on the schedule. -/
def Determinate (q : Clocked S L α) : Prop := Alike q q

/-- In the end, the observer has got the values `vs` and then the completion. -/
def Completed (q : Clocked S L α) (vs : List α) : Prop := ∃ ls s, LTS.run q.step q.init ls = some s ∧ story ((q.calls s).map (·.1)) = ⟨vs, .done⟩

/-- Whatever has been scheduled: if both complete, they have sent the same values, in some order. -/
def SameValues (q : Clocked S L α) (r : Clocked S' L' α) : Prop := ∀ vs ws, Completed q vs → Completed r ws → vs.Perm ws

/-- The same, in the same order. -/
def SameList (q : Clocked S L α) (r : Clocked S' L' α) : Prop := ∀ vs ws, Completed q vs → Completed r ws → vs = ws

/-- Whatever has been scheduled: what it has sent are the first of the values `vs`, and all of them when it has completed. -/
def Always (q : Clocked S L α) (vs : List α) : Prop := ∀ ls s, LTS.run q.step q.init ls = some s →
  (story ((q.calls s).map (·.1))).vals <+: vs ∧ ((story ((q.calls s).map (·.1))).fin = .done → (story ((q.calls s).map (·.1))).vals = vs)

/-- The operator treats every value by itself: it passes on `g` of it, or nothing, and hands on how the stream ends. `map`, `starmap`, `filter`, `choose` and compositions of them do so. -/
def Each {β : Type} (op : Operator α β) (g : α → Option β) : Prop := op.Computes fun s => ⟨s.vals.filterMap g, s.fin⟩

end Aio.Spec.Bind
