import Verif.Model.Hot
import Verif.Spec.Merge
/-!
# What should be heard of subjects

`calls`: what has been called on the subjects, in that order, each with the number of the subject.
-/

namespace Aio.Hot
open Spec
variable {α : Type}

/-- Has subject `i` ended? -/
def ended (i : Nat) (calls : List (Nat × Notif α)) : Bool := calls.any fun c => c.1 == i && c.2.isTerminal

/-- What is told to whom, if `hear i p` are those who hear subject `i` when `p` calls have been made before; a subject that has ended says
nothing more. -/
def told (hear : Nat → Nat → List Nat) : List (Nat × Notif α) → List (Nat × Notif α) → List (Nat × Notif α)
  | _, [] => []
  | before, (i, n) :: calls =>
    (if ended i before then [] else (hear i before.length).map fun k => (k, n)) ++ told hear (before ++ [(i, n)]) calls

/-- Those of the subscriptions (numbered from `k` on) that hear subject `i` at call number `p`. -/
def hearers (i p : Nat) : Nat → List Sub → List Nat
  | _, [] => []
  | k, x :: xs =>
    if x.subject = i ∧ x.since ≤ p ∧ x.until_.all (p < ·) then k :: hearers i p (k + 1) xs else hearers i p (k + 1) xs

/-- The places (counted from `k` on) at which subject `i` is in the list. -/
def places (i : Nat) : Nat → List Nat → List Nat
  | _, [] => []
  | k, j :: os => if j = i then k :: places i (k + 1) os else places i (k + 1) os

/-- The merged stream, if the source has sent `n` subjects and has ended as `f` says, and this has been told by them: the values and errors,
and the completion when the source and all `n` have completed. -/
def result (n : Nat) (f : End) (heard : List (Nat × Notif α)) : Story α :=
  if f = .done ∧ ∀ k < n, ((heard.filter fun c => c.1 == k).any fun c => c.2.kind = .onCompleted) then
    story (Merge.noDone (heard.map (·.2)) ++ [.completed])
  else story (Merge.noDone (heard.map (·.2)))

/-- What `switch_latest` makes of it: the values and errors; a completion only if the source has completed without having sent anything (C42). -/
def switched (n : Nat) (f : End) (heard : List (Nat × Notif α)) : Story α :=
  if f = .done ∧ n = 0 then ⟨[], .done⟩ else story (Merge.noDone (heard.map (·.2)))

/-- Each subscription ends when the next begins, the last does not end. -/
def OneByOne (subs : List Sub) : Prop := ∀ (j : Nat) (x : Sub), subs[j]? = some x → x.until_ = (subs[j + 1]?).map Sub.since

/-- What the source has sent. -/
def outers (ls : List (Label α)) : List (Notif Nat) := ls.filterMap fun | .outer n => some n | _ => none

/-- What has been called on the subjects. -/
def made (ls : List (Label α)) : List (Nat × Notif α) := ls.filterMap fun | .call i n => some (i, n) | _ => none

/-- Nobody disposes the subscription, and the source does not fail. -/
def Undisturbed (ls : List (Label α)) : Prop := .own .cancel ∉ ls ∧ ∀ e, .outer (.error e) ∉ ls

/-- What the source sends and what is called on the subjects, in that order. -/
def timeline (ls : List (Label α)) : List (Nat ⊕ (Nat × Notif α)) :=
  ls.filterMap fun
    | .outer (.next i) => some (.inl i)
    | .call i n => some (.inr (i, n))
    | _ => none

/-- What is told to whom, if the source's subjects are subscribed to at once: `who sent i` are those who hear subject `i` when the source has
sent `sent`. -/
def follow (who : List Nat → Nat → List Nat) : List Nat → List (Nat × Notif α) → List (Nat ⊕ (Nat × Notif α)) → List (Nat × Notif α)
  | _, _, [] => []
  | sent, before, .inl i :: tl => follow who (sent ++ [i]) before tl
  | sent, before, .inr (i, n) :: tl =>
    (if ended i before then [] else (who sent i).map fun k => (k, n)) ++ follow who sent (before ++ [(i, n)]) tl

/-- `merge`: everybody who is subscribed to subject `i`; as often as the source has sent it. -/
def everybody (sent : List Nat) (i : Nat) : List Nat := places i 0 sent

/-- `switch_latest`: the latest only. -/
def theLatest (sent : List Nat) (i : Nat) : List Nat := if sent.getLast? = some i then [sent.length] else []

/-- What is told if the subjects are listened to one after the other, each until it has completed (`concat`); `k` have completed so far. -/
def inTurn : Nat → List Nat → List (Nat × Notif α) → List (Nat ⊕ (Nat × Notif α)) → List (Nat × Notif α)
  | _, _, _, [] => []
  | k, sent, before, .inl i :: tl => inTurn k (sent ++ [i]) before tl
  | k, sent, before, .inr (i, n) :: tl =>
    if ended i before = false ∧ sent[k]? = some i then
      (k, n) :: inTurn (match n with | .completed => k + 1 | _ => k) sent (before ++ [(i, n)]) tl
    else inTurn k sent (before ++ [(i, n)]) tl

/-- Whenever somebody calls a method of a subject, the worker is at rest. -/
def Paced {S : Type} (step : State S α → Label α → Option (State S α)) (s0 : State S α) (rest : S → Prop) (ls : List (Label α)) : Prop :=
  ∀ a i n b, ls = a ++ .call i n :: b → ∀ s, LTS.run step s0 a = some s → rest s.prod

end Aio.Hot
