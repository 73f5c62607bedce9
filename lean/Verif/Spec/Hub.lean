import Verif.Model.Hub
/-!
# What a subscription should hear
-/

namespace Aio.Spec
open Aio.Hub
variable {α γ : Type} {c : Chain α γ}

/-- What has happened so far, as far as subscription `o` is concerned: whether it is subscribed, whether the subject is
disposed or has ended, and the notifications sent meanwhile. -/
structure Ear (α : Type) where
  listening : Bool
  over : Bool
  heard : List (Notif α)

def Ear.next (o : Nat) (e : Ear α) : Label c → Ear α
  | .call n => if e.over then e else
      { e with heard := if e.listening then e.heard ++ [n] else e.heard, over := match n with | .next _ => false | _ => true }
  | .subscribe o' => if o' = o then { e with listening := true } else e
  | .unsubscribe o' => if o' = o then { e with listening := false } else e
  | .dispose => { e with over := true }
  | _ => e

def ear (o : Nat) (ls : List (Label c)) : Ear α := ls.foldl (Ear.next o) ⟨false, false, []⟩

/-- The notifications that were sent while `o` was subscribed. -/
def heard (o : Nat) (ls : List (Label c)) : List (Notif α) := (ear o ls).heard

/-- The calls of the subject's `asend`, `athrow` and `aclose`. -/
def sent (ls : List (Label c)) : List (Notif α) := ls.filterMap fun | .call n => some n | _ => none

/-- The label is about subscription `o`, or about the subject. -/
def concerns (o : Nat) : Label c → Bool
  | .call _ => true
  | .dispose => true
  | .subscribe o' => o' = o
  | .unsubscribe o' => o' = o
  | _ => false

/-- The subject's calls do not overlap: when a call is made, no other is in progress. -/
def Sequential (guard : Bool) (ls : List (Label c)) : Prop :=
  ∀ a n b s, ls = a ++ .call n :: b → LTS.run (Hub.step guard) (Hub.init c) a = some s →
    ∀ x ∈ s.sub.calls, ∀ n o rest, x ≠ .running n o rest

end Aio.Spec
