import Verif.Model.Cold
import Verif.Spec.Hot
/-!
# What should be heard of `AsyncSingleSubject`s
-/

namespace Aio.Cold
open Spec
variable {α : Type}

/-- What the source has sent. -/
def outers (ls : List (Label α)) : List (Notif Nat) := ls.filterMap fun | .outer n => some n | _ => none

/-- What has been called on subject `i`, in that order. -/
def callsOn (i : Nat) (ls : List (Label α)) : List (Notif α) := ls.filterMap fun | .call j n => if j = i then some n else none | _ => none

/-- Nobody disposes the subscription, and the source does not fail. -/
def Undisturbed (ls : List (Label α)) : Prop := .own .cancel ∉ ls ∧ ∀ e, .outer (.error e) ∉ ls

/-- Those who were woken because subject `i` has got its observer have all gone on. -/
def NoneWoken {S : Type} (s : State S α) (i : Nat) : Prop := (s.subjects i).opened = true → (s.subjects i).waiting = []

/-- Nobody calls a subject between those who waited for its observer and have been woken. (So it is if those who call a subject wait for one call to
return before they make the next.) -/
def InTurn {S : Type} (step : State S α → Label α → Option (State S α)) (s0 : State S α) (ls : List (Label α)) : Prop :=
  ∀ a i n b, ls = a ++ .call i n :: b → ∀ s, LTS.run step s0 a = some s → NoneWoken s i

/-- What has been told to number `k`. -/
def toldTo (k : Nat) (heard : List (Nat × Notif α)) : List (Notif α) := (heard.filter fun c => c.1 == k).map (·.2)

/-- The worker is at rest, and so are those who were woken. -/
def Rest (s : State (Merge.State Nat) α) : Prop := Merge.Settled s.prod ∧ ∀ i, NoneWoken s i

end Aio.Cold
