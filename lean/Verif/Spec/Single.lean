import Verif.Model.Single
/-!
# Vocabulary for the claims about AsyncSingleSubject
-/

namespace Aio.Single
variable {α : Type}

/-- The calls of `asend`/`athrow`/`aclose`. -/
def made (ls : List (Label α)) : List (Notif α) := ls.filterMap fun | .call n => some n | _ => none

def Label.isSubscribe : Label α → Bool
  | .subscribe _ => true
  | _ => false

/-- Those made before the first `subscribe_async`. -/
def early (ls : List (Label α)) : List (Notif α) := made (ls.takeWhile fun l => !l.isSubscribe)

/-- Somebody subscribed (or tried to). -/
def Subscribed (ls : List (Label α)) : Prop := ∃ o, Label.subscribe o ∈ ls

/-- The subject was disposed. -/
def Disposed (ls : List (Label α)) : Prop := .dispose ∈ ls

/-- A waiting sender was cancelled. -/
def Cancelled (ls : List (Label α)) : Prop := ∃ c, Label.cancel c ∈ ls

end Aio.Single
