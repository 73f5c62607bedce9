import Verif.Model.IterDispose
/-!
# Vocabulary for the claims about disposing an iterator
-/

namespace Aio.IterDispose
variable {α : Type}

/-- The calls of `asend`/`athrow`/`aclose`. -/
def made (ls : List (Label α)) : List (Notif α) := ls.filterMap fun | .call n => some n | _ => none

/-- The last call of `dispose_async` has been made, and nobody has called `__anext__` since. -/
def Abandoned (ls : List (Label α)) : Prop := ∃ p q, ls = p ++ .dispose :: q ∧ .dispose ∉ q ∧ .anext ∉ q

/-- The last call of `dispose_async` has returned. -/
def Disposed (s : State α) : Prop := s.disposers.getLast? = some .returned

/-- Nothing is left: every subscription was disposed, once. -/
def Released (s : State α) : Prop := ∀ u ∈ s.subs, u.released = 1

/-- `dispose_async` is not called while `subscribe_async` of the source is under way, nor while another call of it is. -/
def Careful (ls : List (Label α)) : Prop :=
  ∀ p q s, ls = p ++ .dispose :: q → LTS.run step init p = some s →
    s.it.consumer ≠ .subscribing ∧ ∀ k, .disposing k ∉ s.disposers

/-- Has this call been left in the middle: it waits for its turn, or its event has been handed over and not taken? -/
def Waits (s : State α) (c : Nat) : Prop :=
  (∃ n, s.it.calls[c]? = some (.blocked n)) ∨ ((∃ n, s.it.calls[c]? = some (.sending n)) ∧ s.it.push ≠ none)

end Aio.IterDispose
