import Verif.Model.Catch
import Verif.Spec.Stream
/-!
# Vocabulary for the claims about catch and retry
-/

namespace Aio.Catch
open Spec
variable {C ω α : Type}

/-- The calls made by source number `k`. -/
def calls (k : Nat) (ls : List (Label α)) : List (Notif α) :=
  ls.filterMap fun | .call j n => if j = k then some n else none | _ => none

/-- The sources follow the Rx grammar. -/
def Lawful (ls : List (Label α)) : Prop := ∀ k, Grammar (calls k ls)

/-- No `subscribe_async` or `dispose_async` of a source raises. -/
def NoFailure (ls : List (Label α)) : Prop := ∀ j, .fails j ∉ ls

/-- The streams of the sources `0, ..., n - 1` so far. -/
def streams (n : Nat) (ls : List (Label α)) : List (Story α) :=
  (List.range n).map fun k => story (calls k ls)

end Aio.Catch

namespace Aio.Spec
variable {α : Type}

/-- Streams one after the other, where the next takes over when the one before has failed: the values
of all, completed if the last has completed. -/
def recover (ss : List (Story α)) : Story α :=
  ⟨ss.flatMap (·.vals), if (ss.getLast?.map (·.fin)) = some .done then .done else .running⟩

end Aio.Spec
