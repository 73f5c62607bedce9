import Verif.Model.Piped
import Verif.Spec.Merge
import Verif.Spec.Delivery
/-!
# What a source sends, and what `merge_inner` is supposed to send
-/

namespace Aio
open Spec
variable {S L α ω : Type}

/-- Under the schedules `ok` the source posts an initial part of the stream `T` (what it posts after an end does not count), and all
of it once `quiet`. -/
structure Source.Posts (q : Source S L α) (ok quiet : List L → S → Prop) (T : List L → Story α) : Prop where
  prefix_ : ∀ ls s, LTS.run q.step q.init ls = some s → ok ls s → (story (q.out s)).events <+: (T ls).events
  all : ∀ ls s, LTS.run q.step q.init ls = some s → ok ls s → quiet ls s → story (q.out s) = T ls

/-- The same for a source that keeps the Rx grammar: all its calls are those of the stream. -/
structure Source.Sends (q : Source S L α) (ok quiet : List L → S → Prop) (T : List L → Story α) : Prop where
  prefix_ : ∀ ls s, LTS.run q.step q.init ls = some s → ok ls s → q.out s <+: (T ls).events
  all : ∀ ls s, LTS.run q.step q.init ls = some s → ok ls s → quiet ls s → q.out s = (T ls).events

/-- The segments of a producer, without the disposals. -/
def Producer.acts (ls : List (Option L)) : List L := ls.filterMap id

namespace Merge

/-- Everything has completed: the source, and the inner observables that it has sent. -/
def Finished (ls : List (Label ω α)) : Prop := (story (outerCalls ls)).fin = .done ∧ ∀ k < (sent ls).length, fin k ls = .done

instance (ls : List (Label ω α)) : Decidable (Finished ls) := inferInstanceAs (Decidable (_ ∧ _))

/-- The merged stream: what the inner observables send, in the order in which they send it, up to the first error; and its
completion, once everything has completed. -/
def merged (ls : List (Label ω α)) : Story α :=
  if Finished ls then story (arrivals ls ++ [.completed]) else story (arrivals ls)

end Merge

namespace Switch
open Merge (outerCalls sent arrivals)

/-- What `switch_latest` sends: what the inner observables send, up to the first error; and a completion only if the source has
completed without having sent anything (that this is not what one expects is C42). -/
def mirrored (ls : List (Merge.Label ω α)) : Story α :=
  if (story (outerCalls ls)).fin = .done ∧ (sent ls).length = 0 then story (arrivals ls ++ [.completed]) else story (arrivals ls)

end Switch

namespace Behind
open Merge (arrivals)
variable {FL : Type}

/-- The merged stream if the stream of inner observables is `st`. -/
def flattened (st : Story ω) (ls : List (Label FL ω α)) : Story α :=
  if st.fin = .done ∧ ∀ k < st.vals.length, Merge.fin k (deeds ls) = .done then story (arrivals (deeds ls) ++ [.completed])
  else story (arrivals (deeds ls))

end Behind

namespace Interval

/-- How many values `interval` has sent. -/
def sends (ls : List Label) : Nat := (ls.filter (· = .wake)).length

end Interval
end Aio
