import Verif.Model.Merge
import Verif.Spec.Sources
/-!
# Vocabulary for the claims about merge_inner and concat

What the source and the inner observables did is read off the schedule; which inner observables were
subscribed and disposed is recorded in the state.
-/

namespace Aio.Merge
open Spec
variable {ω α : Type}

/-- The calls the source made. -/
def outerCalls (ls : List (Label ω α)) : List (Notif ω) :=
  ls.filterMap fun | .outer n => some n | _ => none

/-- The inner observables the source sent. -/
def sent (ls : List (Label ω α)) : List ω := (story (outerCalls ls)).vals

/-- The calls made by the inner observable that was subscribed as number `k`. -/
def innerCalls (k : Nat) (ls : List (Label ω α)) : List (Notif α) :=
  ls.filterMap fun | .inner j n => if j = k then some n else none | _ => none

/-- How the inner observable number `k` has ended, if it has. -/
def fin (k : Nat) (ls : List (Label ω α)) : End := (story (innerCalls k ls)).fin

/-- Values of inner observables, and errors of the source and inner observables, in the order in
which they were sent. -/
def arrivals (ls : List (Label ω α)) : List (Notif α) :=
  ls.filterMap fun
    | .inner _ (.next v) => some (.next v)
    | .inner _ (.error e) => some (.error e)
    | .outer (.error e) => some (.error e)
    | _ => none

/-- Without the completions. -/
def noDone (ns : List (Notif α)) : List (Notif α) :=
  ns.filter fun | .completed => false | _ => true

/-- Source and inner observables follow the Rx grammar. -/
structure Lawful (ls : List (Label ω α)) : Prop where
  outer : Grammar (outerCalls ls)
  inner : ∀ k, Grammar (innerCalls k ls)

/-- No `subscribe_async` or `dispose_async` of an inner observable raises. -/
def NoFailure (ls : List (Label ω α)) : Prop := .subscribeFails ∉ ls ∧ .disposeFails ∉ ls

/-- The subscription was disposed, or the source failed. -/
def Stopped (ls : List (Label ω α)) : Prop := .cancel ∈ ls ∨ ∃ e, .outer (.error e) ∈ ls

/-- Inner observables that were subscribed and have not finished. -/
def active (ls : List (Label ω α)) (s : State ω) : List Nat :=
  (List.range s.started.length).filter fun k => fin k ls = .running

/-- Inner observables that were subscribed and have not completed (those that failed included). -/
def unfinished (ls : List (Label ω α)) (s : State ω) : List Nat :=
  (List.range s.started.length).filter fun k => fin k ls ≠ .done

/-- The worker's own steps. -/
def Worker : Label ω α → Prop
  | .outer _ | .inner _ _ | .cancel => False
  | _ => True

/-- The worker has nothing to do: its mailbox is empty, or it has ended. -/
def Settled (s : State ω) : Prop := s.pc = .halted ∨ (s.pc = .waiting ∧ s.inbox = [])

/-- The source sends the observables `os` (and then ends as `f` says); the inner observable `o` sends
`src o`. The calls made so far are part of that. -/
structure Scripted (src : ω → Story α) (os : List ω) (f : End) (ls : List (Label ω α)) (s : State ω) :
    Prop where
  outer : outerCalls ls <+: Story.events ⟨os, f⟩
  inner : ∀ k o, s.started[k]? = some o → innerCalls k ls <+: (src o).events

/-- All of it has been sent. -/
structure Played (src : ω → Story α) (os : List ω) (f : End) (ls : List (Label ω α)) (s : State ω) :
    Prop where
  outer : outerCalls ls = Story.events ⟨os, f⟩
  inner : ∀ k o, s.started[k]? = some o → innerCalls k ls = (src o).events

end Aio.Merge

namespace Aio.Spec
variable {α : Type}

/-- Streams one after the other: the next one begins when the one before has completed. `f`: how it
ends after the last one. -/
def concat : List (Story α) → End → Story α
  | [], f => ⟨[], f⟩
  | s :: ss, f =>
    if s.fin = .done then ⟨s.vals ++ (concat ss f).vals, (concat ss f).fin⟩ else s

end Aio.Spec
