import Verif.Spec.Operators
import Verif.Spec.Timed
/-!
# What a search box is supposed to do
-/

namespace Aio.Spec.SearchBox
variable {α β ω : Type}

/-- The values that nothing follows within `d`, each `d` later, as far as that time has passed. -/
def quiet (d now : Nat) : List (α × Nat) → List (α × Nat)
  | [] => []
  | (v, t) :: rest => if t + d < now ∧ ∀ c ∈ rest, t + d < c.2 then (v, t + d) :: quiet d now rest else quiet d now rest

/-- No two values are exactly `d` apart, nor is the present time from one of them (in these cases it is not determined what happens). -/
def Apart (d now : Nat) (cs : List (α × Nat)) : Prop := cs.Pairwise (fun a b => a.2 + d ≠ b.2) ∧ ∀ c ∈ cs, c.2 + d ≠ now

/-- The terms that are wanted: `pick` drops the others, and may rewrite. -/
def wanted (pick : α → Option β) (typed : List (α × Nat)) : List (β × Nat) := typed.filterMap fun c => (pick c.1).map fun v => (v, c.2)

/-- Which searches are made when: of the terms that are wanted (`pick`), those that nothing wanted follows within `d`, unless it is the
same term (`eq`) as in the search before. -/
def searches (pick : α → Option β) (d now : Nat) (eq : β → β → Bool) (search : β → ω) (typed : List (α × Nat)) : List (ω × Nat) :=
  (changes (fun a b => eq a.1 b.1) (quiet d now (wanted pick typed))).map fun c => (search c.1, c.2)

end Aio.Spec.SearchBox
