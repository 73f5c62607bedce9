import Verif.Spec.Timed
/-!
# What the observers of a shared subject get
-/

namespace Aio.Spec.Shared
variable {ω ν β : Type}

/-- `got`: what has been sent since a subscription at time `u`, out of `sent`. Of what is sent at the time `u` itself, an observer gets
what is sent after it was subscribed. -/
def Since (u : Nat) (sent got : List (ν × Nat)) : Prop :=
  ∃ old, sent = old ++ got ∧ (∀ c ∈ old, c.2 ≤ u) ∧ ∀ c ∈ got, u ≤ c.2

/-- What has been posted for `x`. -/
def places [DecidableEq ω] (x : ω) (cs : List ((ω × β) × Nat)) : List (β × Nat) :=
  cs.filterMap fun c => if c.1.1 = x then some (c.1.2, c.2) else none

/-- `placed` follows what has been `sent` since time `u`, mapped by `f`, exactly `d` behind, and is not late at time `now`. -/
def Follows (f : ν → β) (d u now : Nat) (sent : List (ν × Nat)) (placed : List (β × Nat)) : Prop :=
  ∃ got, Since u sent got ∧ placed <+: got.map (fun c => (f c.1, c.2 + d)) ∧
    ∀ (k : Nat) c, got[k]? = some c → c.2 + d < now → placed[k]? = some (f c.1, c.2 + d)

end Aio.Spec.Shared
