import Verif.Spec.Timed
/-!
# Which results of questions are supposed to come, if a question that takes too long is given up for the next one
-/

namespace Aio.Spec.Query
variable {ω α : Type}

/-- The question `x` asked at `u` is answered with `g x` at `u + dur x`, as far as that time has passed, unless the next question is asked before. -/
def answers (dur : ω → Nat) (g : ω → α) (now : Nat) : List (ω × Nat) → List (α × Nat)
  | [] => []
  | (x, u) :: rest =>
    if u + dur x < now ∧ ∀ c, rest.head? = some c → u + dur x < c.2 then (g x, u + dur x) :: answers dur g now rest else answers dur g now rest

/-- No answer is due exactly when the next question is asked, nor exactly now (in these cases it is not determined what happens). -/
def Clear (dur : ω → Nat) (now : Nat) : List (ω × Nat) → Prop
  | [] => True
  | (x, u) :: rest => u + dur x ≠ now ∧ (∀ c, rest.head? = some c → u + dur x ≠ c.2) ∧ Clear dur now rest

end Aio.Spec.Query
