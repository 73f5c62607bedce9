import Verif.Model.Caught
/-!
# `pipe(source, catch(h1), catch(h2))`
-/

namespace Aio.Caught
variable {S L S₂ L₂ ω₂ C C₂ ω α : Type}

/-- The sources of the second `catch`: the first `catch`, and what `h2` returns. -/
def alternatives (inner : Nat → Clocked S L α) (fam : ω₂ → Nat → Clocked S₂ L₂ α) : Unit ⊕ ω₂ → Nat → Clocked (S ⊕ S₂) (L ⊕ L₂) α
  | .inl _, t => (inner t).left
  | .inr y, t => (fam y t).right

/-- `pipe(x, catch(h1), catch(h2))`, subscribed at time `t0`: the observer of the first `catch` (transform.py:417) is called by its sources, its `asend` and `aclose` call that of the second directly
(407-408, 414-415). `fam` and `fam₂` are the observables of `h1` and `h2`. -/
abbrev chained (fam : ω → Nat → Clocked S L α) (h1 : Catch.Handler C ω) (c : C) (x : ω) (fam₂ : ω₂ → Nat → Clocked S₂ L₂ α) (h2 : Catch.Handler C₂ (Unit ⊕ ω₂)) (c₂ : C₂) (honour : Bool) (t0 : Nat) :=
  Clocked.caught (alternatives (Clocked.caught fam h1 honour c x) fam₂) h2 honour c₂ (.inl ()) t0

end Aio.Caught
