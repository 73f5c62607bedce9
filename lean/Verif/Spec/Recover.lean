import Verif.Spec.Bind
/-!
# What `catch` should send
-/

namespace Aio.Spec.Bind
variable {S L ω α : Type}

/-- In the end, the observer has got the values `vs` and then the error `e`. -/
def Failed (q : Clocked S L α) (vs : List α) (e : Err) : Prop := ∃ ls s, LTS.run q.step q.init ls = some s ∧ story ((q.calls s).map (·.1)) = ⟨vs, .failed e⟩

/-- With the observable `x` and then, after each error `e`, the observable `g e`, until one of them completes, the values are `vs`. -/
inductive Recovers (fam : ω → Nat → Clocked S L α) (g : Err → Except Err ω) : ω → List α → Prop
  | done {x t vs} : Completed (fam x t) vs → Recovers fam g x vs
  | failed {x t vs e y ws} : Failed (fam x t) vs e → g e = .ok y → Recovers fam g y ws → Recovers fam g x (vs ++ ws)

/-- Whenever it is subscribed and whatever is scheduled: if it comes to an end, then with the same values and the same end. -/
def Steady (fam : ω → Nat → Clocked S L α) : Prop := ∀ x t t' ls s ls' s', LTS.run (fam x t).step (fam x t).init ls = some s → LTS.run (fam x t').step (fam x t').init ls' = some s' →
  (story (((fam x t).calls s).map (·.1))).fin ≠ .running → (story (((fam x t').calls s').map (·.1))).fin ≠ .running →
  story (((fam x t).calls s).map (·.1)) = story (((fam x t').calls s').map (·.1))

end Aio.Spec.Bind
