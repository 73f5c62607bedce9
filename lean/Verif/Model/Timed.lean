import Verif.Model.Clocked
import Verif.Model.TwoSources
/-!
# Operators without timers, on a clock

`pipe(source, op)` and `pipe(source, take_until(other))` and so on, where the sources make calls at certain times (`Model/Clocked.lean`)
and the operators (`Model/Pipeline.lean`, `Model/Slow.lean`, `Model/TwoSources.lean`) know nothing of time. Their workers run at
whatever time the scheduler chooses; the times of the calls that they make are recorded.
-/

namespace Aio
variable {S S₁ S₂ L L₁ L₂ P W ι ο α β γ : Type}

/-- An operator with its workers, what it has been given, and what it has sent, with the times. -/
structure Timed (P ι ο : Type) where
  ps : P
  got : List (ι × Nat)
  sent : List (ο × Nat)

namespace Timed

def init (p : Proc P W ι ο) : Timed P ι ο := ⟨p.init, [], []⟩

/-- The operator is called, at time `t`. -/
def feed (p : Proc P W ι ο) (t : Nat) (is : List ι) (s : Timed P ι ο) : Timed P ι ο :=
  ⟨(p.feedAll s.ps is).1, s.got ++ is.map fun i => (i, t), s.sent ++ (p.feedAll s.ps is).2.map fun o => (o, t)⟩

/-- A step of one of its workers, at time `t`. -/
def work (p : Proc P W ι ο) (t : Nat) (w : W) (s : Timed P ι ο) : Option (Timed P ι ο) :=
  match p.step s.ps w with
  | none => none
  | some (ps, o) => some { s with ps := ps, sent := s.sent ++ o.map fun o => (o, t) }

end Timed

/-- An operator behind a source. -/
def Clocked.operate (q : Clocked S L α) (p : Proc P W (Notif α) (Notif β)) : Clocked (S × Timed P (Notif α) (Notif β)) (L ⊕ W) β where
  init := (q.init, .init p)
  act s l :=
    match l with
    | .inl l =>
      match q.act s.1 l with
      | none => none
      | some s' => some (s', s.2.feed p (q.now s.1) (((q.calls s').drop (q.calls s.1).length).map (·.1)))
    | .inr w => (s.2.work p (q.now s.1) w).map fun t => (s.1, t)
  pass s d := (q.pass s.1 d).map fun s' => (s', s.2)
  now s := q.now s.1
  calls s := s.2.sent

/-- An operator behind two sources (combine.py 174-333, filtering.py 302-332); the clock is common. -/
def Clocked.two (q₁ : Clocked S₁ L₁ α) (q₂ : Clocked S₂ L₂ β) (p : Proc P W (Notif α ⊕ Notif β) (Notif γ)) :
    Clocked (S₁ × S₂ × Timed P (Notif α ⊕ Notif β) (Notif γ)) (Two.Label L₁ L₂ W) γ where
  init := (q₁.init, q₂.init, .init p)
  act s l :=
    match l with
    | .left l =>
      match q₁.act s.1 l with
      | none => none
      | some s' => some (s', s.2.1, s.2.2.feed p (q₁.now s.1) (((q₁.calls s').drop (q₁.calls s.1).length).map fun c => .inl c.1))
    | .right l =>
      match q₂.act s.2.1 l with
      | none => none
      | some s' => some (s.1, s', s.2.2.feed p (q₁.now s.1) (((q₂.calls s').drop (q₂.calls s.2.1).length).map fun c => .inr c.1))
    | .worker w => (s.2.2.work p (q₁.now s.1) w).map fun t => (s.1, s.2.1, t)
  pass s d :=
    match q₁.pass s.1 d, q₂.pass s.2.1 d with
    | some s₁, some s₂ => some (s₁, s₂, s.2.2)
    | _, _ => none
  now s := q₁.now s.1
  calls s := s.2.2.sent

/-- The sources' parts of a schedule. -/
def Clocked.lefts (ls : List (Time (Two.Label L₁ L₂ W))) : List (Time L₁) :=
  ls.filterMap fun
    | .pass d => some (.pass d)
    | .act (.left l) => some (.act l)
    | _ => none
def Clocked.rights (ls : List (Time (Two.Label L₁ L₂ W))) : List (Time L₂) :=
  ls.filterMap fun
    | .pass d => some (.pass d)
    | .act (.right l) => some (.act l)
    | _ => none

/-- A loop that is not overloaded: time passes only when `rest`, that is, when no worker has anything left to do. -/
def Clocked.Prompt (q : Clocked S L α) (rest : S → Prop) (ls : List (Time L)) : Prop :=
  ∀ ls₁ d ls₂ s, ls = ls₁ ++ .pass d :: ls₂ → LTS.run q.step q.init ls₁ = some s → rest s

end Aio
