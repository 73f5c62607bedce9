import Verif.Model.Combine
import Verif.Model.Piped
/-!
# Operators with two sources, behind any two sources

`pipe(source, combine_latest(other), op)` and so on, where `source` and `other` are anything that makes calls (`Model/Piped.lean`). The
parts are modelled elsewhere; here what the two sources send is fed to the operator in the order in which they send it, and all
interleavings of the segments of the sources and the workers are executions.
-/

namespace Aio
variable {S₁ L₁ S₂ L₂ P W α β γ : Type}

/-- `source | combine_latest(other) | op` with a suspension before every post and every call on the final observer, see `Model/Slow.lean`
and `combineLatest`. -/
def combineLatestSlow (op : Operator (α × β) γ) := Proc.seq (Proc.slow (combineLatestAgent (α := α) (β := β))) op.protected.slowProc

/-- `source | with_latest_from(other) | op`, the same way. -/
def withLatestFromSlow (op : Operator (α × β) γ) := Proc.seq (Proc.slow (withLatestFromAgent (α := α) (β := β))) op.protected.slowProc

/-- `source | take_until(other) | op`, the same way; what happens in the callers' tasks is a single post (filtering.py 322-326). -/
def takeUntilSlow (β : Type) (op : Operator α γ) := Proc.seq (Proc.direct (takeUntilAgent (α := α) (β := β))) op.protected.slowProc

namespace Two

/-- The two sources, the operator with its workers, the calls made on the final observer; `arrived` records in which order the calls of
the two sources have come in. -/
structure State (S₁ S₂ P α β γ : Type) where
  left : S₁
  right : S₂
  ps : P
  outs : List (Notif γ)
  arrived : List (Notif α ⊕ Notif β)

inductive Label (L₁ L₂ W : Type) where
  | left (l : L₁)
  | right (l : L₂)
  | worker (l : W)

/-- One atomic segment. Simplified as in `Model/Piped.lean`: nothing is said about who disposes the sources and when; the sources have
labels for that, and they may occur at any time. The order of the two subscriptions is not fixed. -/
def step (q₁ : Source S₁ L₁ α) (q₂ : Source S₂ L₂ β) (p : Proc P W (Notif α ⊕ Notif β) (Notif γ)) (s : State S₁ S₂ P α β γ) :
    Label L₁ L₂ W → Option (State S₁ S₂ P α β γ)
  | .left l =>
    match q₁.step s.left l with
    | none => none
    | some t =>
      let new := ((q₁.out t).drop (q₁.out s.left).length).map Sum.inl
      let r := p.feedAll s.ps new
      some { s with left := t, ps := r.1, outs := s.outs ++ r.2, arrived := s.arrived ++ new }
  | .right l =>
    match q₂.step s.right l with
    | none => none
    | some t =>
      let new := ((q₂.out t).drop (q₂.out s.right).length).map Sum.inr
      let r := p.feedAll s.ps new
      some { s with right := t, ps := r.1, outs := s.outs ++ r.2, arrived := s.arrived ++ new }
  | .worker l =>
    match p.step s.ps l with
    | none => none
    | some (t, o) => some { s with ps := t, outs := s.outs ++ o }

def init (q₁ : Source S₁ L₁ α) (q₂ : Source S₂ L₂ β) (p : Proc P W (Notif α ⊕ Notif β) (Notif γ)) : State S₁ S₂ P α β γ :=
  ⟨q₁.init, q₂.init, p.init, [], []⟩

/-- The sources' parts of a schedule. -/
def lefts (ls : List (Label L₁ L₂ W)) : List L₁ := ls.filterMap fun | .left l => some l | _ => none
def rights (ls : List (Label L₁ L₂ W)) : List L₂ := ls.filterMap fun | .right l => some l | _ => none

end Two

/-- An operator with two sources is a source again. -/
def Source.two (q₁ : Source S₁ L₁ α) (q₂ : Source S₂ L₂ β) (p : Proc P W (Notif α ⊕ Notif β) (Notif γ)) :
    Source (Two.State S₁ S₂ P α β γ) (Two.Label L₁ L₂ W) γ where
  init := Two.init q₁ q₂ p
  step := Two.step q₁ q₂ p
  out s := s.outs

end Aio
