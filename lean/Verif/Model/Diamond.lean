import Verif.Model.TwoSources
/-!
# A subject and something derived from it, combined with each other

`pipe(xs, f.., combine_latest(pipe(xs, g..)))`, and the same with `with_latest_from` and `take_until`, where `xs` is an `AsyncSubject`:
both sources of the operator are pipelines behind the same subject. The operator subscribes to them one after the other, so the subject
has two observers, in this order, and `asend` calls the one and then the other (subject.py:122-123, 132-133, 142-143):

* `combine_latest` and `with_latest_from` subscribe to `source`, then to `other` (combine.py:246-247, 329-330);
* `take_until` subscribes to `other`, then to `source` (filtering.py:325-326).

Not covered: functions given to the operators in between that suspend (`map_async`, `filter_async`), so that a call of the subject runs to
its end without an interruption (`map` and so on call a plain function, transform.py:47-56; everything else posts to a mailbox); the
disposal of the two subscriptions after the stream has ended (what comes in afterwards is ignored anyway), and by the user.
-/

namespace Aio.Diamond
variable {A La B Lb P W α β γ δ : Type}

/-- `stopped`: the subject's `_is_stopped`; `a`, `b`: the pipelines in front of the operator; `ps`: the operator and what is behind it;
`outs`: the calls of the final observer. For the record, `sent`: what the subject has passed on; `arrived`: what has come in at the
operator. -/
structure State (A B P α β γ δ : Type) where
  stopped : Bool
  a : A
  b : B
  ps : P
  sent : List (Notif α)
  arrived : List (Notif β ⊕ Notif γ)
  outs : List (Notif δ)

inductive Label (La Lb W α : Type) where
  /-- somebody calls `asend(v)`, `athrow(e)` or `aclose()` of the subject -/
  | post (n : Notif α)
  /-- a worker of `source` -/
  | source (l : La)
  /-- a worker of `other` -/
  | other (l : Lb)
  /-- a worker of the operator, or behind it -/
  | worker (l : W)

def init (pa : Proc A La (Notif α) (Notif β)) (pb : Proc B Lb (Notif α) (Notif γ)) (p : Proc P W (Notif β ⊕ Notif γ) (Notif δ)) :
    State A B P α β γ δ := ⟨false, pa.init, pb.init, p.init, [], [], []⟩

/-- Calls of `source` and `other` come in at the operator. -/
def State.arrive (p : Proc P W (Notif β ⊕ Notif γ) (Notif δ)) (s : State A B P α β γ δ) (new : List (Notif β ⊕ Notif γ)) : State A B P α β γ δ :=
  { s with ps := (p.feedAll s.ps new).1, arrived := s.arrived ++ new, outs := s.outs ++ (p.feedAll s.ps new).2 }

/-- One atomic segment. `otherFirst`: the order in which the operator subscribes to its sources.

A call of the subject: nothing when it is stopped (119-120, 128-129, 138-139); a terminal event stops it (130, 140); then one observer after
the other (122-123, 132-133, 142-143). -/
def step (otherFirst : Bool) (pa : Proc A La (Notif α) (Notif β)) (pb : Proc B Lb (Notif α) (Notif γ)) (p : Proc P W (Notif β ⊕ Notif γ) (Notif δ))
    (s : State A B P α β γ δ) : Label La Lb W α → Option (State A B P α β γ δ)
  | .post n =>
    if s.stopped then some s
    else
      let ra := pa.feed s.a n
      let rb := pb.feed s.b n
      let t := { s with stopped := n.isTerminal, a := ra.1, b := rb.1, sent := s.sent ++ [n] }
      some (t.arrive p (if otherFirst then rb.2.map .inr ++ ra.2.map .inl else ra.2.map .inl ++ rb.2.map .inr))
  | .source l =>
    match pa.step s.a l with
    | none => none
    | some (a, o) => some ({ s with a }.arrive p (o.map .inl))
  | .other l =>
    match pb.step s.b l with
    | none => none
    | some (b, o) => some ({ s with b }.arrive p (o.map .inr))
  | .worker l =>
    match p.step s.ps l with
    | none => none
    | some (t, o) => some { s with ps := t, outs := s.outs ++ o }

/-- What is sent to the subject in a schedule. -/
def posts (ls : List (Label La Lb W α)) : List (Notif α) := ls.filterMap fun | .post n => some n | _ => none

end Aio.Diamond
