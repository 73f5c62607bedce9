import Verif.Model.AutoDetach
import Verif.Model.Pipeline
import Verif.Model.Subject
/-!
# An operator with `auto_detach` over an `AsyncSubject`

One subscription of `pipe(subject, op)` for an operator of the form
`safe_obv, auto_detach = auto_detach_observer(aobv)`, an observer around `safe_obv`, and
`pipe(observer, source.subscribe_async, auto_detach)` (filtering.py:189-204, 213-230, 242-261, 280-299;
combine.py:340-365), with everything that takes part: the subject, the operator's observer, the worker of the safe
observer, the worker of `auto_detach_observer`, the user who may dispose the subscription, and other users of the
subject.

The operator's observer is object number 0.
-/

namespace Aio.Detach
variable {α β : Type}

/-- `num`: the number of the subscription at the subject, once there is one; `front`: the variables of the operator's
observer; `posts`: everything it has posted to the safe observer (bookkeeping). -/
structure State (w : Wrap α β) where
  sub : Subject.State α
  num : Option Nat
  front : w.τ × Unit
  posts : List (Notif β)
  safe : Safe.State β
  agent : AutoDetach.State

def init (w : Wrap α β) : State w := ⟨Subject.init, none, (w.init, ()), [], Safe.init, AutoDetach.init⟩

inductive Label (α : Type) where
  /-- something happens at the subject: a call of it, an observer that returns or raises, other subscriptions -/
  | subject (l : Subject.Label α)
  /-- `subscribe_async` of the operator -/
  | subscribe
  /-- the user disposes the subscription -/
  | dispose
  /-- the worker of the safe observer, see `Safe.Label` -/
  | receive
  | ret
  | raise (e : Err)
  /-- the worker of `auto_detach_observer`: it begins, takes a message, and goes on after an awaited `dispose_async()` -/
  | agentStart
  | agentReceive
  | agentRet
  deriving DecidableEq

/-- The subject calls the operator's observer, which runs without suspension and posts to the safe observer. -/
def State.feed {w : Wrap α β} (s : State w) (n : Notif α) : State w :=
  let r := (w.obs Observer.post).accept n s.front
  { s with front := r.st, posts := s.posts ++ r.out, safe := { s.safe with inbox := s.safe.inbox ++ r.out } }

/-- The notifications of some calls of observers that were for observer 0. -/
def mine (log : List (Nat × Nat × Notif α)) : List (Notif α) :=
  log.filterMap fun x => if x.2.1 = 0 then some x.2.2 else none

/-- The subject has gone on to `sub`: the operator's observer has had the calls that are new in the log. -/
def State.moved {w : Wrap α β} (s : State w) (sub : Subject.State α) : State w :=
  (mine (sub.log.drop s.sub.log.length)).foldl State.feed { s with sub }

/-- Is it something that others do? Observer 0 is subscribed by `subscribe` only, and its subscription disposed by
`dispose` and the agent only. -/
def others (num : Option Nat) : Subject.Label α → Bool
  | .subscribe o => o != 0
  | .unsubscribe k => num != some k
  | _ => true

/-- `dispose_async()` of the subject's subscription `k`. subject.py:158-161. -/
def unsubscribe (guard : Bool) (sub : Subject.State α) (k : Nat) : Subject.State α :=
  (Subject.step guard sub (.unsubscribe k)).getD sub

/-- The agent has gone on to `t`; the subscriptions on which it has called `dispose_async()` are disposed. -/
def State.detached {w : Wrap α β} (guard : Bool) (s : State w) (t : AutoDetach.State) : State w :=
  { s with agent := t, sub := (t.disposed.drop s.agent.disposed.length).foldl (unsubscribe guard) s.sub }

/-- The canceller: when the safe worker has taken up a terminal notification it has called `cancel()`
(observers.py:178, 182, 233-235). -/
def cancelled (kill : Bool) (t : Safe.State β) (a : AutoDetach.State) : AutoDetach.State :=
  match t.pc with
  | .disposing _ => (AutoDetach.step kill a .cancel).getD a
  | _ => a

/-- One atomic segment. `guard`: see `Subject.step`; `kill`: see `AutoDetach.step`. -/
def step {w : Wrap α β} (guard kill : Bool) (s : State w) : Label α → Option (State w)
  | .subject l => if others s.num l then (Subject.step guard s.sub l).map s.moved else none
  -- subject.py:145-163 runs without suspension, then `auto_detach`, observers.py:241-244; on a disposed subject it
  -- raises, and there is no subscription
  | .subscribe =>
    if s.num.isSome || s.sub.isDisposed then none
    else
      match Subject.step guard s.sub (.subscribe 0), AutoDetach.step kill s.agent (.register s.sub.subs.length) with
      | some sub, some t => some { s with sub := sub, num := some s.sub.subs.length, agent := t }
      | _, _ => none
  | .dispose =>
    match s.num with
    | some k => some { s with sub := unsubscribe guard s.sub k }
    | none => none
  | .receive => (Safe.step s.safe .receive).map fun t => { s with safe := t, agent := cancelled kill t s.agent }
  | .ret => (Safe.step s.safe .ret).map fun t => { s with safe := t }
  | .raise e => (Safe.step s.safe (.raise e)).map fun t => { s with safe := t }
  | .agentStart => (AutoDetach.step kill s.agent .start).map (s.detached guard)
  | .agentReceive => (AutoDetach.step kill s.agent .receive).map (s.detached guard)
  | .agentRet => (AutoDetach.step kill s.agent .ret).map (s.detached guard)

/-- The calls of the subscriber's observer. -/
def State.received {w : Wrap α β} (s : State w) : List (Notif β) := Safe.calls s.safe.log

end Aio.Detach
