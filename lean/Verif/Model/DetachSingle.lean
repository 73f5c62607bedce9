import Verif.Model.Detach
import Verif.Model.Single
/-!
# An operator with `auto_detach` over an `AsyncSingleSubject`

As Model/Detach.lean, with subject.py:16-94 instead of subject.py:97-166. There is one observer, number 0, and it is
subscribed once (a second subscription would replace it, see Model/Single.lean). The difference that matters: the
disposable that `subscribe_async` returns is the subject's own `dispose_async` (subject.py:94), so whoever disposes the
subscription disposes the subject.
-/

namespace Aio.DetachSingle
open Detach (mine)
variable {α β : Type}

/-- `subscribed`: has the operator been subscribed? The rest as in `Detach.State`. -/
structure State (w : Wrap α β) where
  sub : Single.State α
  subscribed : Bool
  front : w.τ × Unit
  posts : List (Notif β)
  safe : Safe.State β
  agent : AutoDetach.State

def init (w : Wrap α β) : State w := ⟨Single.init, false, (w.init, ()), [], Safe.init, AutoDetach.init⟩

inductive Label (α : Type) where
  /-- something happens at the subject: a call of it, a call that was woken goes on, the operator's observer returns, a
  waiting caller is cancelled, somebody disposes the subject -/
  | subject (l : Single.Label α)
  /-- `subscribe_async` of the operator -/
  | subscribe
  /-- the user disposes the subscription -/
  | dispose
  /-- the worker of the safe observer, see `Safe.Label` -/
  | receive
  | ret
  | raise (e : Err)
  /-- the worker of `auto_detach_observer`: it begins, takes a message, and goes on after an awaited `dispose_async()` -/
  | agentStart
  | agentReceive
  | agentRet
  deriving DecidableEq

/-- The subject calls the operator's observer, which runs without suspension and posts to the safe observer. -/
def State.feed {w : Wrap α β} (s : State w) (n : Notif α) : State w :=
  let r := (w.obs Observer.post).accept n s.front
  { s with front := r.st, posts := s.posts ++ r.out, safe := { s.safe with inbox := s.safe.inbox ++ r.out } }

/-- The subject has gone on to `sub`: the operator's observer has had the calls that are new in the log. -/
def State.moved {w : Wrap α β} (s : State w) (sub : Single.State α) : State w :=
  (mine (sub.log.drop s.sub.log.length)).foldl State.feed { s with sub }

/-- Nobody else subscribes. -/
def others : Single.Label α → Bool
  | .subscribe _ => false
  | _ => true

/-- `dispose_async()` of a subscription. subject.py:75-79, 94. -/
def disposeSubject (sub : Single.State α) : Single.State α := (Single.step sub .dispose).getD sub

/-- The agent has gone on to `t`; the subscriptions on which it has called `dispose_async()` are disposed. -/
def State.detached {w : Wrap α β} (s : State w) (t : AutoDetach.State) : State w :=
  { s with agent := t, sub := (t.disposed.drop s.agent.disposed.length).foldl (fun sub _ => disposeSubject sub) s.sub }

/-- A caller is in an endless loop that does not suspend: nothing else happens in the program. -/
def State.stuck {w : Wrap α β} (s : State w) : Bool := s.sub.calls.any Single.Call.isSpinning

/-- One atomic segment, if the event loop is not stuck. `kill`: see `AutoDetach.step`. -/
def move {w : Wrap α β} (kill : Bool) (s : State w) : Label α → Option (State w)
  | .subject l => if others l then (Single.step s.sub l).map s.moved else none
  -- subject.py:81-94 runs without suspension, then `auto_detach`, observers.py:241-244; on a disposed subject it
  -- raises, and there is no subscription
  | .subscribe =>
    if s.subscribed || s.sub.isDisposed then none
    else
      match Single.step s.sub (.subscribe 0), AutoDetach.step kill s.agent (.register 0) with
      | some sub, some t => some { s with sub := sub, subscribed := true, agent := t }
      | _, _ => none
  | .dispose => if s.subscribed then some { s with sub := disposeSubject s.sub } else none
  | .receive => (Safe.step s.safe .receive).map fun t => { s with safe := t, agent := Detach.cancelled kill t s.agent }
  | .ret => (Safe.step s.safe .ret).map fun t => { s with safe := t }
  | .raise e => (Safe.step s.safe (.raise e)).map fun t => { s with safe := t }
  | .agentStart => (AutoDetach.step kill s.agent .start).map s.detached
  | .agentReceive => (AutoDetach.step kill s.agent .receive).map s.detached
  | .agentRet => (AutoDetach.step kill s.agent .ret).map s.detached

/-- One atomic segment. -/
def step {w : Wrap α β} (kill : Bool) (s : State w) (l : Label α) : Option (State w) :=
  if s.stuck then none else move kill s l

/-- The calls of the subscriber's observer. -/
def State.received {w : Wrap α β} (s : State w) : List (Notif β) := Safe.calls s.safe.log

end Aio.DetachSingle
