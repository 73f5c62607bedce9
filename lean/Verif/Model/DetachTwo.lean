import Verif.Model.Detach
/-!
# An operator with two sources and `auto_detach`, over two `AsyncSubject`s

`take_until` (filtering.py:317-330), `combine_latest` (combine.py:193-249) and `with_latest_from` (combine.py:274-331):
one `auto_detach_observer`, an observer for each of the sources, a subscription to each of the two sources, and
`AsyncDisposable.composite(sub1, sub2)` for the user. `combine_latest` and `with_latest_from` pass both subscriptions
through `auto_detach` (246-247, 329-330), `take_until` only the one to the source (filtering.py:325-326).

What the operator does with the calls of the two subjects is left open here: at any time anything may be posted to the
safe observer. (What is posted is the subject of C49, C53 and C54.)

In both subjects the operator's observer is object number 0.
-/

namespace Aio.DetachTwo
open Detach (others unsubscribe cancelled)
variable {α β γ : Type}

/-- The two sources. -/
inductive Side where
  | source
  | other
  deriving DecidableEq, Repr

/-- The number under which the subscription to a side is registered with the agent. -/
def Side.number : Side → Nat
  | .source => 0
  | .other => 1

/-- Which subscriptions pass through `auto_detach`. -/
abbrev Registers := Side → Bool

/-- `take_until`: filtering.py:325-326 -/
def takeUntilRegisters : Registers
  | .source => true
  | .other => false

/-- `combine_latest`, `with_latest_from`: combine.py:246-247, 329-330 -/
def bothRegister : Registers := fun _ => true

/-- `left`, `right`: the two subjects; `num1`, `num2`: the numbers of the operator's subscriptions there, once there are
some. -/
structure State (α β γ : Type) where
  left : Subject.State α
  right : Subject.State β
  num1 : Option Nat
  num2 : Option Nat
  safe : Safe.State γ
  agent : AutoDetach.State

def init : State α β γ := ⟨Subject.init, Subject.init, none, none, Safe.init, AutoDetach.init⟩

inductive Label (α β γ : Type) where
  /-- something happens at one of the subjects, see `Detach.Label.subject` -/
  | left (l : Subject.Label α)
  | right (l : Subject.Label β)
  /-- `subscribe_async` of the operator subscribes to one of the sources -/
  | subscribe (side : Side)
  /-- the user's disposable disposes one of the subscriptions -/
  | dispose (side : Side)
  /-- the operator posts to the safe observer -/
  | post (n : Notif γ)
  /-- the workers, see `Detach.Label` -/
  | receive
  | ret
  | raise (e : Err)
  | agentStart
  | agentReceive
  | agentRet
  deriving DecidableEq

/-- The agent gets to know of the subscription to `side`, if it passes through `auto_detach`. observers.py:241-244. -/
def register (kill : Bool) (regs : Registers) (side : Side) (a : AutoDetach.State) : AutoDetach.State :=
  if regs side then (AutoDetach.step kill a (.register side.number)).getD a else a

/-- `dispose_async()` of the subscription that is registered as number `d`. -/
def State.drop (guard : Bool) (s : State α β γ) (d : Nat) : State α β γ :=
  match d, s.num1, s.num2 with
  | 0, some k, _ => { s with left := unsubscribe guard s.left k }
  | 1, _, some k => { s with right := unsubscribe guard s.right k }
  | _, _, _ => s

/-- The agent has gone on to `t`; the subscriptions on which it has called `dispose_async()` are disposed. -/
def State.detached (guard : Bool) (s : State α β γ) (t : AutoDetach.State) : State α β γ :=
  (t.disposed.drop s.agent.disposed.length).foldl (State.drop guard) { s with agent := t }

/-- One atomic segment. -/
def step (guard kill : Bool) (regs : Registers) (s : State α β γ) : Label α β γ → Option (State α β γ)
  | .left l => if others s.num1 l then (Subject.step guard s.left l).map fun t => { s with left := t } else none
  | .right l => if others s.num2 l then (Subject.step guard s.right l).map fun t => { s with right := t } else none
  | .subscribe .source =>
    if s.num1.isSome || s.left.isDisposed then none
    else (Subject.step guard s.left (.subscribe 0)).map fun t =>
      { s with left := t, num1 := some s.left.subs.length, agent := register kill regs .source s.agent }
  | .subscribe .other =>
    if s.num2.isSome || s.right.isDisposed then none
    else (Subject.step guard s.right (.subscribe 0)).map fun t =>
      { s with right := t, num2 := some s.right.subs.length, agent := register kill regs .other s.agent }
  -- the user has a disposable once both subscriptions are there
  | .dispose side => if s.num1.isSome && s.num2.isSome then some (s.drop guard side.number) else none
  | .post n => (Safe.step s.safe (.post n)).map fun t => { s with safe := t }
  | .receive => (Safe.step s.safe .receive).map fun t => { s with safe := t, agent := cancelled kill t s.agent }
  | .ret => (Safe.step s.safe .ret).map fun t => { s with safe := t }
  | .raise e => (Safe.step s.safe (.raise e)).map fun t => { s with safe := t }
  | .agentStart => (AutoDetach.step kill s.agent .start).map (s.detached guard)
  | .agentReceive => (AutoDetach.step kill s.agent .receive).map (s.detached guard)
  | .agentRet => (AutoDetach.step kill s.agent .ret).map (s.detached guard)

end Aio.DetachTwo
