import Verif.Base.Notif
/-!
# `auto_detach_observer`

Models the disposing agent of `aioreactive/observers.py:202-246`. (The observer half of the result
is `safe_observer(obv, canceller)`, line 238, see `Model/Safe.lean`: the safe worker calls
`canceller.dispose_async()`, i.e. the label `cancel` below, before it delivers a terminal.)

`killOnCancel` is the behaviour of `MailboxProcessor.start(worker, token)` (code of the `expression`
package, not in /repo) when the token is cancelled: `true` - the worker task is cancelled while it
waits for a message; `false` - the worker just goes on.
-/

namespace Aio.AutoDetach

/-- `Msg(disposable=d)` or `Msg(dispose=True)`. observers.py:235, 243, msg.py:17-37. -/
inductive Msg where
  | disposable (d : Nat)
  | dispose
  deriving DecidableEq, Repr

inductive PC where
  /-- the worker task has been created (231) but has not run yet -/
  | fresh
  /-- at `await inbox.receive()` (219) with the list `disposables` -/
  | waiting (disposables : List Nat)
  /-- inside `await disp.dispose_async()` (225) of `cur`, `todo` still to come -/
  | disposing (cur : Nat) (todo : List Nat)
  /-- the worker has returned, raised or was cancelled -/
  | dead
  deriving DecidableEq, Repr

structure State where
  inbox : List Msg
  pc : PC
  /-- `token.is_cancellation_requested` -/
  cancelled : Bool
  /-- subscriptions on which `dispose_async()` has been called, in order -/
  disposed : List Nat
  deriving DecidableEq, Repr

def init : State := ⟨[], .fresh, false, []⟩

inductive Label where
  /-- `auto_detach(...)`: the upstream subscription `d` is there, 242-244 -/
  | register (d : Nat)
  /-- `cancel()`, 233-235 -/
  | cancel
  /-- first step of the worker task -/
  | start
  /-- the worker takes the oldest message -/
  | receive
  /-- the `dispose_async()` in progress returns / raises -/
  | ret
  | raise
  deriving DecidableEq, Repr

/-- The head of `message_loop` with the given list: token check (216), then wait (219). -/
def loopHead (cancelled : Bool) (disposables : List Nat) : PC :=
  if cancelled then .dead else .waiting disposables

/-- The `for` loop 224-225 up to its next await; `return` (226) when the list is empty. -/
def disposeLoop (s : State) : List Nat → State
  | [] => { s with pc := .dead }
  | d :: ds => { s with pc := .disposing d ds, disposed := s.disposed ++ [d] }

/-- One atomic segment. -/
def step (killOnCancel : Bool) (s : State) : Label → Option State
  | .register d => some { s with inbox := s.inbox ++ [.disposable d] }
  | .cancel =>
    let pc := match s.pc with
      | .fresh => if killOnCancel then .dead else .fresh
      | .waiting ds => if killOnCancel then .dead else .waiting ds
      | pc => pc
    some { s with pc := pc, cancelled := true, inbox := s.inbox ++ [.dispose] }
  | .start =>
    match s.pc with
    | .fresh => some { s with pc := loopHead s.cancelled [] }
    | _ => none
  | .receive =>
    match s.pc, s.inbox with
    | .waiting ds, .disposable d :: q =>
      -- 221-222, 227: append, tail call, token check
      some { s with inbox := q, pc := loopHead s.cancelled (ds ++ [d]) }
    | .waiting ds, .dispose :: q => some (disposeLoop { s with inbox := q } ds)
    | _, _ => none
  | .ret =>
    match s.pc with
    | .disposing _ ds => some (disposeLoop s ds)
    | _ => none
  | .raise =>
    match s.pc with
    | .disposing _ _ => some { s with pc := .dead }
    | _ => none

/-- Run a schedule. -/
def run (k : Bool) : State → List Label → Option State
  | s, [] => some s
  | s, l :: ls => (step k s l).bind fun s' => run k s' ls

/-- The upstream subscriptions registered in a schedule, in order. -/
def registered : List Label → List Nat
  | [] => []
  | .register d :: ls => d :: registered ls
  | _ :: ls => registered ls

/-- The worker cannot do anything more by itself. -/
def Drained (k : Bool) (s : State) : Prop :=
  step k s .start = none ∧ step k s .receive = none ∧ step k s .ret = none

end Aio.AutoDetach
