import Verif.Model.Work
import Verif.Model.Hosted
/-!
# Sources that wait for their observer

`pipe(interval(s, p), map_async(f), ...)` and `pipe(from_async_iterable(gen), map_async(f), ...)`: neither the source nor these operators have a mailbox, so there is one task, which
sleeps, awaits the functions, calls the observer and waits for it. Disposal cancels this task.
-/

namespace Aio
variable {α β γ A σ : Type}

/-- What a coroutine does before it suspends or ends: its calls, and what is left. -/
def Co.segment : Co β A → List (Notif β) × Co β A
  | .call n k => (n :: k.segment.1, k.segment.2)
  | c => ([], c)

/-- One round of `handler` of `interval`: the new state of the observer if there is another round. `asyncio.sleep` of a negative number does not sleep. create.py:214-222. -/
def Interval.round (o : Handler σ Nat β) (seconds period : Int) (k : Nat) (s : σ) : Co β (Option σ) :=
  .wait (if k = 0 then seconds else period).toNat ((o.asend s k).bind fun s' =>
    if period = 0 then (o.aclose s').bind fun _ => .done none else .done (some s'))

/-- One round of `worker` of `of_async_iterable`, create.py:89-98. `src k`: how long `__anext__` takes when it is called for the `k`-th time, and whether it then returns a value, raises
`StopAsyncIteration` (`none`) or another exception, which nobody catches. Simplified: `__anext__` always suspends, if only as `asyncio.sleep(0)` does; that `tasks.remove(task)` cannot fail
(`Model/AsyncSource.lean` says when). -/
def AsyncSource.round (o : Handler σ α β) (src : Nat → Nat × Except Err (Option α)) (k : Nat) (s : σ) : Co β (Option σ) :=
  .wait (src k).1 (match (src k).2 with
    | .error e => .raise e
    | .ok none => (o.aclose s).bind fun _ => .done none
    | .ok (some v) => (o.asend s v).attempt (fun s' => .done (some s')) fun ex => (o.athrow s ex).bind fun _ => .done none)

namespace Direct

inductive PC (β σ : Type) where
  /-- the task has been made -/
  | fresh
  /-- about to begin round `k`. Simplified: that the code goes on to its next `await` without other code in between is left open. -/
  | round (k : Nat) (s : σ)
  /-- in round `k`, asleep until `due` -/
  | asleep (k due : Nat) (c : Co β (Option σ))
  | dead

/-- `since`: when the subscription was disposed first. -/
structure State (β σ : Type) where
  now : Nat
  pc : PC β σ
  since : Option Nat
  sent : List (Notif β × Nat)

/-- `start`: the task begins; `next`: it begins a round; `wake`: a sleep is over, and the coroutine goes on to its next sleep or the end of the round; `thrown`: `CancelledError` is raised where
it sleeps, and nobody catches it; `dispose`: `dispose_async` of the subscription. -/
inductive Label where
  | start
  | next
  | wake
  | thrown
  | dispose
  deriving DecidableEq, Repr

/-- The coroutine `c` of round `k` goes on until it suspends. If it raises, the task ends; nobody awaits it. -/
def proceed (s : State β σ) (k : Nat) (c : Co β (Option σ)) : State β σ :=
  { s with
    sent := s.sent ++ c.segment.1.map fun n => (n, s.now)
    pc := match c.segment.2 with
      | .done (some t) => .round (k + 1) t
      | .wait d c' => .asleep k (s.now + d) c'
      | _ => .dead }

/-- Disposal calls `task.cancel()` (create.py:83-85; for `interval` through the token, create.py:25-32, 224); a task that is cancelled gets `CancelledError` when it goes on, also if its sleep is over in
the meantime. Simplified: the functions and the observer do not catch `CancelledError`. -/
def act (round : Nat → σ → Co β (Option σ)) (s0 : σ) (s : State β σ) : Label → Option (State β σ)
  | .start =>
    match s.pc, s.since with
    | .fresh, none => some { s with pc := .round 0 s0 }
    | _, _ => none
  | .next =>
    match s.pc with
    | .round k t => some (proceed s k (round k t))
    | _ => none
  | .wake =>
    match s.pc, s.since with
    | .asleep k due c, none => if due ≤ s.now then some (proceed s k c) else none
    | _, _ => none
  | .thrown =>
    match s.pc, s.since with
    | .fresh, some _ => some { s with pc := .dead }
    | .asleep _ _ _, some _ => some { s with pc := .dead }
    | _, _ => none
  | .dispose => some { s with since := some (s.since.getD s.now) }

/-- On a loop that is not overloaded. -/
def pass (s : State β σ) (d : Nat) : Option (State β σ) :=
  match s.pc, s.since with
  | .dead, _ => some { s with now := s.now + d }
  | .asleep _ due _, none => if s.now + d ≤ due then some { s with now := s.now + d } else none
  | _, _ => none

/-- The source with its operators and its observer, subscribed at time `t0`; the calls are those on the observer. -/
def clocked (round : Nat → σ → Co β (Option σ)) (s0 : σ) (t0 : Nat) : Clocked (State β σ) Label β where
  init := ⟨t0, .fresh, none, []⟩
  act := act round s0
  pass := pass
  now s := s.now
  calls s := s.sent

/-- The one task. -/
def host : Host (State β σ) Label Unit where
  names _ := [()]
  need s _ :=
    match s.pc, s.since with
    | .dead, _ => .nothing
    | .asleep _ due _, none => .until due
    | _, _ => .soon
  turn s _ :=
    match s.pc, s.since with
    | .dead, _ => []
    | .round _ _, _ => [.next]
    | .fresh, none => [.start]
    | .asleep _ _ _, none => [.wake]
    | _, _ => [.thrown]
  outside l := l = .dispose

end Direct
end Aio
