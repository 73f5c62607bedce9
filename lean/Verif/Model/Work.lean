import Verif.Model.Clocked
/-!
# Async functions that take time

`pipe(source, map_async(f), filter_async(p), ...)` behind `safe_observer`, on a clock: the worker of `safe_observer` (observers.py:151-199)
calls the observer made by the operators, which awaits the functions and then calls the next one.
-/

namespace Aio
variable {α β γ A B σ : Type}

/-- A coroutine: it ends, raises, sleeps or calls a method of the observer at the end of the pipeline. -/
inductive Co (β A : Type) where
  | done (a : A)
  | raise (e : Err)
  | wait (d : Nat) (k : Co β A)
  | call (n : Notif β) (k : Co β A)

namespace Co

/-- `x = await c; ...` -/
def bind : Co β A → (A → Co β B) → Co β B
  | .done a, f => f a
  | .raise e, _ => .raise e
  | .wait d k, f => .wait d (k.bind f)
  | .call n k, f => .call n (k.bind f)

/-- `try: x = await c except Exception as ex: ...`, and `...` otherwise. A `CancelledError` is not an `Exception`. -/
def attempt : Co β A → (A → Co β B) → (Err → Co β B) → Co β B
  | .done a, f, _ => f a
  | .raise e, _, h => if e = .cancelled then .raise e else h e
  | .wait d k, f, h => .wait d (k.attempt f h)
  | .call n k, f, h => .call n (k.attempt f h)

/-- A call of a user's async function that takes `w.1` and then returns or raises. -/
def work (w : Nat × Except Err A) : Co β A :=
  .wait w.1 (match w.2 with
    | .ok a => .done a
    | .error e => .raise e)

end Co

/-- An observer as code; its state changes from call to call. -/
structure Handler (σ α β : Type) where
  asend : σ → α → Co β σ
  athrow : σ → Err → Co β σ
  aclose : σ → Co β σ

namespace Handler

/-- The observer at the end: the `i`-th `asend` takes `(m i v).1` and may raise at its end. Simplified: `athrow` and `aclose` take no time; nothing
follows them. -/
def final (m : Nat → α → Nat × Option Err) : Handler Nat α α where
  asend i v := .call (.next v) (.wait (m i v).1 (match (m i v).2 with
    | none => .done (i + 1)
    | some e => .raise e))
  athrow i e := .call (.error e) (.done i)
  aclose i := .call .completed (.done i)

/-- `transform`. transform.py:47-56. -/
def transform (anext : (γ → Co β σ) → σ → α → Co β σ) (o : Handler σ γ β) : Handler σ α β where
  asend s v := anext (o.asend s) s v
  athrow := o.athrow
  aclose := o.aclose

/-- `map_async`. transform.py:71-75. -/
def mapAsync (f : α → Nat × Except Err γ) : Handler σ γ β → Handler σ α β :=
  transform fun next _ x => (Co.work (f x)).bind next

/-- `choose_async`. filtering.py:36-41. `to_list()` of an option has at most one element. -/
def chooseAsync (f : α → Nat × Except Err (Option γ)) : Handler σ γ β → Handler σ α β :=
  transform fun next s x => (Co.work (f x)).bind fun
    | some y => next y
    | none => .done s

/-- `filter_async`. filtering.py:71-73. -/
def filterAsync (p : α → Nat × Except Err Bool) : Handler σ α β → Handler σ α β :=
  transform fun next s x => (Co.work (p x)).bind fun b => if b then next x else .done s

end Handler

/-- A chain of these operators. -/
inductive Ops : Type → Type → Type 1 where
  | nil {α : Type} : Ops α α
  | map {α γ β : Type} (f : α → Nat × Except Err γ) (rest : Ops γ β) : Ops α β
  | choose {α γ β : Type} (f : α → Nat × Except Err (Option γ)) (rest : Ops γ β) : Ops α β
  | filter {α β : Type} (p : α → Nat × Except Err Bool) (rest : Ops α β) : Ops α β

/-- `pipe(source, op1, op2, ...)`: the observer that `op1` subscribes to the source calls that of `op2`, and so on. transform.py:48-56. -/
def Ops.handler {α γ β σ : Type} : Ops α γ → Handler σ γ β → Handler σ α β
  | .nil, o => o
  | .map f rest, o => Handler.mapAsync f (rest.handler o)
  | .choose f rest, o => Handler.chooseAsync f (rest.handler o)
  | .filter p rest, o => Handler.filterAsync p (rest.handler o)

namespace Work

/-- One round of `message_loop`, observers.py:170-184: the new state of the observer, or the end of the loop. `gone`: what the disposable takes.
Simplified: the state that an observer had when it raised is of no importance for its `athrow` (all of them only pass it on). -/
def body (o : Handler σ α β) (gone : Nat) (s : σ) : Notif α → Co β (Option σ)
  | .next v => (o.asend s v).attempt (fun s' => .done (some s')) fun ex => (o.athrow s ex).bind fun _ => .done none
  | .error e => .wait gone ((o.athrow s e).bind fun _ => .done none)
  | .completed => .wait gone ((o.aclose s).bind fun _ => .done none)

inductive PC (β σ : Type) where
  /-- at `await inbox.receive()`, 170 -/
  | waiting (s : σ)
  /-- about to go on -/
  | running (k : Co β (Option σ))
  /-- asleep until `due` -/
  | asleep (due : Nat) (k : Co β (Option σ))
  | halted

structure State (α β σ : Type) where
  inbox : List (Notif α)
  pc : PC β σ
  now : Nat
  sent : List (Notif β × Nat)

/-- `event`: a call on the safe observer, 190-197; `receive`: the worker takes a message; `go`: it goes on to its next sleep or call;
`wake`: the sleep is over; `tick`: time passes. -/
inductive Label (α : Type) where
  | event (n : Notif α)
  | receive
  | go
  | wake
  | tick (d : Nat)
  deriving DecidableEq, Repr

/-- The worker does not wait until `d` later. -/
def ready (s : State α β σ) (d : Nat) : Bool :=
  match s.pc with
  | .waiting _ => !s.inbox.isEmpty
  | .running _ => true
  | .asleep due _ => due < s.now + d
  | .halted => false

/-- On a loop that is not overloaded. -/
def step (o : Handler σ α β) (gone : Nat) (s : State α β σ) : Label α → Option (State α β σ)
  | .event n => some { s with inbox := s.inbox ++ [n] }
  | .receive =>
    match s.pc, s.inbox with
    | .waiting t, n :: q => some { s with inbox := q, pc := .running (body o gone t n) }
    | _, _ => none
  | .go =>
    match s.pc with
    | .running (.done (some t)) => some { s with pc := .waiting t }
    | .running (.done none) => some { s with pc := .halted }
    | .running (.raise _) => some { s with pc := .halted }
    | .running (.wait d k) => some { s with pc := .asleep (s.now + d) k }
    | .running (.call n k) => some { s with pc := .running k, sent := s.sent ++ [(n, s.now)] }
    | _ => none
  | .wake =>
    match s.pc with
    | .asleep due k => if due ≤ s.now then some { s with pc := .running k } else none
    | _ => none
  | .tick d => if ready s d then none else some { s with now := s.now + d }

/-- `safe_observer` in front of operators and an observer, as the last stage of a pipeline; its calls are those on that observer. -/
def stage (o : Handler σ α β) (s0 : σ) (gone : Nat) : Stage (State α β σ) (Label α) α β where
  init t := ⟨[], .waiting s0, t, []⟩
  step := step o gone
  event := .event
  tick := .tick
  own
    | .receive | .go | .wake => true
    | _ => false
  now s := s.now
  calls s := s.sent

end Work
end Aio
