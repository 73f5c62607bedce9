import Verif.Model.Pipeline
import Verif.Model.Transform
/-!
# Operators with two sources

`combine_latest`, `with_latest_from` (combine.py:174-333) and `take_until` (filtering.py:302-332).
Each of them subscribes an observer to both sources; an input of the process is one call on one of
the two observers (`inl`: source, `inr`: other), in the order in which the calls happen. The first
two post every call to an agent (combine.py:238-242, 321-325), whose worker posts to the safe
observer; `take_until` posts to the safe observer directly.
-/

namespace Aio
variable {α β γ : Type}

namespace Combine

/-- `get_value` of both operators. combine.py:203-211, 284-294. `safe_obv` only posts. -/
def getValue {σ v : Type} (n : Notif v) : Py σ (Notif γ) (Option v) :=
  match n with
  | .next value => pure (some value)
  | .error err => do Py.emit (.error err); pure none
  | .completed => do Py.emit .completed; pure none

/-- `for x in combined.to_list(): await safe_obv.asend(x)`. combine.py:229-230, 312-313. -/
def sendAll {σ : Type} (combined : Option γ) : Py σ (Notif γ) Unit :=
  Py.forEach combined.toList fun x => Py.emit (.next x)

/-- One round of `message_loop` of `combine_latest`. combine.py:201-232. The `case _` (219) cannot
happen: only the two kinds of messages are posted. -/
def combineBody (cn : Notif α ⊕ Notif β) : Py (Option α × Option β) (Notif (α × β)) Unit := do
  match cn with
  | .inl value =>
    let sourceValue ← getValue value
    let s ← Py.get
    Py.set (sourceValue, s.2)
  | .inr value =>
    let otherValue ← getValue value
    let s ← Py.get
    Py.set (s.1, otherValue)
  let (sourceValue, otherValue) ← Py.get
  sendAll (sourceValue.bind fun s => otherValue.map fun o => (s, o))

/-- One round of `message_loop` of `with_latest_from`. combine.py:282-315. -/
def withLatestBody (cn : Notif α ⊕ Notif β) : Py (Option β) (Notif (α × β)) Unit := do
  let sourceValue ← (match cn with
    | .inl value => getValue value
    | .inr value => do
      let latest ← getValue value
      Py.set latest
      pure none)
  let latest ← Py.get
  sendAll (sourceValue.bind fun s => latest.map fun o => (s, o))

end Combine

/-- The worker of `combine_latest`: `message_loop(Nothing, Nothing)`. combine.py:198-234. -/
def combineLatestAgent : Agent (Option α × Option β) (Notif α ⊕ Notif β) (Notif (α × β)) where
  init := (none, none)
  recv s m := ((Combine.combineBody m s).st, (Combine.combineBody m s).out)

/-- The worker of `with_latest_from`: `message_loop(Nothing)`. combine.py:277-317. -/
def withLatestFromAgent : Agent (Option β) (Notif α ⊕ Notif β) (Notif (α × β)) where
  init := none
  recv s m := ((Combine.withLatestBody m s).st, (Combine.withLatestBody m s).out)

/-- `take_until`: the source is subscribed to `safe_obv` itself; the observer of `other` has `asend`
(321-322) and `athrow` only, its `aclose` is `anoop` (324). -/
def takeUntilAgent : Agent Unit (Notif α ⊕ Notif β) (Notif α) where
  init := ()
  recv s m :=
    match m with
    | .inl n => (s, (Observer.post.accept n ()).out)
    | .inr n =>
      (s, (((Observer.anonymous (some fun _ => Observer.post.aclose)
        (some Observer.post.athrow) none : Observer Unit (Notif α) β).accept n) ()).out)

/-- `source | combine_latest(other) | op`: the worker, then the safe observer in front of what is
downstream. `op = Operator.id`: the final observer. -/
def combineLatest (op : Operator (α × β) γ) :=
  Proc.seq (Proc.mailbox (combineLatestAgent (α := α) (β := β))) op.protected.proc

/-- `source | with_latest_from(other) | op` -/
def withLatestFrom (op : Operator (α × β) γ) :=
  Proc.seq (Proc.mailbox (withLatestFromAgent (α := α) (β := β))) op.protected.proc

/-- `source | take_until(other) | op` -/
def takeUntil (β : Type) (op : Operator α γ) :=
  Proc.seq (Proc.direct (takeUntilAgent (α := α) (β := β))) op.protected.proc

/-- `sample(seconds)` for `seconds > 0`: `with_latest_from(timer) | map(fst)` with
`timer = interval(seconds, seconds)`; the inputs from the right are the timer's ticks.
timeshift.py:166-182. (For `seconds <= 0` it returns the source itself.) -/
def sample {α : Type} :=
  withLatestFrom (α := α) (β := Nat) (Aio.map fun p : α × Nat => .ok p.1)

end Aio
