import Verif.Base.Notif
import Verif.Base.LTS
/-!
# `AsyncSubject` (`AsyncMultiSubject`)

subject.py:97-170. Any number of callers; the calls `asend`/`athrow`/`aclose` are numbered in the order in
which they are made, the subscriptions in the order in which they are made. Observers are objects that are
compared by identity (`o : Nat`); their methods may suspend and raise.
-/

namespace Aio.Subject
variable {α : Type}

/-- One call of `asend`/`athrow`/`aclose`. -/
inductive Call (α : Type) where
  /-- inside the `for` loop (lines 122-123, 132-133, 142-143), at the await of the method of `current`;
  `rest` is what is left of the list that the loop iterates over -/
  | running (n : Notif α) (current : Nat) (rest : List Nat)
  | returned
  | raised (e : Err)
  deriving DecidableEq, Repr

/-- `observers`, `isDisposed`, `isStopped`: the attributes of lines 108-110. The rest is bookkeeping: the
calls; for each `subscribe_async` call the observer, and whether its disposable was disposed
(`none`: the call raised); the calls of observers' methods, as (number of the call, observer,
notification). -/
structure State (α : Type) where
  observers : List Nat
  isDisposed : Bool
  isStopped : Bool
  calls : List (Call α)
  subs : List (Option (Nat × Bool))
  log : List (Nat × Nat × Notif α)
  deriving DecidableEq, Repr

/-- `__init__`, lines 106-110. -/
def init : State α := ⟨[], false, false, [], [], []⟩

inductive Label (α : Type) where
  /-- somebody calls `asend(v)`, `athrow(e)` or `aclose()` -/
  | call (n : Notif α)
  /-- the observer's method that call number `c` awaits returns -/
  | ret (c : Nat)
  /-- it raises -/
  | raise (c : Nat) (e : Err)
  /-- somebody calls `subscribe_async(o)` -/
  | subscribe (o : Nat)
  /-- somebody calls `dispose_async()` of the disposable that `subscribe_async` call number `k` returned -/
  | unsubscribe (k : Nat)
  /-- somebody calls `dispose_async()` of the subject -/
  | dispose
  deriving DecidableEq, Repr

/-- The `for` loop of call number `c` goes on with `rest`. -/
def State.loop (s : State α) (c : Nat) (n : Notif α) : List Nat → State α
  | [] => { s with calls := s.calls.set c .returned }
  | o :: rest => { s with calls := s.calls.set c (.running n o rest), log := s.log ++ [(c, o, n)] }

/-- `asend` (116-123), `athrow` (125-133), `aclose` (135-143) up to the first suspension. -/
def State.begin (s : State α) (n : Notif α) : State α :=
  if s.isDisposed then
    -- 117, 126, 136
    { s with calls := s.calls ++ [.raised .objectDisposed] }
  else if s.isStopped then
    -- 119-120, 128-129, 138-139
    { s with calls := s.calls ++ [.returned] }
  else
    -- 130, 140
    let s := match n with
      | .next _ => s
      | _ => { s with isStopped := true }
    -- the list that the loop iterates over is a copy
    State.loop { s with calls := s.calls ++ [.returned] } s.calls.length n s.observers

/-- One atomic segment. `guard`: whether a disposable made by `AsyncDisposable.create` (package
`expression`) runs its action only the first time it is disposed. -/
def step (guard : Bool) (s : State α) : Label α → Option (State α)
  | .call n => some (s.begin n)
  | .ret c =>
    match s.calls[c]? with
    | some (.running n _ rest) => some (s.loop c n rest)
    | _ => none
  | .raise c e =>
    match s.calls[c]? with
    | some (.running _ _ _) => some { s with calls := s.calls.set c (.raised e) }
    | _ => none
  -- 145-163
  | .subscribe o =>
    if s.isDisposed then some { s with subs := s.subs ++ [none] }
    else some { s with observers := s.observers ++ [o], subs := s.subs ++ [some (o, false)] }
  -- 158-161; `remove` removes the first element that is equal
  | .unsubscribe k =>
    match s.subs[k]? with
    | some (some (o, gone)) =>
      if guard ∧ gone then some s
      else some { s with observers := s.observers.erase o, subs := s.subs.set k (some (o, true)) }
    | _ => none
  -- 165-166
  | .dispose => some { s with isDisposed := true }

end Aio.Subject
