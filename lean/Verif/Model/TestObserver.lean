import Verif.Model.Awaitable
/-!
# `AsyncTestObserver`

testing/observer.py:16-74. The methods record the event, await the user's callback (`self._send`, ...), and then
await the inherited method, which awaits the same callback as `self._asend`, ... (observers.py:278-313). Calls may
overlap; they are numbered.
-/

namespace Aio.TestObserver
variable {α : Type}

/-- Where a call is. -/
inductive Phase (α : Type) where
  /-- `await self._send(value)` (testing/observer.py:52, 60, 69) -/
  | first (n : Notif α)
  /-- `await super().asend(value)` (53, 61, 70), at the callback -/
  | second (n : Notif α)
  | returned
  | raised (e : Err)
  deriving DecidableEq, Repr

/-- `values`: `_values`; `obv`: what is inherited; `callbacks`: the user's callbacks that were started, by which call. -/
structure State (α : Type) where
  time : Nat
  values : List (Nat × Notif α)
  obv : Awaitable.State α
  calls : List (Phase α)
  callbacks : List (Nat × Notif α)
  deriving DecidableEq, Repr

def init : State α := ⟨0, [], Awaitable.init, [], []⟩

inductive Label (α : Type) where
  /-- somebody calls `asend(v)`, `athrow(e)` or `aclose()` -/
  | call (n : Notif α)
  /-- the first callback of a call ends -/
  | first (c : Nat) (r : Option Err)
  /-- the second callback of a call ends -/
  | second (c : Nat) (r : Option Err)
  /-- the loop's clock advances -/
  | advance (d : Nat)
  /-- `dispose()` (inherited) -/
  | dispose
  deriving DecidableEq, Repr

/-- How a call ends. -/
def ending : Option Err → Phase α
  | none => .returned
  | some e => .raised e

/-- One atomic segment. -/
def step (s : State α) : Label α → Option (State α)
  | .call n => some { s with values := s.values ++ [(s.time, n)], calls := s.calls ++ [.first n],
                             callbacks := s.callbacks ++ [(s.calls.length, n)] }
  | .first c r => match s.calls[c]? with
    | some (.first n) => match r with
      | some e => some { s with calls := s.calls.set c (.raised e) }
      | none => match s.obv.call n with
        | (obv, .ignored) => some { s with obv, calls := s.calls.set c .returned }
        | (obv, .callback) => some { s with obv, calls := s.calls.set c (.second n), callbacks := s.callbacks ++ [(c, n)] }
        | (obv, .raised e) => some { s with obv, calls := s.calls.set c (.raised e) }
    | _ => none
  | .second c r => match s.calls[c]? with
    | some (.second _) => some { s with calls := s.calls.set c (ending r) }
    | _ => none
  | .advance d => some { s with time := s.time + d }
  | .dispose => some { s with obv := Awaitable.step s.obv .dispose }

end Aio.TestObserver
