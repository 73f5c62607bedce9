import Verif.Model.Hot
import Verif.Model.Catch
/-!
# `catch` and `retry` over subjects

transform.py:384-449 and subject.py:97-166. There is no mailbox: `catch` leaves one subject and subscribes to the next inside the `athrow` of the
subject that fails. Simplified: `subscribe_async` and `dispose_async` of the observables, and the methods of the final observer, are not
suspended (those of a subject are not, those of a safe observer only post).
-/

namespace Aio.HotCatch
variable {C ω α : Type}

/-- `cat`: the subscription to `catch`; `subjects`: by their numbers; `out`: the calls made on the final observer. -/
structure State (C ω α : Type) where
  cat : Catch.State C ω
  subjects : Nat → Hot.Subject
  out : List (Notif α)

inductive Label (α : Type) where
  /-- somebody calls `asend`, `athrow` or `aclose` of subject `i` -/
  | call (i : Nat) (n : Notif α)
  /-- an observable that is not a subject, number `k` of those subscribed to, calls its observer -/
  | other (k : Nat) (n : Notif α)
  /-- the subscription is disposed, transform.py:425 -/
  | cancel
  deriving DecidableEq

/-- `self._observers.remove(observer)`, subject.py:160-161, for the observers with these numbers. -/
def State.unsubscribe : List Nat → State C ω α → State C ω α
  | [], s => s
  | k :: ks, s => State.unsubscribe ks { s with subjects := fun j => { s.subjects j with observers := (s.subjects j).observers.erase k } }

/-- `self._observers.append(observer)`, subject.py:156, if the observable is a subject (`place` says which). -/
def State.subscribe (place : ω → Option Nat) : Nat → List ω → State C ω α → State C ω α
  | _, [], s => s
  | k, x :: xs, s => State.subscribe place (k + 1) xs { s with
      subjects := fun j => if place x = some j then { s.subjects j with observers := (s.subjects j).observers ++ [k] } else s.subjects j }

/-- One segment of `catch`, with what it does to the subjects. -/
def State.act (h : Catch.Handler C ω) (place : ω → Option Nat) (s : State C ω α) (l : Catch.Label α) : Option (State C ω α) :=
  match Catch.step h false s.cat l with
  | none => none
  | some (cat, out) =>
    some ((State.unsubscribe (cat.disposed.drop s.cat.disposed.length) { s with cat := cat, out := s.out ++ out }).subscribe place
      s.cat.started.length (cat.started.drop s.cat.started.length))

/-- `action` runs to its end. transform.py:419-421. -/
def State.finish (h : Catch.Handler C ω) (place : ω → Option Nat) (s : State C ω α) : Option (State C ω α) :=
  match s.cat.frames with
  | [] => some s
  | .disposing _ _ :: _ => (s.act h place (.disposed 0)).bind fun t => t.act h place (.subscribed 0)
  | .subscribing _ :: _ => s.act h place (.subscribed 0)

/-- `_obv.asend`, `_obv.athrow`, `_obv.aclose` of the observer number `k`. transform.py:407-415. -/
def State.deliver (h : Catch.Handler C ω) (place : ω → Option Nat) (n : Notif α) (k : Nat) (s : State C ω α) : Option (State C ω α) :=
  (s.act h place (.call k n)).bind (State.finish h place)

/-- `for obv in list(self._observers): await obv.asend(value)`. subject.py:122-123, 132-133, 142-143. Simplified: an exception of the
handler does not end the loop (there is one observer only). -/
def State.tell (h : Catch.Handler C ω) (place : ω → Option Nat) (n : Notif α) : List Nat → State C ω α → Option (State C ω α)
  | [], s => some s
  | k :: ks, s => (s.deliver h place n k).bind (State.tell h place n ks)

/-- One call. -/
def step (h : Catch.Handler C ω) (place : ω → Option Nat) (s : State C ω α) : Label α → Option (State C ω α)
  -- subject.py:116-143
  | .call i n =>
    if (s.subjects i).stopped then some s
    else State.tell h place n (s.subjects i).observers { s with
      subjects := fun j => if j = i then { s.subjects i with stopped := n.isTerminal } else s.subjects j }
  | .other k n =>
    match s.cat.started[k]? with
    | some x => if place x = none then s.deliver h place n k else none
    | none => none
  | .cancel => s.act h place .cancel

/-- `subscribe_async` of `catch(handler)(x)` has returned: `action(x)` has run to its end. transform.py:423-425. -/
def init (c : C) (place : ω → Option Nat) (x : ω) : State C ω α :=
  State.subscribe place 0 [x] ⟨{ Catch.start c x with frames := [], disposable := some 0, returned := true }, fun _ => ⟨[], false⟩, []⟩

/-- `catch(handler)`, all observables being subjects. -/
def caught (h : Catch.Handler C Nat) (c : C) (x : Nat) : Source (State C Nat α) (Label α) α where
  init := init c some x
  step := step h some
  out s := s.out

/-- The retried source is subject 0; `fail(exn)` is not a subject. transform.py:432-449. -/
def attempt : Catch.Attempt → Option Nat
  | .source => some 0
  | .fail _ => none

/-- `retry(count)` over a subject. -/
def retried (count : Int) : Source (State Int Catch.Attempt α) (Label α) α where
  init := init count attempt .source
  step := step Catch.factory attempt
  out s := s.out

end Aio.HotCatch
