import Verif.Model.DetachTwo
/-!
# `subscribe_async` of an operator with two sources, with sources that refuse the subscription

combine.py:193-251 (`combine_latest`), 274-333 (`with_latest_from`), filtering.py:317-330 (`take_until`). The two subscriptions are
made one after the other; an exception of the second one is not caught, so it leaves `subscribe_async` and the user gets no
disposable. `AsyncSubject.subscribe_async` raises if the subject has been disposed (subject.py:153); it does not suspend.
-/

namespace Aio.Subscribing
open DetachTwo (Side Registers)
variable {α β γ : Type}

/-- Where `subscribe_async` is. -/
inductive PC where
  /-- before the first subscription -/
  | first
  /-- between the two -/
  | second
  /-- it has returned the composite disposable -/
  | returned
  /-- the subscription to this side has raised -/
  | raised (side : Side)
  deriving DecidableEq, Repr

/-- Which source comes first. -/
abbrev Order := Side × Side

/-- combine.py:246-247, 329-330 -/
def combineOrder : Order := (.source, .other)

/-- filtering.py:325-326 -/
def takeUntilOrder : Order := (.other, .source)

structure State (α β γ : Type) where
  base : DetachTwo.State α β γ
  pc : PC

def init : State α β γ := ⟨DetachTwo.init, .first⟩

inductive Label (α β γ : Type) where
  /-- anything else, see `DetachTwo.Label` -/
  | world (l : DetachTwo.Label α β γ)
  /-- the next subscription is made -/
  | subscribe
  /-- the next subscription raises -/
  | raise
  deriving DecidableEq

def refuses (s : DetachTwo.State α β γ) : Side → Bool
  | .source => s.left.isDisposed
  | .other => s.right.isDisposed

/-- One atomic segment. -/
def step (guard kill : Bool) (regs : Registers) (order : Order) (s : State α β γ) : Label α β γ → Option (State α β γ)
  | .world (.subscribe _) => none
  | .world (.dispose side) =>
    if s.pc = .returned then (DetachTwo.step guard kill regs s.base (.dispose side)).map fun b => { s with base := b } else none
  | .world l => (DetachTwo.step guard kill regs s.base l).map fun b => { s with base := b }
  | .subscribe =>
    match s.pc with
    | .first => (DetachTwo.step guard kill regs s.base (.subscribe order.1)).map fun b => ⟨b, .second⟩
    | .second => (DetachTwo.step guard kill regs s.base (.subscribe order.2)).map fun b => ⟨b, .returned⟩
    | _ => none
  | .raise =>
    match s.pc with
    | .first => if refuses s.base order.1 then some { s with pc := .raised order.1 } else none
    | .second => if refuses s.base order.2 then some { s with pc := .raised order.2 } else none
    | _ => none

end Aio.Subscribing
