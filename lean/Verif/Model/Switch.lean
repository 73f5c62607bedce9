import Verif.Model.Merge
/-!
# `switch_latest` (and `flat_map_latest*`)

transform.py:248-381. Messages, labels and environment as in `Model/Merge.lean`; the keys of the inner
observables are the ids, which start with 1 (`next_id = current_id + 1`, `message_loop(Nothing, False,
0)`). `flat_map_latest*` is `map*` in front of this.
-/

namespace Aio.Switch
open Merge (Msg Label)
variable {ω α : Type}

/-- Where the worker is suspended. -/
inductive PC (ω : Type) where
  /-- `inbox.receive()`, line 287 -/
  | waiting
  /-- `disp.dispose_async()` of the previous inner observable, line 293; `xs` is the new one -/
  | replacing (old : Nat) (xs : ω)
  /-- `xs.subscribe_async(obv(inbox, next_id))`, line 294 -/
  | subscribing
  /-- `current.value.dispose_async()`, line 308 -/
  | disposing (old : Nat)
  /-- the worker task has ended (only by an exception; the loop itself never ends) -/
  | halted
  deriving DecidableEq, Repr

/-- `current`, `isStopped` and `currentId` are the arguments of `message_loop`, lines 284-286; the
disposable `current` is identified with the id. `started` and `disposed` as in `Merge.State`. -/
structure State (ω : Type) where
  inbox : List (Msg ω)
  current : Option Nat
  isStopped : Bool
  currentId : Nat
  pc : PC ω
  started : List ω
  disposed : List Nat
  deriving DecidableEq, Repr

def State.initial : State ω := ⟨[], none, false, 0, .waiting, [], []⟩

/-- `message_loop` from `receive` to the next suspension. Lines 287-313. -/
def update (s : State ω) : Msg ω → State ω × List (Notif α)
  -- 290-295
  | .inner xs =>
    match s.current with
    | some old => ({ s with pc := .replacing old xs }, [])
    | none => ({ s with pc := .subscribing, started := s.started ++ [xs] }, [])
  -- 297-300
  | .innerCompleted idx =>
    if s.isStopped ∧ idx = s.currentId then
      ({ s with current := none, isStopped := true }, [.completed])
    else (s, [])
  -- 302-304
  | .completed => (s, if s.current = none then [.completed] else [])
  -- 306-309
  | .dispose =>
    match s.current with
    | some old => ({ s with pc := .disposing old }, [])
    | none => ({ s with isStopped := true }, [])

/-- One atomic segment. With `honour`, an inner observable whose `dispose_async` has returned sends no
further values or errors. It may complete: `of_async` does when its task is cancelled (create.py:73-74). -/
def step (honour : Bool) (s : State ω) : Label ω α → Option (State ω × List (Notif α))
  -- 319-323
  | .outer (.next xs) => some ({ s with inbox := s.inbox ++ [.inner xs] }, [])
  -- 325-326
  | .outer (.error e) => some (s, [.error e])
  -- 328-329
  | .outer .completed => some ({ s with inbox := s.inbox ++ [.completed] }, [])
  -- 268-278
  | .inner id n =>
    if (1 ≤ id ∧ id ≤ s.started.length) ∧ ¬ (honour ∧ id ∈ s.disposed ∧ n.kind ≠ .onCompleted) then
      match n with
      | .next v => some (s, [.next v])
      | .error e => some (s, [.error e])
      | .completed => some ({ s with inbox := s.inbox ++ [.innerCompleted id] }, [])
    else none
  -- 340
  | .cancel => some ({ s with inbox := s.inbox ++ [.dispose] }, [])
  | .receive =>
    match s.pc, s.inbox with
    | .waiting, msg :: q => some (update { s with inbox := q } msg)
    | _, _ => none
  -- 295
  | .subscribed =>
    match s.pc with
    | .subscribing =>
      some ({ s with current := some (s.currentId + 1), currentId := s.currentId + 1, pc := .waiting }, [])
    | _ => none
  | .subscribeFails =>
    match s.pc with
    | .subscribing => some ({ s with pc := .halted }, [])
    | _ => none
  -- 293-294, 308-309
  | .disposed =>
    match s.pc with
    | .replacing old xs =>
      some ({ s with pc := .subscribing, started := s.started ++ [xs], disposed := s.disposed ++ [old] }, [])
    | .disposing old =>
      some ({ s with current := none, isStopped := true, pc := .waiting, disposed := s.disposed ++ [old] }, [])
    | _ => none
  | .disposeFails =>
    match s.pc with
    | .replacing _ _ | .disposing _ => some ({ s with pc := .halted }, [])
    | _ => none

end Aio.Switch

namespace Aio
variable {ω α : Type}

/-- `switch_latest`. As for `mergeInner`, disposing the source's subscription acts on the environment
only. -/
def switchLatest (honour : Bool) : Producer (Switch.State ω) (Merge.Label ω α) α where
  init := .initial
  step := Switch.step honour
  dispose s := s

end Aio
