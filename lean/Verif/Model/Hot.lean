import Verif.Model.Piped
import Verif.Model.Switch
/-!
# `merge`, `concat`, `flat_map` and `switch_latest` over subjects

The inner observables are `AsyncSubject`s (subject.py:97-166), which drop what is sent to them while nobody has subscribed. The worker of
`merge_inner` (combine.py:81-129) or `switch_latest` (transform.py:284-313) subscribes to them, some time after
`subscribe_async` of the whole has returned.
-/

namespace Aio.Hot
variable {S α : Type}

/-- `self._observers` (by their keys) and `self._is_stopped` of a subject. subject.py:106-110. Simplified: subjects are not disposed. -/
structure Subject where
  observers : List Nat
  stopped : Bool

/-- A subscription that the worker has made: the subject, how many calls had been made on the subjects when it began, and when it ended. -/
structure Sub where
  subject : Nat
  since : Nat
  until_ : Option Nat
  deriving DecidableEq, Repr

/-- `prod`: the worker; `subjects`: by their numbers; `posts`: what has been posted to the safe observer. `trace` (the worker's segments and
the calls of its observers), `calls` (those made on the subjects, with the subject's number) and `subs` are records only. -/
structure State (S α : Type) where
  prod : S
  subjects : Nat → Subject
  posts : List (Notif α)
  trace : List (Merge.Label Nat α)
  calls : List (Nat × Notif α)
  subs : List Sub

inductive Label (α : Type) where
  /-- the source calls its observer; `.next i` is the subject number `i` -/
  | outer (n : Notif Nat)
  /-- somebody calls `asend`, `athrow` or `aclose` of subject `i` -/
  | call (i : Nat) (n : Notif α)
  /-- a segment of the worker, or `cancel()` -/
  | own (l : Merge.Label Nat α)

/-- A segment of the worker or a call of one of its observers. -/
def State.act (p : Producer S (Merge.Label Nat α) α) (s : State S α) (l : Merge.Label Nat α) : Option (State S α) :=
  match p.step s.prod l with
  | none => none
  | some (prod, out) => some { s with prod := prod, posts := s.posts ++ out, trace := s.trace ++ [l] }

/-- `for obv in list(self._observers): await obv.asend(value)`. subject.py:122-123, 132-133, 142-143. The observers only post
(combine.py:70-77, transform.py:268-278), so the loop is not suspended. -/
def State.tell (p : Producer S (Merge.Label Nat α) α) (n : Notif α) : List Nat → State S α → Option (State S α)
  | [], s => some s
  | k :: ks, s => (s.act p (.inner k n)).bind (State.tell p n ks)

/-- `self._observers.append(observer)`, subject.py:156, for the subjects that the worker has subscribed to in this segment. -/
def State.subscribe (base : Nat) : List Nat → State S α → State S α
  | [], s => s
  | i :: is, s => State.subscribe base is { s with
      subjects := fun j => if j = i then { s.subjects i with observers := (s.subjects i).observers ++ [s.subs.length + base] } else s.subjects j
      subs := s.subs ++ [⟨i, s.calls.length, none⟩] }

/-- `if observer in self._observers: self._observers.remove(observer)`, subject.py:160-161, for the subscription with this key. -/
def State.unsubscribe (base : Nat) : List Nat → State S α → State S α
  | [], s => s
  | k :: ks, s => State.unsubscribe base ks { s with
      subjects := fun j => { s.subjects j with observers := (s.subjects j).observers.erase k }
      subs := s.subs.mapIdx fun j x => if j + base = k ∧ x.until_ = none then { x with until_ := some s.calls.length } else x }

/-- One atomic segment. `started`, `gone`: what the worker has subscribed to, and the keys of the subscriptions that it has disposed; the
first key is `base` (0 for `merge_inner`, 1 for `switch_latest`). -/
def step (p : Producer S (Merge.Label Nat α) α) (started : S → List Nat) (gone : S → List Nat) (base : Nat) (s : State S α) :
    Label α → Option (State S α)
  | .outer n => s.act p (.outer n)
  -- subject.py:116-143
  | .call i n =>
    let t := { s with calls := s.calls ++ [(i, n)] }
    if (s.subjects i).stopped then some t
    else State.tell p n (s.subjects i).observers { t with
      subjects := fun j => if j = i then { s.subjects i with stopped := n.isTerminal } else s.subjects j }
  | .own l =>
    match l with
    -- the methods of a subject that is not disposed do not raise
    | .outer _ | .inner _ _ | .subscribeFails | .disposeFails => none
    | l => (s.act p l).map fun t =>
      ((t.unsubscribe base ((gone t.prod).drop (gone s.prod).length)).subscribe base ((started t.prod).drop (started s.prod).length))

def init (p : Producer S (Merge.Label Nat α) α) : State S α := ⟨p.init, fun _ => ⟨[], false⟩, [], [], [], []⟩

/-- `merge_inner(max_concurrent)`: `merge` and `flat_map` for 0, `concat` for 1. -/
def merge (mx : Int) : Source (State (Merge.State Nat) α) (Label α) α where
  init := init (mergeInner mx)
  step := step (mergeInner mx) Merge.State.started Merge.State.disposed 0
  out s := s.posts

/-- `switch_latest`. -/
def switch : Source (State (Switch.State Nat) α) (Label α) α where
  init := init (switchLatest false)
  step := step (switchLatest false) Switch.State.started Switch.State.disposed 1
  out s := s.posts

end Aio.Hot
