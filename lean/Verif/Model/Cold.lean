import Verif.Model.Hot
/-!
# `merge`, `concat`, `flat_map` and `switch_latest` over `AsyncSingleSubject`s

The inner observables are `AsyncSingleSubject`s (subject.py:16-94), whose methods wait for an observer. The worker of `merge_inner`
(combine.py:81-129) or `switch_latest` (transform.py:284-313) subscribes to them. `Model/Single.lean` is about one such subject on its own, with
observers that may suspend; here the observers are those of the worker, which only post (combine.py:70-77, transform.py:268-278).
-/

namespace Aio.Cold
variable {S α : Type}

/-- `self._observer` (by its key), `self._wait.done()`, `self._is_disposed`, `self._is_stopped` (subject.py:28-31), and the calls that are at
`await self._wait`, oldest first. When `_wait` gets its result they are scheduled in that order. Simplified: the tasks of those who call are not
cancelled (C71). -/
structure Subject (α : Type) where
  observer : Option Nat
  opened : Bool
  disposed : Bool
  stopped : Bool
  waiting : List (Notif α)

/-- `prod`: the worker; `subjects`: by their numbers; `posts`: what has been posted to the safe observer; `accepted`: has the latest `subscribe_async` of
the worker returned (or raised)? `stuck`: the event loop is in a `while` loop that does not end. `trace` (the worker's segments and the calls of its
observers), `calls` (those made on the subjects), `refused` (those that raised ObjectDisposedException) and `subs` (the subject of each
subscription that the worker has made) are records only. -/
structure State (S α : Type) where
  prod : S
  subjects : Nat → Subject α
  posts : List (Notif α)
  accepted : Bool
  stuck : Bool
  trace : List (Merge.Label Nat α)
  calls : List (Nat × Notif α)
  refused : List (Nat × Notif α)
  subs : List Nat

inductive Label (α : Type) where
  /-- the source calls its observer; `.next i` is the subject number `i` -/
  | outer (n : Notif Nat)
  /-- somebody calls `asend`, `athrow` or `aclose` of subject `i` -/
  | call (i : Nat) (n : Notif α)
  /-- of the calls that were woken when subject `i` got its observer, the first goes on -/
  | wake (i : Nat)
  /-- a segment of the worker, or `cancel()` -/
  | own (l : Merge.Label Nat α)

/-- A segment of the worker or a call of one of its observers. -/
def State.act (p : Producer S (Merge.Label Nat α) α) (s : State S α) (l : Merge.Label Nat α) : Option (State S α) :=
  match p.step s.prod l with
  | none => none
  | some (prod, out) => some { s with prod := prod, posts := s.posts ++ out, trace := s.trace ++ [l] }

def State.set (s : State S α) (i : Nat) (x : Subject α) : State S α :=
  { s with subjects := fun j => if j = i then x else s.subjects j }

/-- `while self._observer is None: await self._wait`, and what follows. subject.py:43-49, 54-60, 65-73. Awaiting a future that has its result
does not suspend. A subject that has an observer is not disposed. -/
def State.attempt (p : Producer S (Merge.Label Nat α) α) (i : Nat) (n : Notif α) (s : State S α) : Option (State S α) :=
  match (s.subjects i).observer with
  | none =>
    if (s.subjects i).opened then some { s with stuck := true }
    else some (s.set i { s.subjects i with waiting := (s.subjects i).waiting ++ [n] })
  | some k =>
    if (s.subjects i).stopped then some s
    else (s.act p (.inner k n)).map fun t => t.set i { t.subjects i with stopped := n.isTerminal }

/-- `subscribe_async` of the subjects that the worker subscribes to in this segment. subject.py:81-94. -/
def State.subscribe (base : Nat) : List Nat → State S α → State S α
  | [], s => s
  | i :: is, s =>
    let t := { s with subs := s.subs ++ [i] }
    State.subscribe base is
      (if (s.subjects i).disposed then { t with accepted := false }
      else { t.set i { s.subjects i with observer := some (s.subs.length + base), opened := true } with accepted := true })

/-- `dispose_async` of the subscriptions with these keys, which disposes the subject. subject.py:75-79, 94. -/
def State.unsubscribe (base : Nat) : List Nat → State S α → State S α
  | [], s => s
  | k :: ks, s => State.unsubscribe base ks
      (match s.subs[k - base]? with
      | some i => s.set i { s.subjects i with observer := none, disposed := true }
      | none => s)

/-- Which segments of the worker are possible: what it awaits returns or raises as the subject says; `dispose_async` does not raise. -/
def allowed (accepted : Bool) : Merge.Label Nat α → Bool
  | .outer _ | .inner _ _ | .disposeFails => false
  | .subscribed => accepted
  | .subscribeFails => !accepted
  | _ => true

/-- One atomic segment. `started`, `gone`, `base` as in `Model/Hot.lean`. -/
def step (p : Producer S (Merge.Label Nat α) α) (started : S → List Nat) (gone : S → List Nat) (base : Nat) (s : State S α) (l : Label α) :
    Option (State S α) :=
  if s.stuck then none else
  match l with
  | .outer n => s.act p (.outer n)
  | .call i n =>
    let t := { s with calls := s.calls ++ [(i, n)] }
    -- `asend` begins with `check_disposed()`, subject.py:40
    if !n.isTerminal && (s.subjects i).disposed then some { t with refused := s.refused ++ [(i, n)] }
    else t.attempt p i n
  | .wake i =>
    match (s.subjects i).opened, (s.subjects i).waiting with
    | true, n :: rest => (s.set i { s.subjects i with waiting := rest }).attempt p i n
    | _, _ => none
  | .own l =>
    if allowed s.accepted l then
      (s.act p l).map fun t =>
        ((t.unsubscribe base ((gone t.prod).drop (gone s.prod).length)).subscribe base ((started t.prod).drop (started s.prod).length))
    else none

/-- Nobody has subscribed, subject.py:25-31. -/
def init (p : Producer S (Merge.Label Nat α) α) : State S α := ⟨p.init, fun _ => ⟨none, false, false, false, []⟩, [], true, false, [], [], [], []⟩

/-- `merge_inner(max_concurrent)`: `merge` and `flat_map` for 0, `concat` for 1. -/
def merge (mx : Int) : Source (State (Merge.State Nat) α) (Label α) α where
  init := init (mergeInner mx)
  step := step (mergeInner mx) Merge.State.started Merge.State.disposed 0
  out s := s.posts

/-- `switch_latest`. -/
def switch : Source (State (Switch.State Nat) α) (Label α) α where
  init := init (switchLatest false)
  step := step (switchLatest false) Switch.State.started Switch.State.disposed 1
  out s := s.posts

end Aio.Cold
