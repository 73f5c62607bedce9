import Verif.Base.Notif
import Verif.Base.LTS
/-!
# `of_seq`: several subscriptions, the iterators of the sequence and the event loop (`aioreactive/create.py` 161-181)

`Model.Create.ofSeqWorker` is one subscription to a finite sequence, whose worker runs in one go. Here are the two things
that it leaves out. The `for` loop (create.py 170) calls `iter(xs)`, which makes a new iterator if `xs` is a list, a
range, ..., but returns `xs` itself if that is already an iterator (a generator, a file, a `map` object, ...). And the loop
gives control back to the event loop only when it has ended, because the `asend` of a safe observer only posts
(observers.py 190-191): every turn of the loop is a step here, and nothing else can happen between two of them.
-/

namespace Aio.SeqSource
variable {α : Type}

/-- The argument `xs` of `of_seq`: the item at each position (`none` from its end on; never `none` for an endless one), and
whether `iter(xs)` makes a new iterator every time (a container) or is `xs` itself (an iterator; Python data model,
`iterator.__iter__`). Simplification: `next` does not raise anything but `StopIteration`. -/
structure Seq (α : Type) where
  get : Nat → Option α
  fresh : Bool

/-- Where the worker of a subscription is. create.py 168-179. -/
inductive PC where
  /-- its task was started (create.py 53) but has not run yet -/
  | fresh
  /-- inside the `for` loop, 170-177 -/
  | loop
  | ended
  deriving DecidableEq, Repr

/-- `subs`: the number of subscriptions; `busy`: the worker that has control, if one has; `shared`: the position of `xs` if it
is an iterator; `own`: the positions of the new iterators of each subscription if it is a container; `posts`: what each
worker has posted to its safe observer; `handled`: how many of these its observer was given. -/
structure State (α : Type) where
  subs : Nat
  busy : Option Nat
  shared : Nat
  own : Nat → Nat
  pc : Nat → PC
  posts : Nat → List (Notif α)
  handled : Nat → Nat

def init : State α := ⟨0, none, 0, fun _ => 0, fun _ => .fresh, fun _ => [], fun _ => 0⟩

/-- `subscribe`: somebody subscribes; `start k`: the task of subscription `k` begins; `turn k`: the next turn of its `for` loop;
`handle k`: the worker of its safe observer takes the next message and calls the observer. Simplification: nobody
disposes a subscription, and observers do not raise. -/
inductive Label where
  | subscribe
  | start (k : Nat)
  | turn (k : Nat)
  | handle (k : Nat)
  deriving DecidableEq, Repr

/-- `f` with `x` at `k`. -/
def put {β : Type} (f : Nat → β) (k : Nat) (x : β) : Nat → β := fun j => if j = k then x else f j

/-- The position of the iterator that subscription `k` uses. -/
def State.position (q : Seq α) (s : State α) (k : Nat) : Nat := if q.fresh then s.own k else s.shared

/-- `next` of that iterator moves it by one. -/
def State.advance (q : Seq α) (s : State α) (k : Nat) : State α :=
  if q.fresh then { s with own := put s.own k (s.own k + 1) } else { s with shared := s.shared + 1 }

def step (q : Seq α) (s : State α) : Label → Option (State α)
  /- create.py 47-56: the task is started, a new subscription has posted nothing -/
  | .subscribe => if s.busy = none then some { s with subs := s.subs + 1 } else none
  /- create.py 168-170 -/
  | .start k =>
    if s.busy = none ∧ k < s.subs ∧ s.pc k = .fresh then some { s with busy := some k, pc := put s.pc k .loop } else none
  /- create.py 170-179 -/
  | .turn k =>
    if s.busy = some k then
      match q.get (s.position q k) with
      | some x => some { s.advance q k with posts := put s.posts k (s.posts k ++ [.next x]) }
      | none => some { s with busy := none, pc := put s.pc k .ended, posts := put s.posts k (s.posts k ++ [.completed]) }
    else none
  /- observers.py 167-186 -/
  | .handle k =>
    if s.busy = none ∧ s.handled k < (s.posts k).length then some { s with handled := put s.handled k (s.handled k + 1) }
    else none

/-- The calls that the observer of subscription `k` received. -/
def State.received (s : State α) (k : Nat) : List (Notif α) := (s.posts k).take (s.handled k)

end Aio.SeqSource
