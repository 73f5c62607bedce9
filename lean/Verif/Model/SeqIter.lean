import Verif.Base.Notif
import Verif.Base.LTS
/-!
# `zip_seq`: several subscriptions and the sequence's iterators (`aioreactive/combine.py` 336-367)

`Model.Filtering.zipSeq` is one subscription, with the position in the sequence as its own state. Here is the part
that it leaves out: `enumerator = iter(sequence)` (combine.py 343) makes a new iterator if `sequence` is a list, a
range, ..., but returns `sequence` itself if that is already an iterator (a generator, a file, a `map` object, ...).
-/

namespace Aio.SeqIter
variable {α β : Type}

/-- The `sequence` argument: its items, and whether `iter(sequence)` makes a new iterator every time (a container) or is
`sequence` itself (an iterator; Python data model, `iterator.__iter__`). Simplification: finite, and `next` does not
raise anything but `StopIteration`. -/
structure Seq (β : Type) where
  items : List β
  fresh : Bool

/-- `pos`: the positions of the iterator objects there are (number 0 is `sequence` itself if it is an iterator);
`enum`: the iterator used by each subscription; `posts`: the calls that each subscription has made on its `safe_obv`. -/
structure State (α β : Type) where
  pos : List Nat
  enum : List Nat
  posts : List (List (Notif (α × β)))

/-- `subscribe`: `subscribe_async`; `send k v`: subscription `k`'s `asend(v)` (it does not wait: `safe_obv`'s methods post). -/
inductive Label (α : Type)
  | subscribe
  | send (k : Nat) (v : α)

def init : State α β := ⟨[0], [], []⟩

def step (q : Seq β) (s : State α β) : Label α → Option (State α β)
  /- combine.py 343: `enumerator = iter(sequence)` -/
  | .subscribe => some (if q.fresh then ⟨s.pos ++ [0], s.enum ++ [s.pos.length], s.posts ++ [[]]⟩ else ⟨s.pos, s.enum ++ [0], s.posts ++ [[]]⟩)
  /- combine.py 345-353: `n = next(enumerator)`, then `safe_obv.asend((x, n))`, or `safe_obv.aclose()` if there is none -/
  | .send k v =>
    match s.enum[k]? with
    | none => none
    | some i =>
      match s.pos[i]? with
      | none => none
      | some p =>
        match q.items[p]? with
        | some y => some { s with pos := s.pos.set i (p + 1), posts := s.posts.modify k (· ++ [.next (v, y)]) }
        | none => some { s with posts := s.posts.modify k (· ++ [.completed]) }

end Aio.SeqIter
