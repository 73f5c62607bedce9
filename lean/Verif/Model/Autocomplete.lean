import Verif.Model.HostedBox
import Verif.Model.HostedWork
import Verif.Model.HostedNested
import Verif.Model.Filtering
/-!
# `flat_map_async` with a mapper that returns `single`, and the search box of examples/autocomplete

examples/autocomplete/autocomplete.py:51-58: `pipe(stream, map, filter, debounce, distinct_until_changed, flat_map_async(search))`, where `search` awaits an answer and returns `single(answer)`.
-/

namespace Aio
variable {S L T SI LI TI α β ω γ : Type}

namespace Once

/-- `sub`: the safe observer and its worker (`Model/Create.lean`); `sent`: the calls on the subscriber's observer. -/
structure State (α : Type) where
  sub : Producer.State OneShot α
  now : Nat
  sent : List (Notif α × Nat)

/-- Simplified as in `Job.Label`: nobody disposes (there is nothing to dispose, create.py:124), and the calls on the observer do not raise. -/
inductive Label where
  /-- the safe observer's worker takes a message; what it awaits returns -/
  | receive
  | ret
  deriving DecidableEq, Repr

/-- A segment of the worker, and the calls that it makes. -/
def move (v : α) (s : State α) (l : Producer.Label Unit) : Option (State α) :=
  match (single v).next s.sub l with
  | none => none
  | some t => some { s with sub := t, sent := s.sent ++ (t.received.drop s.sub.received.length).map fun n => (n, s.now) }

def busy (s : State α) : Bool :=
  match s.sub.safe.pc with
  | .halted => false
  | .waiting => !s.sub.safe.inbox.isEmpty
  | _ => true

/-- `single(v)`, subscribed at time `t0`: `subscribe_async` makes both calls on the safe observer, create.py:119-124. On a loop that is not overloaded. -/
def clocked (v : α) (t0 : Nat) : Clocked (State α) Label α where
  init := ⟨((single v).next (single v).start (.own ())).getD (single v).start, t0, []⟩
  act s
    | .receive => move v s .receive
    | .ret => move v s .ret
  pass s d := if busy s then none else some { s with now := s.now + d }
  now s := s.now
  calls s := s.sent

/-- The only task is the worker of the safe observer. observers.py:167-188. -/
def host : Host (State α) Label Unit where
  names _ := [()]
  need s _ := if busy s then .soon else .nothing
  turn s _ :=
    match s.sub.safe.pc with
    | .halted => []
    | .waiting => if s.sub.safe.inbox.isEmpty then [] else [.receive]
    | _ => [.ret]
  outside _ := false

end Once

/-- What the mapper returns: `single(answer)`. -/
def singles (x : ω) (t : Nat) : Clocked (Once.State ω) Once.Label ω := Once.clocked x t

/-- `distinct_until_changed` up to its safe observer, to which it posts. filtering.py:116-170. -/
def distinctPosts (eq : α → α → Except Err Bool) : Operator α α := ⟨fun c => .loop (.wrap (distinctW eq) c)⟩

/-- `map_async(f)` behind a safe observer, as the first part of `flat_map_async` (transform.py:195-214): the worker of the safe observer awaits `f` itself (transform.py:71-75, observers.py:173).
`f x` takes `dur x` and returns `g x`. The observer of `merge_inner` only posts. -/
abbrev Clocked.mapped (q : Clocked S L α) (dur : α → Nat) (g : α → ω) (gone : Nat) :=
  q.through (Work.stage ((Ops.map (fun x => (dur x, .ok (g x))) .nil).handler (Handler.final fun _ _ => (0, none))) 0 gone)

/-- Its tasks: those of the source, and the worker of that safe observer. -/
abbrev Host.mapped (H : Host S L T) := H.through (Work.host (α := α) (β := ω) (σ := Nat))

end Aio
