import Verif.Model.SearchBox
/-!
# One subject, many pipelines

examples/timeflies/timeflies.py:38-55: `flat_mapi` over some labels, where every inner observable is a pipeline behind one and the same
subject (`AsyncMultiSubject`, subject.py:97-166).
-/

namespace Aio
variable {SO LO S SI LI ω α β ν : Type}

/-- `net`: `merge_inner` with its source and the inner observables; `sent`: what `asend` of the subject has been called with, and when. -/
structure Shared (SO S SI ω α ν : Type) where
  net : Nested SO S SI ω α
  sent : List (ν × Nat)

inductive Shared.Label (LO LI ω α ν : Type) where
  /-- `await subject.asend(v)` -/
  | send (v : ν)
  | net (l : Nested.Label LO LI ω α)

/-- `for obv in list(self._observers): await obv.asend(value)`, subject.py:122-123: the same segment `l` for every observer. -/
def Shared.broadcast (n : Clocked (Nested SO S SI ω α) (Nested.Label LO LI ω α) α) (l : LI) : List Nat → Nested SO S SI ω α → Option (Nested SO S SI ω α)
  | [], s => some s
  | k :: ks, s =>
    match n.act s (.inner k l) with
    | none => none
    | some s' => broadcast n l ks s'

/-- `give v`: the segment in which an inner observable gets `v` from the subject; `given`: the segments of this kind, which take place only
because of `asend`. The observers of the subject are the inner observables that have been subscribed, in that order (subject.py:156); the
call on each of them returns without suspending, as it only posts (timeshift.py:86-88), so `asend` is one segment.
Simplified: `asend` only, and an inner observable remains an observer of the subject. -/
def Clocked.shared (n : Clocked (Nested SO S SI ω α) (Nested.Label LO LI ω α) α) (give : ν → LI) (given : LI → Bool) :
    Clocked (Shared SO S SI ω α ν) (Shared.Label LO LI ω α ν) α where
  init := ⟨n.init, []⟩
  act s l :=
    match l with
    | .send v => (Shared.broadcast n (give v) (List.range s.net.inners.length) s.net).map fun t => ⟨t, s.sent ++ [(v, n.now s.net)]⟩
    | .net (.inner k l) => if given l then none else (n.act s.net (.inner k l)).map fun t => ⟨t, s.sent⟩
    | .net l => (n.act s.net l).map fun t => ⟨t, s.sent⟩
  pass s d := (n.pass s.net d).map fun t => ⟨t, s.sent⟩
  now s := n.now s.net
  calls s := n.calls s.net

/-- `pipe(mousemoves, delay(d x), starmap(g x))` for the label `x`, subscribed at time `t`; timeflies.py:38-49. The mapped value carries
the label, as in the example. `delay` calls the observer of `starmap` directly, and this one that of `merge_inner`, which only posts
(combine.py:70-77), so a call through `starmap` is made within the segment. -/
def Clocked.follower (d : ω → Nat) (g : ω → ν → β) (x : ω) (t : Nat) :
    Clocked (((Nat × List (Notif ν × Nat)) × Delay.State ν) × Timed (Unit × Unit) (Notif ν) (Notif (ω × β))) ((ν ⊕ Delay.Label ν) ⊕ Empty) (ω × β) :=
  ((Clocked.typed t).through (Delay.stage true (d x))).operate (map fun v : ν => .ok (x, g x v)).direct.proc

namespace Shared

/-- `asend(v)` on the observer of `delay`. -/
def move (v : ν) : (ν ⊕ Delay.Label ν) ⊕ Empty := .inl (.inl v)
def isMove : (ν ⊕ Delay.Label ν) ⊕ Empty → Bool
  | .inl (.inl _) => true
  | _ => false

end Shared

/-- `pipe(labels, from_iterable, flat_mapi(handle_label))`, where `o` sends the labels with their numbers. timeflies.py:51-55. -/
def Clocked.timeflies (o : Clocked SO LO ω) (d : ω → Nat) (g : ω → ν → β) :=
  (o.merged (Clocked.follower d g) 0).shared Shared.move Shared.isMove

end Aio
