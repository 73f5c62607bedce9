import Verif.Model.Clocked
import Verif.Model.Piped
/-!
# `merge_inner` and `switch_latest` on a clock

`merge`, `concat`, `flat_map`, `flat_map_latest` and so on (combine.py:52-171, transform.py:151-381) where the source and the inner
observables make calls at certain times (`Model/Clocked.lean`). Their observers only post (combine.py:70-77, 135-144;
transform.py:268-278, 319-329), so a call is made and returns within one segment. What `merge_inner` posts to its safe observer is
recorded with the times; the safe observer is an operator without a timer behind this (`Model/Timed.lean`).
-/

namespace Aio
variable {SO LO S SI LI ω α : Type}

/-- `outer`: the source; `prod`: the worker; `inners`: the inner observables that have been subscribed, in that order, with the time of
the subscription and their states; `posts`: what has been posted to the safe observer. -/
structure Nested (SO S SI ω α : Type) where
  outer : SO
  prod : S
  inners : List (ω × Nat × SI)
  posts : List (Notif α × Nat)

namespace Nested

inductive Label (LO LI ω α : Type) where
  | outer (l : LO)
  /-- the inner observable that was subscribed as number `k`, beginning with 0 -/
  | inner (k : Nat) (l : LI)
  /-- the worker, or `cancel()` -/
  | own (l : Merge.Label ω α)

/-- The calls of the source and of the inner observables are made by these. -/
def own : Merge.Label ω α → Bool
  | .outer _ | .inner _ _ => false
  | _ => true

/-- Some segments of the worker or calls of its observers, at time `t`. -/
def work (p : Producer S (Merge.Label ω α) α) (t : Nat) (s : Nested SO S SI ω α) : List (Merge.Label ω α) → Option (Nested SO S SI ω α)
  | [] => some s
  | l :: ls =>
    match p.step s.prod l with
    | none => none
    | some (prod, out) => work p t { s with prod := prod, posts := s.posts ++ out.map fun n => (n, t) } ls

/-- The inner observables that the worker has subscribed since, at time `t`. -/
def subscribed (fam : ω → Nat → Clocked SI LI α) (started : S → List ω) (t : Nat) (s : Nested SO S SI ω α) : Nested SO S SI ω α :=
  { s with inners := s.inners ++ ((started s.prod).drop s.inners.length).map fun xs => (xs, t, (fam xs t).init) }

/-- Time passes for all inner observables. -/
def passAll (fam : ω → Nat → Clocked SI LI α) (d : Nat) : List (ω × Nat × SI) → Option (List (ω × Nat × SI))
  | [] => some []
  | (xs, t, s) :: rest =>
    match (fam xs t).pass s d, passAll fam d rest with
    | some s', some rest' => some ((xs, t, s') :: rest')
    | _, _ => none

end Nested

open Nested in
/-- `fam xs t`: the inner observable `xs`, subscribed at time `t`. `started`: those whose `subscribe_async` the worker has called; the
`k`-th one calls the observer number `k + base` (0 for `merge_inner`, 1 for `switch_latest`). Simplified: `dispose_async` of a
subscription acts only if the source or inner observable has a segment for it, which may take place at any time (`merge_inner` takes
no notice of what a disposed inner observable does, `switch_latest honour` may demand that it sends no values or errors). -/
def Clocked.nested (o : Clocked SO LO ω) (fam : ω → Nat → Clocked SI LI α) (p : Producer S (Merge.Label ω α) α) (started : S → List ω)
    (base : Nat) : Clocked (Nested SO S SI ω α) (Nested.Label LO LI ω α) α where
  init := ⟨o.init, p.init, [], []⟩
  act s l :=
    match l with
    | .outer l =>
      match o.act s.outer l with
      | none => none
      | some t => work p (o.now s.outer) { s with outer := t } (((o.calls t).drop (o.calls s.outer).length).map fun c => .outer c.1)
    | .inner k l =>
      match s.inners[k]? with
      | none => none
      | some (xs, t0, si) =>
        match (fam xs t0).act si l with
        | none => none
        | some t => work p (o.now s.outer) { s with inners := s.inners.set k (xs, t0, t) }
            ((((fam xs t0).calls t).drop ((fam xs t0).calls si).length).map fun c => .inner (k + base) c.1)
    | .own l => if own l then (work p (o.now s.outer) s [l]).map (subscribed fam started (o.now s.outer)) else none
  pass s d :=
    match o.pass s.outer d, passAll fam d s.inners with
    | some t, some is => some { s with outer := t, inners := is }
    | _, _ => none
  now s := o.now s.outer
  calls s := s.posts

/-- `merge_inner(max_concurrent)`, also `concat` (`max_concurrent=1`). -/
def Clocked.merged (o : Clocked SO LO ω) (fam : ω → Nat → Clocked SI LI α) (maxConcurrent : Int) :
    Clocked (Nested SO (Merge.State ω) SI ω α) (Nested.Label LO LI ω α) α :=
  o.nested fam (mergeInner maxConcurrent) Merge.State.started 0

/-- `switch_latest`. -/
def Clocked.switched (o : Clocked SO LO ω) (fam : ω → Nat → Clocked SI LI α) (honour : Bool) :
    Clocked (Nested SO (Switch.State ω) SI ω α) (Nested.Label LO LI ω α) α :=
  o.nested fam (switchLatest honour) Switch.State.started 1

/-- Something without timers that makes calls, such as `of_seq`, subscribed at time `t0`. -/
def Source.clocked (q : Source S LO α) (t0 : Nat) : Clocked (S × Nat × List (Notif α × Nat)) LO α where
  init := (q.init, t0, [])
  act s l := (q.step s.1 l).map fun t => (t, s.2.1, s.2.2 ++ ((q.out t).drop (q.out s.1).length).map fun n => (n, s.2.1))
  pass s d := some (s.1, s.2.1 + d, s.2.2)
  now s := s.2.1
  calls s := s.2.2

end Aio
