import Verif.Model.Nested
import Verif.Model.Catch
/-!
# `catch` and `retry` on a clock

`pipe(source, catch(handler))` (transform.py:384-429) where the source and the observables that the handler returns make calls at certain
times (`Model/Clocked.lean`). `asend`, `aclose` (407-408, 414-415) call the observer of `catch` directly, so its calls carry the times
of the source's calls. Simplified: an `athrow` of a source returns at once, what it awaits (419-421) goes on as segments of its own; a
source that keeps the grammar makes no calls after it anyway.
-/

namespace Aio
variable {C S S₁ S₂ L L₁ L₂ ω α : Type}

/-- `ctl`: the subscription to `catch`; `srcs`: the sources that have been subscribed, in that order, with the time of the subscription
and their states; `sent`: the calls on the observer. -/
structure Caught (C S ω α : Type) where
  now : Nat
  ctl : Catch.State C ω
  srcs : List (ω × Nat × S)
  sent : List (Notif α × Nat)

namespace Caught

inductive Label (L α : Type) where
  /-- source number `k`, beginning with 0 -/
  | source (k : Nat) (l : L)
  /-- the activations of `action`, or `dispose_async` -/
  | own (l : Catch.Label α)

/-- The calls are made by the sources. -/
def own : Catch.Label α → Bool
  | .call _ _ => false
  | _ => true

/-- The sources whose `subscribe_async` was called since. transform.py:420. -/
def subscribed (fam : ω → Nat → Clocked S L α) (s : Caught C S ω α) : Caught C S ω α :=
  { s with srcs := s.srcs ++ (s.ctl.started.drop s.srcs.length).map fun xs => (xs, s.now, (fam xs s.now).init) }

/-- Some segments of `catch`. transform.py:404-425. -/
def work (fam : ω → Nat → Clocked S L α) (h : Catch.Handler C ω) (honour : Bool) (s : Caught C S ω α) :
    List (Catch.Label α) → Option (Caught C S ω α)
  | [] => some s
  | l :: ls =>
    match Catch.step h honour s.ctl l with
    | none => none
    | some (ctl, out) => work fam h honour (subscribed fam { s with ctl := ctl, sent := s.sent ++ out.map fun n => (n, s.now) }) ls

end Caught

open Caught in
/-- `pipe(x, catch(h))`, subscribed at time `t0`; `c` is the handler's state then. `fam xs t`: the observable `xs`, subscribed at time `t`.
As for `Clocked.nested`, a disposed source stops only if it has a segment for that. -/
def Clocked.caught (fam : ω → Nat → Clocked S L α) (h : Catch.Handler C ω) (honour : Bool) (c : C) (x : ω) (t0 : Nat) :
    Clocked (Caught C S ω α) (Caught.Label L α) α where
  init := ⟨t0, Catch.start c x, [(x, t0, (fam x t0).init)], []⟩
  act s l :=
    match l with
    | .source k l =>
      match s.srcs[k]? with
      | none => none
      | some (xs, t, si) =>
        match (fam xs t).act si l with
        | none => none
        | some si' => work fam h honour { s with srcs := s.srcs.set k (xs, t, si') }
            ((((fam xs t).calls si').drop ((fam xs t).calls si).length).map fun c => .call k c.1)
    | .own l => if own l then work fam h honour s [l] else none
  pass s d :=
    match Nested.passAll fam d s.srcs with
    | some srcs => some { s with now := s.now + d, srcs := srcs }
    | none => none
  now s := s.now
  calls s := s.sent

/-- Observables of two kinds in one family. -/
def Clocked.left (q : Clocked S₁ L₁ α) : Clocked (S₁ ⊕ S₂) (L₁ ⊕ L₂) α where
  init := .inl q.init
  act
    | .inl s, .inl l => (q.act s l).map .inl
    | _, _ => none
  pass
    | .inl s, d => (q.pass s d).map .inl
    | .inr _, _ => none
  now
    | .inl s => q.now s
    | .inr _ => 0
  calls
    | .inl s => q.calls s
    | .inr _ => []
def Clocked.right (q : Clocked S₂ L₂ α) : Clocked (S₁ ⊕ S₂) (L₁ ⊕ L₂) α where
  init := .inr q.init
  act
    | .inr s, .inr l => (q.act s l).map .inr
    | _, _ => none
  pass
    | .inr s, d => (q.pass s d).map .inr
    | .inl _, _ => none
  now
    | .inr s => q.now s
    | .inl _ => 0
  calls
    | .inr s => q.calls s
    | .inl _ => []

end Aio
