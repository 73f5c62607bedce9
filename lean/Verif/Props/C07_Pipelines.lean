import Verif.Lemmas.Slices
import Verif.Lemmas.Slow
/-!
# C07: pipelines of single-source operators are schedule-independent

A `Chain` is any composition of the building blocks the operators are made of; the handler code in it
is arbitrary. `exec` runs it under an arbitrary schedule.
-/

namespace Aio
open Spec
variable {α β γ : Type}

/-- a pipeline used in the examples: `skip(1) | map(+10) | distinct_until_changed | take(2)`, three
mailboxes -/
def demoPipe : Chain Nat Nat :=
  ((((skip 1).compose (map fun x => .ok (x + 10))).compose
    (distinctUntilChanged fun a b => .ok (a == b))).compose (takeOp 2)).direct

/-- C07. Under every schedule the final observer receives a prefix of one sequence that depends only
on what the source sent; a schedule that has run to the end has delivered all of it. -/
theorem C07_schedule_independent (c : Chain α γ) :
    ∃ f : List (Notif α) → List (Notif γ), ∀ es s out, c.proc.exec c.proc.init es = some (s, out) →
      out <+: f (Proc.inputs es) ∧ (c.proc.Quiescent s → out = f (Proc.inputs es)) :=
  let ⟨f, hf, _⟩ := c.implements
  ⟨f, hf⟩

/-- C07. Two complete runs on the same input deliver the same calls in the same order. -/
theorem C07_same_result (c : Chain α γ) (es es' : List (Proc.Ev (Notif α) c.compile.Lab)) (s s' out out')
    (h : c.proc.exec c.proc.init es = some (s, out)) (hq : c.proc.Quiescent s)
    (h' : c.proc.exec c.proc.init es' = some (s', out')) (hq' : c.proc.Quiescent s')
    (hi : Proc.inputs es = Proc.inputs es') : out = out' := by
  obtain ⟨f, hf, _⟩ := c.implements
  rw [(hf _ _ _ h).2 hq, (hf _ _ _ h').2 hq', hi]

/-- C07. No schedule can go on forever without new input, from any state. -/
theorem C07_terminates (c : Chain α γ) : c.proc.Terminates :=
  let ⟨_, _, h⟩ := c.implements
  h

/-- C07. Every run can be completed by internal steps alone. -/
theorem C07_can_finish (c : Chain α γ) (es s out) (h : c.proc.exec c.proc.init es = some (s, out)) :
    ∃ (ls : List c.compile.Lab) (s' : _) (out' : _),
      c.proc.exec c.proc.init (es ++ ls.map .step) = some (s', out ++ out') ∧
      c.proc.Quiescent s' := by
  obtain ⟨f, hf, ht⟩ := c.implements
  obtain ⟨ls, s', o', h1, h2, -⟩ := Proc.eventually hf ht h
  exact ⟨ls, s', o', h1, h2⟩

/-- C07. The library's operators composed: if each operator of a pipe acts on streams as a function,
the pipe acts as their composition, under all schedules. -/
theorem C07_compose (op1 : Operator α β) (op2 : Operator β γ) (G1 : Story α → Story β)
    (G2 : Story β → Story γ) (h1 : op1.Acts G1) (h2 : op2.Acts G2) (c1 : op1.Calm) (c2 : op2.Calm) :
    (op1.compose op2).Computes (G2 ∘ G1) :=
  (h1.compose h2).computes (c1.compose c2)

/-- C07. It does not matter how long any observer or worker takes: if every call on the final observer and every post
between the stages is a step of its own, preceded by a suspension of any length, the pipeline delivers a prefix of the
same sequence, all of it when nothing is left to do, and cannot go on forever. -/
theorem C07_suspending (c : Chain α γ) : ∃ f : List (Notif α) → List (Notif γ),
    (∀ es s out, c.proc.exec c.proc.init es = some (s, out) → c.proc.Quiescent s → out = f (Proc.inputs es)) ∧
    (∀ es s out, c.slowProc.exec c.slowProc.init es = some (s, out) →
      out <+: f (Proc.inputs es) ∧ (c.slowProc.Quiescent s → out = f (Proc.inputs es))) ∧
    c.slowProc.Terminates :=
  let ⟨f, h1, h2, h3⟩ := c.same.procs
  ⟨f, fun es s out h hq => (h1 es s out h).2 hq, h2, h3⟩

/-! Two different complete schedules of the demo pipeline (three mailboxes: after `skip`, in front of
and behind `distinct_until_changed`, after `take`): all posts first, or lock-step. -/

abbrev demoIn : List (Notif Nat) := [.next 1, .next 2, .next 2, .next 3]
abbrev w1 : demoPipe.compile.Lab := .inr (.inl ())
abbrev w2 : demoPipe.compile.Lab := .inr (.inr (.inl ()))
abbrev w3 : demoPipe.compile.Lab := .inr (.inr (.inr (.inl ())))
abbrev w4 : demoPipe.compile.Lab := .inr (.inr (.inr (.inr ())))

example : (demoPipe.proc.exec demoPipe.proc.init (demoIn.map .feed ++
    [w1, w1, w1, w2, w2, w2, w3, w3, w4, w4, w4].map .step)).map (·.2) =
      some [.next 12, .next 13, .completed] := by decide
example : (demoPipe.proc.exec demoPipe.proc.init
    [.feed (.next 1), .feed (.next 2), .step w1, .step w2, .step w3, .step w4,
     .feed (.next 2), .feed (.next 3), .step w1, .step w1, .step w2, .step w2, .step w3,
     .step w4, .step w4]).map (·.2) = some [.next 12, .next 13, .completed] := by decide
-- suspended in the middle of `take`'s last message: the value is out, the completion is not
example : let u : demoPipe.compileSlow.SlowLab := .inl ()
    let w1 : demoPipe.compileSlow.SlowLab := .inr (.inl ())
    let w2 : demoPipe.compileSlow.SlowLab := .inr (.inr (.inl ()))
    let w3 : demoPipe.compileSlow.SlowLab := .inr (.inr (.inr (.inl ())))
    let w4 : demoPipe.compileSlow.SlowLab := .inr (.inr (.inr (.inr ())))
    (demoPipe.slowProc.exec demoPipe.slowProc.init (demoIn.map .feed ++
    [u, u, u, u, u, u, u, w1, w1, w1, w1, w1, w1, w2, w2, w2, w2, w2, w3, w3, w3, w3, w3, w4, w4, w4, w4].map .step)).map (·.2) =
      some [.next 12, .next 13] := by decide
-- an incomplete schedule has delivered a prefix
example : (demoPipe.proc.exec demoPipe.proc.init (demoIn.map .feed ++
    [w1, w2, w1, w3, w4].map .step)).map (·.2) = some [.next 12] := by decide

end Aio
