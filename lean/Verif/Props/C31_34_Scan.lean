import Verif.Lemmas.Slices
import Verif.Model.ScanRace
/-!
# C31-C34: scan and reduce
-/

namespace Aio
open Spec
variable {α ρ : Type}

/-! ## C31 -/

/-- C31. `scan(f, s)` emits every running accumulation. -/
theorem C31_scan (f : ρ → α → ρ) (s0 : ρ) :
    (scan (fun s x => .ok (f s x)) s0).Computes (Spec.scan f s0) :=
  (scan_acts f s0).computes (scan_calm f s0)

/-- the accumulator used in the examples: a sum that raises on 0 -/
def addNonZero (s x : Nat) : Except Err Nat := if x = 0 then .error (.user 1) else .ok (s + x)
def add (s x : Nat) : Except Err Nat := .ok (s + x)

example : (scan add 10).direct.proc.outputs ([.next 1, .next 2, .next 3, .completed].map .feed) =
    some [.next 11, .next 13, .next 16, .completed] := by decide

/-! ## C32 -/

/-- C32 is false: after the accumulator has raised, later elements are still processed, and their
results follow the error. -/
theorem C32_violated :
    ∃ (f : Nat → Nat → Except Err Nat) (es : List (Proc.Ev (Notif Nat) (scan f 0).protected.compile.Lab)),
      (scan f 0).protected.proc.outputs es =
        some [.next 1, .error (.user 1), .next 3, .completed] ∧ f 1 0 = .error (.user 1) :=
  ⟨addNonZero, [.next 1, .next 0, .next 2, .completed].map .feed ++
    [.step tick, .step tick, .step tick, .step tick], by decide, rfl⟩

namespace Spec
/-- Accumulate until the accumulator raises, which ends the stream. -/
def scanUntilRaise (f : ρ → α → Except Err ρ) : ρ → List α → End → Story ρ
  | _, [], fin => ⟨[], fin⟩
  | s, x :: xs, fin =>
    match f s x with
    | .error e => ⟨[], .failed e⟩
    | .ok s' => ⟨s' :: (scanUntilRaise f s' xs fin).vals, (scanUntilRaise f s' xs fin).fin⟩
end Spec

theorem scanTry_eq (f : ρ → α → Except Err ρ) (s : ρ) (xs : List α) (fin : End) :
    scanTry f s xs fin = scanUntilRaise f s xs fin := by
  induction xs generalizing s with
  | nil => rfl
  | cons x xs ih => simp only [scanTry, scanUntilRaise]; cases f s x <;> simp [ih]

/-- C32, the part that holds: up to and including the first terminal event the observer sees the
right stream (so a consumer that ignores everything after the first terminal event, like every
`safe_observer`, sees the error as the end). Missing: "nothing afterwards", see `C32_violated`. -/
theorem C32_until_error_partial (f : ρ → α → Except Err ρ) (s0 : ρ)
    (hc : ∀ s x, f s x ≠ .error .cancelled)
    (es : List (Proc.Ev (Notif α) (scan f s0).protected.compile.Lab)) (s out)
    (h : (scan f s0).protected.proc.exec (scan f s0).protected.proc.init es = some (s, out)) :
    cut out <+: (scanUntilRaise f s0 (values (Proc.inputs es)) (story (Proc.inputs es)).fin).events ∧
    ((scan f s0).protected.proc.Quiescent s →
      cut out = (scanUntilRaise f s0 (values (Proc.inputs es)) (story (Proc.inputs es)).fin).events) := by
  have h1 := scan_protected hc es s out h
  have h2 := (scan_front (s0 := s0) hc).2 (cut (Proc.inputs es))
  have h3 : story (cut (Proc.inputs es)) = story (Proc.inputs es) := by simp [cut]
  rw [h3] at h2
  simp only [scanTry_eq] at h2
  refine ⟨?_, ?_⟩
  · rw [values, ← h2]; exact cut_mono h1.1
  · intro hq
    rw [values, ← h2, h1.2 hq]

/-- C32, the part that holds for what comes behind: followed by any operator that has a
`safe_observer` of its own, the error does end the stream. `Front w G` is the law of such an operator
(`take_front`, `skip_front`, ...); see the instance for `take` below. -/
theorem C32_guarded_partial {β : Type} (f : ρ → α → Except Err ρ) (s0 : ρ)
    (hc : ∀ s x, f s x ≠ .error .cancelled) (w : Wrap ρ β) (G : Story ρ → Story β) (hw : Front w G) :
    Delivers ((scan f s0).compose w.safeOp).protected.proc (fun _ => True)
      (fun s => G (scanUntilRaise f s0 s.vals s.fin)) := by
  have := (scan_then_front (s0 := s0) hc hw).delivers
  simpa only [scanTry_eq, Function.comp_def] using this

/-- C32 for `scan | take(n)`. -/
theorem C32_take_partial (f : ρ → α → Except Err ρ) (s0 : ρ) (n : Int)
    (hc : ∀ s x, f s x ≠ .error .cancelled) :
    Delivers ((scan f s0).compose (takeOp n)).protected.proc (fun _ => True)
      (fun s => Spec.take n (scanUntilRaise f s0 s.vals s.fin)) :=
  C32_guarded_partial f s0 hc _ _ (take_front n)

example : ((scan addNonZero 0).compose (takeOp 5)).protected.proc.outputs
    ([.next 1, .next 0, .next 2, .completed].map .feed ++
      (List.replicate 4 (.step (Sum.inr (Sum.inl ())))) ++
      (List.replicate 4 (.step (Sum.inr (Sum.inr ()))))) = some [.next 1, .error (.user 1)] := by decide
example : ∀ s x, addNonZero s x ≠ .error .cancelled := by
  intro s x; unfold addNonZero; split <;> simp

/-! ## C91 for `scan` -/

/-- An accumulator whose only exception is `CancelledError` (it awaits something that may be cancelled). -/
def Spec.OnlyCancelled (f : ρ → α → Except Err ρ) : Prop := ∀ s x e, f s x = .error e → e = .cancelled

namespace Spec
/-- The accumulations up to the first call that raises. -/
def accumulated (f : ρ → α → Except Err ρ) : ρ → List α → List ρ
  | _, [] => []
  | s, x :: xs =>
    match f s x with
    | .error _ => []
    | .ok s' => s' :: accumulated f s' xs
/-- Whether one of the calls raises. -/
def Raises (f : ρ → α → Except Err ρ) : ρ → List α → Prop
  | _, [] => False
  | s, x :: xs =>
    match f s x with
    | .error _ => True
    | .ok s' => Raises f s' xs
end Spec

theorem scan_cancel_pure {f : ρ → α → Except Err ρ} (hf : OnlyCancelled f) (s0 : ρ) :
    PureWrap (scanW f s0) fun s x => (f s x).map fun s' => (s', some s') := by
  refine ⟨?_, fun _ _ => rfl, fun _ => rfl⟩
  intro σ ο O v t s
  simp only [Py.bind_eq, Py.andThen, Py.getL_run, Py.tryElse, Py.call_run]
  cases h : f t v with
  | error e =>
    obtain rfl := hf _ _ _ h
    simp [Except.map]
  | ok s' => simp [Observer.up, Except.map]

theorem transduce_cancel {f : ρ → α → Except Err ρ} (hf : OnlyCancelled f) (s : ρ) (xs : List α) (fin : End)
    (hr : Raises f s xs) :
    transduce (fun s x => (f s x).map fun s' => (s', some s')) s xs fin = ⟨accumulated f s xs, .running⟩ := by
  induction xs generalizing s with
  | nil => exact hr.elim
  | cons x xs ih =>
    simp only [transduce, accumulated]
    simp only [Raises] at hr
    cases h : f s x with
    | error e => obtain rfl := hf _ _ _ h; rfl
    | ok s' =>
      rw [h] at hr
      show (⟨s' :: (transduce _ s' xs fin).vals, (transduce _ s' xs fin).fin⟩ : Story ρ) = _
      rw [ih s' hr]

/-- C91 is false for `scan`: an accumulator that raises `CancelledError` leaves the observer with the accumulations so
far and without an end, whatever the source does and in every schedule. -/
theorem C91_violated_scan {f : ρ → α → Except Err ρ} (hf : OnlyCancelled f) (s0 : ρ)
    (es : List (Proc.Ev (Notif α) (scan f s0).protected.compile.Lab)) (s out)
    (h : (scan f s0).protected.proc.exec (scan f s0).protected.proc.init es = some (s, out))
    (hr : Raises f s0 (values (Proc.inputs es))) :
    out <+: (accumulated f s0 (values (Proc.inputs es))).map .next ∧
    ((scan f s0).protected.proc.Quiescent s → out = (accumulated f s0 (values (Proc.inputs es))).map .next) := by
  have hd := (show (scan f s0).Acts _ from (scan_cancel_pure hf s0).transparent.acts).delivers
  have h1 := hd.prefix_ es s out h trivial
  have h2 := hd.all es s out h trivial
  have hr' := transduce_cancel hf s0 (story (Proc.inputs es)).vals (story (Proc.inputs es)).fin hr
  simp only [hr', Story.events, End.events, List.append_nil] at h1 h2
  exact ⟨h1, h2⟩

/-- adds, but awaits something cancelled for 0 -/
def addAwait (s x : Nat) : Except Err Nat := if x = 0 then .error .cancelled else .ok (s + x)

example : OnlyCancelled addAwait := by
  intro s x e h
  unfold addAwait at h
  split at h <;> simp_all
example : Raises addAwait 0 [1, 2, 0, 3] := by simp [Raises, addAwait]
example : (scan addAwait 0).protected.proc.outputs
    ([.next 1, .next 2, .next 0, .next 3, .completed].map .feed ++ List.replicate 5 (.step tick)) =
      some [.next 1, .next 3] := by decide

/-! ## C33 -/

namespace ScanRace

/-- C33 is false for an asynchronous accumulator: two overlapping sends of 1 and 2 into a sum from 0
end with 2. -/
theorem C33_violated : ∃ (ls : List (Label Nat)) (s : State Nat),
    run (fun s x => .ok (s + x)) (init 0) ls = some s ∧ s.inFlight = [] ∧ sent ls = [1, 2] ∧
    s.current = 2 ∧ s.out = [.next 1, .next 2] :=
  ⟨[.start 1, .start 2, .finish 0, .finish 0], ⟨2, [], [.next 1, .next 2]⟩, rfl, rfl, rfl, rfl, rfl⟩

/-- C33, the part that holds: with a synchronous accumulator (`scan`), whose calls cannot overlap,
every value sent is accounted for. Missing: overlapping calls of an asynchronous accumulator
(`scan_async` behind a source that does not serialise its calls), see `C33_violated`. -/
theorem C33_sync_partial (f : ρ → α → ρ) (s0 : ρ) (vs : List α) :
    ∃ s, run (fun s x => .ok (f s x)) (init s0) (atomic vs) = some s ∧
      s.current = vs.foldl f s0 ∧ s.inFlight = [] ∧ s.out = (accumulate f s0 vs).map .next ∧
      sent (atomic vs) = vs := by
  have key : ∀ (vs : List α) (c : ρ) (out : List (Notif ρ)),
      run (fun s x => .ok (f s x)) ⟨c, [], out⟩ (atomic vs) =
        some ⟨vs.foldl f c, [], out ++ (accumulate f c vs).map .next⟩ ∧ sent (atomic vs) = vs := by
    intro vs
    induction vs with
    | nil => intro c out; simp [atomic, run, accumulate, sent]
    | cons v vs ih =>
      intro c out
      obtain ⟨h1, h2⟩ := ih (f c v) (out ++ [.next (f c v)])
      simp [atomic, run, step, accumulate, sent, h1, h2]
  obtain ⟨h1, h2⟩ := key vs s0 []
  exact ⟨_, h1, rfl, rfl, by simp, h2⟩

/-- C33. What is lost: when a call finishes, every accumulation that finished while it was in flight
is overwritten. -/
theorem C33_overwritten (f : ρ → α → ρ) (c : ρ) (v w : α) :
    run (fun s x => .ok (f s x)) (init c) [.start v, .start w, .finish 0, .finish 0] =
      some ⟨f c w, [], [.next (f c v), .next (f c w)]⟩ := by
  simp [run, step, init]

/-- What accumulating one value after the other gives: a value on which the accumulator raises is reported and leaves
the accumulation unchanged. -/
def Spec.eachInTurn (f : ρ → α → Except Err ρ) : ρ → List α → List (Notif ρ) × ρ
  | c, [] => ([], c)
  | c, v :: vs =>
    match f c v with
    | .ok r => (.next r :: (eachInTurn f r vs).1, (eachInTurn f r vs).2)
    | .error e => (.error e :: (eachInTurn f c vs).1, (eachInTurn f c vs).2)

/-- The same for accumulators that may raise: calls that do not overlap are accounted for one after the other. -/
theorem C33_serial_partial (f : ρ → α → Except Err ρ) (s0 : ρ) (vs : List α) :
    run f (init s0) (atomic vs) = some ⟨(Spec.eachInTurn f s0 vs).2, [], (Spec.eachInTurn f s0 vs).1⟩ ∧
      sent (atomic vs) = vs := by
  have key : ∀ (vs : List α) (c : ρ) (out : List (Notif ρ)),
      run f ⟨c, [], out⟩ (atomic vs) =
        some ⟨(Spec.eachInTurn f c vs).2, [], out ++ (Spec.eachInTurn f c vs).1⟩ ∧ sent (atomic vs) = vs := by
    intro vs
    induction vs with
    | nil => intro c out; simp [atomic, run, Spec.eachInTurn, sent]
    | cons v vs ih =>
      intro c out
      cases h : f c v with
      | ok r =>
        obtain ⟨h1, h2⟩ := ih r (out ++ [.next r])
        simp [atomic, run, step, Spec.eachInTurn, sent, h, h1, h2]
      | error e =>
        obtain ⟨h1, h2⟩ := ih c (out ++ [.error e])
        simp [atomic, run, step, Spec.eachInTurn, sent, h, h1, h2]
  simpa [init] using key vs s0 []

/-- The most recent value of a sequence of notifications. -/
def Spec.latest (ns : List (Notif ρ)) : Option ρ :=
  (ns.filterMap fun | .next r => some r | _ => none).getLast?

/-- What holds in every schedule, overlapping or not: every value sent is in flight or has led to exactly one
notification, and the accumulation is the value that was sent on last. (Which values went into it is another matter, see
`C33_overwritten`.) Every call in flight can finish. -/
theorem C33_every_schedule (f : ρ → α → Except Err ρ) (s0 : ρ) {ls : List (Label α)} {s : State ρ}
    (h : run f (init s0) ls = some s) :
    s.out.length + s.inFlight.length = (sent ls).length ∧
    s.current = (Spec.latest s.out).getD s0 ∧
    ∀ i, i < s.inFlight.length → ∃ s', step f s (.finish i) = some s' ∧ s'.out.length = s.out.length + 1 := by
  have key : ∀ (ls : List (Label α)) (t : State ρ), run f t ls = some s →
      t.current = (Spec.latest t.out).getD s0 →
      s.out.length + s.inFlight.length = t.out.length + t.inFlight.length + (sent ls).length ∧
        s.current = (Spec.latest s.out).getD s0 := by
    intro ls
    induction ls with
    | nil =>
      intro t h hc
      simp only [run, Option.some.injEq] at h
      subst h
      exact ⟨by simp [sent], hc⟩
    | cons l ls ih =>
      intro t h hc
      simp only [run] at h
      cases l with
      | start v =>
        simp only [step] at h
        obtain ⟨h1, h2⟩ := ih _ h hc
        refine ⟨?_, h2⟩
        simp only [List.length_append, List.length_singleton] at h1
        simp only [sent, List.length_cons]
        omega
      | finish i =>
        cases hi : t.inFlight[i]? with
        | none => simp [step, hi] at h
        | some r =>
          have hl := (List.getElem?_eq_some_iff.mp hi).1
          cases r with
          | ok r =>
            simp only [step, hi] at h
            obtain ⟨h1, h2⟩ := ih _ h (by simp [Spec.latest, List.filterMap_append])
            refine ⟨?_, h2⟩
            simp only [List.length_append, List.length_singleton, List.length_eraseIdx, hl, if_true] at h1
            simp only [sent]
            omega
          | error e =>
            simp only [step, hi] at h
            obtain ⟨h1, h2⟩ := ih _ h (by simpa [Spec.latest, List.filterMap_append] using hc)
            refine ⟨?_, h2⟩
            simp only [List.length_append, List.length_singleton, List.length_eraseIdx, hl, if_true] at h1
            simp only [sent]
            omega
  obtain ⟨h1, h2⟩ := key ls _ h rfl
  refine ⟨by simpa [init] using h1, h2, fun i hi => ?_⟩
  have hg := List.getElem?_eq_getElem hi
  cases hr : s.inFlight[i] with
  | ok r => exact ⟨⟨r, s.inFlight.eraseIdx i, s.out ++ [.next r]⟩, by simp [step, hg, hr], by simp⟩
  | error e => exact ⟨⟨s.current, s.inFlight.eraseIdx i, s.out ++ [.error e]⟩, by simp [step, hg, hr], by simp⟩

example : Spec.eachInTurn addNonZero 0 [1, 0, 2] = ([.next 1, .error (.user 1), .next 3], 3) := by decide
example : (run addNonZero (init 0) [.start 1, .start 0, .finish 1, .finish 0]).map State.out =
    some [.error (.user 1), .next 1] := by decide

end ScanRace

/-! ## C34 -/

/-- C34 is false for an empty source: nothing is emitted, not even the initial value. -/
theorem C34_violated_empty : ∃ es : List (Proc.Ev (Notif Nat) (reduce add 5).protected.compile.Lab),
    Proc.inputs es = [.completed] ∧ (reduce add 5).protected.proc.outputs es = some [.completed] ∧
    Spec.reduce (· + ·) 5 (story ([.completed] : List (Notif Nat))) = ⟨[5], .done⟩ :=
  ⟨[.feed .completed, .step (Sum.inr (Sum.inl ())), .step (Sum.inr (Sum.inr ()))],
    by decide, by decide, by decide⟩

/-- C34, the part that holds: for sources that deliver at least one value, `reduce` emits exactly
the fold. (For an empty source it emits no value, see the theorem above and `C34_reduce_exact`.) -/
theorem C34_reduce_partial (f : ρ → α → ρ) (s0 : ρ) :
    Delivers (reduce (fun s x => .ok (f s x)) s0).protected.proc (fun ns => values ns ≠ [])
      (Spec.reduce f s0) ∧
    Delivers (reduce (fun s x => .ok (f s x)) s0).direct.proc
      (fun ns => Grammar ns ∧ values ns ≠ []) (Spec.reduce f s0) := by
  have h := (reduce_acts f s0).computes (reduce_calm f s0)
  have hr : ∀ ns : List (Notif α), values ns ≠ [] →
      Spec.takeLast 1 (Spec.scan f s0 (story ns)) = Spec.reduce f s0 (story ns) :=
    fun ns hn => reduce_spec f s0 _ hn
  refine ⟨⟨fun es s out he hd => ?_, fun es s out he hd => ?_, h.guarded.ends⟩,
    ⟨fun es s out he hd => ?_, fun es s out he hd => ?_, h.direct.ends⟩⟩
  · rw [← hr _ hd]; exact h.guarded.prefix_ es s out he trivial
  · rw [← hr _ hd]; exact h.guarded.all es s out he trivial
  · rw [← hr _ hd.2]; exact h.direct.prefix_ es s out he hd.1
  · rw [← hr _ hd.2]; exact h.direct.all es s out he hd.1

/-- C34. The exact behaviour, empty sources included: on completion the last running accumulation,
if there is one; nothing while running; only the error on failure. -/
theorem C34_reduce_exact (f : ρ → α → ρ) (s0 : ρ) :
    (reduce (fun s x => .ok (f s x)) s0).Computes fun s =>
      match s.fin, s.vals with
      | .done, [] => ⟨[], .done⟩
      | .done, x :: xs => ⟨[(x :: xs).foldl f s0], .done⟩
      | fin, _ => ⟨[], fin⟩ := by
  refine ((reduce_acts f s0).congr fun s => ?_).computes (reduce_calm f s0)
  obtain ⟨xs, fin⟩ := s
  cases fin with
  | done =>
    cases xs with
    | nil => simp [Spec.takeLast, Spec.scan, accumulate]
    | cons x xs => rw [reduce_spec _ _ _ (by simp)]; rfl
  | running => simp [Spec.takeLast, Spec.scan]
  | failed e => simp [Spec.takeLast, Spec.scan]

example : (reduce add 0).protected.proc.outputs
    ([.next 1, .next 2, .next 3, .completed].map .feed ++
      (List.replicate 4 (.step (Sum.inr (Sum.inl ())))) ++
      (List.replicate 2 (.step (Sum.inr (Sum.inr ()))))) = some [.next 6, .completed] := by decide

end Aio
