import Verif.Lemmas.Slices
/-!
# C45-C48, C50-C52, C90: skip, skip_last, take, take_last, distinct_until_changed, slices, indexing;
# C55: zip_seq
-/

namespace Aio
open Spec
variable {α β : Type}

/-! ## C45 -/

/-- C45. `skip(n)` drops exactly the first `n` elements. -/
theorem C45_skip (n : Int) : (skip n : Operator α α).Computes (Spec.skip n) :=
  (skip_acts n).computes (skip_calm n)

/-- C45, even for a source that violates the grammar. -/
theorem C45_skip_any_source (n : Int) :
    Delivers (skip n : Operator α α).direct.proc (fun _ => True) (Spec.skip n) :=
  (skip_actsRaw n).delivers

example : (skip 2 : Operator Nat Nat).direct.proc.outputs
    ([.next 1, .next 2, .next 3, .completed].map .feed ++ [.step tick, .step tick]) =
    some [.next 3, .completed] := by decide

/-! ## C46 -/

/-- `v is None`, for the type used in the witness -/
def optIsNone (v : Option Nat) : Bool := v.isNone

/-- C46 is false when the source emits `None`: those elements are swallowed. -/
theorem C46_violated_none :
    ∃ es : List (Proc.Ev (Notif (Option Nat)) (skipLast optIsNone 1).direct.compile.Lab),
      Proc.inputs es = [.next (some 1), .next none, .next (some 2), .completed] ∧
      (skipLast optIsNone 1).direct.proc.outputs es = some [.next (some 1), .completed] ∧
      Spec.skipLast 1 (story (Proc.inputs es)) = ⟨[some 1, none], .done⟩ :=
  ⟨[.next (some 1), .next none, .next (some 2), .completed].map .feed ++ [.step tick, .step tick],
    by decide, by decide, by decide⟩

/-- C46, the part that holds: for sources that do not emit `None`. Missing: `None` elements, see
`C46_violated_none`; `C46_skip_last_exact` gives the exact behaviour for all sources. -/
theorem C46_skip_last_partial (isNone : α → Bool) (n : Int) :
    Delivers (skipLast isNone n).protected.proc (fun ns => ∀ v ∈ values ns, isNone v = false)
      (Spec.skipLast n) ∧
    Delivers (skipLast isNone n).direct.proc (fun ns => ∀ v ∈ values ns, isNone v = false)
      (Spec.skipLast n) := by
  have key : ∀ ns : List (Notif α), (∀ v ∈ values ns, isNone v = false) →
      Spec.skipLast n (story ns) =
        ⟨(Spec.skipLast n (story ns)).vals.filter fun v => !isNone v, (story ns).fin⟩ := by
    intro ns hn
    have : (Spec.skipLast n (story ns)).vals.filter (fun v => !isNone v) =
        (Spec.skipLast n (story ns)).vals := by
      rw [List.filter_eq_self]
      intro a ha
      have := hn a (List.mem_of_mem_take ha)
      simp [this]
    rw [this]; rfl
  have h1 := (skipLast_acts isNone n).delivers
  have h2 := (skipLast_actsRaw isNone n).delivers
  refine ⟨⟨fun es s out he hd => ?_, fun es s out he hd => ?_, h1.ends⟩,
    ⟨fun es s out he hd => ?_, fun es s out he hd => ?_, h2.ends⟩⟩
  · rw [key _ hd]; exact h1.prefix_ es s out he trivial
  · rw [key _ hd]; exact h1.all es s out he trivial
  · rw [key _ hd]; exact h2.prefix_ es s out he trivial
  · rw [key _ hd]; exact h2.all es s out he trivial

/-- C46. The exact behaviour for all sources: the last `n` are held back, and `None`s are dropped. -/
theorem C46_skip_last_exact (isNone : α → Bool) (n : Int) :
    (skipLast isNone n).Computes fun s =>
      ⟨(Spec.skipLast n s).vals.filter fun v => !isNone v, s.fin⟩ :=
  (skipLast_acts isNone n).computes (skipLast_calm isNone n)

example : (skipLast (fun _ : Nat => false) 2).direct.proc.outputs
    ([.next 1, .next 2, .next 3].map .feed ++ [.step tick]) = some [.next 1] := by decide

/-! ## C47 -/

/-- C47. `take(n)` delivers the first `n` elements and completes with the `n`-th. -/
theorem C47_take (n : Int) (h : 0 ≤ n) :
    ∃ op : Operator α α, take n = .ok op ∧ op.Computes (Spec.take n) :=
  ⟨takeOp n, by rw [take, if_neg (by omega)], (take_acts n).computes (take_calm n)⟩

/-- C47. Negative counts are rejected when the operator is created. -/
theorem C47_take_negative (n : Int) (h : n < 0) :
    ∃ e, (take n : Except Err (Operator α α)) = .error e ∧ e = .valueError :=
  ⟨_, by rw [take, if_pos h], rfl⟩

/-- C47. "Completes directly after the nth": already when the source is still running, and whatever
it does later (even if it violates the grammar). -/
theorem C47_take_completes (n : Nat) (hn : 0 < n)
    (es : List (Proc.Ev (Notif α) (takeOp (n : Int) : Operator α α).direct.compile.Lab)) (s out)
    (h : (takeOp (n : Int) : Operator α α).direct.proc.exec (takeOp (n : Int)).direct.proc.init es
      = some (s, out)) (hq : (takeOp (n : Int) : Operator α α).direct.proc.Quiescent s)
    (hv : n ≤ (values (Proc.inputs es)).length) :
    out = ((values (Proc.inputs es)).take n).map .next ++ [.completed] := by
  have := (take_actsRaw (α := α) (n : Int)).delivers.all es s out h trivial hq
  rw [this]
  have h1 : (0 : Int) < n ∧ (n : Int) ≤ ((story (Proc.inputs es)).vals.length : Int) := by
    simp only [values] at hv; omega
  have h2 : 0 < n := by omega
  simp [Spec.take, h1, h2, Story.events, values, End.events]

example : (takeOp 2 : Operator Nat Nat).direct.proc.outputs
    ([.next 1, .next 2, .next 3].map .feed ++ [.step tick, .step tick, .step tick]) =
    some [.next 1, .next 2, .completed] := by decide

/-! ## C48 -/

/-- C48. `take_last(n)` delivers the last `n` elements on completion. -/
theorem C48_take_last (n : Int) : (takeLast n : Operator α α).Computes (Spec.takeLast n) :=
  (takeLast_acts n).computes (takeLast_calm n)

example : (takeLast 2 : Operator Nat Nat).direct.proc.outputs
    ([.next 1, .next 2, .next 3, .completed].map .feed ++ [.step tick, .step tick, .step tick]) =
    some [.next 2, .next 3, .completed] := by decide

/-! ## C50 -/

/-- C50. `distinct_until_changed` drops exactly the elements equal to their direct predecessor;
`eq a b` is Python's `a == b` and may be any function (that does not raise, see C90). -/
theorem C50_distinct (eq : α → α → Bool) :
    (distinctUntilChanged fun a b => .ok (eq a b)).Computes (Spec.distinct eq) :=
  (distinct_acts eq).computes (distinct_calm _)

example : (distinctUntilChanged fun a b : Nat => .ok (a == b)).direct.proc.outputs
    ([.next 1, .next 1, .next 2, .next 1].map .feed ++
      (List.replicate 4 (.step (Sum.inr (Sum.inl ())))) ++
      (List.replicate 3 (.step (Sum.inr (Sum.inr ()))))) = some [.next 1, .next 2, .next 1] := by decide

/-! ## C90

In full: if comparing two elements raises (`==` of numpy arrays, say), the exception is delivered as the error of the
stream. It is not: `n != latest` (filtering.py:144) is outside of the `try`, the exception ends the agent's task. -/

/-- C90. What is delivered for a comparison that may raise: the distinct elements up to there, and nothing more. -/
theorem C90_law (eq : α → α → Except Err Bool) :
    (distinctUntilChanged eq).Computes fun s => distinctTry eq none s.vals s.fin :=
  (distinctTry_acts eq).computes (distinct_calm eq)

theorem distinctTry_stuck {eq : α → α → Except Err Bool} {eq' : α → α → Bool} {pre post : List α} {l v : α} {e : Err}
    {fin : End} (hv : eq v l = .error e) :
    ∀ {p : α} , (∀ q ∈ (pre ++ [l]).zip (p :: (pre ++ [l])), eq q.1 q.2 = .ok (eq' q.1 q.2)) →
      distinctTry eq (some p) (pre ++ l :: v :: post) fin =
        ⟨(((pre ++ [l]).zip (p :: (pre ++ [l]))).filter fun q => !eq' q.1 q.2).map Prod.fst, .running⟩ := by
  induction pre with
  | nil =>
    intro p h
    have h1 := h (l, p) (by simp)
    dsimp only at h1
    cases hq : eq' l p <;> simp [distinctTry, h1, hv, hq]
  | cons x pre ih =>
    intro p h
    have h1 := h (x, p) (by simp)
    have h2 := @ih x fun q hq => h q (by
      simp only [List.cons_append, List.zip_cons_cons, List.mem_cons]; exact .inr hq)
    dsimp only at h1
    cases hq : eq' x p <;> simp_all [distinctTry]

/-- C90 is false: if comparing `v` with the element `l` before it raises, the observer gets the distinct elements up to
`l`, under every schedule no more than these, and never an end, whatever the source sends afterwards. `eq'`: the
comparisons before that one. -/
theorem C90_violated {eq : α → α → Except Err Bool} {eq' : α → α → Bool} {pre post : List α} {l v : α} {e : Err}
    (hp : ∀ q ∈ ((pre ++ [l]).drop 1).zip (pre ++ [l]), eq q.1 q.2 = .ok (eq' q.1 q.2)) (hv : eq v l = .error e)
    {es s out} (hr : (distinctUntilChanged eq).protected.proc.exec (distinctUntilChanged eq).protected.proc.init es = some (s, out))
    (hin : (story (Proc.inputs es)).vals = pre ++ l :: v :: post) :
    out <+: (changes eq' (pre ++ [l])).map .next ∧
    ((distinctUntilChanged eq).protected.proc.Quiescent s → out = (changes eq' (pre ++ [l])).map .next) := by
  have key : distinctTry eq none (story (Proc.inputs es)).vals (story (Proc.inputs es)).fin =
      ⟨changes eq' (pre ++ [l]), .running⟩ := by
    rw [hin]
    cases pre with
    | nil => simp [distinctTry, hv, changes]
    | cons x pre =>
      have := distinctTry_stuck (eq' := eq') (pre := pre) (post := post) (fin := (story (Proc.inputs es)).fin) hv (p := x)
        (fun q hq => hp q hq)
      simp [distinctTry, this, changes]
  have h := (C90_law eq).guarded
  have h1 := h.prefix_ es s out hr trivial
  have h2 := h.all es s out hr trivial
  simp only [key, Story.events, End.events, List.append_nil] at h1 h2
  exact ⟨h1, h2⟩

/-- C90, the part that holds: as long as no comparison raises nothing is lost, see C50. -/
theorem C90_partial {eq : α → α → Except Err Bool} {eq' : α → α → Bool} (h : ∀ a b, eq a b = .ok (eq' a b)) :
    (distinctUntilChanged eq).Computes (Spec.distinct eq') := by
  have : eq = fun a b => .ok (eq' a b) := funext fun a => funext fun b => h a b
  rw [this]; exact C50_distinct eq'

/-- comparing with 0 raises -/
def touchy : Nat → Nat → Except Err Bool := fun a b => if a = 0 ∨ b = 0 then .error .valueError else .ok (a == b)

-- 0 cannot be compared: 2, the completion and 0 itself are never delivered
example : (distinctUntilChanged touchy).direct.proc.outputs
    ([.next 1, .next 1, .next 0, .next 2, .completed].map .feed ++
      (List.replicate 5 (.step (Sum.inr (Sum.inl ())))) ++
      (List.replicate 1 (.step (Sum.inr (Sum.inr ()))))) = some [.next 1] := by decide

/-! ## C51 -/

/-- C51 is false for `[:0]` (Python: nothing; here: everything). -/
theorem C51_violated_stop_zero : ∃ op : Operator Nat Nat,
    getitemSlice (fun _ => false) none (some 0) none = .ok op ∧
    op.CanDeliver [.next 1, .next 2, .completed] [.next 1, .next 2, .completed] ∧ pySlice none (some 0) 1 [1, 2] = [] := by
  refine ⟨Operator.compose .id (skipLast (fun _ => false) 0), rfl,
    ⟨[.next 1, .next 2, .completed].map .feed ++ [.step tick, .step tick, .step tick], by decide, by decide⟩,
    by decide⟩

/-- C51 is false for `[3:1]` (Python: nothing; here: `ValueError`). -/
theorem C51_violated_reversed :
    (∃ e, (getitemSlice (fun _ => false) (some 3) (some 1) none : Except Err (Operator Nat Nat)) =
      .error e) ∧ pySlice (some 3) (some 1) 1 [1, 2, 3, 4] = [] :=
  ⟨⟨.valueError, rfl⟩, by decide⟩

/-- C51 is false for a negative start with a positive stop: `[-2:3]` of `[1, 2, 3, 4]` is `[3]`,
here `[3, 4]`. -/
theorem C51_violated_mixed_signs : ∃ op : Operator Nat Nat,
    getitemSlice (fun _ => false) (some (-2)) (some 3) none = .ok op ∧
    op.CanDeliver [.next 1, .next 2, .next 3, .next 4, .completed] [.next 3, .next 4, .completed] ∧ pySlice (some (-2)) (some 3) 1 [1, 2, 3, 4] = [3] := by
  refine ⟨Operator.compose (takeLast 2) (takeOp 5), rfl,
    ⟨[.next 1, .next 2, .next 3, .next 4, .completed].map .feed ++
      List.replicate 3 (.step (Sum.inr (Sum.inl ()))) ++ List.replicate 3 (.step (Sum.inr (Sum.inr ()))),
      by decide, by decide⟩, by decide⟩

/-- C51 is false for a negative stop when the source emits `None` (see C46). -/
theorem C51_violated_none : ∃ op : Operator (Option Nat) (Option Nat),
    getitemSlice optIsNone none (some (-1)) none = .ok op ∧
    op.CanDeliver [.next none, .next (some 2), .completed] [.completed] ∧ pySlice none (some (-1)) 1 [none, some 2] = [none] := by
  refine ⟨Operator.compose .id (skipLast optIsNone 1), rfl,
    ⟨[.next none, .next (some 2), .completed].map .feed ++ [.step tick], by decide, by decide⟩, by decide⟩

/-- C51, the part that holds: `SliceOk start stop` says
* no stop, or
* no start and `stop ≠ 0`, or
* a negative stop (any start), or
* `0 ≤ start ≤ stop` and `0 < stop`;
and the source must not emit `None` (needed for negative stops only). Then for a completing source
the result is Python's slice. Missing: the four kinds of slices above. -/
theorem C51_slice_partial (isNone : α → Bool) (start stop : Option Int) (step : Option Nat)
    (hstep : ∀ n, step = some n → 1 ≤ n) (hok : SliceOk start stop) :
    ∃ (op : Operator α α) (G : Story α → Story α),
      getitemSlice isNone start stop (step.map Int.ofNat) = .ok op ∧ op.Computes G ∧
      ∀ xs, (∀ x ∈ xs, isNone x = false) →
        G ⟨xs, .done⟩ = ⟨pySlice start stop (step.getD 1) xs, .done⟩ := by
  have h1' : 1 ≤ step.getD 1 := by
    cases step with
    | none => simp
    | some n => exact hstep n rfl
  have h := slice_acts isNone start stop (step.getD 1 : Nat) (by omega) (by
    intro t ht h0
    subst ht
    cases start with
    | none => simp; omega
    | some s => simp [SliceOk] at hok ⊢; omega)
  obtain ⟨op, h1, h2, h3⟩ := h
  refine ⟨op, _, ?_, h2.computes h3, fun xs hn => slice_spec isNone start stop _ h1' hok xs hn⟩
  rw [← h1]
  cases step with
  | none => rfl
  | some n =>
    have := hstep n rfl
    simp only [getitemSlice, Option.map_some, Option.getD_some]
    rw [if_neg (show ¬ Int.ofNat n = 0 by simp; omega)]
    rfl

/-- C51. For slices without a negative stop no restriction on the values is needed. -/
theorem C51_slice_no_neg_stop_partial (isNone : α → Bool) (start stop : Option Int) (step : Option Nat)
    (hstep : ∀ n, step = some n → 1 ≤ n) (hok : SliceOk start stop) (hpos : ∀ t, stop = some t → 0 < t) :
    ∃ (op : Operator α α) (G : Story α → Story α),
      getitemSlice isNone start stop (step.map Int.ofNat) = .ok op ∧ op.Computes G ∧
      ∀ xs, G ⟨xs, .done⟩ = ⟨pySlice start stop (step.getD 1) xs, .done⟩ := by
  have hindep : (getitemSlice isNone start stop (step.map Int.ofNat) : Except Err (Operator α α)) =
      getitemSlice (fun _ => false) start stop (step.map Int.ofNat) := by
    cases stop with
    | none => rfl
    | some t => have := hpos t rfl; simp [getitemSlice, slice, sliceStop, this]
  obtain ⟨op, G, h1, h2, h3⟩ := C51_slice_partial (fun _ => false) start stop step hstep hok
  exact ⟨op, G, hindep.trans h1, h2, fun xs => h3 xs (by simp)⟩

/-- C51. Which slices are rejected: those with a negative step, and those with `0 < stop < start`. -/
theorem C51_rejected (isNone : α → Bool) (start stop step : Option Int) :
    (∃ e, (getitemSlice isNone start stop step : Except Err (Operator α α)) = .error e) ↔
      (∃ n, step = some n ∧ n < 0) ∨ ∃ t, stop = some t ∧ 0 < t ∧ t < start.getD 0 := by
  have hstop : (∃ e, (sliceStop isNone start stop : Except Err (Operator α α)) = .error e) ↔
      ∃ t, stop = some t ∧ 0 < t ∧ t < start.getD 0 := by
    cases stop with
    | none => simp [sliceStop]
    | some t =>
      simp only [sliceStop, take]
      by_cases h : t > 0
      · by_cases h2 : t - start.getD 0 < 0
        · simp [h, h2]; omega
        · simp [h, h2]; omega
      · simp [h]
  rw [← hstop]
  simp only [getitemSlice, slice]
  cases hs : (sliceStop isNone start stop : Except Err (Operator α α)) with
  | error e => simp
  | ok op =>
    cases step with
    | none => simp
    | some n =>
      simp only [Option.some.injEq, exists_eq_left', reduceCtorEq, exists_false, or_false]
      by_cases h0 : n = 0
      · subst h0; simp
      · simp only [h0, if_false]
        by_cases h1 : n > 1
        · simp [h1]; omega
        · by_cases h2 : n < 0
          · simp [h1, h2]
          · simp [h1, h2]

-- the hypotheses are met by slices like [1:-1:2] and [-3:-1]
example : SliceOk (some 1) (some (-1)) ∧ pySlice (some 1) (some (-1)) 2 [0, 1, 2, 3, 4, 5] = [1, 3] :=
  ⟨by simp [SliceOk], by decide⟩
example : SliceOk (some (-3)) (some (-1)) ∧ pySlice (some (-3)) (some (-1)) 1 [1, 2, 3, 4] = [2, 3] :=
  ⟨by simp [SliceOk], by decide⟩
example : SliceOk (some 1) (some 3) ∧ pySlice (some 1) (some 3) 1 [1, 2, 3, 4] = [2, 3] :=
  ⟨by simp [SliceOk], by decide⟩

/-! ## C52 -/

/-- C52 is false for a negative index when the element is `None`: nothing is delivered. -/
theorem C52_violated_none : ∃ op : Operator (Option Nat) (Option Nat),
    getitemInt optIsNone (-1) = .ok op ∧
    op.CanDeliver [.next (some 1), .next none, .completed] [.completed] ∧ pyIndex (-1) [some 1, none] = [none] := by
  refine ⟨Operator.compose (takeLast 1) (skipLast optIsNone 0), rfl,
    ⟨[.next (some 1), .next none, .completed].map .feed ++
      List.replicate 2 (.step (Sum.inr (Sum.inl ()))) ++ [.step (Sum.inr (Sum.inr ()))],
      by decide, by decide⟩, by decide⟩

theorem index_spec (isNone : α → Bool) (i : Int) (xs : List α)
    (hn : 0 ≤ i ∨ ∀ x ∈ xs, isNone x = false) :
    sliceG3 1 (sliceG2 isNone (some i) (some (i + 1)) (sliceG1 (some i) ⟨xs, .done⟩)) =
      ⟨pyIndex i xs, .done⟩ := by
  have h3 : ∀ s : Story α, sliceG3 1 s = s := by intro s; simp [sliceG3]
  rw [h3]
  by_cases hi : i < 0
  · have hn : ∀ x ∈ xs, isNone x = false := hn.resolve_left (by omega)
    have h1 : ¬ (i + 1 > 0) := by omega
    simp only [sliceG1, sliceG2, hi, h1, if_true, if_false, Spec.takeLast, Spec.skipLast, notNone,
      pyIndex]
    congr 1
    rw [List.filter_eq_self.mpr]
    · by_cases hl : 0 ≤ i + xs.length
      · simp only [hl, if_true]
        have e1 : xs.length - ((i.natAbs : Nat) : Int).toNat = (i + xs.length).toNat := by omega
        rw [e1]
        generalize hk : (i + xs.length).toNat = k
        have hlt : k < xs.length := by omega
        have e2 : (xs.drop k).length - (((i + 1).natAbs : Nat) : Int).toNat = 1 := by
          simp; omega
        rw [e2, List.drop_eq_getElem_cons hlt, List.take_succ_cons]
        simp [hlt]
      · simp only [hl, if_false]
        have e2 : (xs.drop (xs.length - ((i.natAbs : Nat) : Int).toNat)).length -
            (((i + 1).natAbs : Nat) : Int).toNat = 0 := by simp; omega
        rw [e2]; simp
    · intro a ha
      simp [hn a (List.mem_of_mem_drop (List.mem_of_mem_take ha))]
  · have h1 : i + 1 > 0 := by omega
    have h2 : i + 1 - (some i).getD 0 = 1 := by simp; omega
    simp only [sliceG1, sliceG2, hi, h1, if_true, if_false, Spec.skip, Spec.take, h2, pyIndex,
      show (0 : Int) ≤ i by omega]
    congr 1
    · rw [show (1 : Int).toNat = 0 + 1 from rfl]
      by_cases hl : i.toNat < xs.length
      · rw [List.drop_eq_getElem_cons hl, List.take_succ_cons]; simp [hl]
      · rw [List.drop_of_length_le (by omega), List.getElem?_eq_none (by omega)]; simp
    · exact ite_self _

/-- C52, the part that holds: for a completing source, `source[i]` delivers exactly the element at
`i` (negative: from the end), or nothing if out of range. Missing: negative `i` on a source that
emits `None`, see `C52_violated_none`. -/
theorem C52_index_partial (isNone : α → Bool) (i : Int) :
    ∃ (op : Operator α α) (G : Story α → Story α), getitemInt isNone i = .ok op ∧ op.Computes G ∧
      ∀ xs, (0 ≤ i ∨ ∀ x ∈ xs, isNone x = false) → G ⟨xs, .done⟩ = ⟨pyIndex i xs, .done⟩ := by
  obtain ⟨op, h1, h2, h3⟩ := slice_acts isNone (some i) (some (i + 1)) 1 (by omega) (by
    intro t ht h0; simp at ht ⊢; omega)
  exact ⟨op, _, h1, h2.computes h3, fun xs hn => index_spec isNone i xs hn⟩

example : pyIndex 1 [5, 6, 7] = [6] ∧ pyIndex (-1) [5, 6, 7] = [7] ∧ pyIndex 3 [5, 6, 7] = [] ∧
    pyIndex (-4) [5, 6, 7] = ([] : List Nat) := by decide

/-! ## C55 -/

/-- C55. `zip_seq` with a finite sequence. -/
theorem C55_zip_finite (ys : List β) :
    (zipSeq (Iterable.ofList ys .stop) : Operator α (α × β)).Computes (zipList ys) := by
  have hc := ofList_calm ys .stop (by simp)
  refine ((zipSeq_acts hc).congr fun s => ?_).computes (zipSeq_calm hc)
  rw [zipFrom_stop ys 0 s.vals s.fin (by omega)]; rfl

/-- C55. `zip_seq` with an infinite sequence `y 0, y 1, ...`. -/
theorem C55_zip_infinite (y : Nat → β) :
    (zipSeq (fun k => .item (y k)) : Operator α (α × β)).Computes fun s =>
      ⟨s.vals.zipIdx.map fun p => (p.1, y p.2), s.fin⟩ := by
  have hc : ∀ k, (fun k => Pull.item (y k)) k ≠ .raises .cancelled := fun _ => by simp
  refine ((zipSeq_acts hc).congr fun s => ?_).computes (zipSeq_calm hc)
  exact zipFrom_items y 0 s.vals s.fin

/-- C55. `zip_seq` with a sequence that yields `ys` and then raises `e`. -/
theorem C55_zip_raising (ys : List β) (e : Err) (he : e ≠ .cancelled) :
    (zipSeq (Iterable.ofList ys (.raises e)) : Operator α (α × β)).Computes (zipRaising ys e) := by
  have hc := ofList_calm ys (.raises e) (by simpa using he)
  refine ((zipSeq_acts hc).congr fun s => ?_).computes (zipSeq_calm hc)
  rw [zipFrom_raises ys e 0 s.vals s.fin (by omega)]; rfl

example : (zipSeq (Iterable.ofList ['a', 'b'] .stop) : Operator Nat (Nat × Char)).direct.proc.outputs
    ([.next 1, .next 2, .next 3].map .feed ++ [.step tick, .step tick, .step tick]) =
    some [.next (1, 'a'), .next (2, 'b'), .completed] := by decide

end Aio
