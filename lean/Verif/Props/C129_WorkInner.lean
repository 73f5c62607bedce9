import Verif.Props.C122_Jobs
import Verif.Props.C128_Reduce
/-!
# C129: `flat_map_async`, `flat_map_latest_async` with a mapper that takes its time
-/

namespace Aio
open Spec Spec.Timed Spec.Queue Nested
variable {S L SI LI α ω β : Type}

namespace WorkInner

/-- `map_async(mapper)` before the operator that merges: transform.py:195-214, 347-381. The observer of `merge_inner` and `switch_latest` only posts, which takes no time. -/
abbrev mapped (q : Clocked S L α) (f : α → Nat × Except Err ω) (gone : Nat) :=
  q.through (Work.stage ((Ops.map f .nil).handler (Handler.final fun _ _ => (0, none))) 0 gone)

variable {q : Clocked S L α} {f : α → Nat × Except Err ω} {gone : Nat} {fam : ω → Nat → Clocked SI LI β}

theorem work_map (v : α) : (Ops.map f .nil).work v = ((f v).1, (f v).2.map some) := by
  simp only [Ops.work, andThen]
  cases (f v).2 <;> rfl

theorem mapped_lawful (hq : q.Lawful) : (mapped q f gone).Lawful := Clocked.through_lawful hq Work.stage_lawful

theorem mapped_grammar (hq : q.Lawful) {ls s} (hr : LTS.run (mapped q f gone).step (mapped q f gone).init ls = some s) :
    Grammar (((mapped q f gone).calls s).map (·.1)) :=
  Work.grammar_prefix ((Work.C124_exact hq hr).1.map _) (Work.handle_grammar _ _ _)

theorem mapped_proper (hq : q.Lawful) (hi : ∀ xs t, (fam xs t).Lawful ∧ (fam xs t).now (fam xs t).init = t)
    (hg : ∀ xs t ls s, LTS.run (fam xs t).step (fam xs t).init ls = some s → Grammar (((fam xs t).calls s).map (·.1))) :
    Proper (mapped q f gone) fam :=
  ⟨mapped_lawful hq, fun _ _ h => mapped_grammar hq h, hi, hg⟩

theorem values_before {ι : Type} {n : Nat} {a b : List (Notif ι × Nat)} (h : before n a = before n b) :
    (valuesAt a).filter (fun c => c.2 < n) = (valuesAt b).filter (fun c => c.2 < n) := by
  have key : ∀ c : List (Notif ι × Nat), (valuesAt c).filter (fun c => c.2 < n) = valuesAt (before n c) := by
    intro c
    rw [valuesAt, valuesAt, before, List.filterMap_filter, List.filter_filterMap]
    congr 1
    funext x
    obtain ⟨m, t⟩ := x
    cases m <;> by_cases ht : t < n <;> simp [ht, Option.filter]
  rw [key, key, h]

/-- C129, `flat_map_async`: on a loop that is not overloaded, an inner observable is subscribed when the mapper's result is there. The mapper is called for one value at a time. -/
theorem C129_subscribed (hq : q.Lawful) (hi : ∀ xs t, (fam xs t).Lawful ∧ (fam xs t).now (fam xs t).init = t)
    (hg : ∀ xs t ls s, LTS.run (fam xs t).step (fam xs t).init ls = some s → Grammar (((fam xs t).calls s).map (·.1))) {ls s}
    (hr : LTS.run ((mapped q f gone).merged fam 0).step ((mapped q f gone).merged fam 0).init ls = some s)
    (hp : ((mapped q f gone).merged fam 0).Prompt (fun s => Merge.Settled s.prod) ls) (hc : Calm (mapped q f gone) ls s) (hs : Merge.Settled s.prod) :
    (subs s).filter (fun i => i.2 < q.now s.outer.1) =
      (valuesAt (handle (fun v => ((f v).1, (f v).2.map some)) (fun _ _ => (0, none)) gone 0 0 (q.calls s.outer.1))).filter fun i => i.2 < q.now s.outer.1 := by
  have hpr : Proper (mapped q f gone) fam := mapped_proper hq hi hg
  obtain ⟨h, hpast⟩ := past hpr.source hpr.inner (merge_starts 0) hr
  obtain ⟨lo, hlo, -⟩ := hpast.source
  rw [C112_subscribed hpr hr hp hc hs, values_before (Work.C124_exact hq hlo).2, funext work_map]

/-- C129, `flat_map_latest_async`: the same; so the inner observable before is left only when the mapper's result is there, not when the value is sent. -/
theorem C129_switched (hq : q.Lawful) (hi : ∀ xs t, (fam xs t).Lawful ∧ (fam xs t).now (fam xs t).init = t)
    (hg : ∀ xs t ls s, LTS.run (fam xs t).step (fam xs t).init ls = some s → Grammar (((fam xs t).calls s).map (·.1))) {honour : Bool} {ls s}
    (hr : LTS.run ((mapped q f gone).switched fam honour).step ((mapped q f gone).switched fam honour).init ls = some s)
    (hp : ((mapped q f gone).switched fam honour).Prompt (fun s => Switch.Settled s.prod) ls) (hf : NoFailure ls) (hs : Switch.Settled s.prod) :
    (subs s).filter (fun i => i.2 < q.now s.outer.1) =
      (valuesAt (handle (fun v => ((f v).1, (f v).2.map some)) (fun _ _ => (0, none)) gone 0 0 (q.calls s.outer.1))).filter fun i => i.2 < q.now s.outer.1 := by
  have hpr : Proper (mapped q f gone) fam := mapped_proper hq hi hg
  obtain ⟨h, hpast⟩ := past hpr.source hpr.inner (switch_starts honour) hr
  obtain ⟨lo, hlo, -⟩ := hpast.source
  rw [C114_subscribed hpr hr hp hf hs, values_before (Work.C124_exact hq hlo).2, funext work_map]

/-! ## jobs -/

theorem valuesAt_next {ι : Type} {v : ι} {t : Nat} {cs : List (Notif ι × Nat)} : valuesAt ((.next v, t) :: cs) = (v, t) :: valuesAt cs := rfl

theorem handle_finished {g : α → ω} {m : α → Nat} {xs : List α} : ∀ {k free t0 : Nat}, t0 ≤ free →
    valuesAt (handle (fun v => (m v, .ok (some (g v)))) (fun _ _ => (0, none)) gone k free (xs.map (fun x => (.next x, t0)) ++ [(.completed, t0)])) =
      (finished m free xs).map fun c => (g c.1, c.2) := by
  induction xs with
  | nil => intros; rfl
  | cons x xs ih =>
    intro k free t0 ht
    simp only [List.map_cons, List.cons_append, handle, finished]
    rw [valuesAt_next, ih (by omega), Nat.max_eq_right ht, Nat.add_zero]

theorem finished_index {d : α → Nat} : ∀ {xs : List α} {free i : Nat}, (finished d free xs)[i]? =
    xs[i]?.map fun x => (x, free + ((xs.take (i + 1)).map d).sum) := by
  intro xs
  induction xs with
  | nil => intros; rfl
  | cons x xs ih =>
    intro free i
    cases i with
    | zero => simp [finished]
    | succ i =>
      rw [finished, List.getElem?_cons_succ, ih, List.getElem?_cons_succ]
      simp [Nat.add_assoc]

variable {dur : ω → Nat} {res : ω → Except Err β}

/-- C129: `of_seq(xs)` at time `t0`, `flat_map_async` with a mapper that takes `m x` and returns a job: the mapper is called for one value after the other, the jobs overlap. What comes
before now is exactly the results of the jobs; that of the job for value `i` comes when the mapper has been called for the values up to `i`, one after the other, and then the job is over. -/
theorem C129_jobs (hq : q.Lawful) {m : α → Nat} {g : α → ω} {ls s}
    (hr : LTS.run ((mapped q (fun x => (m x, .ok (g x))) gone).merged (jobs dur res) 0).step ((mapped q (fun x => (m x, .ok (g x))) gone).merged (jobs dur res) 0).init ls = some s)
    (hp : ((mapped q (fun x => (m x, .ok (g x))) gone).merged (jobs dur res) 0).Prompt (fun s => Merge.Settled s.prod) ls)
    (hc : Calm (mapped q (fun x => (m x, .ok (g x))) gone) ls s) (hs : Merge.Settled s.prod) (hn : ∀ y, res y ≠ .error .cancelled)
    {xs : List α} {t0 : Nat} (hx : q.calls s.outer.1 = xs.map (fun x => (.next x, t0)) ++ [(.completed, t0)]) :
    ((noDone s.posts).filter fun c => c.2 < q.now s.outer.1).Perm
      (((finished m t0 xs).map fun c => (Spec.Jobs.result res (g c.1), c.2 + dur (g c.1))).filter fun c => c.2 < q.now s.outer.1) := by
  have hl := mapped_lawful (f := fun x => (m x, .ok (g x))) (gone := gone) hq
  have hpr := jobs_proper dur res hl fun _ _ h => mapped_grammar hq h
  have h1 := Jobs.C122_results hl (fun _ _ h => mapped_grammar hq h) hr hc.noError fun x _ => hn x.1
  have h2 := C129_subscribed hq hpr.inner hpr.innerGrammar hr hp hc hs
  have hh : valuesAt (handle (fun v => (m v, (Except.ok (g v) : Except Err ω).map some)) (fun _ _ => (0, none)) gone 0 0 (q.calls s.outer.1)) =
      (finished m t0 xs).map fun c => (g c.1, c.2) := by
    rw [hx]
    cases xs with
    | nil => rfl
    | cons x xs =>
      simp only [List.map_cons, List.cons_append, handle, finished, Except.map, Nat.max_eq_left (Nat.zero_le _)]
      rw [valuesAt_next, Nat.add_zero]
      exact congrArg _ (handle_finished (by omega))
  rw [hh] at h2
  refine h1.trans (List.Perm.of_eq ?_)
  have key : ∀ L : List (ω × Nat), (L.map fun i => (Spec.Jobs.result res i.1, i.2 + dur i.1)).filter (fun c => decide (c.2 < q.now s.outer.1)) =
      ((L.filter fun i => i.2 < q.now s.outer.1).map fun i => (Spec.Jobs.result res i.1, i.2 + dur i.1)).filter fun c => decide (c.2 < q.now s.outer.1) := by
    intro L
    rw [List.filter_map, List.filter_map, List.filter_filter]
    congr 1
    refine List.filter_congr fun i _ => ?_
    by_cases h : i.2 + dur i.1 < q.now s.outer.1
    · have : i.2 < q.now s.outer.1 := by omega
      simp [h, this]
    · simp [h]
  show ((subs s).map fun i => (Spec.Jobs.result res i.1, i.2 + dur i.1)).filter (fun c => decide (c.2 < q.now s.outer.1)) = _
  rw [key, h2, ← key, List.map_map]
  rfl

/-! ## Examples -/

section Examples
local notation "src" => fun l => Time.act (Nested.Label.outer (Sum.inl l))
local notation "wrk" => fun l => Time.act (Nested.Label.outer (Sum.inr l))
local notation "recv" => Time.act (Nested.Label.own Merge.Label.receive)
local notation "subd" => Time.act (Nested.Label.own Merge.Label.subscribed)
local notation "disd" => Time.act (Nested.Label.own Merge.Label.disposed)
local notation "inn" => fun k l => Time.act (Nested.Label.inner k l)

/-- The mapper takes `x` for the value `x`, the job `2 * x`. -/
abbrev demoOuter := mapped (ofSeqAt 5 [3, (1 : Nat)]) (fun x => (x, .ok x)) 0
abbrev demo := demoOuter.merged (jobs (fun y => 2 * y) fun y => (.ok (10 * y) : Except Err Nat)) 0
abbrev demoRun : List (Time (Nested.Label (Option Unit ⊕ Work.Label Nat) Job.Label Nat Nat)) :=
  [src (some ()), wrk .receive, wrk .go, .pass 3, wrk .wake, wrk .go, wrk .go, wrk .wake, wrk .go, wrk .receive, wrk .go, recv, subd, inn 0 .start, .pass 1, wrk .wake, wrk .go,
   wrk .go, wrk .wake, wrk .go, wrk .receive, wrk .go, wrk .wake, wrk .go, wrk .go, recv, subd, recv, inn 1 .start, .pass 2, inn 1 .wake, inn 1 .receive, inn 1 .ret, inn 1 .receive,
   inn 1 .ret, recv, inn 1 .ret, .pass 3, inn 0 .wake, inn 0 .receive, inn 0 .ret, inn 0 .receive, inn 0 .ret, recv, inn 0 .ret, .pass 1]

/-- The mapper is done with the 3 at 8 and with the 1 at 9; the jobs overlap, and the second is done first. -/
example : ∃ s, LTS.run demo.step demo.init demoRun = some s ∧ demo.Prompt (fun s => Merge.Settled s.prod) demoRun ∧ Calm demoOuter demoRun s ∧ Merge.Settled s.prod ∧
    (ofSeqAt 5 [3, (1 : Nat)]).calls s.outer.1 = [3, 1].map (fun x => (.next x, 5)) ++ [(.completed, 5)] ∧ demo.now s = 15 ∧ subs s = [(3, 8), (1, 9)] ∧
    s.posts = [(.next 10, 11), (.next 30, 14), (.completed, 14)] ∧ finished (fun x : Nat => x) 5 [3, 1] = [(3, 8), (1, 9)] := by
  obtain ⟨s, hs, h⟩ := run_any (c := demo) (ls := demoRun)
    (P := fun s => settled s.prod && subs s == [(3, 8), (1, 9)] && demo.now s == 15 && s.posts == [(.next 10, 11), (.next 30, 14), (.completed, 14)] &&
      (ofSeqAt 5 [3, (1 : Nat)]).calls s.outer.1 == [(.next 3, 5), (.next 1, 5), (.completed, 5)] &&
      demoOuter.calls s.outer == [(.next 3, 8), (.next 1, 9), (.completed, 9)]) (by decide +kernel)
  simp only [Bool.and_eq_true, beq_iff_eq] at h
  obtain ⟨⟨⟨⟨⟨h1, h2⟩, h3⟩, h4⟩, h5⟩, h6⟩ := h
  exact ⟨s, hs, Clocked.Prompt.of_rests (idle := fun s : Nested _ _ _ _ _ => settled s.prod) (fun _ => settled_of) (by decide +kernel),
    ⟨by simp [NoFailure], by simp, by rw [h6]; simp⟩, settled_of h1, by rw [h5]; rfl, h3, h2, h4, rfl⟩

/-- `flat_map_latest_async`, where the mapper always takes 3 and the job for `y` takes `y - 1`: although both values are sent at 5, the first job is not replaced before 11, and is
over at 10. -/
abbrev latestOuter := mapped (ofSeqAt 5 [3, (1 : Nat)]) (fun x => (3, .ok x)) 0
abbrev latest := latestOuter.switched (jobs (fun y => y - 1) fun y => (.ok (10 * y) : Except Err Nat)) true
abbrev latestRun : List (Time (Nested.Label (Option Unit ⊕ Work.Label Nat) Job.Label Nat Nat)) :=
  [src (some ()), wrk .receive, wrk .go, .pass 3, wrk .wake, wrk .go, wrk .go, wrk .wake, wrk .go, wrk .receive, wrk .go, recv, subd, inn 0 .start, .pass 2, inn 0 .wake,
   inn 0 .receive, inn 0 .ret, inn 0 .receive, inn 0 .ret, recv, inn 0 .ret, .pass 1, wrk .wake, wrk .go, wrk .go, wrk .wake, wrk .go, wrk .receive, wrk .go, wrk .wake, wrk .go,
   wrk .go, recv, disd, subd, recv, inn 1 .start, inn 1 .wake, inn 1 .receive, inn 1 .ret, inn 1 .receive, inn 1 .ret, recv, inn 1 .ret, .pass 1]

example : ∃ s, LTS.run latest.step latest.init latestRun = some s ∧ latest.Prompt (fun s => Switch.Settled s.prod) latestRun ∧ NoFailure latestRun ∧ Switch.Settled s.prod ∧
    (ofSeqAt 5 [3, (1 : Nat)]).calls s.outer.1 = [3, 1].map (fun x => (.next x, 5)) ++ [(.completed, 5)] ∧ latest.now s = 12 ∧ subs s = [(3, 8), (1, 11)] ∧
    s.posts = [(.next 30, 10), (.next 10, 11)] := by
  obtain ⟨s, hs, h⟩ := run_any (c := latest) (ls := latestRun)
    (P := fun s => switchSettled s.prod && subs s == [(3, 8), (1, 11)] && latest.now s == 12 && s.posts == [(.next 30, 10), (.next 10, 11)] &&
      (ofSeqAt 5 [3, (1 : Nat)]).calls s.outer.1 == [(.next 3, 5), (.next 1, 5), (.completed, 5)]) (by decide +kernel)
  simp only [Bool.and_eq_true, beq_iff_eq] at h
  obtain ⟨⟨⟨⟨h1, h2⟩, h3⟩, h4⟩, h5⟩ := h
  exact ⟨s, hs, Clocked.Prompt.of_rests (idle := fun s : Nested _ _ _ _ _ => switchSettled s.prod) (fun _ => switchSettled_of) (by decide +kernel), by simp [NoFailure],
    switchSettled_of h1, by rw [h5]; rfl, h3, h2, h4⟩

end Examples

end WorkInner
end Aio
