import Verif.Model.WorkScan
import Verif.Props.C124_Work
import Verif.Spec.Operators
/-!
# C127: an accumulator that takes its time
-/

namespace Aio
open Spec Spec.Timed Spec.Queue
variable {S L α β γ ρ : Type}

namespace Work
variable {m : Nat → β → Nat × Option Err} {gone : Nat} {ops : Ops α γ} {f : ρ → γ → Nat × Except Err ρ} {ops' : Ops ρ β}

theorem serve_scanned : ∀ (cs : List (Notif α × Nat)) (c : ρ) (i free : Nat),
    serve (ops.scanned f ops' (Handler.final m)) gone (c, i) free cs = fold ops.work f ops'.work m gone c i free cs := by
  intro cs
  induction cs with
  | nil => intros; rfl
  | cons x cs ih =>
    intro c i free
    obtain ⟨n, a⟩ := x
    cases n with
    | error e => simp [serve, fold, body, Ops.scanned, ops_athrow, Handler.scanAsync, Handler.final, Co.run, Co.bind]
    | completed => simp [serve, fold, body, Ops.scanned, ops_aclose, Handler.scanAsync, Handler.final, Co.run, Co.bind]
    | next v =>
      rw [serve, fold]
      generalize hK : serve (ops.scanned f ops' (Handler.final m)) gone = K at ih ⊢
      simp only [body, Co.run_attempt, Ops.scanned, ops_run, ops_athrow]
      cases hw : (ops.work v).2 with
      | error e =>
        dsimp only
        by_cases he : e = .cancelled
        · simp [he]
        · simp [he, Handler.scanAsync, ops_athrow, Handler.final, Co.run, Co.bind]
      | ok y =>
        cases y with
        | none => simp only [Co.run, List.append_nil, List.nil_append]; exact ih _ _ _
        | some y =>
          simp only [Handler.scanAsync, Co.run_attempt, Co.run_work, Co.run_bind, ops_run, ops_athrow]
          cases hf : (f c y).2 with
          | error e =>
            dsimp only
            by_cases he : e = .cancelled
            · simp [he]
            · simp only [he, if_false, Handler.final, Co.run, Co.bind, List.append_nil, List.nil_append, List.cons_append]
              exact congrArg _ (ih _ _ _)
          | ok c' =>
            dsimp only
            cases hw' : (ops'.work c').2 with
            | error e =>
              dsimp only
              by_cases he : e = .cancelled
              · simp [he]
              · simp [he, Handler.final, Co.run, Co.bind, Nat.add_assoc]
            | ok z =>
              cases z with
              | none =>
                simp only [Co.run, List.append_nil, List.nil_append]
                exact ih _ _ _
              | some z =>
                simp only [Handler.final, Co.run]
                cases hm : (m i z).2 with
                | none =>
                  simp only [Co.run, List.append_nil, List.cons_append, List.nil_append]
                  exact congrArg _ (ih _ _ _)
                | some e =>
                  dsimp only
                  by_cases he : e = .cancelled
                  · simp [he, Co.run]
                  · simp [he, Co.run, Co.bind, Nat.add_assoc]

/-- C127: the accumulator is called for one value after the other, with what it returned last (at first `s0`); the observer is told at once of what it returns,
and of each exception, after which all goes on. -/
theorem C127_exact {q : Clocked S L α} (hq : q.Lawful) {s0 : ρ} {ls s}
    (hr : LTS.run (q.through (stage (ops.scanned f ops' (Handler.final m)) (s0, 0) gone)).step
      (q.through (stage (ops.scanned f ops' (Handler.final m)) (s0, 0) gone)).init ls = some s) :
    (q.through (stage (ops.scanned f ops' (Handler.final m)) (s0, 0) gone)).calls s <+: fold ops.work f ops'.work m gone s0 0 0 (q.calls s.1) ∧
    before (q.now s.1) ((q.through (stage (ops.scanned f ops' (Handler.final m)) (s0, 0) gone)).calls s) =
      before (q.now s.1) (fold ops.work f ops'.work m gone s0 0 0 (q.calls s.1)) := by
  obtain ⟨-, ms, h1, h2, h3, -⟩ := Clocked.split hq stage_reads hr
  obtain ⟨r, h4, h5⟩ := told h1
  have hnow := (inv_run h1).2
  rw [h2, serve_scanned] at h4
  rw [h3] at hnow
  refine ⟨⟨r, h4.symm⟩, ?_⟩
  have h6 : r.filter (fun c => decide (c.2 < q.now s.1)) = [] := by
    rw [List.filter_eq_nil_iff]
    intro c hc
    have := h5 c hc
    simp; omega
  rw [h4, before, before, List.filter_append, h6, List.append_nil]
  rfl

theorem index_scanned {q : Clocked S L α} (hq : q.Lawful) {s0 : ρ} {ls s}
    (hr : LTS.run (q.through (stage (ops.scanned f ops' (Handler.final m)) (s0, 0) gone)).step
      (q.through (stage (ops.scanned f ops' (Handler.final m)) (s0, 0) gone)).init ls = some s)
    {i : Nat} {c : Notif β × Nat} (h : (fold ops.work f ops'.work m gone s0 0 0 (q.calls s.1))[i]? = some c) (hc : c.2 < q.now s.1) :
    ((q.through (stage (ops.scanned f ops' (Handler.final m)) (s0, 0) gone)).calls s)[i]? = some c := by
  obtain ⟨-, ms, h1, h2, h3, -⟩ := Clocked.split hq stage_reads hr
  obtain ⟨r, h4, h5⟩ := told h1
  have hnow := (inv_run h1).2
  rw [h2, serve_scanned] at h4
  rw [h3] at hnow
  rw [h4] at h
  by_cases hi : i < s.2.sent.length
  · rwa [List.getElem?_append_left hi] at h
  · rw [List.getElem?_append_right (by omega)] at h
    have := h5 c (List.mem_of_getElem? h)
    omega

/-! ## what this means -/

/-- What comes of values by a chain of operators none of which raises. -/
def kept {α β : Type} (w : α → Nat × Except Err (Option β)) (vs : List α) : List β :=
  vs.filterMap fun v => match (w v).2 with | .ok y => y | .error _ => none

theorem fold_values {w : α → Nat × Except Err (Option γ)} {w' : ρ → Nat × Except Err (Option β)} (hw : ∀ v, ∃ d y, w v = (d, .ok y))
    (hw' : ∀ v, ∃ d y, w' v = (d, .ok y)) (hm : ∀ i y, (m i y).2 = none) {g : ρ → γ → ρ} {bad : γ → Bool} {err : γ → Err}
    (hf : ∀ c y, (f c y).2 = if bad y then .error (err y) else .ok (g c y)) (herr : ∀ y, err y ≠ .cancelled) :
    ∀ (cs : List (Notif α × Nat)) (c : ρ) (i free : Nat), (valuesAt (fold w f w' m gone c i free cs)).map (·.1) =
      kept w' (accumulate g c ((kept w ((valuesAt (Timed.cut cs)).map (·.1))).filter fun y => !bad y)) := by
  intro cs
  induction cs with
  | nil => intros; rfl
  | cons x cs ih =>
    intro c i free
    obtain ⟨n, a⟩ := x
    cases n with
    | error e => simp [fold, Timed.cut, valuesAt, kept, accumulate]
    | completed => simp [fold, Timed.cut, valuesAt, kept, accumulate]
    | next v =>
      obtain ⟨d, y, h⟩ := hw v
      rw [fold]
      cases y with
      | none => simpa [h, Timed.cut, valuesAt, kept] using ih c i (max a free + d)
      | some y =>
        simp only [h]
        have hl : kept w ((valuesAt (Timed.cut ((.next v, a) :: cs))).map (·.1)) = y :: kept w ((valuesAt (Timed.cut cs)).map (·.1)) := by
          simp [Timed.cut, valuesAt, kept, h]
        rw [hl]
        cases hb : bad y with
        | true =>
          simp only [hf, hb, if_true, herr, if_false]
          rw [List.filter_cons_of_neg (by simp [hb]), valuesAt, List.filterMap_cons_none (by rfl), ← valuesAt, ih]
        | false =>
          simp only [hf, hb, Bool.false_eq_true, if_false]
          rw [List.filter_cons_of_pos (by simp [hb]), accumulate]
          obtain ⟨d', z, h'⟩ := hw' (g c y)
          cases z with
          | none => simp only [h']; rw [ih]; simp [kept, h']
          | some z => simp only [h', hm]; rw [valuesAt, List.filterMap_cons_some (by rfl), List.map_cons, ← valuesAt, ih]; simp [kept, h']

/-- C127: no update is lost. If the accumulator raises for some of the values only (`bad`), and no other function does, then the values the observer is told are the running totals of the
other values, in the order of the source, however long the accumulator takes and however fast the values come. -/
theorem C127_totals {q : Clocked S L α} (hq : q.Lawful) {s0 : ρ} (hw : ∀ v, ∃ d y, ops.work v = (d, .ok y)) (hw' : ∀ v, ∃ d y, ops'.work v = (d, .ok y))
    (hm : ∀ i y, (m i y).2 = none) {g : ρ → γ → ρ} {bad : γ → Bool} {err : γ → Err}
    (hf : ∀ c y, (f c y).2 = if bad y then .error (err y) else .ok (g c y)) (herr : ∀ y, err y ≠ .cancelled) {ls s}
    (hr : LTS.run (q.through (stage (ops.scanned f ops' (Handler.final m)) (s0, 0) gone)).step
      (q.through (stage (ops.scanned f ops' (Handler.final m)) (s0, 0) gone)).init ls = some s) :
    (valuesAt ((q.through (stage (ops.scanned f ops' (Handler.final m)) (s0, 0) gone)).calls s)).map (·.1) <+:
      kept ops'.work (accumulate g s0 ((kept ops.work ((valuesAt (Timed.cut (q.calls s.1))).map (·.1))).filter fun y => !bad y)) := by
  obtain ⟨⟨r, h⟩, -⟩ := C127_exact hq hr
  rw [← fold_values (m := m) (gone := gone) hw hw' hm hf herr (q.calls s.1) s0 0 0, ← h, valuesAt, valuesAt, List.filterMap_append, List.map_append]
  exact List.prefix_append ..

variable {d : γ → Nat} {g : ρ → γ → ρ}

theorem fold_batch {xs : List γ} : ∀ {c : ρ} {k free i t0 : Nat}, t0 ≤ free →
    (i < xs.length → (fold Ops.nil.work (fun c y => (d y, .ok (g c y))) Ops.nil.work (fun _ _ => (0, none)) gone c k free
        (xs.map (fun x => (.next x, t0)) ++ [(.completed, t0)]))[i]? =
      some (.next ((xs.take (i + 1)).foldl g c), free + ((xs.take (i + 1)).map d).sum)) ∧
    (fold Ops.nil.work (fun c y => (d y, .ok (g c y))) Ops.nil.work (fun _ _ => (0, none)) gone c k free
        (xs.map (fun x => (.next x, t0)) ++ [(.completed, t0)]))[xs.length]? =
      some (.completed, free + (xs.map d).sum + gone) := by
  induction xs with
  | nil =>
    intro c k free i t0 h
    refine ⟨fun hi => absurd hi (by simp), ?_⟩
    simp [fold]; omega
  | cons y xs ih =>
    intro c k free i t0 h
    have hmax : max t0 free = free := by omega
    rw [List.map_cons, List.cons_append, fold, hmax]
    simp only [Ops.work, Nat.add_zero]
    constructor
    · intro hi
      cases i with
      | zero => simp
      | succ i =>
        rw [List.getElem?_cons_succ]
        have := (ih (c := g c y) (k := k + 1) (free := free + d y) (i := i) (t0 := t0) (by omega)).1 (by simpa using hi)
        simp only [Ops.work] at this
        rw [this]
        simp; omega
    · have := (ih (c := g c y) (k := k + 1) (free := free + d y) (i := 0) (t0 := t0) (by omega)).2
      simp only [Ops.work] at this
      rw [List.length_cons, List.getElem?_cons_succ, this]
      simp; omega

/-- C127, values that are all sent at time `t0` to an accumulator that takes `d y` for the value `y` and always returns: the total of the first `i + 1` values comes when
the time for them has passed, and the completion when the time for all has. -/
theorem C127_batch {q : Clocked S L γ} (hq : q.Lawful) {s0 : ρ} {ls s}
    (hr : LTS.run (q.through (stage (Ops.nil.scanned (fun c y => (d y, .ok (g c y))) Ops.nil (Handler.final fun _ _ => (0, none))) (s0, 0) gone)).step
      (q.through (stage (Ops.nil.scanned (fun c y => (d y, .ok (g c y))) Ops.nil (Handler.final fun _ _ => (0, none))) (s0, 0) gone)).init ls = some s)
    {xs : List γ} {t0 : Nat} (hc : q.calls s.1 = xs.map (fun x => (.next x, t0)) ++ [(.completed, t0)]) :
    (∀ i, i < xs.length → t0 + ((xs.take (i + 1)).map d).sum < q.now s.1 →
      ((q.through (stage (Ops.nil.scanned (fun c y => (d y, .ok (g c y))) Ops.nil (Handler.final fun _ _ => (0, none))) (s0, 0) gone)).calls s)[i]? =
        some (.next ((xs.take (i + 1)).foldl g s0), t0 + ((xs.take (i + 1)).map d).sum)) ∧
    (t0 + (xs.map d).sum + gone < q.now s.1 →
      ((q.through (stage (Ops.nil.scanned (fun c y => (d y, .ok (g c y))) Ops.nil (Handler.final fun _ _ => (0, none))) (s0, 0) gone)).calls s)[xs.length]? =
        some (.completed, t0 + (xs.map d).sum + gone)) := by
  have hfree : fold Ops.nil.work (fun c y => (d y, .ok (g c y))) Ops.nil.work (fun _ _ => (0, none)) gone s0 0 0 (q.calls s.1) =
      fold Ops.nil.work (fun c y => (d y, .ok (g c y))) Ops.nil.work (fun _ _ => (0, none)) gone s0 0 t0 (q.calls s.1) := by
    rw [hc]
    cases xs with
    | nil => simp [fold]
    | cons x xs => simp [fold]
  refine ⟨fun i hi ht => index_scanned hq hr ?_ ht, fun ht => index_scanned hq hr ?_ ht⟩
  · rw [hfree, hc]
    exact (fold_batch (Nat.le_refl _)).1 hi
  · rw [hfree, hc]
    exact (fold_batch (i := 0) (Nat.le_refl _)).2

theorem fold_bounds {w : α → Nat × Except Err (Option γ)} {f : ρ → γ → Nat × Except Err ρ} {w' : ρ → Nat × Except Err (Option β)} {D : Nat}
    (hw : ∀ v, (w v).1 = 0) (hf : ∀ c y, (f c y).1 ≤ D) (hw' : ∀ v, (w' v).1 = 0) (hg : gone ≤ D) :
    ∀ {cs : List (Notif α × Nat)} {c : ρ} {k free : Nat}, (∀ x ∈ cs.head?, free ≤ x.2) →
    (∀ (i : Nat) x, cs[i]? = some x → ∀ x', cs[i + 1]? = some x' → x.2 + D ≤ x'.2) →
    ∀ x ∈ fold w f w' (fun _ _ => (0, none)) gone c k free cs, ∃ y ∈ cs, y.2 ≤ x.2 ∧ x.2 ≤ y.2 + D := by
  intro cs
  induction cs with
  | nil => intro c k free _ _ x hx; simp [fold] at hx
  | cons y cs ih =>
    intro c k free h1 h2 x hx
    obtain ⟨n, a⟩ := y
    have ha : max a free = a := by have := h1 (n, a) rfl; dsimp only at this; omega
    have hnext : ∀ t, t ≤ a + D → ∀ z ∈ cs.head?, t ≤ z.2 := by
      intro t ht z hz
      have := h2 0 (n, a) rfl z (by cases cs with | nil => cases hz | cons => exact hz)
      dsimp only at this
      omega
    have later : ∀ {c' k' t}, t ≤ a + D → x ∈ fold w f w' (fun _ _ => (0, none)) gone c' k' t cs → ∃ y ∈ (n, a) :: cs, y.2 ≤ x.2 ∧ x.2 ≤ y.2 + D := by
      intro c' k' t ht hx
      obtain ⟨y, hy, h⟩ := ih (hnext _ ht) (fun i z hz => h2 (i + 1) z hz) x hx
      exact ⟨y, List.mem_cons_of_mem _ hy, h⟩
    cases n with
    | error e =>
      rw [fold, ha] at hx
      cases List.mem_singleton.mp hx
      exact ⟨_, List.mem_cons_self .., by dsimp only; omega, by dsimp only; omega⟩
    | completed =>
      rw [fold, ha] at hx
      cases List.mem_singleton.mp hx
      exact ⟨_, List.mem_cons_self .., by dsimp only; omega, by dsimp only; omega⟩
    | next v =>
      rw [fold, ha] at hx
      simp only [hw, hw', Nat.add_zero] at hx
      split at hx
      · split at hx
        · cases hx
        · cases List.mem_singleton.mp hx
          exact ⟨_, List.mem_cons_self .., by dsimp only; omega, by dsimp only; omega⟩
      · exact later (by omega) hx
      · rename_i y _
        have hD := hf c y
        split at hx
        · split at hx
          · cases hx
          · rcases List.mem_cons.mp hx with rfl | hx
            · exact ⟨_, List.mem_cons_self .., by dsimp only; omega, by dsimp only; omega⟩
            · exact later (by omega) hx
        · split at hx
          · split at hx
            · cases hx
            · cases List.mem_singleton.mp hx
              exact ⟨_, List.mem_cons_self .., by dsimp only; omega, by dsimp only; omega⟩
          · exact later (by omega) hx
          · rcases List.mem_cons.mp hx with rfl | hx
            · exact ⟨_, List.mem_cons_self .., by dsimp only; omega, by dsimp only; omega⟩
            · exact later (by omega) hx

/-- C127, an accumulator that takes at most `D`, and a source that leaves at least `D` between its events: nothing that the observer is told comes later than `D` after an event of the source. -/
theorem C127_keeps_up {q : Clocked S L α} (hq : q.Lawful) {s0 : ρ} {D : Nat} (hw : ∀ v, (ops.work v).1 = 0) (hf : ∀ c y, (f c y).1 ≤ D)
    (hw' : ∀ v, (ops'.work v).1 = 0) (hg : gone ≤ D) {ls s}
    (hr : LTS.run (q.through (stage (ops.scanned f ops' (Handler.final fun _ _ => (0, none))) (s0, 0) gone)).step
      (q.through (stage (ops.scanned f ops' (Handler.final fun _ _ => (0, none))) (s0, 0) gone)).init ls = some s)
    (hc : ∀ (i : Nat) x, (q.calls s.1)[i]? = some x → ∀ x', (q.calls s.1)[i + 1]? = some x' → x.2 + D ≤ x'.2) :
    ∀ x ∈ (q.through (stage (ops.scanned f ops' (Handler.final fun _ _ => (0, none))) (s0, 0) gone)).calls s,
      ∃ y ∈ q.calls s.1, y.2 ≤ x.2 ∧ x.2 ≤ y.2 + D := by
  intro x hx
  obtain ⟨⟨r, h⟩, -⟩ := C127_exact hq hr
  exact fold_bounds hw hf hw' hg (fun _ _ => Nat.zero_le _) hc x (h ▸ List.mem_append_left _ hx)

/-! ## Examples -/

section Examples
open Nested (ofSeqAt run_any)

local notation "src" => fun l => Time.act (Sum.inl l)
local notation "recv" => Time.act (Sum.inr Label.receive)
local notation "go" => Time.act (Sum.inr Label.go)
local notation "wake" => Time.act (Sum.inr Label.wake)

/-- `scan_async` of an addition that takes as long as what is added, and raises for 1. -/
abbrev demoAcc : Nat → Nat → Nat × Except Err Nat := fun c y => (y, if y == 1 then .error (.user 7) else .ok (c + y))
abbrev demoScan := (ofSeqAt 5 [3, 1, (2 : Nat)]).through (stage (Ops.nil.scanned demoAcc Ops.nil (Handler.final fun _ _ => (0, none))) (10, 0) 1)
abbrev demoScanRun : List (Time (Option Unit ⊕ Label Nat)) :=
  [src (some ()), recv, go, .pass 3, wake, go, go, wake, go,
   recv, go, .pass 1, wake, go, go,
   recv, go, .pass 2, wake, go, go, wake, go,
   recv, go, .pass 1, wake, go, go, .pass 1]

/-- 10 + 3 is told at 5 + 3, the exception 1 later, 13 + 2 again 2 later. -/
example : ∃ s, LTS.run demoScan.step demoScan.init demoScanRun = some s ∧ (ofSeqAt 5 [3, 1, (2 : Nat)]).Lawful ∧ demoScan.now s = 13 ∧
    (ofSeqAt 5 [3, 1, (2 : Nat)]).calls s.1 = [(.next 3, 5), (.next 1, 5), (.next 2, 5), (.completed, 5)] ∧
    demoScan.calls s = [(.next 13, 8), (.error (.user 7), 9), (.next 15, 11), (.completed, 12)] ∧
    (∀ c y, (demoAcc c y).2 = if y == 1 then .error (.user 7) else .ok (c + y)) := by
  obtain ⟨s, hs, h⟩ := run_any (c := demoScan) (ls := demoScanRun)
    (P := fun s => (ofSeqAt 5 [3, 1, (2 : Nat)]).calls s.1 == [(.next 3, 5), (.next 1, 5), (.next 2, 5), (.completed, 5)] && demoScan.now s == 13 &&
      demoScan.calls s == [(.next 13, 8), (.error (.user 7), 9), (.next 15, 11), (.completed, 12)]) (by decide +kernel)
  simp only [Bool.and_eq_true, beq_iff_eq] at h
  exact ⟨s, hs, Nested.ofSeq_lawful _ _, h.1.2, h.1.1, h.2, fun _ _ => rfl⟩

example : fold Ops.nil.work demoAcc Ops.nil.work (fun _ _ => (0, none)) 1 10 0 0 [(.next 3, 5), (.next 1, 5), (.next 2, 5), (.completed, 5)] =
    [(.next 13, 8), (.error (.user 7), 9), (.next 15, 11), (.completed, 12)] := by decide +kernel

/-- `interval(1, 3)` behind a counting accumulator that takes 2 for each value. -/
abbrev demoCount := (Interval.clocked true 0 1 3).through
  (stage (Ops.nil.scanned (fun (c : Nat) (_ : Nat) => (2, .ok (c + 1))) Ops.nil (Handler.final fun _ _ => (0, none))) (0, 0) 0)
abbrev demoCountRun : List (Time (Interval.Label ⊕ Label Nat)) :=
  [src .start, .pass 1, src .wake, src .ret, recv, go, .pass 2, wake, go, go, wake, go, .pass 1,
   src .wake, src .ret, recv, go, .pass 2, wake, go, go, wake, go]

example : ∃ s, LTS.run demoCount.step demoCount.init demoCountRun = some s ∧ (Interval.clocked true 0 1 3).Lawful ∧
    (∀ (i : Nat) c, ((Interval.clocked true 0 1 3).calls s.1)[i]? = some c →
      ∀ c', ((Interval.clocked true 0 1 3).calls s.1)[i + 1]? = some c' → c.2 + 2 ≤ c'.2) ∧
    (Interval.clocked true 0 1 3).calls s.1 = [(.next 0, 1), (.next 1, 4)] ∧
    demoCount.calls s = [(.next 1, 3), (.next 2, 6)] := by
  obtain ⟨s, hs, h⟩ := run_any (c := demoCount) (ls := demoCountRun)
    (P := fun s => (Interval.clocked true 0 1 3).calls s.1 == [(.next 0, 1), (.next 1, 4)] && demoCount.calls s == [(.next 1, 3), (.next 2, 6)]) (by decide +kernel)
  simp only [Bool.and_eq_true, beq_iff_eq] at h
  refine ⟨s, hs, Interval.clocked_lawful .., ?_, h.1, h.2⟩
  rw [h.1]
  intro i c hi
  match i, hi with
  | 0, hi => cases hi; exact fun c' h => by cases h; decide
  | 1, hi => cases hi; exact fun c' h => by cases h
  | i + 2, hi => cases hi

end Examples

end Work
end Aio
