import Verif.Lemmas.Busy
import Verif.Props.C112_114_Timers
/-!
# C123: an observer that takes its time
-/

namespace Aio.Busy
open Spec Spec.Timed Spec.Queue
variable {S L α : Type} {m : Nat → α → Nat × Option Err} {gone : Nat}

/-- C123: behind `safe_observer` the observer is told of the events one after the other, each as soon as it has been sent and the call before
it has ended. -/
theorem C123_exact {q : Clocked S L α} (hq : q.Lawful) {ls s} (hr : LTS.run (q.through (stage m gone)).step (q.through (stage m gone)).init ls = some s) :
    (q.through (stage m gone)).calls s <+: serve m gone 0 0 (q.calls s.1) ∧
    before (q.now s.1) ((q.through (stage m gone)).calls s) = before (q.now s.1) (serve m gone 0 0 (q.calls s.1)) := by
  obtain ⟨-, ms, h1, h2, h3, -⟩ := Clocked.split hq stage_reads hr
  obtain ⟨r, h4, h5⟩ := told h1
  have hnow := (inv_run h1).2
  rw [h2] at h4
  rw [h3] at hnow
  refine ⟨⟨r, h4.symm⟩, ?_⟩
  have h6 : r.filter (fun c => decide (c.2 < q.now s.1)) = [] := by
    rw [List.filter_eq_nil_iff]
    intro c hc
    have := h5 c hc
    simp; omega
  rw [h4, before, before, List.filter_append, h6, List.append_nil]
  rfl

theorem index {q : Clocked S L α} (hq : q.Lawful) {ls s} (hr : LTS.run (q.through (stage m gone)).step (q.through (stage m gone)).init ls = some s)
    {i : Nat} {c : Notif α × Nat} (h : (serve m gone 0 0 (q.calls s.1))[i]? = some c) (hc : c.2 < q.now s.1) :
    ((q.through (stage m gone)).calls s)[i]? = some c := by
  obtain ⟨-, ms, h1, h2, h3, -⟩ := Clocked.split hq stage_reads hr
  obtain ⟨r, h4, h5⟩ := told h1
  have hnow := (inv_run h1).2
  rw [h2] at h4
  rw [h3] at hnow
  rw [h4] at h
  by_cases hi : i < s.2.sent.length
  · rwa [List.getElem?_append_left hi] at h
  · rw [List.getElem?_append_right (by omega)] at h
    have := h5 c (List.mem_of_getElem? h)
    omega

/-! ## what this means -/

theorem serve_serial : ∀ {cs : List (Notif α × Nat)} {k free i : Nat} {v : α} {b : Nat} {n : Notif α} {c : Nat},
    (serve m gone k free cs)[i]? = some (.next v, b) → (serve m gone k free cs)[i + 1]? = some (n, c) → b + (m (k + i) v).1 ≤ c := by
  intro cs
  induction cs with
  | nil => intro k free i v b n c h; simp [serve] at h
  | cons x cs ih =>
    intro k free i v b n c h1 h2
    obtain ⟨x, a⟩ := x
    cases x with
    | next w =>
      rw [serve] at h1 h2
      cases i with
      | zero =>
        simp only [List.getElem?_cons_zero, Option.some.injEq, Prod.mk.injEq, Notif.next.injEq] at h1
        obtain ⟨rfl, rfl⟩ := h1
        rw [Nat.zero_add, List.getElem?_cons_succ] at h2
        have hm := List.mem_of_getElem? h2
        split at hm
        · exact serve_late (.inl (Nat.le_refl _)) _ hm
        · split at hm
          · cases hm
          · simp at hm; rw [hm.2]; exact Nat.le_refl _
      | succ i =>
        rw [List.getElem?_cons_succ] at h1 h2
        split at h1
        · next he =>
          rw [he] at h2
          have := ih h1 h2
          rwa [show k + 1 + i = k + (i + 1) by omega] at this
        · split at h1
          · cases h1
          · cases i <;> simp at h1
    | error e => cases i <;> simp [serve] at h2
    | completed => cases i <;> simp [serve] at h2

/-- C123: no call begins before the one before it has ended. -/
theorem C123_one_at_a_time {q : Clocked S L α} (hq : q.Lawful) {ls s} (hr : LTS.run (q.through (stage m gone)).step (q.through (stage m gone)).init ls = some s)
    {i : Nat} {v : α} {b : Nat} {n : Notif α} {c : Nat} (h1 : ((q.through (stage m gone)).calls s)[i]? = some (.next v, b))
    (h2 : ((q.through (stage m gone)).calls s)[i + 1]? = some (n, c)) : b + (m i v).1 ≤ c := by
  obtain ⟨⟨r, he⟩, -⟩ := C123_exact hq hr
  have := serve_serial (m := m) (gone := gone) (cs := q.calls s.1) (k := 0) (free := 0) (i := i) (v := v) (b := b) (n := n) (c := c)
    (by rw [← he, List.getElem?_append_left (List.getElem?_eq_some_iff.mp h1).1]; exact h1)
    (by rw [← he, List.getElem?_append_left (List.getElem?_eq_some_iff.mp h2).1]; exact h2)
  rwa [Nat.zero_add] at this

theorem serve_keep : ∀ {cs : List (Notif α × Nat)} {k free : Nat}, (∀ c ∈ cs.head?, free ≤ c.2) →
    (∀ i v a, cs[i]? = some (.next v, a) → (m (k + i) v).2 = none ∧ ∀ n b, cs[i + 1]? = some (n, b) → a + (m (k + i) v).1 ≤ b) →
    serve m 0 k free cs = Timed.cut cs := by
  intro cs
  induction cs with
  | nil => intros; rfl
  | cons x cs ih =>
    intro k free h1 h2
    obtain ⟨x, a⟩ := x
    have ha : max a free = a := by have := h1 (x, a) rfl; dsimp only at this; omega
    cases x with
    | next w =>
      obtain ⟨h3, h4⟩ := h2 0 w a rfl
      rw [Nat.add_zero] at h3 h4
      rw [serve, ha, h3]
      dsimp only
      rw [ih ?_ ?_]
      · rfl
      · intro c hc
        obtain ⟨n, b⟩ := c
        cases cs with
        | nil => cases hc
        | cons y cs =>
          cases hc
          exact h4 n b rfl
      · intro i v b hi
        have := h2 (i + 1) v b hi
        rwa [show k + (i + 1) = k + 1 + i by omega] at this
    | error e => simp [serve, Timed.cut, ha]
    | completed => simp [serve, Timed.cut, ha]

/-- C123: an observer that is done with a value before the next event is told of each event at the time at which it is sent. -/
theorem C123_keeps_up {q : Clocked S L α} (hq : q.Lawful) {ls s} (hr : LTS.run (q.through (stage m 0)).step (q.through (stage m 0)).init ls = some s)
    (hk : ∀ i v a, (q.calls s.1)[i]? = some (.next v, a) → (m i v).2 = none ∧ ∀ n b, (q.calls s.1)[i + 1]? = some (n, b) → a + (m i v).1 ≤ b) :
    before (q.now s.1) ((q.through (stage m 0)).calls s) = before (q.now s.1) (Timed.cut (q.calls s.1)) := by
  rw [(C123_exact hq hr).2, serve_keep]
  · intro c _; exact Nat.zero_le _
  · simpa using hk

theorem serve_batch {dur : α → Nat} {t0 : Nat} : ∀ {xs : List α} {k free i : Nat}, t0 ≤ free →
    (∀ x, xs[i]? = some x → (serve (fun _ v => (dur v, none)) gone k free (xs.map (fun x => (.next x, t0)) ++ [(.completed, t0)]))[i]? =
      some (.next x, free + ((xs.take i).map dur).sum)) ∧
    (serve (fun _ v => (dur v, none)) gone k free (xs.map (fun x => (.next x, t0)) ++ [(.completed, t0)]))[xs.length]? =
      some (.completed, free + (xs.map dur).sum + gone) := by
  intro xs
  induction xs with
  | nil =>
    intro k free i h
    exact ⟨fun x hx => (by cases hx), by simp [serve]; omega⟩
  | cons y xs ih =>
    intro k free i h
    have hm : max t0 free = free := by omega
    simp only [List.map_cons, List.cons_append, serve, hm]
    refine ⟨fun x hx => ?_, ?_⟩
    · cases i with
      | zero => cases hx; simp
      | succ i =>
        rw [List.getElem?_cons_succ] at hx ⊢
        rw [(ih (k := k + 1) (free := free + dur y) (i := i) (by omega)).1 x hx]
        simp; omega
    · rw [List.length_cons, List.getElem?_cons_succ, (ih (k := k + 1) (free := free + dur y) (i := 0) (by omega)).2]
      simp; omega

/-- C123, values that are all sent at time `t0` (`from_iterable`): the observer is told of each when it is done with all before it, and the
completion comes when it is done with all. -/
theorem C123_batch {q : Clocked S L α} (hq : q.Lawful) {dur : α → Nat} {ls s}
    (hr : LTS.run (q.through (stage (fun _ v => (dur v, none)) gone)).step (q.through (stage (fun _ v => (dur v, none)) gone)).init ls = some s)
    {xs : List α} {t0 : Nat} (hc : q.calls s.1 = xs.map (fun x => (.next x, t0)) ++ [(.completed, t0)]) :
    (∀ i x, xs[i]? = some x → t0 + ((xs.take i).map dur).sum < q.now s.1 →
      ((q.through (stage (fun _ v => (dur v, none)) gone)).calls s)[i]? = some (.next x, t0 + ((xs.take i).map dur).sum)) ∧
    (t0 + (xs.map dur).sum + gone < q.now s.1 →
      ((q.through (stage (fun _ v => (dur v, none)) gone)).calls s)[xs.length]? = some (.completed, t0 + (xs.map dur).sum + gone)) := by
  have hfree : serve (fun _ v => (dur v, none)) gone 0 0 (q.calls s.1) = serve (fun _ v => (dur v, none)) gone 0 t0 (q.calls s.1) := by
    rw [hc]
    cases xs with
    | nil => simp [serve]
    | cons x xs => simp [serve]
  refine ⟨fun i x hi ht => index hq hr ?_ ht, fun ht => index hq hr ?_ ht⟩
  · rw [hfree, hc]
    exact (serve_batch (Nat.le_refl _)).1 x hi
  · rw [hfree, hc]
    exact (serve_batch (i := 0) (Nat.le_refl _)).2

theorem serve_lag {t0 p d : Nat} (hpd : p ≤ d) : ∀ {cs : List (Notif α × Nat)} {k j free : Nat}, free ≤ t0 + j * d → (j = 0 ∨ free = t0 + j * d) →
    (∀ (i : Nat) c, cs[i]? = some c → ∃ v, c = (.next v, t0 + (j + i) * p)) →
    ∀ (i : Nat) v a, cs[i]? = some (.next v, a) → (serve (fun _ _ => (d, none)) gone k free cs)[i]? = some (.next v, t0 + (j + i) * d) := by
  intro cs
  induction cs with
  | nil => intro k j free _ _ _ i v a h; cases h
  | cons x cs ih =>
    intro k j free h0 hf hc i v a hi
    obtain ⟨w, rfl⟩ := hc 0 x rfl
    have hjp : j * p ≤ j * d := Nat.mul_le_mul_left _ hpd
    have hm : max (t0 + (j + 0) * p) free = t0 + j * d := by
      rw [Nat.add_zero]
      rcases hf with rfl | hf
      · simp at h0 ⊢; omega
      · omega
    rw [serve, hm]
    cases i with
    | zero => cases hi; simp
    | succ i =>
      rw [List.getElem?_cons_succ] at hi ⊢
      have he : t0 + j * d + d = t0 + (j + 1) * d := by rw [Nat.succ_mul]; omega
      rw [show j + (i + 1) = j + 1 + i by omega]
      refine ih (k := k + 1) (j := j + 1) (by dsimp only; omega) (.inr (by dsimp only; omega)) (fun i c h => ?_) i v a hi
      obtain ⟨v, h⟩ := hc (i + 1) c h
      exact ⟨v, by rw [h, show j + (i + 1) = j + 1 + i by omega]⟩

/-- C123, a source that sends a value every `p` (`interval`) and an observer that takes `d ≥ p` for each: the observer falls behind, by `d - p` more
with every value; nothing slows the source down, and nothing is lost. -/
theorem C123_falls_behind {q : Clocked S L α} (hq : q.Lawful) {t0 p d : Nat} (hpd : p ≤ d) {ls s}
    (hr : LTS.run (q.through (stage (fun _ _ => (d, none)) gone)).step (q.through (stage (fun _ _ => (d, none)) gone)).init ls = some s)
    (hc : ∀ (i : Nat) c, (q.calls s.1)[i]? = some c → ∃ v, c = (.next v, t0 + i * p)) {i : Nat} {v : α} {a : Nat}
    (hi : (q.calls s.1)[i]? = some (.next v, a)) (ht : t0 + i * d < q.now s.1) :
    ((q.through (stage (fun _ _ => (d, none)) gone)).calls s)[i]? = some (.next v, t0 + i * d) ∧ t0 + i * d = a + i * (d - p) := by
  refine ⟨index hq hr ?_ ht, ?_⟩
  · have := serve_lag (gone := gone) (t0 := t0) hpd (cs := q.calls s.1) (k := 0) (j := 0) (free := 0) (by omega) (.inl rfl) (by simpa using hc) i v a hi
    rwa [Nat.zero_add] at this
  · obtain ⟨w, h⟩ := hc i _ hi
    have h1 : a = t0 + i * p := (Prod.mk.inj h).2
    have h2 : i * d = i * p + i * (d - p) := by rw [← Nat.mul_add]; congr 1; omega
    omega

end Aio.Busy

/-! ## a source that waits for its observer -/

namespace Aio.Interval
open Spec.Queue

/-- What holds in every run of `pacedStep`. -/
def PacedInv (t0 : Nat) (seconds period : Int) (e : Nat → Nat) (s : Paced) : Prop :=
  s.st.cancelling = false ∧ ∃ n, s.st.calls = (List.range n).map (fun k => (paced t0 seconds.toNat period.toNat e k, .next k)) ∧
    match s.st.pc with
    | .fresh => n = 0 ∧ s.st.now = t0
    | .sleeping w k => k = n ∧ w = paced t0 seconds.toNat period.toNat e n ∧ s.st.now ≤ w
    | .sending k => n = k + 1 ∧ s.due = paced t0 seconds.toNat period.toNat e k + e k ∧ s.st.now ≤ s.due
    | _ => False

theorem paced_inv {t0 : Nat} {seconds period : Int} (hp : period ≠ 0) {e : Nat → Nat} {ls s}
    (hr : LTS.run (pacedStep seconds period e) ⟨init t0, 0⟩ ls = some s) : PacedInv t0 seconds period e s := by
  have h0 : PacedInv t0 seconds period e ⟨init t0, 0⟩ := ⟨rfl, 0, rfl, rfl, rfl⟩
  refine LTS.inv (PacedInv t0 seconds period e) h0 ?_ hr
  rintro ⟨⟨now, pc, c, calls⟩, due⟩ l t ⟨hc, n, hcalls, hpc⟩ h
  dsimp only at hc hcalls hpc
  subst hc
  cases l with
  | tick =>
    simp only [pacedStep, step] at h
    cases pc with
    | sleeping w k =>
      dsimp only at h
      split at h
      · cases h
      · cases h
        exact ⟨rfl, n, hcalls, hpc.1, hpc.2.1, by dsimp only; omega⟩
    | sending k =>
      dsimp only at h
      split at h
      · cases h
      · cases h
        exact ⟨rfl, n, hcalls, hpc.1, hpc.2.1, by dsimp only; omega⟩
    | dead => exact hpc.elim
    | _ => cases h
  | start =>
    simp only [pacedStep, step] at h
    cases pc with
    | fresh =>
      cases h
      obtain ⟨rfl, rfl⟩ := hpc
      exact ⟨rfl, 0, hcalls, rfl, by simp [paced], by dsimp only; omega⟩
    | _ => cases h
  | wake =>
    simp only [pacedStep, step] at h
    cases pc with
    | sleeping w k =>
      dsimp only at h
      split at h
      · next hw =>
        cases h
        obtain ⟨rfl, rfl, hle⟩ := hpc
        have hnow : now = paced t0 seconds.toNat period.toNat e k := by omega
        subst hnow
        refine ⟨rfl, k + 1, ?_, rfl, rfl, Nat.le_add_right ..⟩
        dsimp only
        rw [hcalls, List.range_succ, List.map_append]
        rfl
      · cases h
    | _ => cases h
  | ret =>
    simp only [pacedStep, step] at h
    cases pc with
    | sending k =>
      dsimp only at h
      split at h
      · next hd =>
        simp only [Option.map_some, afterSend, if_neg hp] at h
        cases h
        obtain ⟨rfl, hdue, hle⟩ := hpc
        refine ⟨rfl, k + 1, hcalls, rfl, ?_, by dsimp only; omega⟩
        have : paced t0 seconds.toNat period.toNat e (k + 1) = paced t0 seconds.toNat period.toNat e k + e k + period.toNat := by
          simp only [paced, List.range_succ, List.map_append, List.sum_append, Nat.succ_mul]
          simp; omega
        omega
      · cases h
    | closing => exact hpc.elim
    | _ => cases h
  | _ => cases h

/-- C123: `interval` calls its observer directly and waits for it: value `k` is sent when the time up to it and all that the observer has taken for the
values before it have passed, and all that is due has been sent. -/
theorem C123_interval_waits {t0 : Nat} {seconds period : Int} (hp : period ≠ 0) {e : Nat → Nat} {ls s}
    (hr : LTS.run (pacedStep seconds period e) ⟨init t0, 0⟩ ls = some s) :
    ∃ n, s.st.calls = (List.range n).map (fun k => (paced t0 seconds.toNat period.toNat e k, .next k)) ∧
      ∀ k, paced t0 seconds.toNat period.toNat e k < s.st.now → k < n := by
  obtain ⟨-, n, hcalls, hpc⟩ := paced_inv hp hr
  refine ⟨n, hcalls, fun k hk => ?_⟩
  apply Classical.byContradiction
  intro hn
  have hmono : ∀ d, paced t0 seconds.toNat period.toNat e n ≤ paced t0 seconds.toNat period.toNat e (n + d) := by
    intro d
    induction d with
    | zero => exact Nat.le_refl _
    | succ d ih =>
      refine Nat.le_trans ih ?_
      rw [← Nat.add_assoc]
      simp only [paced, List.range_succ, List.map_append, List.sum_append, Nat.succ_mul]
      omega
  have h1 := hmono (k - n)
  rw [show n + (k - n) = k by omega] at h1
  cases hs : s.st.pc with
  | fresh =>
    rw [hs] at hpc
    simp only [paced] at hk
    omega
  | sleeping w j => rw [hs] at hpc; dsimp only at hpc; omega
  | sending j =>
    rw [hs] at hpc
    obtain ⟨rfl, h2, h3⟩ := hpc
    have : paced t0 seconds.toNat period.toNat e (j + 1) = paced t0 seconds.toNat period.toNat e j + e j + period.toNat := by
      simp only [paced, List.range_succ, List.map_append, List.sum_append, Nat.succ_mul]
      simp; omega
    omega
  | _ => rw [hs] at hpc; exact hpc

/-- `interval(1, 2)` with an observer that takes 3 for the first value and 0 for the others. -/
example : (LTS.run (pacedStep 1 2 fun k => if k = 0 then 3 else 0) ⟨init 0, 0⟩
    [.start, .tick, .wake, .tick, .tick, .tick, .ret, .tick, .tick, .wake, .ret, .tick, .tick, .wake, .ret]).any
      (fun s => s.st.calls == [(1, .next 0), (6, .next 1), (8, .next 2)]) = true := by decide +kernel

end Aio.Interval

/-! ## Examples -/

namespace Aio.Busy
open Spec Spec.Timed Spec.Queue

section Examples
open Nested (ofSeqAt run_any)

local notation "src" => fun l => Time.act (Sum.inl l)
local notation "recv" => Time.act (Sum.inr Label.receive)
local notation "ret" => Time.act (Sum.inr Label.ret)

/-- `from_iterable([3, 1, 2])` with an observer that takes `v` for the value `v`; disposing takes 1. -/
abbrev demoBatch := (ofSeqAt 5 [3, 1, (2 : Nat)]).through (stage (fun _ v => (v, none)) 1)
abbrev demoBatchRun : List (Time (Option Unit ⊕ Label Nat)) :=
  [src (some ()), recv, .pass 3, ret, recv, .pass 1, ret, recv, .pass 2, ret, recv, .pass 1, ret, ret, .pass 1]

example : ∃ s, LTS.run demoBatch.step demoBatch.init demoBatchRun = some s ∧ (ofSeqAt 5 [3, 1, (2 : Nat)]).Lawful ∧
    (ofSeqAt 5 [3, 1, (2 : Nat)]).calls s.1 = [3, 1, 2].map (fun x => (.next x, 5)) ++ [(.completed, 5)] ∧ demoBatch.now s = 13 ∧
    demoBatch.calls s = [(.next 3, 5), (.next 1, 8), (.next 2, 9), (.completed, 12)] := by
  obtain ⟨s, hs, h⟩ := run_any (c := demoBatch) (ls := demoBatchRun)
    (P := fun s => (ofSeqAt 5 [3, 1, (2 : Nat)]).calls s.1 == [(.next 3, 5), (.next 1, 5), (.next 2, 5), (.completed, 5)] && demoBatch.now s == 13 &&
      demoBatch.calls s == [(.next 3, 5), (.next 1, 8), (.next 2, 9), (.completed, 12)]) (by decide +kernel)
  simp only [Bool.and_eq_true, beq_iff_eq] at h
  exact ⟨s, hs, Nested.ofSeq_lawful _ _, h.1.1, h.1.2, h.2⟩

/-- The observer raises at the end of its second call: it is told so, and that is the last. -/
abbrev demoRaise := (ofSeqAt 5 [3, 1, (2 : Nat)]).through (stage (fun i v => (v, if i = 1 then some (.user 7) else none)) 1)
abbrev demoRaiseRun : List (Time (Option Unit ⊕ Label Nat)) :=
  [src (some ()), recv, .pass 3, ret, recv, .pass 1, ret, ret, .pass 9]

example : ∃ s, LTS.run demoRaise.step demoRaise.init demoRaiseRun = some s ∧ demoRaise.now s = 18 ∧
    demoRaise.calls s = [(.next 3, 5), (.next 1, 8), (.error (.user 7), 9)] := by
  obtain ⟨s, hs, h⟩ := run_any (c := demoRaise) (ls := demoRaiseRun)
    (P := fun s => demoRaise.now s == 18 && demoRaise.calls s == [(.next 3, 5), (.next 1, 8), (.error (.user 7), 9)]) (by decide +kernel)
  simp only [Bool.and_eq_true, beq_iff_eq] at h
  exact ⟨s, hs, h.1, h.2⟩

/-- `interval(1, 2)` and an observer that takes 2: it keeps up. -/
abbrev demoKeep := (Interval.clocked true 0 1 2).through (stage (fun _ _ => (2, none)) 0)
abbrev demoKeepRun : List (Time (Interval.Label ⊕ Label Nat)) :=
  [src .start, .pass 1, src .wake, src .ret, recv, .pass 2, ret, src .wake, src .ret, recv, .pass 2, src .wake, src .ret, ret, recv, .pass 1]

example : ∃ s, LTS.run demoKeep.step demoKeep.init demoKeepRun = some s ∧ (Interval.clocked true 0 1 2).Lawful ∧ demoKeep.now s = 6 ∧
    (Interval.clocked true 0 1 2).calls s.1 = [(.next 0, 1), (.next 1, 3), (.next 2, 5)] ∧
    (∀ i v a, ((Interval.clocked true 0 1 2).calls s.1)[i]? = some (.next v, a) →
      ((2, none) : Nat × Option Err).2 = none ∧ ∀ n b, ((Interval.clocked true 0 1 2).calls s.1)[i + 1]? = some (n, b) → a + ((2, none) : Nat × Option Err).1 ≤ b) ∧
    demoKeep.calls s = [(.next 0, 1), (.next 1, 3), (.next 2, 5)] := by
  obtain ⟨s, hs, h⟩ := run_any (c := demoKeep) (ls := demoKeepRun)
    (P := fun s => demoKeep.now s == 6 && (Interval.clocked true 0 1 2).calls s.1 == [(.next 0, 1), (.next 1, 3), (.next 2, 5)] &&
      demoKeep.calls s == [(.next 0, 1), (.next 1, 3), (.next 2, 5)]) (by decide +kernel)
  simp only [Bool.and_eq_true, beq_iff_eq] at h
  refine ⟨s, hs, Interval.clocked_lawful .., h.1.1, h.1.2, ?_, h.2⟩
  rw [h.1.2]
  intro i v a hi
  refine ⟨rfl, fun n b hn => ?_⟩
  match i, hi, hn with
  | 0, hi, hn => cases hi; cases hn; decide
  | 1, hi, hn => cases hi; cases hn; decide
  | 2, hi, hn => cases hn
  | i + 3, hi, hn => cases hi

/-- `interval(1, 2)` and an observer that takes 3: the third value waits for two units. -/
abbrev demoLag := (Interval.clocked true 0 1 2).through (stage (fun _ _ => (3, none)) 0)
abbrev demoLagRun : List (Time (Interval.Label ⊕ Label Nat)) :=
  [src .start, .pass 1, src .wake, src .ret, recv, .pass 2, src .wake, src .ret, .pass 1, ret, recv, .pass 1, src .wake, src .ret, .pass 2,
   ret, src .wake, src .ret, recv, .pass 1]

example : ∃ s, LTS.run demoLag.step demoLag.init demoLagRun = some s ∧ demoLag.now s = 8 ∧
    (∀ (i : Nat) c, ((Interval.clocked true 0 1 2).calls s.1)[i]? = some c → ∃ v, c = (.next v, 1 + i * 2)) ∧
    demoLag.calls s = [(.next 0, 1), (.next 1, 4), (.next 2, 7)] := by
  obtain ⟨s, hs, h⟩ := run_any (c := demoLag) (ls := demoLagRun)
    (P := fun s => demoLag.now s == 8 && (Interval.clocked true 0 1 2).calls s.1 == [(.next 0, 1), (.next 1, 3), (.next 2, 5), (.next 3, 7)] &&
      demoLag.calls s == [(.next 0, 1), (.next 1, 4), (.next 2, 7)]) (by decide +kernel)
  simp only [Bool.and_eq_true, beq_iff_eq] at h
  refine ⟨s, hs, h.1.1, ?_, h.2⟩
  rw [h.1.2]
  intro i c hi
  match i, hi with
  | 0, hi => exact ⟨0, by cases hi; rfl⟩
  | 1, hi => exact ⟨1, by cases hi; rfl⟩
  | 2, hi => exact ⟨2, by cases hi; rfl⟩
  | 3, hi => exact ⟨3, by cases hi; rfl⟩
  | i + 4, hi => cases hi

end Examples
end Aio.Busy
