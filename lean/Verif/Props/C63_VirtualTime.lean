import Verif.Lemmas.VirtualTime
import Verif.Lemmas.Heapq
/-!
# C63, C76: VirtualTimeEventLoop

The theorems of C63 hold for any heap that obeys the laws; `heapqLaws` says that CPython's `heapq` does.
-/

namespace Aio.VirtualTime

/-- Timers out of order, one of them cancelled, one made in the past by a callback, and a `call_soon`. -/
def demo : List Label :=
  [.callAt 5, .callAt 3, .callAt 4, .cancel 2, .callSoon,
   .runOnce, .next, .done,
   .runOnce, .next, .callAt 1, .callSoon, .done,
   .runOnce, .next, .done, .runOnce, .next, .done, .runOnce, .next, .done]

example : (LTS.run (step heapq) init demo).map (fun s => s.log.map fun e => (e.id, e.due, e.time)) =
    some [(3, none, 0), (1, some 3, 3), (5, none, 3), (4, some 1, 3), (0, some 5, 5)] := by decide

/-- C63. The clock never goes back. -/
theorem C63_clock_monotone {h : Heap} {ls : List Label} : ∀ {s s' : State}, LTS.run (step h) s ls = some s' →
    s.time ≤ s'.time := by
  have clean : ∀ s : State, (s.cleanUp h).time = s.time := by
    intro s; unfold State.cleanUp; split <;> rfl
  have adv : ∀ s : State, s.time ≤ (s.advance h).time := by
    intro s; unfold State.advance; split
    · dsimp only; omega
    · exact Int.le_refl _
  induction ls with
  | nil => intro s s' hr; cases hr; exact Int.le_refl _
  | cons l ls ih =>
    intro s s' hr
    obtain ⟨s1, h1, h2⟩ := LTS.run_cons.mp hr
    refine Int.le_trans ?_ (ih h2)
    cases l with
    | callSoon => simp only [step] at h1; split at h1 <;> cases h1; exact Int.le_refl _
    | callAt w => simp only [step] at h1; split at h1 <;> cases h1; exact Int.le_refl _
    | cancel i =>
      simp only [step] at h1
      split at h1
      · split at h1 <;> cases h1 <;> exact Int.le_refl _
      · cases h1
    | runOnce =>
      simp only [step] at h1
      split at h1 <;> cases h1
      have := adv (s.cleanUp h)
      rw [clean] at this; exact this
    | next =>
      simp only [step] at h1
      split at h1
      · split at h1 <;> cases h1 <;> exact Int.le_refl _
      · cases h1
    | done => simp only [step] at h1; split at h1 <;> cases h1; exact Int.le_refl _

/-- C63. The clock advances only when nothing is ready, and no further than to the earliest due time of the timers
that are not cancelled. -/
theorem C63_advances_to_next_timer {h : Heap} (L : h.Laws) {ls : List Label} {s s' : State} {l : Label}
    (hr : LTS.run (step h) init ls = some s) (hs : step h s l = some s') (ht : s'.time ≠ s.time) :
    s.ready = [] ∧ (∃ i, i ∉ s.cancelled ∧ (i, s'.time) ∈ s.scheduled) ∧
    ∀ y ∈ s.scheduled, y.1 ∉ s.cancelled → s'.time ≤ y.2 := by
  have I := inv_run L hr
  cases l with
  | callSoon => simp only [step] at hs; split at hs <;> cases hs; exact absurd rfl ht
  | callAt w => simp only [step] at hs; split at hs <;> cases hs; exact absurd rfl ht
  | cancel i =>
    simp only [step] at hs
    split at hs
    · split at hs <;> cases hs <;> exact absurd rfl ht
    · cases hs
  | next =>
    simp only [step] at hs
    split at hs
    · split at hs <;> cases hs <;> exact absurd rfl ht
    · cases hs
  | done => simp only [step] at hs; split at hs <;> cases hs; exact absurd rfl ht
  | runOnce =>
    simp only [step] at hs
    split at hs <;> cases hs
    obtain ⟨scheduled, count, d, he, h1, h2, h3, h4, h5⟩ := cleanUp_spec L s I.heap I.count
    dsimp only at ht ⊢
    rw [he] at ht ⊢
    simp only [State.advance] at ht ⊢
    cases hrd : scheduled with
    | nil => simp only [hrd] at ht; exact absurd rfl ht
    | cons x xs =>
      cases hsc : s.ready with
      | cons r rs => simp only [hrd, hsc] at ht; exact absurd rfl ht
      | nil =>
        simp only [hrd, hsc] at ht ⊢
        have hmax : max x.2 s.time = x.2 := by omega
        rw [hmax]
        refine ⟨trivial, ⟨x.1, h5 x xs hrd, h3.subset (by rw [hrd]; simp)⟩, ?_⟩
        intro y hy hc
        rcases List.mem_append.mp (h3.mem_iff.mpr hy) with hy | hy
        · rw [hrd] at hy h1
          rcases List.mem_cons.mp hy with rfl | hy
          · exact Int.le_refl _
          · exact L.min h1 y hy
        · exact absurd (h4 y hy) hc

/-- C63. No timer runs early, and none late: it runs exactly at its due time, or, if that was past when the timer was
made, at the time when it was made. A `call_soon` callback runs at the time of the call. -/
theorem C63_exact_time {h : Heap} (L : h.Laws) {ls : List Label} {s : State}
    (hr : LTS.run (step h) init ls = some s) : ∀ e ∈ s.log, ∃ c, s.made[e.id]? = some (e.due, c) ∧
      match e.due with
      | some w => w ≤ e.time ∧ e.time = max w c
      | none => e.time = c := by
  intro e he
  obtain ⟨c, h1, _, h2⟩ := (inv_run L hr).log e he
  refine ⟨c, h1, ?_⟩
  cases hd : e.due with
  | none => rw [hd] at h2; exact h2
  | some w => rw [hd] at h2; dsimp only at h2 ⊢; exact ⟨by omega, h2⟩

/-- C63. Timers run in the order of their due times: a timer that ran later but existed when an earlier one ran is not
due before it. The callbacks run in the order of their times. -/
theorem C63_due_order {h : Heap} (L : h.Laws) {ls : List Label} {s : State}
    (hr : LTS.run (step h) init ls = some s) :
    s.log.Pairwise (fun a b => ∀ v w, a.due = some v → b.due = some w → b.id < a.known → v ≤ w) ∧
    s.log.Pairwise (fun a b => a.time ≤ b.time) :=
  ⟨(inv_run L hr).order, (inv_run L hr).times⟩

/-- C63. `call_soon` callbacks run in the order of the calls. -/
theorem C63_fifo {h : Heap} (L : h.Laws) {ls : List Label} {s : State}
    (hr : LTS.run (step h) init ls = some s) : ((s.log.filter (·.due.isNone)).map (·.id)).Pairwise (· < ·) :=
  (List.pairwise_append.mp (inv_run L hr).fifo).1

/-- C63. Nothing runs twice. -/
theorem C63_at_most_once {h : Heap} (L : h.Laws) {ls : List Label} {s : State}
    (hr : LTS.run (step h) init ls = some s) : (s.log.map (·.id)).Nodup :=
  (List.nodup_append.mp (inv_run L hr).nodup).2.1

/-- C63. Cancelled callbacks do not run any more. -/
theorem C63_cancelled_never_run {h : Heap} {ls : List Label} : ∀ {s s' : State},
    LTS.run (step h) s ls = some s' → ∀ i ∈ s.cancelled, i ∈ s'.cancelled ∧ (i ∈ s'.log.map (·.id) → i ∈ s.log.map (·.id)) := by
  have clean : ∀ s : State, (s.cleanUp h).cancelled = s.cancelled ∧ (s.cleanUp h).log = s.log := by
    intro s; unfold State.cleanUp; split <;> exact ⟨rfl, rfl⟩
  have adv : ∀ s : State, (s.advance h).cancelled = s.cancelled ∧ (s.advance h).log = s.log := by
    intro s; unfold State.advance; split <;> exact ⟨rfl, rfl⟩
  induction ls with
  | nil => intro s s' hr i hi; cases hr; exact ⟨hi, fun h => h⟩
  | cons l ls ih =>
    intro s s' hr i hi
    obtain ⟨s1, h1, h2⟩ := LTS.run_cons.mp hr
    have key : i ∈ s1.cancelled ∧ (i ∈ s1.log.map (·.id) → i ∈ s.log.map (·.id)) := by
      cases l with
      | callSoon => simp only [step] at h1; split at h1 <;> cases h1; exact ⟨hi, fun h => h⟩
      | callAt w => simp only [step] at h1; split at h1 <;> cases h1; exact ⟨hi, fun h => h⟩
      | cancel j =>
        simp only [step] at h1
        split at h1
        · split at h1 <;> cases h1
          · exact ⟨hi, fun h => h⟩
          · exact ⟨List.mem_cons_of_mem _ hi, fun h => h⟩
        · cases h1
      | runOnce =>
        simp only [step] at h1
        split at h1 <;> cases h1
        have a := adv (s.cleanUp h)
        rw [(clean s).1, (clean s).2] at a
        dsimp only
        rw [a.1, a.2]; exact ⟨hi, fun h => h⟩
      | next =>
        simp only [step] at h1
        split at h1
        · split at h1 <;> cases h1
          · exact ⟨hi, fun h => h⟩
          · rename_i hn
            refine ⟨hi, fun hh => ?_⟩
            rw [List.map_append] at hh
            rcases List.mem_append.mp hh with hh | hh
            · exact hh
            · simp at hh; rw [hh] at hi; exact absurd hi hn
        · cases h1
      | done => simp only [step] at h1; split at h1 <;> cases h1; exact ⟨hi, fun h => h⟩
    obtain ⟨i1, i2⟩ := ih h2 i key.1
    exact ⟨i1, fun hh => key.2 (i2 hh)⟩

/-- C63. Nothing is lost: every handle has run, is cancelled, or is still there. -/
theorem C63_nothing_lost {h : Heap} (L : h.Laws) {ls : List Label} {s : State}
    (hr : LTS.run (step h) init ls = some s) {i : Nat} (hi : i < s.made.length) :
    i ∈ s.cancelled ∨ i ∈ s.log.map (·.id) ∨ i ∈ s.ready.map (·.1) ∨ i ∈ s.scheduled.map (·.1) := by
  rcases (inv_run L hr).placed i hi with h | h | h | h
  · exact .inl h
  · exact .inr (.inr (.inr h))
  · exact .inr (.inr (.inl h))
  · exact .inr (.inl h)

/-- C63. The loop does not idle: as long as a handle that is not cancelled waits, the next turn has something to run. -/
theorem C63_progress {h : Heap} (L : h.Laws) {ls : List Label} {s : State}
    (hr : LTS.run (step h) init ls = some s) (ht : s.todo = none)
    (hi : ∃ i, i ∉ s.cancelled ∧ (i ∈ s.ready.map (·.1) ∨ i ∈ s.scheduled.map (·.1))) :
    ∃ s' k, step h s .runOnce = some s' ∧ s'.todo = some (k + 1) ∧ ∃ s'', step h s' .next = some s'' := by
  have I := inv_run L hr
  obtain ⟨scheduled, count, d, he, h1, h2, h3, h4, h5⟩ := cleanUp_spec L s I.heap I.count
  have hne : ((s.cleanUp h).advance h).ready ≠ [] := by
    rw [he]
    simp only [State.advance]
    cases hsc : scheduled with
    | cons x xs =>
      cases hrd : s.ready with
      | cons r rs => simp only [hrd]; simp
      | nil => simp only []; simp
    | nil =>
      intro hre
      have hre : s.ready = [] := hre
      obtain ⟨i, hc, hi⟩ := hi
      rw [hre] at hi
      rcases hi with hi | hi
      · cases hi
      · obtain ⟨y, hy, rfl⟩ := List.mem_map.mp hi
        rcases List.mem_append.mp (h3.mem_iff.mpr hy) with hy | hy
        · rw [hsc] at hy; cases hy
        · exact hc (h4 y hy)
  obtain ⟨⟨i, due⟩, rs, hrs⟩ := List.exists_cons_of_ne_nil hne
  refine ⟨_, rs.length, by simp only [step, ht, if_true]; rfl, by simp only [hrs]; rfl, ?_⟩
  simp only [step, hrs, List.length_cons]
  split
  · exact ⟨_, rfl⟩
  · exact ⟨_, rfl⟩

/-- Four timers that are due at the same time. -/
def tied : List Label :=
  [.callAt 1, .callAt 1, .callAt 1, .callAt 1, .runOnce, .next, .done, .runOnce, .next, .done, .runOnce, .next, .done,
   .runOnce, .next, .done]

/-- C76 is false: of four timers that are due at the same time the third one runs before the second one. -/
theorem C76_violated : ∃ s, LTS.run (step heapq) init tied = some s ∧
    s.log.map (fun e => (e.id, e.time)) = [(0, 1), (2, 1), (1, 1), (3, 1)] := by
  refine ⟨_, rfl, ?_⟩
  decide

/-- C76, what holds: timers that were made before they were due, with the same due time, run at the same time; and of
`call_soon` callbacks the order is kept (`C63_fifo`). -/
theorem C76_same_time_partial {h : Heap} (L : h.Laws) {ls : List Label} {s : State}
    (hr : LTS.run (step h) init ls = some s) {a b : Entry} (ha : a ∈ s.log) (hb : b ∈ s.log) {w ca cb : Int}
    (hda : s.made[a.id]? = some (some w, ca)) (hdb : s.made[b.id]? = some (some w, cb)) (h1 : ca ≤ w) (h2 : cb ≤ w) :
    a.time = w ∧ b.time = w := by
  have key : ∀ e ∈ s.log, ∀ c, s.made[e.id]? = some (some w, c) → c ≤ w → e.time = w := by
    intro e he c hc hle
    obtain ⟨c', h3, h4⟩ := C63_exact_time L hr e he
    rw [hc] at h3
    injection h3 with h3
    injection h3 with h3 h5
    rw [← h3] at h4
    have := h4.2
    omega
  exact ⟨key a ha ca hda h1, key b hb cb hdb h2⟩

example : (LTS.run (step heapq) init tied).map (fun s => s.made) = some (List.replicate 4 (some 1, 0)) := by decide

end Aio.VirtualTime
