import Verif.Lemmas.TestSubject
import Verif.Lemmas.Heapq
/-!
# C75: the timed methods of the test subjects

The times are exact (`C75_at_partial`, `C75_later_partial`, `C75_nothing_lost_partial`). That no finished task is
kept holds of all methods except `aclose_at` (`C75_released_partial`), whose tasks are kept forever
(`C75_violated`), and tasks that end with an exception are kept by all of them (`C75_violated_raise`).
-/

namespace Aio.TestSubject
variable {α : Type}
open Aio.VirtualTime (Heap)

/-- A job remains the same job, and when it has ended, nothing happens to it any more. -/
def Stays (s s' : State α) : Prop :=
  ∀ (j : Nat) (b : Job α), s.jobs[j]? = some b → ∃ b', s'.jobs[j]? = some b' ∧ b'.ev = b.ev ∧ b'.kind = b.kind ∧
    b'.made = b.made ∧ (b.st = .finished ∨ b.st = .failed → b' = b)

theorem stays_refl (s : State α) (v : VirtualTime.State) (e : List (Nat × Notif α × Int)) : Stays s { s with vt := v, sent := e } :=
  fun _ b h => ⟨b, h, rfl, rfl, rfl, fun _ => rfl⟩

theorem stays_set {s : State α} {j : Nat} {b b' : Job α} (hj : s.jobs[j]? = some b) (h1 : b'.ev = b.ev) (h2 : b'.kind = b.kind)
    (h3 : b'.made = b.made) (h4 : b.st ≠ .finished) (h5 : b.st ≠ .failed) (v : VirtualTime.State) (e : List (Nat × Notif α × Int)) :
    Stays s { s with vt := v, jobs := s.jobs.set j b', sent := e } := by
  intro k c hk
  by_cases he : j = k
  · subst he
    rw [hj] at hk; cases hk
    refine ⟨b', ?_, h1, h2, h3, fun h => (h.elim h4 h5).elim⟩
    simp [(List.getElem?_eq_some_iff.mp hj).1]
  · refine ⟨c, ?_, rfl, rfl, rfl, fun _ => rfl⟩
    dsimp only; rw [List.getElem?_set_ne he]; exact hk

theorem stays_runJob {h : Heap} {s s' : State α} {j : Nat} {b : Job α} (hj : s.jobs[j]? = some b)
    (hr : s.runJob h j b = some s') : Stays s s' := by
  unfold State.runJob at hr
  cases hst : b.st <;> simp only [hst] at hr
  case scheduled =>
    obtain ⟨v, hv, rfl⟩ := Option.map_eq_some_iff.mp hr
    refine stays_set hj ?_ ?_ ?_ (by rw [hst]; exact nofun) (by rw [hst]; exact nofun) v _ <;> rfl
  case created =>
    cases hk : b.kind with
    | «at» w =>
      simp only [hk] at hr; cases hr
      refine stays_set hj ?_ ?_ ?_ (by rw [hst]; exact nofun) (by rw [hst]; exact nofun) _ _ <;> rfl
    | later d =>
      simp only [hk] at hr
      split at hr
      · obtain ⟨v, hv, rfl⟩ := Option.map_eq_some_iff.mp hr
        refine stays_set hj ?_ ?_ ?_ (by rw [hst]; exact nofun) (by rw [hst]; exact nofun) v _ <;> first | rfl | exact hk.symm
      · obtain ⟨v, hv, rfl⟩ := Option.map_eq_some_iff.mp hr
        refine stays_set hj ?_ ?_ ?_ (by rw [hst]; exact nofun) (by rw [hst]; exact nofun) v _ <;> first | rfl | exact hk.symm
  case sleeping =>
    obtain ⟨v, hv, rfl⟩ := Option.map_eq_some_iff.mp hr
    refine stays_set hj ?_ ?_ ?_ (by rw [hst]; exact nofun) (by rw [hst]; exact nofun) v _ <;> rfl
  case resumed =>
    cases hr
    refine stays_set hj ?_ ?_ ?_ (by rw [hst]; exact nofun) (by rw [hst]; exact nofun) _ _ <;> rfl
  all_goals cases hr

theorem stays_push (s : State α) (v : VirtualTime.State) (b : Job α) : Stays s { s with vt := v, jobs := s.jobs ++ [b] } := by
  intro k c hk
  refine ⟨c, ?_, rfl, rfl, rfl, fun _ => rfl⟩
  dsimp only
  rw [List.getElem?_append_left (List.getElem?_eq_some_iff.mp hk).1]; exact hk

theorem stays_step {h : Heap} {s s' : State α} {l : Label α} (hs : step h s l = some s') : Stays s s' := by
  cases l with
  | sendAt n w =>
    simp only [step] at hs
    obtain ⟨v, hv, rfl⟩ := Option.map_eq_some_iff.mp hs
    exact stays_push s v _
  | sendLater n d =>
    simp only [step] at hs
    obtain ⟨v, hv, rfl⟩ := Option.map_eq_some_iff.mp hs
    exact stays_push s v _
  | loop l =>
    simp only [step] at hs
    split at hs
    · obtain ⟨v, hv, rfl⟩ := Option.map_eq_some_iff.mp hs
      exact stays_refl s v _
    · cases hs
  | next =>
    simp only [step] at hs
    split at hs
    · next v i due rest hv hrd =>
      split at hs
      · cases hf : s.jobs.findIdx? fun b => b.handle == some i with
        | none => rw [hf] at hs; cases hs; exact stays_refl s v _
        | some j =>
          rw [hf] at hs; dsimp only at hs
          cases hj : s.jobs[j]? with
          | none => rw [hj] at hs; cases hs
          | some b =>
            rw [hj] at hs; dsimp only at hs
            exact stays_runJob (s := { s with vt := v }) hj hs
      · cases hs; exact stays_refl s v _
    · cases hs
  | ret j =>
    simp only [step] at hs
    cases hj : s.jobs[j]? with
    | none => rw [hj] at hs; cases hs
    | some b =>
      rw [hj] at hs; dsimp only at hs
      split at hs
      · next hst =>
        cases hs
        refine stays_set hj ?_ ?_ ?_ (by rw [hst]; exact nofun) (by rw [hst]; exact nofun) _ _ <;> rfl
      · cases hs
  | raise j =>
    simp only [step] at hs
    cases hj : s.jobs[j]? with
    | none => rw [hj] at hs; cases hs
    | some b =>
      rw [hj] at hs; dsimp only at hs
      split at hs
      · next hst =>
        cases hs
        refine stays_set hj ?_ ?_ ?_ (by rw [hst]; exact nofun) (by rw [hst]; exact nofun) _ _ <;> rfl
      · cases hs

theorem stays_run {h : Heap} {ls : List (Label α)} : ∀ {s s' : State α}, LTS.run (step h) s ls = some s' → Stays s s' := by
  induction ls with
  | nil => intro s s' hr; cases hr; exact stays_refl s s.vt s.sent
  | cons l ls ih =>
    intro s s' hr
    obtain ⟨s1, h1, h2⟩ := LTS.run_cons.mp hr
    intro j b hj
    obtain ⟨b1, g1, g2, g3, g4, g5⟩ := stays_step h1 j b hj
    obtain ⟨b2, k1, k2, k3, k4, k5⟩ := ih h2 j b1 g1
    refine ⟨b2, k1, k2.trans g2, k3.trans g3, k4.trans g4, fun he => ?_⟩
    have := g5 he; subst this
    exact k5 he

/-- Events scheduled out of order, one in the past, a relative one, and a callback of somebody else. -/
def demo : List (Label Nat) :=
  [.sendAt (.next 1) 5, .sendAt (.next 2) 3, .sendLater (.next 3) 4, .sendAt .completed 6, .loop .callSoon,
   -- the first step of the relative one, and the other callback
   .loop .runOnce, .next, .next, .loop .done,
   -- at 3
   .loop .runOnce, .next, .loop .done, .loop .runOnce, .next, .ret 1, .sendAt (.error .valueError) 1, .loop .done,
   -- the error, which was due at 1
   .loop .runOnce, .next, .loop .done, .loop .runOnce, .next, .loop .done,
   -- at 4
   .loop .runOnce, .next, .loop .done, .loop .runOnce, .next, .ret 2, .loop .done,
   -- at 5
   .loop .runOnce, .next, .loop .done, .loop .runOnce, .next, .raise 0, .loop .done,
   -- at 6
   .loop .runOnce, .next, .loop .done, .loop .runOnce, .next, .ret 3, .ret 4, .loop .done]

example : (LTS.run (step VirtualTime.heapq) init demo).map (fun s => s.sent) =
    some [(1, .next 2, 3), (4, .error .valueError, 3), (2, .next 3, 4), (0, .next 1, 5), (3, .completed, 6)] := by decide
example : (LTS.run (step VirtualTime.heapq) init demo).map (fun s => (s.vt.time, s.vt.ready, s.vt.scheduled)) =
    some (6, [], []) := by decide
/-- Which tasks are kept at the end: the one that raised and the one of `aclose_at`. -/
example : (LTS.run (step VirtualTime.heapq) init demo).map (fun s => s.jobs.map (·.inSet)) =
    some [true, false, false, true, false] := by decide

/-- C75. `asend_at(when)`, `athrow_at(when)` and `aclose_at(when)` send their event at most once, and exactly at
`when`, or, if that was past at the time of the call, at the time of the call.
(Missing from C75: that the task is not kept, which is false.) -/
theorem C75_at_partial {h : Heap} (L : h.Laws) {pre post : List (Label α)} {s0 s : State α} {n : Notif α} {w : Int}
    (h0 : LTS.run (step h) init pre = some s0) (hr : LTS.run (step h) s0 (.sendAt n w :: post) = some s) :
    s.sent.filter (·.1 == s0.jobs.length) = [] ∨
    s.sent.filter (·.1 == s0.jobs.length) = [(s0.jobs.length, n, Spec.timeAt w s0.vt.time)] := by
  have I := inv_run L (LTS.run_append.mpr ⟨s0, h0, hr⟩)
  obtain ⟨s1, h1, h2⟩ := LTS.run_cons.mp hr
  simp only [step] at h1
  obtain ⟨v, hv, rfl⟩ := Option.map_eq_some_iff.mp h1
  obtain ⟨b, g1, g2, g3, g4, _⟩ := stays_run h2 s0.jobs.length _ (List.getElem?_concat_length ..)
  have := I.sent _ b g1
  rw [this]
  split
  · right; dsimp only at g2 g3 g4; simp only [Job.due, g2, g3, g4]
  · left; rfl

/-- In particular, if `when` is not past, at `when`. -/
theorem C75_exactly_when_partial {h : Heap} (L : h.Laws) {pre post : List (Label α)} {s0 s : State α} {n : Notif α} {w : Int}
    (h0 : LTS.run (step h) init pre = some s0) (hr : LTS.run (step h) s0 (.sendAt n w :: post) = some s)
    (hw : s0.vt.time ≤ w) : ∀ e ∈ s.sent, e.1 = s0.jobs.length → e.2 = (n, w) := by
  intro e he hj
  have hm : e ∈ s.sent.filter (·.1 == s0.jobs.length) := List.mem_filter.mpr ⟨he, by simp [hj]⟩
  rcases C75_at_partial L h0 hr with hc | hc <;> rw [hc] at hm
  · cases hm
  · rw [List.mem_singleton.mp hm, Spec.timeAt, if_pos hw]

/-- C75. The relative methods send their event at most once, and exactly `delay` after the call, or at the time of
the call if `delay` is negative. -/
theorem C75_later_partial {h : Heap} (L : h.Laws) {pre post : List (Label α)} {s0 s : State α} {n : Notif α} {d : Int}
    (h0 : LTS.run (step h) init pre = some s0) (hr : LTS.run (step h) s0 (.sendLater n d :: post) = some s) :
    s.sent.filter (·.1 == s0.jobs.length) = [] ∨
    s.sent.filter (·.1 == s0.jobs.length) = [(s0.jobs.length, n, Spec.timeLater d s0.vt.time)] := by
  have I := inv_run L (LTS.run_append.mpr ⟨s0, h0, hr⟩)
  obtain ⟨s1, h1, h2⟩ := LTS.run_cons.mp hr
  simp only [step] at h1
  obtain ⟨v, hv, rfl⟩ := Option.map_eq_some_iff.mp h1
  obtain ⟨b, g1, g2, g3, g4, _⟩ := stays_run h2 s0.jobs.length _ (List.getElem?_concat_length ..)
  have := I.sent _ b g1
  rw [this]
  split
  · right; dsimp only at g2 g3 g4; simp only [Job.due, g2, g3, g4]
  · left; rfl

/-- C75. Whenever the loop has nothing left to do, every event has been sent. -/
theorem C75_nothing_lost_partial {h : Heap} (L : h.Laws) {ls : List (Label α)} {s : State α}
    (hr : LTS.run (step h) init ls = some s) (h1 : s.vt.ready = []) (h2 : s.vt.scheduled = []) :
    ∀ j, j < s.jobs.length → j ∈ s.sent.map (·.1) := by
  intro j hj
  have I := inv_run L hr
  obtain ⟨b, hb⟩ : ∃ b, s.jobs[j]? = some b := ⟨_, List.getElem?_eq_getElem hj⟩
  have hs := I.sent j b hb
  have none : b.handle = none := by
    cases hh : b.handle with
    | none => rfl
    | some i =>
      obtain ⟨f1, f2, f3⟩ := I.free j b i hb nofun hh
      rcases I.vt.placed i f1 with h | h | h | h
      · exact absurd h f2
      · rw [h2] at h; cases h
      · rw [h1] at h; cases h
      · exact absurd h f3
  have hbeg : b.st.begun = true := by
    have ok := I.ok j b hb nofun
    unfold Ok at ok
    cases hst : b.st <;> simp only [hst] at ok
    case scheduled => obtain ⟨_, i, _, k, _⟩ := ok; rw [none] at k; cases k
    case created => obtain ⟨_, _, i, _, k, _⟩ := ok; rw [none] at k; cases k
    case sleeping => obtain ⟨_, _, i, _, k, _⟩ := ok; rw [none] at k; cases k
    case resumed => obtain ⟨_, _, i, k, _⟩ := ok; rw [none] at k; cases k
    all_goals rfl
  rw [hbeg, if_pos rfl] at hs
  have hm : (j, b.ev, b.due) ∈ s.sent.filter (·.1 == j) := by rw [hs]; simp
  exact List.mem_map.mpr ⟨_, (List.mem_filter.mp hm).1, rfl⟩

/-- C75. The events are sent in the order of their times. -/
theorem C75_order_partial {h : Heap} (L : h.Laws) {ls : List (Label α)} {s : State α}
    (hr : LTS.run (step h) init ls = some s) : s.sent.Pairwise (fun a b => a.2.2 ≤ b.2.2) :=
  (inv_run L hr).order

/-- C75. As long as the task runs, the subject holds a reference to it (the event loop does not). -/
theorem C75_held_partial {h : Heap} (L : h.Laws) {ls : List (Label α)} {s : State α}
    (hr : LTS.run (step h) init ls = some s) : ∀ b ∈ s.jobs,
      b.st = .created ∨ b.st = .sleeping ∨ b.st = .resumed ∨ b.st = .sending → b.inSet = true := by
  intro b hb hst
  obtain ⟨j, hj⟩ := List.mem_iff_getElem?.mp hb
  have ok := (inv_run L hr).ok j b hj nofun
  unfold Ok at ok
  rcases hst with h | h | h | h <;> simp only [h] at ok <;> exact ok.1

/-- C75. A task that has returned is not kept, unless it was made by `aclose_at`. -/
theorem C75_released_partial {h : Heap} (L : h.Laws) {ls : List (Label α)} {s : State α}
    (hr : LTS.run (step h) init ls = some s) : ∀ b ∈ s.jobs, b.st = .finished →
      ((∃ d, b.kind = .later d) ∨ b.ev ≠ .completed) → b.inSet = false := by
  intro b hb hst hk
  obtain ⟨j, hj⟩ := List.mem_iff_getElem?.mp hb
  have ok := (inv_run L hr).ok j b hj nofun
  unfold Ok at ok
  simp only [hst] at ok
  rw [ok.1]
  rcases hk with ⟨d, hk⟩ | hk
  · simp [Job.assigns, hk]
  · cases hkind : b.kind with
    | later d => simp [Job.assigns, hkind]
    | «at» w =>
      simp only [Job.assigns, hkind]
      cases he : b.ev with
      | next x => rfl
      | error e => rfl
      | completed => exact absurd he hk

/-- C75 is false: whenever the task of an `aclose_at` has returned, the subject keeps it, and forever. -/
theorem C75_violated {h : Heap} (L : h.Laws) {pre post : List (Label α)} {s s' : State α}
    (hr : LTS.run (step h) init pre = some s) (hp : LTS.run (step h) s post = some s') {j : Nat} {b : Job α} {w : Int}
    (hj : s.jobs[j]? = some b) (hk : b.kind = .at w) (he : b.ev = .completed) (hst : b.st = .finished) :
    ∃ b', s'.jobs[j]? = some b' ∧ b'.st = .finished ∧ b'.inSet = true := by
  have ok := (inv_run L hr).ok j b hj nofun
  unfold Ok at ok
  simp only [hst] at ok
  obtain ⟨b', g1, _, _, _, g5⟩ := stays_run hp j b hj
  have := g5 (Or.inl hst); subst this
  refine ⟨b', g1, hst, ?_⟩
  rw [ok.1]
  simp [Job.assigns, hk, he, callbackAssigns]

/-- C75 is false: a task that ended with an exception is kept forever, by every method. -/
theorem C75_violated_raise {h : Heap} (L : h.Laws) {pre post : List (Label α)} {s s' : State α}
    (hr : LTS.run (step h) init pre = some s) (hp : LTS.run (step h) s post = some s') {j : Nat} {b : Job α}
    (hj : s.jobs[j]? = some b) (hst : b.st = .failed) :
    ∃ b', s'.jobs[j]? = some b' ∧ b'.st = .failed ∧ b'.inSet = true := by
  have ok := (inv_run L hr).ok j b hj nofun
  unfold Ok at ok
  simp only [hst] at ok
  obtain ⟨b', g1, _, _, _, g5⟩ := stays_run hp j b hj
  have := g5 (Or.inr hst); subst this
  exact ⟨b', g1, hst, ok.1⟩

/-- The hypotheses of `C75_violated` are met: an `aclose_at` whose task has returned. -/
example : (LTS.run (step VirtualTime.heapq) (init : State Nat) [.sendAt .completed 2, .loop .runOnce, .next, .loop .done,
    .loop .runOnce, .next, .ret 0]).map (fun s => s.jobs.map fun b => (b.kind, b.ev, b.st, b.inSet)) =
    some [(.at 2, .completed, .finished, true)] := by decide

end Aio.TestSubject
