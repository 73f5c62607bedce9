import Verif.Model.NormalLoop
import Verif.Props.C63_VirtualTime
/-!
# C137: the same output as on a normal event loop
-/

namespace Aio.Spec.Timers

/-- No two timers are due at the same time, and none was due already when it was made. `made`: for each handle its due time, if it is a timer, and the time when it was made. -/
structure Apart (made : List (Option Int × Int)) : Prop where
  ahead : ∀ (i : Nat) w c, made[i]? = some (some w, c) → c < w
  distinct : ∀ (i j : Nat) w c c', made[i]? = some (some w, c) → made[j]? = some (some w, c') → i = j

end Aio.Spec.Timers

namespace Aio.VirtualTime
open Spec.Timers
variable {h : Heap}

private theorem apart_prefix {a b : List (Option Int × Int)} (hp : a <+: b) (hb : Apart b) : Apart a := by
  obtain ⟨c, rfl⟩ := hp
  have key : ∀ (i : Nat) x, a[i]? = some x → (a ++ c)[i]? = some x := fun i x hx => by
    rw [List.getElem?_append_left (List.getElem?_eq_some_iff.mp hx).1]; exact hx
  exact ⟨fun i w c h => hb.ahead i w c (key i _ h), fun i j w c c' h1 h2 => hb.distinct i j w c c' (key i _ h1) (key j _ h2)⟩

private theorem cleanUp_made (s : State) : (s.cleanUp h).made = s.made := by unfold State.cleanUp; split <;> rfl

private theorem made_step {s s' : State} {l : Label} (hs : step h s l = some s') : s.made <+: s'.made := by
  cases l with
  | callSoon => simp only [step] at hs; split at hs <;> cases hs; exact ⟨_, rfl⟩
  | callAt w => simp only [step] at hs; split at hs <;> cases hs; exact ⟨_, rfl⟩
  | cancel i =>
    simp only [step] at hs
    split at hs
    · split at hs <;> cases hs <;> exact List.prefix_refl _
    · cases hs
  | runOnce =>
    simp only [step] at hs
    split at hs <;> cases hs
    have : ∀ s : State, (s.advance h).made = s.made := by intro s; unfold State.advance; split <;> rfl
    show _ <+: ((s.cleanUp h).advance h).made
    rw [this, cleanUp_made]; exact List.prefix_refl _
  | next =>
    simp only [step] at hs
    split at hs
    · split at hs <;> cases hs <;> exact List.prefix_refl _
    · cases hs
  | done => simp only [step] at hs; split at hs <;> cases hs; exact List.prefix_refl _

private theorem popped (L : h.Laws) {s : State} (J : Inv L s) (ha : Apart s.made) (I : ∀ y ∈ s.scheduled, s.time < y.2) {x xs d} (h1 : L.isHeap (x :: xs)) (h3 : ((x :: xs) ++ d).Perm s.scheduled) :
    s.time < x.2 ∧ ∀ y ∈ h.pop (x :: xs), x.2 < y.2 := by
  have hsub : ∀ y ∈ x :: xs, y ∈ s.scheduled := fun y hy => h3.subset (List.mem_append_left _ hy)
  refine ⟨I x (hsub x (by simp)), fun y hy => ?_⟩
  have hy' : y ∈ xs := (L.pop h1).2.mem_iff.mp hy
  have hmin := L.min h1 y hy'
  have hne : x.2 ≠ y.2 := by
    intro hxy
    obtain ⟨c, g1, -⟩ := J.scheduled x (hsub x (by simp))
    obtain ⟨c', g2, -⟩ := J.scheduled y (hsub y (by simp [hy']))
    rw [← hxy] at g2
    have hid : x.1 = y.1 := ha.distinct _ _ _ _ _ g1 g2
    have hn : (s.scheduled.map (·.1)).Nodup := (List.nodup_append.mp (List.nodup_append.mp J.nodup).1).1
    have hn := (h3.map (·.1)).nodup_iff.mpr hn
    rw [List.map_append, List.map_cons] at hn
    have hn := (List.nodup_cons.mp (List.nodup_append.mp hn).1).1
    exact hn (hid ▸ List.mem_map.mpr ⟨y, hy', rfl⟩)
  omega

/-- On the virtual loop all timers that are left are due later. -/
private theorem ahead_run (L : h.Laws) {ls : List Label} {s : State} (hr : LTS.run (step h) init ls = some s) : Apart s.made → ∀ y ∈ s.scheduled, s.time < y.2 := by
  refine LTS.inv_reach (step := step h) (s0 := init) (fun _ s => Apart s.made → ∀ y ∈ s.scheduled, s.time < y.2) (fun _ y hy => by cases hy) ?_ hr
  intro ls s l s' hr I hs ha
  have ha0 := apart_prefix (made_step hs) ha
  have I := I ha0
  have J := inv_run L hr
  cases l with
  | callSoon => simp only [step] at hs; split at hs <;> cases hs; exact I
  | callAt w =>
    simp only [step] at hs; split at hs <;> cases hs
    intro y hy
    rcases List.mem_cons.mp ((L.push _ J.heap).2.mem_iff.mp hy) with rfl | hy
    · exact ha.ahead s.made.length w s.time (by simp)
    · exact I y hy
  | cancel i =>
    simp only [step] at hs
    split at hs
    · split at hs <;> cases hs <;> exact I
    · cases hs
  | runOnce =>
    have J' := inv_step L _ _ _ J hs
    simp only [step] at hs
    split at hs <;> cases hs
    obtain ⟨scheduled, count, d, he, h1, h2, h3, h4, h5⟩ := cleanUp_spec L s J.heap J.count
    have hsub : ∀ y ∈ scheduled, y ∈ s.scheduled := fun y hy => h3.subset (List.mem_append_left _ hy)
    dsimp only at ha J' ⊢
    rw [he] at ha J' ⊢
    unfold State.advance at ha J' ⊢
    split
    · next x xs hx hrd =>
      dsimp only at hx hrd
      subst hx
      intro y hy
      have := (popped L J ha0 I h1 h3).2 y hy
      have := (popped L J ha0 I h1 h3).1
      dsimp only
      omega
    · exact fun y hy => I y (hsub y hy)
  | next =>
    simp only [step] at hs
    split at hs
    · split at hs <;> cases hs <;> exact I
    · cases hs
  | done => simp only [step] at hs; split at hs <;> cases hs; exact I

/-- Then `_run_once` begins in the same way on both loops. -/
private theorem runOnce_same (L : h.Laws) {ls : List Label} {s : State} (hr : LTS.run (step h) init ls = some s) (ha : Apart s.made) : normal h s .runOnce = step h s .runOnce := by
  have I := ahead_run L hr ha
  have J := inv_run L hr
  simp only [normal, step]
  split
  · obtain ⟨scheduled, count, d, he, h1, h2, h3, h4, h5⟩ := cleanUp_spec L s J.heap J.count
    have hsub : ∀ y ∈ scheduled, y ∈ s.scheduled := fun y hy => h3.subset (List.mem_append_left _ hy)
    rw [he]
    suffices hh : ∀ z : State, z = { s with scheduled, count } → z.select.dueReady h z.select.scheduled.length = z.advance h by
      rw [hh _ rfl]
    rintro z rfl
    cases scheduled with
    | nil => rfl
    | cons x xs =>
      cases hrd : s.ready with
      | nil =>
        obtain ⟨p1, p2⟩ := popped L J ha I h1 h3
        simp only [State.select, State.advance, hrd, List.length_cons]
        rw [State.dueReady]
        simp only
        rw [if_pos (by omega)]
        have hm : max x.2 s.time = x.2 := by omega
        rw [hm]
        cases xs with
        | nil => rfl
        | cons y ys =>
          rw [List.length_cons, State.dueReady]
          simp only
          cases hp : h.pop (x :: y :: ys) with
          | nil => rfl
          | cons z zs => simp only; rw [if_neg (by have := p2 z (by rw [hp]; simp); omega)]; rfl
      | cons r rs =>
        have := I x (hsub x (by simp))
        simp only [State.select, State.advance, hrd, List.length_cons]
        rw [State.dueReady]
        simp only
        rw [if_neg (by omega)]
  · rfl

private theorem normal_eq {s : State} {l : Label} (hl : l ≠ .runOnce) : normal h s l = step h s l := by cases l <;> first | rfl | exact absurd rfl hl

private theorem made_normal {s s' : State} {l : Label} (hs : normal h s l = some s') : s.made <+: s'.made := by
  by_cases hl : l = .runOnce
  · subst hl
    simp only [normal] at hs
    split at hs <;> cases hs
    have h1 : ∀ s : State, s.select.made = s.made := by intro s; unfold State.select; split <;> rfl
    have h2 : ∀ n (s : State), (s.dueReady h n).made = s.made := by
      intro n
      induction n with
      | zero => intro s; rfl
      | succ n ih =>
        intro s
        unfold State.dueReady
        split
        · split
          · rw [ih]
          · rfl
        · rfl
    dsimp only
    rw [h2, h1, cleanUp_made]; exact List.prefix_refl _
  · rw [normal_eq hl] at hs; exact made_step hs

/-- C137 (partial): if no two timers are due at the same time, and no timer is made that is due already, then the loops do the same, step by step, whatever the callbacks do.
Missing from the full claim: timers that are due at the same time, and `call_later(0)`; there it is false (below). -/
theorem C137_same_partial (L : h.Laws) {ls : List Label} {s : State} (ha : Apart s.made) : LTS.run (normal h) init ls = some s ↔ LTS.run (step h) init ls = some s := by
  have key : ∀ ls s, Apart s.made → (LTS.run (normal h) init ls = some s ↔ LTS.run (step h) init ls = some s) := by
    intro ls
    induction hn : ls.length generalizing ls with
    | zero => intro s _; rw [List.length_eq_zero_iff.mp hn]; rfl
    | succ n ih =>
      intro s ha
      have hne : ls ≠ [] := by intro h; rw [h] at hn; cases hn
      rw [← List.dropLast_concat_getLast hne] at hn ⊢
      generalize ls.dropLast = as at hn ⊢
      generalize ls.getLast hne = a at hn ⊢
      have hn : as.length = n := by simpa using hn
      constructor
      · intro hr
        obtain ⟨x, h1, h2⟩ := LTS.run_append.mp hr
        obtain ⟨y, h2, h3⟩ := LTS.run_cons.mp h2
        cases h3
        have hx := apart_prefix (made_normal h2) ha
        have h1 := (ih as hn x hx).mp h1
        refine LTS.run_append.mpr ⟨x, h1, LTS.run_cons.mpr ⟨s, ?_, rfl⟩⟩
        by_cases hl : a = .runOnce
        · subst hl; rw [← runOnce_same L h1 hx]; exact h2
        · rw [← normal_eq hl]; exact h2
      · intro hr
        obtain ⟨x, h1, h2⟩ := LTS.run_append.mp hr
        obtain ⟨y, h2, h3⟩ := LTS.run_cons.mp h2
        cases h3
        have hx := apart_prefix (made_step h2) ha
        refine LTS.run_append.mpr ⟨x, (ih as hn x hx).mpr h1, LTS.run_cons.mpr ⟨s, ?_, rfl⟩⟩
        by_cases hl : a = .runOnce
        · subst hl; rw [runOnce_same L h1 hx]; exact h2
        · rw [normal_eq hl]; exact h2
  exact key ls s ha

/-! ## programs -/

private theorem perform_normal (as : List Act) : ∀ s : State, perform (normal h) s as = perform (step h) s as := by
  induction as with
  | nil => intro s; rfl
  | cons a as ih =>
    intro s
    simp only [perform, List.foldl_cons] at ih ⊢
    rw [normal_eq (by cases a <;> nofun)]
    exact ih _

private theorem callbacks_normal (P : List Entry → List Act) : ∀ (k : Nat) (s : State), callbacks (normal h) P k s = callbacks (step h) P k s
  | 0, s => rfl
  | k + 1, s => by
    simp only [callbacks, normal_eq (s := s) (h := h) (l := .next) (by nofun), perform_normal]
    exact callbacks_normal P k _

private def Reached (h : Heap) (s : State) : Prop := ∃ ls, LTS.run (step h) init ls = some s

private theorem Reached.step {s : State} (hs : Reached h s) (l : Label) : Reached h ((VirtualTime.step h s l).getD s) := by
  cases he : VirtualTime.step h s l with
  | none => exact hs
  | some s' =>
    obtain ⟨ls, hr⟩ := hs
    exact ⟨ls ++ [l], LTS.run_append.mpr ⟨s, hr, LTS.run_cons.mpr ⟨s', he, rfl⟩⟩⟩

private theorem Reached.perform (as : List Act) : ∀ {s : State}, Reached h s → Reached h (VirtualTime.perform (VirtualTime.step h) s as) := by
  induction as with
  | nil => intro s hs; exact hs
  | cons a as ih => intro s hs; exact ih (hs.step _)

private theorem Reached.callbacks (P : List Entry → List Act) : ∀ (k : Nat) {s : State}, Reached h s → Reached h (VirtualTime.callbacks (VirtualTime.step h) P k s)
  | 0, s, hs => hs
  | k + 1, s, hs => by
    simp only [VirtualTime.callbacks]
    apply Reached.callbacks P k
    split
    · exact hs.step _
    · exact (hs.step _).perform _

private theorem Reached.execute (P : List Entry → List Act) : ∀ n, Reached h (VirtualTime.execute (VirtualTime.step h) P n)
  | 0 => Reached.perform (P []) ⟨[], rfl⟩
  | n + 1 => (((Reached.execute P n).step .runOnce).callbacks P _).step .done

private theorem made_getD (s : State) (l : Label) : s.made <+: ((normal h s l).getD s).made := by
  cases he : normal h s l with
  | none => exact List.prefix_refl _
  | some s' => exact made_normal he

private theorem made_perform (as : List Act) : ∀ s : State, s.made <+: (perform (normal h) s as).made := by
  induction as with
  | nil => intro s; exact List.prefix_refl _
  | cons a as ih => intro s; exact (made_getD s _).trans (ih _)

private theorem made_callbacks (P : List Entry → List Act) : ∀ (k : Nat) (s : State), s.made <+: (callbacks (normal h) P k s).made
  | 0, s => List.prefix_refl _
  | k + 1, s => by
    simp only [callbacks]
    refine List.IsPrefix.trans ?_ (made_callbacks P k _)
    split
    · exact made_getD s _
    · exact (made_getD s _).trans (made_perform _ _)

private theorem made_execute (P : List Entry → List Act) (n : Nat) : (execute (normal h) P n).made <+: (execute (normal h) P (n + 1)).made := by
  simp only [execute, iteration]
  exact ((made_getD _ _).trans (made_callbacks P _ _)).trans (made_getD _ _)

/-- C137 (partial), for programs: all deterministic code gives the same output on both loops, at every moment, as long as the timers that it makes are apart. -/
theorem C137_program_partial (L : h.Laws) (P : List Entry → List Act) : ∀ n, Apart (execute (normal h) P n).made → execute (step h) P n = execute (normal h) P n
  | 0, _ => (perform_normal _ _).symm
  | n + 1, ha => by
    have ih := C137_program_partial L P n (apart_prefix (made_execute P n) ha)
    obtain ⟨ls, hr⟩ := Reached.execute (h := h) P n
    have hro := runOnce_same L hr (by rw [ih]; exact apart_prefix (made_execute P n) ha)
    simp only [execute, iteration]
    rw [ih] at hro ⊢
    rw [hro, callbacks_normal, normal_eq (l := .done) (by nofun)]

/-! ## where the loops differ -/

/-- Two timers for the same time; the callback of the first one calls `call_soon`. -/
def tiedProgram (log : List Entry) : List Act :=
  match log.getLast?.map (·.id) with
  | none => [.later 1, .later 1]
  | some 0 => [.soon]
  | _ => []

/-- A callback calls `call_later(0)` and `call_soon`; the latter callback calls `call_soon` again. -/
def zeroProgram (log : List Entry) : List Act :=
  match log.getLast?.map (·.id) with
  | none => [.soon]
  | some 0 => [.later 0, .soon]
  | some 2 => [.soon]
  | _ => []

/-- `call_later(0, stop)`, and a task that does `while not stopped: await asyncio.sleep(0)`. -/
def busyProgram (log : List Entry) : List Act :=
  if log.isEmpty then [.later 0, .soon] else if log.any (·.id == 0) then [] else [.soon]

/-- C137 is false: of two timers that are due at the same time, the virtual loop runs the second one only when everything that the first one has started is over. -/
theorem C137_violated_tied : (execute (normal heapq) tiedProgram 2).output = [(0, 1), (1, 1), (2, 1)] ∧ (execute (step heapq) tiedProgram 3).output = [(0, 1), (2, 1), (1, 1)] := by
  decide

/-- C137 is false for `call_later(0)`: the virtual loop runs the timer only when no callback is ready any more. -/
theorem C137_violated_zero : (execute (normal heapq) zeroProgram 3).output = [(0, 0), (2, 0), (1, 0), (3, 0)] ∧
    (execute (step heapq) zeroProgram 4).output = [(0, 0), (2, 0), (3, 0), (1, 0)] := by
  decide

/-- The program with the task that waits for `stop` ends on the normal loop: `stop` runs in the first iteration, and after the second one nothing is left to do. -/
theorem C137_busy_normal (L : h.Laws) : (execute (normal h) busyProgram 2).output = [(1, 0), (0, 0), (2, 0)] ∧ (execute (normal h) busyProgram 2).ready = [] ∧
    (execute (normal h) busyProgram 2).scheduled = [] := by
  have h1 : h.push [] (0, 0) = [(0, 0)] := List.perm_singleton.mp (L.push _ L.nil).2
  have h2 : h.pop [(0, 0)] = [] := by
    have := (L.pop (x := (0, 0)) (xs := []) (h1 ▸ (L.push _ L.nil).1)).2
    exact List.perm_nil.mp this
  simp [execute, iteration, perform, busyProgram, Act.label, normal, step, init, State.userCode, h1, State.cleanUp, dropCancelled, State.select, State.dueReady, h2, callbacks, State.output]

/-- C137 is false, and worse: on the virtual loop the same program never ends. `stop` never runs. -/
theorem C137_violated_busy (L : h.Laws) (n : Nat) : 0 ∉ (execute (step h) busyProgram n).output.map (·.1) ∧ (execute (step h) busyProgram n).ready ≠ [] ∧
    (execute (step h) busyProgram n).time = 0 ∧ (execute (step h) busyProgram n).log.length = n := by
  have h1 : h.push [] (0, 0) = [(0, 0)] := List.perm_singleton.mp (L.push _ L.nil).2
  have key : ∃ made log, execute (step h) busyProgram n = ⟨0, [(n + 1, none)], [(0, 0)], [], 0, none, false, made, log⟩ ∧ made.length = n + 2 ∧ log.length = n ∧ ∀ e ∈ log, e.id ≠ 0 := by
    induction n with
    | zero =>
      refine ⟨[(some 0, 0), (none, 0)], [], ?_, rfl, rfl, by simp⟩
      simp [execute, perform, busyProgram, Act.label, step, init, State.userCode, h1]
    | succ n ih =>
      obtain ⟨made, log, he, hm, hl, hi⟩ := ih
      refine ⟨made ++ [(none, 0)], log ++ [⟨n + 1, none, 0, made.length⟩], ?_, by simp [hm], by simp [hl], ?_⟩
      · have hb : busyProgram (log ++ [⟨n + 1, none, 0, n + 2⟩]) = [.soon] := by
          simp only [busyProgram]
          rw [if_neg (by simp), if_neg]
          simp only [List.any_append, Bool.or_eq_true, List.any_eq_true, not_or]
          exact ⟨fun ⟨e, h1, h2⟩ => hi e h1 (by simpa using h2), by simp⟩
        rw [execute, he]
        simp [iteration, step, State.cleanUp, dropCancelled, State.advance, callbacks, hb, perform, Act.label, State.userCode, hm]
      · intro e he
        rcases List.mem_append.mp he with he | he
        · exact hi e he
        · cases List.mem_singleton.mp he; exact Nat.succ_ne_zero n
  obtain ⟨made, log, he, hm, hl, hi⟩ := key
  rw [he]
  refine ⟨fun h => ?_, by simp, rfl, hl⟩
  simp only [State.output, List.map_map, List.mem_map] at h
  obtain ⟨e, h1, h2⟩ := h
  exact hi e h1 h2

/-- C137, why: on the virtual loop time stands still and no timer runs as long as there is a callback that is ready whenever `_run_once` begins, whatever is due. -/
theorem C137_starves (L : h.Laws) {ls ls' : List Label} {s s' : State} (hr : LTS.run (step h) init ls = some s) (hr' : LTS.run (step h) s ls' = some s')
    (hb : ∀ a b x, ls' = a ++ .runOnce :: b → LTS.run (step h) s a = some x → x.ready ≠ []) : s'.time = s.time ∧ ∀ y ∈ s.scheduled, y.1 ∉ s'.log.map (·.id) := by
  have J := inv_run L hr
  have h0 : ∀ y ∈ s.scheduled, y.1 ∉ s.log.map (·.id) ∧ y.1 ∉ s.ready.map (·.1) ∧ y.1 < s.made.length := by
    intro y hy
    obtain ⟨n1, n2, n3⟩ := List.nodup_append.mp J.nodup
    obtain ⟨m1, m2, m3⟩ := List.nodup_append.mp n1
    have hy' : y.1 ∈ s.scheduled.map (·.1) := List.mem_map.mpr ⟨y, hy, rfl⟩
    exact ⟨fun h => n3 _ (List.mem_append_left _ hy') _ h rfl, fun h => m3 _ hy' _ h rfl, J.bound _ (List.mem_append_left _ (List.mem_append_left _ hy'))⟩
  have key : ∀ (ls' : List Label) (x : State), LTS.run (step h) x ls' = some s' → (∀ a b z, ls' = a ++ .runOnce :: b → LTS.run (step h) x a = some z → z.ready ≠ []) →
      x.time = s.time → (∀ y ∈ s.scheduled, y.1 ∉ x.log.map (·.id) ∧ y.1 ∉ x.ready.map (·.1) ∧ y.1 < x.made.length) → s'.time = s.time ∧ ∀ y ∈ s.scheduled, y.1 ∉ s'.log.map (·.id) := by
    intro ls'
    induction ls' with
    | nil => intro x hr _ ht hx; cases hr; exact ⟨ht, fun y hy => (hx y hy).1⟩
    | cons l ls' ih =>
      intro x hr hb ht hx
      obtain ⟨z, hz, hr⟩ := LTS.run_cons.mp hr
      have hbr := hb [] ls' x
      refine ih z hr (fun a b w he ha => hb (l :: a) b w (by rw [he]; rfl) (LTS.run_cons.mpr ⟨z, hz, ha⟩)) ?_ ?_
      · cases l with
        | callSoon => simp only [step] at hz; split at hz <;> cases hz; exact ht
        | callAt w => simp only [step] at hz; split at hz <;> cases hz; exact ht
        | cancel i =>
          simp only [step] at hz
          split at hz
          · split at hz <;> cases hz <;> exact ht
          · cases hz
        | runOnce =>
          simp only [step] at hz
          split at hz <;> cases hz
          have hne := hbr rfl rfl
          have hcr : (x.cleanUp h).ready = x.ready ∧ (x.cleanUp h).time = x.time := by unfold State.cleanUp; split <;> exact ⟨rfl, rfl⟩
          show ((x.cleanUp h).advance h).time = _
          unfold State.advance
          split
          · next h2 => rw [hcr.1] at h2; exact absurd h2 hne
          · rw [hcr.2]; exact ht
        | next =>
          simp only [step] at hz
          split at hz
          · split at hz <;> cases hz <;> exact ht
          · cases hz
        | done => simp only [step] at hz; split at hz <;> cases hz; exact ht
      · intro y hy
        obtain ⟨g1, g2, g3⟩ := hx y hy
        refine ⟨?_, ?_, Nat.lt_of_lt_of_le g3 (made_step hz).length_le⟩
        all_goals
          cases l with
          | callSoon =>
            simp only [step] at hz; split at hz <;> cases hz
            first
              | exact g1
              | (simp only [List.map_append, List.mem_append, not_or]; exact ⟨g2, by simp; omega⟩)
          | callAt w => simp only [step] at hz; split at hz <;> cases hz; first | exact g1 | exact g2
          | cancel i =>
            simp only [step] at hz
            split at hz
            · split at hz <;> cases hz <;> first | exact g1 | exact g2
            · cases hz
          | runOnce =>
            simp only [step] at hz
            split at hz <;> cases hz
            have hne := hbr rfl rfl
            have hcr : (x.cleanUp h).ready = x.ready ∧ (x.cleanUp h).log = x.log := by unfold State.cleanUp; split <;> exact ⟨rfl, rfl⟩
            have hav : (x.cleanUp h).advance h = x.cleanUp h := by
              unfold State.advance
              split
              · next h2 => rw [hcr.1] at h2; exact absurd h2 hne
              · rfl
            dsimp only
            rw [hav]
            first
              | (rw [hcr.2]; exact g1)
              | (rw [hcr.1]; exact g2)
          | next =>
            simp only [step] at hz
            split at hz
            · next k i due ready _ he =>
              rw [he] at g2
              simp only [List.map_cons, List.mem_cons, not_or] at g2
              split at hz <;> cases hz
              · first | exact g1 | exact g2.2
              · first
                  | exact g2.2
                  | (simp only [List.map_append, List.mem_append, not_or]; exact ⟨g1, by simp; omega⟩)
            · cases hz
          | done => simp only [step] at hz; split at hz <;> cases hz; first | exact g1 | exact g2
  exact key ls' s hr' hb rfl h0

private theorem dropCancelled_heap (L : h.Laws) (c : List Nat) : ∀ (fuel : Nat) (xs : List (Nat × Int)) (n : Int), L.isHeap xs → L.isHeap (dropCancelled h c fuel xs n).1
  | 0, xs, n, hx => by simpa [dropCancelled] using hx
  | fuel + 1, [], n, hx => by simpa [dropCancelled] using hx
  | fuel + 1, x :: xs, n, hx => by
    rw [dropCancelled]
    split
    · exact dropCancelled_heap L c fuel _ _ (L.pop hx).1
    · exact hx

private theorem cleanUp_heap (L : h.Laws) {s : State} (hs : L.isHeap s.scheduled) : L.isHeap (s.cleanUp h).scheduled := by
  unfold State.cleanUp
  split
  · exact (L.heapify _).1
  · exact dropCancelled_heap L _ _ _ _ hs

private theorem dueReady_spec (L : h.Laws) : ∀ (n : Nat) (s : State), L.isHeap s.scheduled → s.scheduled.length ≤ n →
    L.isHeap (s.dueReady h n).scheduled ∧ (s.dueReady h n).time = s.time ∧ ∀ y ∈ (s.dueReady h n).scheduled, s.time < y.2
  | 0, s, hs, hn => ⟨hs, rfl, fun y hy => by rw [List.length_eq_zero_iff.mp (Nat.le_zero.mp hn) |> fun h => show (s.dueReady _ 0).scheduled = [] from h] at hy; cases hy⟩
  | n + 1, s, hs, hn => by
    unfold State.dueReady
    split
    · next x xs he =>
      rw [he] at hs hn
      split
      · have := dueReady_spec L n { s with ready := s.ready ++ [(x.1, some x.2)], scheduled := h.pop (x :: xs) } (L.pop hs).1 (by
          rw [(L.pop hs).2.length_eq]; simpa using hn)
        exact this
      · next hlt =>
        refine ⟨he ▸ hs, rfl, fun y hy => ?_⟩
        rw [he] at hy
        rcases List.mem_cons.mp hy with rfl | hy
        · omega
        · have := L.min hs y hy; omega
    · next he => exact ⟨hs, rfl, fun y hy => by rw [he] at hy; cases hy⟩

private theorem normal_runOnce (L : h.Laws) {s s' : State} (hs : L.isHeap s.scheduled) (hn : normal h s .runOnce = some s') : L.isHeap s'.scheduled ∧ ∀ y ∈ s'.scheduled, s'.time < y.2 := by
  simp only [normal] at hn
  split at hn <;> cases hn
  have hsel : (s.cleanUp h).select.scheduled = (s.cleanUp h).scheduled := by unfold State.select; split <;> rfl
  have := dueReady_spec L _ (s.cleanUp h).select (hsel ▸ cleanUp_heap L hs) (Nat.le_refl _)
  exact ⟨this.1, fun y hy => by have := this.2.2 y hy; dsimp only; omega⟩

private theorem normal_heap (L : h.Laws) {ls : List Label} {s : State} (hr : LTS.run (normal h) init ls = some s) : L.isHeap s.scheduled := by
  refine LTS.inv (step := normal h) (s0 := init) (fun s => L.isHeap s.scheduled) L.nil ?_ hr
  intro s l s' I hs
  cases l with
  | callSoon => simp only [normal, step] at hs; split at hs <;> cases hs; exact I
  | callAt w => simp only [normal, step] at hs; split at hs <;> cases hs; exact (L.push _ I).1
  | cancel i =>
    simp only [normal, step] at hs
    split at hs
    · split at hs <;> cases hs <;> exact I
    · cases hs
  | runOnce => exact (normal_runOnce L I hs).1
  | next =>
    simp only [normal, step] at hs
    split at hs
    · split at hs <;> cases hs <;> exact I
    · cases hs
  | done => simp only [normal, step] at hs; split at hs <;> cases hs; exact I

/-- C137, in contrast: on the normal loop every timer that is due is taken up by the next `_run_once`, however many callbacks are ready. -/
theorem C137_normal_takes_due (L : h.Laws) {ls : List Label} {s s' : State} (hr : LTS.run (normal h) init ls = some s) (hs : normal h s .runOnce = some s') :
    ∀ y ∈ s'.scheduled, s'.time < y.2 := (normal_runOnce L (normal_heap L hr) hs).2

/-! ## any heap -/

variable {g : Heap}

/-- The same states, but for the order of the timers in the heap. -/
private structure Same (s t : State) : Prop where
  perm : s.scheduled.Perm t.scheduled
  rest : { s with scheduled := [] } = { t with scheduled := [] }

private theorem dropCancelled_same (L : h.Laws) (M : g.Laws) (c : List Nat) : ∀ (fuel : Nat) (xs ys : List (Nat × Int)) (n : Int), L.isHeap xs → M.isHeap ys → xs.Perm ys →
    (∀ a ∈ xs, ∀ b ∈ xs, a.2 = b.2 → a = b) → (dropCancelled h c fuel xs n).1.Perm (dropCancelled g c fuel ys n).1 ∧ (dropCancelled h c fuel xs n).2 = (dropCancelled g c fuel ys n).2
  | 0, xs, ys, n, _, _, hp, _ => by simpa [dropCancelled] using hp
  | fuel + 1, [], ys, n, _, _, hp, _ => by rw [List.nil_perm.mp hp]; simp [dropCancelled]
  | fuel + 1, x :: xs, [], n, _, _, hp, _ => absurd hp (by simp)
  | fuel + 1, x :: xs, y :: ys, n, hx, hy, hp, hd => by
    have hxy : x = y := by
      have h1 : y ∈ x :: xs := hp.mem_iff.mpr (by simp)
      have h2 : x ∈ y :: ys := hp.mem_iff.mp (by simp)
      refine hd x (by simp) y h1 ?_
      rcases List.mem_cons.mp h1 with rfl | h1
      · rfl
      · rcases List.mem_cons.mp h2 with rfl | h2
        · rfl
        · have := L.min hx y h1; have := M.min hy x h2; omega
    subst hxy
    rw [dropCancelled, dropCancelled]
    split
    · have p1 := (L.pop hx).2
      have p2 := (M.pop hy).2
      refine dropCancelled_same L M c fuel _ _ _ (L.pop hx).1 (M.pop hy).1 ((p1.trans hp.cons_inv).trans p2.symm) ?_
      intro a ha b hb he
      exact hd a (by simp [p1.mem_iff.mp ha]) b (by simp [p1.mem_iff.mp hb]) he
    · exact ⟨hp, rfl⟩

/-- C137 (partial): under the same condition nothing depends on how `heapq` arranges its timers. -/
theorem C137_heap_partial (L : h.Laws) (M : g.Laws) {ls : List Label} {s : State} (hr : LTS.run (step h) init ls = some s) (ha : Apart s.made) :
    ∃ t, LTS.run (step g) init ls = some t ∧ t.output = s.output ∧ t.time = s.time ∧ t.ready = s.ready := by
  suffices hh : Apart s.made → ∃ t, LTS.run (step g) init ls = some t ∧ Same s t by
    obtain ⟨t, h1, h2⟩ := hh ha
    have h3 := h2.rest
    obtain ⟨a1, a2, a3, a4, a5, a6, a7, a8, a9⟩ := s
    obtain ⟨b1, b2, b3, b4, b5, b6, b7, b8, b9⟩ := t
    simp only [State.mk.injEq] at h3
    obtain ⟨rfl, rfl, -, rfl, rfl, rfl, rfl, rfl, rfl⟩ := h3
    exact ⟨_, h1, rfl, rfl, rfl⟩
  refine LTS.inv_reach (step := step h) (s0 := init) (fun ls s => Apart s.made → ∃ t, LTS.run (step g) init ls = some t ∧ Same s t) (fun _ => ⟨init, rfl, List.Perm.refl _, rfl⟩) ?_ hr
  intro ls s l s' hr I hs ha
  have ha0 := apart_prefix (made_step hs) ha
  obtain ⟨t, ht, hp, hrest⟩ := I ha0
  have J := inv_run L hr
  have J' := inv_run M ht
  suffices hh : ∃ t', step g t l = some t' ∧ Same s' t' by
    obtain ⟨t', h1, h2⟩ := hh
    exact ⟨t', LTS.run_append.mpr ⟨t, ht, LTS.run_cons.mpr ⟨t', h1, rfl⟩⟩, h2⟩
  have hdist : ∀ a ∈ s.scheduled, ∀ b ∈ s.scheduled, a.2 = b.2 → a = b := by
    intro a h1 b h2 he
    obtain ⟨c, g1, -⟩ := J.scheduled a h1
    obtain ⟨c', g2, -⟩ := J.scheduled b h2
    rw [← he] at g2
    exact Prod.ext (ha0.distinct _ _ _ _ _ g1 g2) he
  obtain ⟨a1, a2, a3, a4, a5, a6, a7, a8, a9⟩ := s
  obtain ⟨b1, b2, b3, b4, b5, b6, b7, b8, b9⟩ := t
  simp only [State.mk.injEq] at hrest
  obtain ⟨rfl, rfl, -, rfl, rfl, rfl, rfl, rfl, rfl⟩ := hrest
  dsimp only at hp hdist
  cases l with
  | callSoon =>
    simp only [step] at hs ⊢
    split at hs <;> cases hs
    next hu => rw [if_pos (by exact hu)]; exact ⟨_, rfl, hp, rfl⟩
  | callAt w =>
    simp only [step] at hs ⊢
    split at hs <;> cases hs
    next hu =>
      rw [if_pos (by exact hu)]
      exact ⟨_, rfl, ((L.push _ J.heap).2.trans (hp.cons _)).trans (M.push _ J'.heap).2.symm, rfl⟩
  | cancel i =>
    simp only [step] at hs ⊢
    split at hs
    · next hu =>
      rw [if_pos (by exact hu)]
      split at hs
      · next hc => cases hs; rw [if_pos hc]; exact ⟨_, rfl, hp, rfl⟩
      · next hc =>
        cases hs
        rw [if_neg hc]
        have hiff : (i ∈ a3.map (·.1)) = (i ∈ b3.map (·.1)) := propext (hp.map _).mem_iff
        refine ⟨_, rfl, hp, ?_⟩
        simp only [hiff]
    · cases hs
  | runOnce =>
    simp only [step] at hs ⊢
    split at hs
    · next hu =>
      rw [if_pos hu]
      cases hs
      refine ⟨_, rfl, ?_⟩
      have hclean : ∃ xs ys n, State.cleanUp h ⟨a1, a2, a3, a4, a5, a6, a7, a8, a9⟩ = ⟨a1, a2, xs, a4, n, a6, a7, a8, a9⟩ ∧
          State.cleanUp g ⟨a1, a2, b3, a4, a5, a6, a7, a8, a9⟩ = ⟨a1, a2, ys, a4, n, a6, a7, a8, a9⟩ ∧ xs.Perm ys ∧ L.isHeap xs ∧ M.isHeap ys ∧ ∀ y ∈ xs, y ∈ a3 := by
        by_cases hb : 100 < a3.length ∧ (a3.length : Int) < 2 * a5
        · refine ⟨_, _, _, by unfold State.cleanUp; rw [if_pos hb], by unfold State.cleanUp; rw [if_pos (by rw [← hp.length_eq]; exact hb)], ?_, (L.heapify _).1, (M.heapify _).1, ?_⟩
          · exact ((L.heapify _).2.trans (hp.filter _)).trans (M.heapify _).2.symm
          · intro y hy; exact (List.mem_filter.mp ((L.heapify _).2.mem_iff.mp hy)).1
        · obtain ⟨d1, d2⟩ := dropCancelled_same L M a4 a3.length a3 b3 a5 J.heap J'.heap hp hdist
          obtain ⟨k1, k2, ⟨d, k3, -⟩, -⟩ := dropCancelled_spec L a4 a3.length a3 a5 (Nat.le_refl _) J.heap J.count
          obtain ⟨k4, -⟩ := dropCancelled_spec M a4 b3.length b3 a5 (Nat.le_refl _) J'.heap J'.count
          refine ⟨_, _, _, by unfold State.cleanUp; rw [if_neg hb], ?_, d1, k1, ?_, fun y hy => k3.subset (List.mem_append_left _ hy)⟩
          · unfold State.cleanUp; rw [if_neg (by rw [← hp.length_eq]; exact hb)]; dsimp only; rw [d2, hp.length_eq]
          · rw [hp.length_eq]; exact k4
      obtain ⟨xs, ys, n, e1, e2, e3, e4, e5, e6⟩ := hclean
      rw [e1, e2]
      cases a2 with
      | cons r rs => cases xs <;> cases ys <;> exact ⟨e3, rfl⟩
      | nil =>
        cases xs with
        | nil => rw [List.nil_perm.mp e3]; exact ⟨List.Perm.refl _, rfl⟩
        | cons x xs =>
          cases ys with
          | nil => exact absurd e3 (by simp)
          | cons y ys =>
            have hxy : x = y := by
              have h1 : y ∈ x :: xs := e3.mem_iff.mpr (by simp)
              have h2 : x ∈ y :: ys := e3.mem_iff.mp (by simp)
              refine hdist x (e6 x (by simp)) y (e6 y h1) ?_
              rcases List.mem_cons.mp h1 with rfl | h1
              · rfl
              · rcases List.mem_cons.mp h2 with rfl | h2
                · rfl
                · have := L.min e4 y h1; have := M.min e5 x h2; omega
            subst hxy
            exact ⟨((L.pop e4).2.trans e3.cons_inv).trans (M.pop e5).2.symm, rfl⟩
    · cases hs
  | next =>
    simp only [step] at hs ⊢
    split at hs
    · split at hs
      · next hc => cases hs; rw [if_pos (by exact hc)]; exact ⟨_, rfl, hp, rfl⟩
      · next hc => cases hs; rw [if_neg (by exact hc)]; exact ⟨_, rfl, hp, rfl⟩
    · cases hs
  | done =>
    simp only [step] at hs ⊢
    split at hs <;> cases hs
    next hu => rw [if_pos (by exact hu)]; exact ⟨_, rfl, hp, rfl⟩

end Aio.VirtualTime

/-! ## Examples -/

namespace Aio.VirtualTime
open Spec.Timers

/-- README.md:349-361, and one of the callbacks makes a timer and cancels another one. -/
def apartProgram (log : List Entry) : List Act :=
  match log.getLast?.map (·.id) with
  | none => [.later 10, .later 1, .later 5, .later 7]
  | some 1 => [.soon, .later 2]
  | some 2 => [.cancel 3]
  | _ => []

example : (execute (normal heapq) apartProgram 6).output = [(1, 1), (4, 1), (5, 3), (2, 5), (0, 10)] ∧ Apart (execute (normal heapq) apartProgram 6).made := by
  have hm : (execute (normal heapq) apartProgram 6).made = [(some 10, 0), (some 1, 0), (some 5, 0), (some 7, 0), (none, 1), (some 3, 1)] := by decide
  refine ⟨by decide, ?_, ?_⟩
  · rw [hm]
    intro i w c h
    rcases i with _ | _ | _ | _ | _ | _ | i <;> simp at h <;> omega
  · rw [hm]
    intro i j w c c' h1 h2
    rcases i with _ | _ | _ | _ | _ | _ | i <;> rcases j with _ | _ | _ | _ | _ | _ | j <;> simp at h1 h2 <;> omega

end Aio.VirtualTime
