import Verif.Model.VirtualTime
import Verif.Lemmas.Lists
/-!
# The invariant of VirtualTimeEventLoop
-/

namespace Aio.VirtualTime

/-- How many of the timers are cancelled. -/
def cancelledCount (cancelled : List Nat) (l : List (Nat × Int)) : Nat := (l.filter (·.1 ∈ cancelled)).length

theorem cancelledCount_perm {c : List Nat} {l m : List (Nat × Int)} (h : l.Perm m) :
    cancelledCount c l = cancelledCount c m := (h.filter _).length_eq

theorem cancelledCount_cons {c : List Nat} {x : Nat × Int} {l : List (Nat × Int)} :
    cancelledCount c (x :: l) = (if x.1 ∈ c then 1 else 0) + cancelledCount c l := by
  simp only [cancelledCount, List.filter_cons]
  by_cases h : x.1 ∈ c
  · simp [h]; omega
  · simp [h]

theorem dropCancelled_spec {h : Heap} (L : h.Laws) (c : List Nat) : ∀ (fuel : Nat) (xs : List (Nat × Int)) (n : Int),
    xs.length ≤ fuel → L.isHeap xs → n = cancelledCount c xs →
    let r := dropCancelled h c fuel xs n
    L.isHeap r.1 ∧ r.2 = cancelledCount c r.1 ∧ (∃ d, (r.1 ++ d).Perm xs ∧ ∀ y ∈ d, y.1 ∈ c) ∧
      ∀ y ys, r.1 = y :: ys → y.1 ∉ c := by
  intro fuel
  induction fuel with
  | zero =>
    intro xs n hl hh hn
    have : xs = [] := List.length_eq_zero_iff.mp (by omega)
    subst this
    exact ⟨hh, hn, ⟨[], by simp [dropCancelled], by simp⟩, by simp [dropCancelled]⟩
  | succ fuel ih =>
    intro xs n hl hh hn
    cases xs with
    | nil => exact ⟨hh, hn, ⟨[], by simp [dropCancelled], by simp⟩, by simp [dropCancelled]⟩
    | cons x xs =>
      by_cases hx : x.1 ∈ c
      · obtain ⟨h1, h2⟩ := L.pop hh
        have hlen := h2.length_eq
        have := ih (h.pop (x :: xs)) (n - 1) (by simp at hl; omega) h1 (by
          rw [cancelledCount_perm h2, hn]; simp [cancelledCount, List.filter_cons, hx])
        simp only [dropCancelled, hx, if_true]
        obtain ⟨i1, i2, ⟨d, i3, i4⟩, i5⟩ := this
        refine ⟨i1, i2, ⟨x :: d, ?_, ?_⟩, i5⟩
        · exact List.perm_middle.trans ((i3.trans h2).cons x)
        · intro y hy
          rcases List.mem_cons.mp hy with hy | hy
          · rw [hy]; exact hx
          · exact i4 y hy
      · simp only [dropCancelled, hx, if_false]
        refine ⟨hh, hn, ⟨[], by simp, by simp⟩, ?_⟩
        intro y ys he; cases he; exact hx

/-- What the clean-up does: cancelled timers are dropped, and the first of the rest is not cancelled. -/
theorem cleanUp_spec {h : Heap} (L : h.Laws) (s : State) (hh : L.isHeap s.scheduled)
    (hc : s.count = cancelledCount s.cancelled s.scheduled) :
    ∃ scheduled count d, s.cleanUp h = { s with scheduled, count } ∧ L.isHeap scheduled ∧
      count = cancelledCount s.cancelled scheduled ∧ (scheduled ++ d).Perm s.scheduled ∧
      (∀ y ∈ d, y.1 ∈ s.cancelled) ∧ ∀ y ys, scheduled = y :: ys → y.1 ∉ s.cancelled := by
  unfold State.cleanUp
  split
  · obtain ⟨h1, h2⟩ := L.heapify (s.scheduled.filter (·.1 ∉ s.cancelled))
    refine ⟨_, _, s.scheduled.filter (fun x => !(decide (x.1 ∉ s.cancelled))), rfl, h1, ?_, ?_, ?_, ?_⟩
    · rw [cancelledCount_perm h2]
      have : ((s.scheduled.filter (·.1 ∉ s.cancelled)).filter (·.1 ∈ s.cancelled)) = [] := by
        rw [List.filter_filter, List.filter_eq_nil_iff]; intro a _; simp
      simp only [cancelledCount]; rw [this]; rfl
    · exact (h2.append_right _).trans (List.filter_append_perm _ _)
    · intro y hy; simpa using (List.mem_filter.mp hy).2
    · intro y ys he
      have : y ∈ s.scheduled.filter (·.1 ∉ s.cancelled) := h2.subset (by rw [he]; simp)
      simpa using (List.mem_filter.mp this).2
  · obtain ⟨h1, h2, ⟨d, h3, h4⟩, h5⟩ := dropCancelled_spec L s.cancelled _ _ _ (Nat.le_refl _) hh hc
    exact ⟨_, _, d, rfl, h1, h2, h3, h4, h5⟩

structure Inv {h : Heap} (L : h.Laws) (s : State) : Prop where
  heap : L.isHeap s.scheduled
  count : s.count = cancelledCount s.cancelled s.scheduled
  /-- a handle is in at most one place -/
  nodup : (s.scheduled.map (·.1) ++ s.ready.map (·.1) ++ s.log.map (·.id)).Nodup
  cancelledBound : ∀ i ∈ s.cancelled, i < s.made.length
  /-- no handle is lost -/
  placed : ∀ i, i < s.made.length → i ∈ s.cancelled ∨ i ∈ s.scheduled.map (·.1) ∨ i ∈ s.ready.map (·.1) ∨
    i ∈ s.log.map (·.id)
  todo : ∀ k, s.todo = some k → k ≤ s.ready.length
  idle : s.todo = none → s.inCallback = false
  scheduled : ∀ y ∈ s.scheduled, ∃ c, s.made[y.1]? = some (some y.2, c) ∧ c ≤ s.time ∧ s.time ≤ max y.2 c
  soon : ∀ i, (i, none) ∈ s.ready → s.made[i]? = some (none, s.time)
  timer : ∀ i w, (i, some w) ∈ s.ready → s.ready = [(i, some w)] ∧ s.todo = some 1 ∧ s.inCallback = false ∧
    i ∉ s.cancelled ∧ (∃ c, s.made[i]? = some (some w, c) ∧ s.time = max w c) ∧ (∀ y ∈ s.scheduled, w ≤ y.2) ∧
    ∀ e ∈ s.log, ∀ v, e.due = some v → i < e.known → v ≤ w
  log : ∀ e ∈ s.log, ∃ c, s.made[e.id]? = some (e.due, c) ∧ e.known ≤ s.made.length ∧
    e.time = match e.due with | some w => max w c | none => c
  /-- timers that were known when a timer ran are due no earlier -/
  later : ∀ e ∈ s.log, ∀ v, e.due = some v → ∀ y ∈ s.scheduled, y.1 < e.known → v ≤ y.2
  order : s.log.Pairwise fun a b => ∀ v w, a.due = some v → b.due = some w → b.id < a.known → v ≤ w
  times : s.log.Pairwise fun a b => a.time ≤ b.time
  now : ∀ e ∈ s.log, e.time ≤ s.time
  fifo : ((s.log.filter (·.due.isNone)).map (·.id) ++ (s.ready.filter (·.2.isNone)).map (·.1)).Pairwise (· < ·)

theorem inv_init {h : Heap} (L : h.Laws) : Inv L init :=
  ⟨L.nil, rfl, by simp [init], by simp [init], by simp [init], by simp [init], by simp [init], by simp [init],
    by simp [init], by simp [init], by simp [init], by simp [init], by simp [init], by simp [init], by simp [init],
    by simp [init]⟩

/-- Every number in use is that of a handle. -/
theorem Inv.bound {h : Heap} {L : h.Laws} {s : State} (I : Inv L s) :
    ∀ i ∈ s.scheduled.map (·.1) ++ s.ready.map (·.1) ++ s.log.map (·.id), i < s.made.length := by
  intro i hi
  simp only [List.mem_append, List.mem_map] at hi
  rcases hi with (⟨y, hy, rfl⟩ | ⟨y, hy, rfl⟩) | ⟨e, he, rfl⟩
  · obtain ⟨c, hc, _⟩ := I.scheduled y hy
    exact (List.getElem?_eq_some_iff.mp hc).1
  · obtain ⟨i, d⟩ := y
    cases d with
    | none => exact (List.getElem?_eq_some_iff.mp (I.soon i hy)).1
    | some w =>
      obtain ⟨_, _, _, _, ⟨c, hc, _⟩, _⟩ := I.timer i w hy
      exact (List.getElem?_eq_some_iff.mp hc).1
  · obtain ⟨c, hc, _⟩ := I.log e he
    exact (List.getElem?_eq_some_iff.mp hc).1

/-- Cancelled timers may be dropped. -/
theorem Inv.shrink {h : Heap} {L : h.Laws} {s : State} (I : Inv L s) {scheduled : List (Nat × Int)} {count : Int} {d : List (Nat × Int)}
    (h1 : L.isHeap scheduled) (h2 : count = cancelledCount s.cancelled scheduled)
    (h3 : (scheduled ++ d).Perm s.scheduled) (h4 : ∀ y ∈ d, y.1 ∈ s.cancelled) :
    Inv L { s with scheduled, count } := by
  have hsub : ∀ y ∈ scheduled, y ∈ s.scheduled := fun y hy => h3.subset (List.mem_append_left _ hy)
  refine ⟨h1, h2, ?_, I.cancelledBound, ?_, I.todo, I.idle, fun y hy => I.scheduled y (hsub y hy), I.soon, ?_, I.log,
    fun e he v hv y hy => I.later e he v hv y (hsub y hy), I.order, I.times, I.now, I.fifo⟩
  · have hp : (scheduled.map (·.1) ++ (d.map (·.1) ++ (s.ready.map (·.1) ++ s.log.map (·.id)))).Perm
        (s.scheduled.map (·.1) ++ s.ready.map (·.1) ++ s.log.map (·.id)) := by
      rw [← List.append_assoc, ← List.map_append, List.append_assoc]
      exact (h3.map _).append_right _
    have hn := hp.nodup_iff.mpr I.nodup
    have : (scheduled.map (·.1) ++ (s.ready.map (·.1) ++ s.log.map (·.id))).Sublist
        (scheduled.map (·.1) ++ (d.map (·.1) ++ (s.ready.map (·.1) ++ s.log.map (·.id)))) :=
      (List.Sublist.refl _).append (List.sublist_append_right _ _)
    rw [List.append_assoc]
    exact this.nodup hn
  · intro i hi
    rcases I.placed i hi with h | h | h | h
    · exact .inl h
    · obtain ⟨y, hy, rfl⟩ := List.mem_map.mp h
      rcases List.mem_append.mp (h3.mem_iff.mpr hy) with hy | hy
      · exact .inr (.inl (List.mem_map.mpr ⟨y, hy, rfl⟩))
      · exact .inl (h4 y hy)
    · exact .inr (.inr (.inl h))
    · exact .inr (.inr (.inr h))
  · intro i w hi
    obtain ⟨a, b, c, d, e, f, g⟩ := I.timer i w hi
    exact ⟨a, b, c, d, e, fun y hy => f y (hsub y hy), g⟩

theorem inv_step {h : Heap} (L : h.Laws) (s : State) (l : Label) (s' : State) (I : Inv L s)
    (hs : step h s l = some s') : Inv L s' := by
  have hnotimer : s.userCode = true → ∀ i w, (i, some w) ∉ s.ready := by
    intro hu i w hi
    obtain ⟨_, h2, h3, _⟩ := I.timer i w hi
    simp [State.userCode, h2, h3] at hu
  have hnew : s.made.length ∉ s.scheduled.map (·.1) ++ s.ready.map (·.1) ++ s.log.map (·.id) :=
    fun hh => Nat.lt_irrefl _ (I.bound _ hh)
  cases l with
  | callSoon =>
    simp only [step] at hs
    split at hs <;> cases hs
    rename_i hu
    refine ⟨I.heap, I.count, ?_, ?_, ?_, ?_, I.idle, ?_, ?_, ?_, ?_, I.later, I.order, I.times, I.now, ?_⟩
    · have hp : (s.scheduled.map (·.1) ++ (s.ready ++ [((s.made.length, none) : Nat × Option Int)]).map (·.1) ++ s.log.map (·.id)).Perm
          (s.made.length :: (s.scheduled.map (·.1) ++ s.ready.map (·.1) ++ s.log.map (·.id))) := by
        rw [List.map_append, ← List.append_assoc, List.append_assoc (s.scheduled.map (·.1) ++ s.ready.map (·.1))]
        exact List.perm_middle
      exact hp.nodup_iff.mpr (List.nodup_cons.mpr ⟨hnew, I.nodup⟩)
    · intro i hi
      have := I.cancelledBound i hi
      simp only [List.length_append, List.length_singleton]; omega
    · intro i hi
      simp only [List.length_append, List.length_singleton] at hi
      by_cases he : i = s.made.length
      · right; right; left; simp [he]
      · rcases I.placed i (by omega) with h | h | h | h
        · exact .inl h
        · exact .inr (.inl h)
        · exact .inr (.inr (.inl (by rw [List.map_append]; exact List.mem_append_left _ h)))
        · exact .inr (.inr (.inr h))
    · intro k hk
      have := I.todo k hk
      simp only [List.length_append, List.length_singleton]; omega
    · intro y hy
      obtain ⟨c, hc, hc2⟩ := I.scheduled y hy
      exact ⟨c, prefix_get hc, hc2⟩
    · intro i hi
      rcases List.mem_append.mp hi with hi | hi
      · exact prefix_get (I.soon i hi)
      · simp at hi; subst hi; simp
    · intro i w hi
      rcases List.mem_append.mp hi with hi | hi
      · exact absurd hi (hnotimer hu i w)
      · simp at hi
    · intro e he
      obtain ⟨c, hc, hk, ht⟩ := I.log e he
      refine ⟨c, prefix_get hc, ?_, ht⟩
      simp only [List.length_append, List.length_singleton]; omega
    · rw [List.filter_append, List.map_append, ← List.append_assoc]
      refine List.pairwise_append.mpr ⟨I.fifo, by simp, ?_⟩
      intro a ha b hb
      simp at hb; subst hb
      apply I.bound
      simp only [List.mem_append, List.mem_map, List.mem_filter] at ha ⊢
      rcases ha with ⟨e, ⟨he, _⟩, rfl⟩ | ⟨e, ⟨he, _⟩, rfl⟩
      · exact .inr ⟨e, he, rfl⟩
      · exact .inl (.inr ⟨e, he, rfl⟩)
  | callAt w =>
    simp only [step] at hs
    split at hs <;> cases hs
    rename_i hu
    obtain ⟨hp1, hp2⟩ := L.push (s.made.length, w) I.heap
    have hmem : ∀ y, y ∈ h.push s.scheduled (s.made.length, w) ↔ y = (s.made.length, w) ∨ y ∈ s.scheduled := by
      intro y; rw [hp2.mem_iff, List.mem_cons]
    refine ⟨hp1, ?_, ?_, ?_, ?_, I.todo, I.idle, ?_, ?_, ?_, ?_, ?_, I.order, I.times, I.now, I.fifo⟩
    · have hnc : s.made.length ∉ s.cancelled := fun hh => Nat.lt_irrefl _ (I.cancelledBound _ hh)
      rw [cancelledCount_perm hp2]
      simp only [cancelledCount, List.filter_cons, hnc]
      exact I.count
    · have hp : ((h.push s.scheduled (s.made.length, w)).map (·.1) ++ s.ready.map (·.1) ++ s.log.map (·.id)).Perm
          (s.made.length :: (s.scheduled.map (·.1) ++ s.ready.map (·.1) ++ s.log.map (·.id))) := by
        rw [List.append_assoc, List.append_assoc]
        exact (hp2.map (·.1)).append_right _
      exact hp.nodup_iff.mpr (List.nodup_cons.mpr ⟨hnew, I.nodup⟩)
    · intro i hi
      have := I.cancelledBound i hi
      simp only [List.length_append, List.length_singleton]; omega
    · intro i hi
      simp only [List.length_append, List.length_singleton] at hi
      by_cases he : i = s.made.length
      · right; left; exact List.mem_map.mpr ⟨_, (hmem _).mpr (.inl rfl), he.symm⟩
      · rcases I.placed i (by omega) with h | h | h | h
        · exact .inl h
        · obtain ⟨y, hy, rfl⟩ := List.mem_map.mp h
          exact .inr (.inl (List.mem_map.mpr ⟨y, (hmem _).mpr (.inr hy), rfl⟩))
        · exact .inr (.inr (.inl h))
        · exact .inr (.inr (.inr h))
    · intro y hy
      rcases (hmem y).mp hy with rfl | hy
      · refine ⟨s.time, by simp, Int.le_refl _, ?_⟩
        dsimp only; omega
      · obtain ⟨c, hc, hc2⟩ := I.scheduled y hy
        exact ⟨c, prefix_get hc, hc2⟩
    · intro i hi; exact prefix_get (I.soon i hi)
    · intro i w' hi; exact absurd hi (hnotimer hu i w')
    · intro e he
      obtain ⟨c, hc, hk, ht⟩ := I.log e he
      refine ⟨c, prefix_get hc, ?_, ht⟩
      simp only [List.length_append, List.length_singleton]; omega
    · intro e he v hv y hy hlt
      rcases (hmem y).mp hy with rfl | hy
      · obtain ⟨c, hc, hk, _⟩ := I.log e he
        dsimp only at hlt; omega
      · exact I.later e he v hv y hy hlt
  | cancel i =>
    simp only [step] at hs
    split at hs
    · rename_i hu
      split at hs <;> cases hs
      · exact I
      · rename_i hni
        refine ⟨I.heap, ?_, I.nodup, ?_, ?_, I.todo, I.idle, I.scheduled, I.soon, ?_, I.log, I.later, I.order, I.times,
          I.now, I.fifo⟩
        · -- the number of cancelled timers
          have hnd : (s.scheduled.map (·.1)).Nodup := by
            have := I.nodup; rw [List.append_assoc] at this; exact (List.nodup_append.mp this).1
          have key : ∀ l : List (Nat × Int), (l.map (·.1)).Nodup →
              cancelledCount (i :: s.cancelled) l = cancelledCount s.cancelled l + if i ∈ l.map (·.1) then 1 else 0 := by
            intro l
            induction l with
            | nil => intro _; rfl
            | cons x l ih =>
              intro hd
              rw [List.map_cons, List.nodup_cons] at hd
              have := ih hd.2
              rw [cancelledCount_cons, cancelledCount_cons, this]
              by_cases hx : x.1 = i
              · have h1 : i ∉ l.map (·.1) := hx ▸ hd.1
                have h2 : x.1 ∉ s.cancelled := hx ▸ hni
                rw [if_pos (by simp [hx]), if_neg h2, if_neg h1, if_pos (by simp [hx])]; omega
              · have h1 : i ∈ (x :: l).map (·.1) ↔ i ∈ l.map (·.1) := by
                  rw [List.map_cons, List.mem_cons]; exact ⟨fun h => h.resolve_left (fun hh => hx hh.symm), .inr⟩
                have h2 : x.1 ∈ i :: s.cancelled ↔ x.1 ∈ s.cancelled := by
                  rw [List.mem_cons]; exact ⟨fun h => h.resolve_left hx, .inr⟩
                simp only [h1, h2]; omega
          have := key s.scheduled hnd
          have hc := I.count
          dsimp only
          split
          · rename_i hin; rw [if_pos hin] at this; omega
          · rename_i hin; rw [if_neg hin] at this; omega
        · intro j hj
          rcases List.mem_cons.mp hj with rfl | hj
          · exact hu.2
          · exact I.cancelledBound j hj
        · intro j hj
          rcases I.placed j hj with h | h
          · exact .inl (List.mem_cons_of_mem _ h)
          · exact .inr h
        · intro j w hj; exact absurd hj (hnotimer hu.1 j w)
    · cases hs
  | runOnce =>
    simp only [step] at hs
    split at hs
    · rename_i ht
      cases hs
      obtain ⟨scheduled, count, d, he, h1, h2, h3, h4, h5⟩ := cleanUp_spec L s I.heap I.count
      have J := I.shrink h1 h2 h3 h4
      rw [he]
      have hnt : ∀ i w, (i, some w) ∉ s.ready := by
        apply hnotimer; simp [State.userCode, ht]
      cases hsc : scheduled with
      | nil =>
        rw [hsc] at J
        simp only [State.advance]
        refine ⟨J.heap, J.count, J.nodup, J.cancelledBound, J.placed, ?_, by simp, J.scheduled, J.soon,
          fun i w hi => absurd hi (hnt i w), J.log, J.later, J.order, J.times, J.now, J.fifo⟩
        intro k hk; cases hk; exact Nat.le_refl _
      | cons x xs =>
        rw [hsc] at J
        cases hr : s.ready with
        | cons r rs =>
          simp only [State.advance, hr]
          have J' := J
          simp only [hr] at J'
          refine ⟨J'.heap, J'.count, J'.nodup, J'.cancelledBound, J'.placed, ?_, by simp, J'.scheduled, J'.soon,
            fun i w hi => absurd (by rw [hr]; exact hi) (hnt i w), J'.log, J'.later, J'.order, J'.times, J'.now, J'.fifo⟩
          intro k hk; cases hk; exact Nat.le_refl _
        | nil =>
          simp only [State.advance, hr]
          obtain ⟨hp1, hp2⟩ := L.pop J.heap
          have hmin := L.min J.heap
          have hmem : ∀ y, y ∈ h.pop (x :: xs) → y ∈ x :: xs := fun y hy =>
            List.mem_cons_of_mem _ (hp2.subset hy)
          obtain ⟨cx, hcx, hcx1, hcx2⟩ := J.scheduled x (by simp)
          have hxc : x.1 ∉ s.cancelled := h5 x xs hsc
          dsimp only at hcx hcx1 hcx2
          refine ⟨hp1, ?_, ?_, J.cancelledBound, ?_, ?_, by simp, ?_, ?_, ?_, J.log, ?_, J.order, J.times, ?_, ?_⟩
          · have := J.count
            simp only [cancelledCount, List.filter_cons, hxc] at this
            rw [cancelledCount_perm hp2]; exact this
          · have := J.nodup
            dsimp only at this
            rw [hr] at this
            have hp : ((h.pop (x :: xs)).map (·.1) ++ [x.1] ++ s.log.map (·.id)).Perm
                ((x :: xs).map (·.1) ++ [] ++ s.log.map (·.id)) := by
              rw [List.append_nil]
              refine List.Perm.append_right _ ?_
              rw [List.map_cons]
              exact ((hp2.map (fun y => y.1)).append_right [x.1]).trans (List.perm_append_singleton _ _)
            exact hp.nodup_iff.mpr this
          · intro i hi
            rcases J.placed i hi with h | h | h | h
            · exact .inl h
            · rw [List.map_cons] at h
              rcases List.mem_cons.mp h with h | h
              · exact .inr (.inr (.inl (by simp [h])))
              · exact .inr (.inl ((hp2.map (·.1)).mem_iff.mpr h))
            · dsimp only at h; rw [hr] at h; cases h
            · exact .inr (.inr (.inr h))
          · intro k hk; cases hk; exact Nat.le_refl _
          · intro y hy
            obtain ⟨c, hc, hc1, hc2⟩ := J.scheduled y (hmem y hy)
            have := hmin y (hp2.subset hy)
            dsimp only at hc hc1 hc2 ⊢
            exact ⟨c, hc, by omega, by omega⟩
          · intro i hi; simp at hi
          · intro i w hi
            simp only [List.mem_singleton, Prod.mk.injEq, Option.some.injEq] at hi
            obtain ⟨rfl, rfl⟩ := hi
            refine ⟨rfl, rfl, rfl, hxc, ⟨cx, hcx, ?_⟩, fun y hy => hmin y (hp2.subset hy),
              fun e he v hv hk => J.later e he v hv x (by simp) hk⟩
            dsimp only; omega
          · intro e he v hv y hy hk; exact J.later e he v hv y (hmem y hy) hk
          · intro e he
            have := J.now e he
            dsimp only at this ⊢; omega
          · have := J.fifo
            dsimp only at this
            rw [hr] at this
            simpa using this
    · cases hs
  | next =>
    simp only [step] at hs
    split at hs
    · rename_i k i due ready ht hr
      have htodo := I.todo _ ht
      rw [hr] at htodo
      simp only [List.length_cons] at htodo
      have hsub : ∀ y ∈ ready, y ∈ s.ready := fun y hy => by rw [hr]; exact List.mem_cons_of_mem _ hy
      have htimer : ∀ j w, (j, some w) ∉ ready := by
        intro j w hj
        obtain ⟨h1, _⟩ := I.timer j w (hsub _ hj)
        rw [hr] at h1
        injection h1 with _ h1
        subst h1; cases hj
      have hnd := I.nodup
      rw [hr, List.map_cons] at hnd
      have hp : (s.scheduled.map (·.1) ++ (i :: ready.map (·.1)) ++ s.log.map (·.id)).Perm
          (i :: (s.scheduled.map (·.1) ++ ready.map (·.1) ++ s.log.map (·.id))) := by
        rw [List.append_assoc, List.append_assoc]; exact List.perm_middle
      have hnd2 := List.nodup_cons.mp (hp.nodup_iff.mp hnd)
      have hfifo := I.fifo
      rw [hr, List.filter_cons] at hfifo
      split at hs
      · rename_i hc
        cases hs
        refine ⟨I.heap, I.count, hnd2.2, I.cancelledBound, ?_, ?_, by simp, I.scheduled,
          fun j hj => I.soon j (hsub _ hj), fun j w hj => absurd hj (htimer j w), I.log, I.later, I.order, I.times, I.now,
          ?_⟩
        · intro j hj
          rcases I.placed j hj with h | h | h | h
          · exact .inl h
          · exact .inr (.inl h)
          · rw [hr, List.map_cons] at h
            rcases List.mem_cons.mp h with h | h
            · rw [h]; exact .inl hc
            · exact .inr (.inr (.inl h))
          · exact .inr (.inr (.inr h))
        · intro k' hk; cases hk; dsimp only; omega
        · refine List.Pairwise.sublist ?_ hfifo
          refine (List.Sublist.refl _).append (List.Sublist.map _ ?_)
          split
          · exact List.sublist_cons_self _ _
          · exact List.Sublist.refl _
      · rename_i hc
        cases hs
        have hin : (i, due) ∈ s.ready := by rw [hr]; simp
        refine ⟨I.heap, I.count, ?_, I.cancelledBound, ?_, ?_, by simp, I.scheduled,
          fun j hj => I.soon j (hsub _ hj), fun j w hj => absurd hj (htimer j w), ?_, ?_, ?_, ?_, ?_, ?_⟩
        · have hp' : (s.scheduled.map (·.1) ++ ready.map (·.1) ++
              (s.log ++ [(⟨i, due, s.time, s.made.length⟩ : Entry)]).map (·.id)).Perm
              (i :: (s.scheduled.map (·.1) ++ ready.map (·.1) ++ s.log.map (·.id))) := by
            rw [List.map_append, ← List.append_assoc]
            exact List.perm_append_singleton _ _
          exact hp'.nodup_iff.mpr (List.nodup_cons.mpr hnd2)
        · intro j hj
          rcases I.placed j hj with h | h | h | h
          · exact .inl h
          · exact .inr (.inl h)
          · rw [hr, List.map_cons] at h
            rcases List.mem_cons.mp h with h | h
            · exact .inr (.inr (.inr (by simp [h])))
            · exact .inr (.inr (.inl h))
          · exact .inr (.inr (.inr (by rw [List.map_append]; exact List.mem_append_left _ h)))
        · intro k' hk; cases hk; dsimp only; omega
        · intro e he
          rcases List.mem_append.mp he with he | he
          · exact I.log e he
          · simp only [List.mem_singleton] at he
            subst he
            cases due with
            | none => exact ⟨s.time, I.soon i hin, Nat.le_refl _, rfl⟩
            | some w =>
              obtain ⟨_, _, _, _, ⟨c, hc1, hc2⟩, _⟩ := I.timer i w hin
              exact ⟨c, hc1, Nat.le_refl _, hc2⟩
        · intro e he v hv y hy hk
          rcases List.mem_append.mp he with he | he
          · exact I.later e he v hv y hy hk
          · simp only [List.mem_singleton] at he
            subst he
            cases hv
            obtain ⟨_, _, _, _, _, h6, _⟩ := I.timer i v hin
            exact h6 y hy
        · refine List.pairwise_append.mpr ⟨I.order, by simp, ?_⟩
          intro a ha b hb v w hv hw hk
          simp only [List.mem_singleton] at hb
          subst hb
          cases hw
          obtain ⟨_, _, _, _, _, _, h7⟩ := I.timer i w hin
          exact h7 a ha v hv hk
        · refine List.pairwise_append.mpr ⟨I.times, by simp, ?_⟩
          intro a ha b hb
          simp only [List.mem_singleton] at hb
          subst hb
          exact I.now a ha
        · intro e he
          rcases List.mem_append.mp he with he | he
          · exact I.now e he
          · simp only [List.mem_singleton] at he
            subst he; exact Int.le_refl _
        · cases due with
          | none =>
            simp only [Option.isNone_none, if_true, List.map_cons] at hfifo
            simpa [List.filter_append] using hfifo
          | some w =>
            simp only [Option.isNone_some] at hfifo
            simpa [List.filter_append] using hfifo
    · cases hs
  | done =>
    simp only [step] at hs
    split at hs
    · rename_i ht
      cases hs
      refine ⟨I.heap, I.count, I.nodup, I.cancelledBound, I.placed, by simp, fun _ => rfl, I.scheduled, I.soon, ?_, I.log,
        I.later, I.order, I.times, I.now, I.fifo⟩
      intro i w hi
      obtain ⟨_, h2, _⟩ := I.timer i w hi
      rw [ht] at h2; cases h2
    · cases hs

theorem inv_run {h : Heap} (L : h.Laws) {ls : List Label} {s : State} (hr : LTS.run (step h) init ls = some s) : Inv L s :=
  LTS.inv (Inv L) (inv_init L) (inv_step L) hr

end Aio.VirtualTime
