import Verif.Lemmas.Merge
/-!
# C35 - C40: merge_inner, concat

`LTS.run (mergeInner m).next (mergeInner m).start ls = some s`: the subscription was run under the
schedule `ls` - source, inner observables, worker, safe observer and disposal in any order - and is now
in state `s`. `s.received` are the calls the subscriber's observer got.
-/

namespace Aio.Merge
open Spec Producer
variable {ω α : Type} {mx : Int}

theorem solo_of {ls : List (Producer.Label (Label ω α))} {s : Producer.State (State ω) α}
    (hr : LTS.run (mergeInner mx).next (mergeInner mx).start ls = some s) :
    LTS.run (mergeInner mx).solo (State.initial, []) (owns ls) = some (s.src, s.posts) :=
  solo_run _ (fun _ => rfl) hr

theorem update_out (s : State ω) (msg : Msg ω) :
    (update (α := α) mx s msg).2 = [] ∨ (update (α := α) mx s msg).2 = [.completed] := by
  cases msg with
  | inner xs => simp only [update]; split <;> simp
  | innerCompleted k =>
    simp only [update]
    split
    · simp
    · split
      · simp
      · dsimp only; split <;> simp
  | completed => simp only [update]; split <;> simp
  | dispose => simp only [update]; split <;> simp

/-- what a step posts is what arrives, or (the worker) completion -/
theorem step_out {s s' : State ω} {l : Label ω α} {o : List (Notif α)}
    (h : step mx s l = some (s', o)) : o = arrivals [l] ∨
      (l = .receive ∧ s.pc = .waiting ∧ o = [.completed]) := by
  cases l with
  | outer n => cases n <;> (simp only [step, Option.some.injEq, Prod.mk.injEq] at h; obtain ⟨-, rfl⟩ := h; exact .inl rfl)
  | inner k n =>
    simp only [step] at h
    split at h
    · cases n <;> (simp only [Option.some.injEq, Prod.mk.injEq] at h; obtain ⟨-, rfl⟩ := h; exact .inl rfl)
    · cases h
  | cancel => simp only [step, Option.some.injEq, Prod.mk.injEq] at h; obtain ⟨-, rfl⟩ := h; exact .inl rfl
  | receive =>
    simp only [step] at h
    split at h
    next msg q hp hq =>
      simp only [Option.some.injEq] at h
      have := update_out (α := α) (mx := mx) { s with inbox := q } msg
      rw [h] at this
      rcases this with h1 | h1
      · exact .inl h1
      · exact .inr ⟨rfl, hp, h1⟩
    next => cases h
  | subscribed => simp only [step] at h; split at h <;> simp at h; obtain ⟨-, rfl⟩ := h; exact .inl rfl
  | subscribeFails => simp only [step] at h; split at h <;> simp at h; obtain ⟨-, rfl⟩ := h; exact .inl rfl
  | disposed =>
    simp only [step] at h; split at h <;> simp at h
    · obtain ⟨-, rfl⟩ := h; exact .inl rfl
    · obtain ⟨-, rfl⟩ := h; exact .inl rfl
  | disposeFails => simp only [step] at h; split at h <;> simp at h; obtain ⟨-, rfl⟩ := h; exact .inl rfl

/-- completion is the last thing posted -/
theorem posts_shape {ls : List (Label ω α)} {s : State ω} {posts : List (Notif α)} (hm : 0 ≤ mx)
    (hr : LTS.run (mergeInner mx).solo (State.initial, []) ls = some (s, posts)) (hw : Lawful ls) :
    posts = arrivals ls ∨ posts = arrivals ls ++ [.completed] := by
  refine LTS.inv_reach (fun ls (c : State ω × List (Notif α)) => Lawful ls →
    c.2 = arrivals ls ∨ c.2 = arrivals ls ++ [.completed]) (fun _ => .inl rfl) ?_ hr hw
  rintro ls ⟨s, posts⟩ l ⟨s', posts'⟩ hr ih hs hw
  simp only [Producer.solo, mergeInner, Option.map_eq_some_iff, Prod.mk.injEq] at hs
  obtain ⟨⟨t, o⟩, h1, -, rfl⟩ := hs
  have hinv := inv_run hr hw.of_append
  dsimp only at ih ⊢
  rw [arrivals_snoc]
  rcases ih hw.of_append with rfl | hp
  · rcases step_out h1 with rfl | ⟨rfl, -, rfl⟩
    · exact .inl rfl
    · exact .inr (by simp [arrivals])
  · have hc : .completed ∈ posts := by rw [hp]; simp
    have hnal : s.alive = false := by
      cases h : s.alive with
      | false => rfl
      | true => exact absurd hc (hinv.live h).nodone
    obtain ⟨d1, d2, d3⟩ := (hinv.dead hnal).done hm hc
    have harr : arrivals [l] = [] := by
      have ho := hw.outer
      have hi := hw.inner
      rw [outerCalls_snoc] at ho
      cases l with
      | outer n =>
        exfalso
        have : (story (outerCalls ls)).fin = .done := d1
        rw [grammar_snoc ho] at this; cases this
      | inner k n =>
        exfalso
        have hk := hi k
        rw [innerCalls_snoc] at hk
        simp only [if_true] at hk
        have hlt : k < s.started.length := by
          simp only [step] at h1
          split at h1
          · assumption
          · cases h1
        have : (story (innerCalls k ls)).fin = .done := d3 k hlt
        rw [grammar_snoc hk] at this; cases this
      | _ => rfl
    rcases step_out h1 with rfl | ⟨rfl, hp, -⟩
    · rw [harr]; right; simpa using hp
    · simp [State.alive, hp] at hnal

/-! ## C35 -/

/-- C35. What the subscriber got, apart from the completion, is what the inner observables sent (and
the errors), in that order, up to and including the first error; all of it once the safe observer has
caught up. (A negative `max_concurrent` never subscribes to anything, see `C38_negative`.) -/
theorem C35_forwards {ls : List (Producer.Label (Label ω α))} {s : Producer.State (State ω) α}
    (hm : 0 ≤ mx) (hr : LTS.run (mergeInner mx).next (mergeInner mx).start ls = some s)
    (hn : NoRaise ls) (hw : Lawful (owns ls)) :
    noDone s.received <+: cut (arrivals (owns ls)) ∧
    (Safe.Drained s.safe → noDone s.received = cut (arrivals (owns ls))) := by
  have hc : noDone (cut s.posts) = cut (arrivals (owns ls)) := by
    rcases posts_shape hm (solo_of hr) hw with h | h
    · rw [h]
      exact noDone_of_not_mem fun hm => arrivals_noDone _ ((cut_prefix _).subset hm)
    · rw [h]; exact noDone_cut_snoc _ (arrivals_noDone _)
  obtain ⟨h1, h2⟩ := received_cut _ hr hn
  refine ⟨hc ▸ ?_, fun hd => by rw [h2 hd, hc]⟩
  obtain ⟨t, ht⟩ := h1
  rw [← ht, noDone_append]
  exact List.prefix_append ..

/-! ## C36 -/

/-- C36. At most `max_concurrent` inner observables are subscribed and not finished. -/
theorem C36_bound {ls : List (Producer.Label (Label ω α))} {s : Producer.State (State ω) α}
    (hm : 1 ≤ mx) (hr : LTS.run (mergeInner mx).next (mergeInner mx).start ls = some s)
    (hw : Lawful (owns ls)) : ((active (owns ls) s.src).length : Int) ≤ mx :=
  (inv_run (solo_of hr) hw).act (by omega)

/-! ## C37 -/

theorem started_prefix {ls : List (Label ω α)} {s : State ω} {posts : List (Notif α)}
    (hr : LTS.run (mergeInner mx).solo (State.initial, []) ls = some (s, posts)) (hw : Lawful ls) :
    s.started <+: sent ls := by
  have hi := inv_run hr hw
  cases h : s.alive with
  | true => exact (List.prefix_append _ _).trans (outer_read hw.outer (hi.live h).outer).1
  | false => exact (hi.dead h).pre

/-- C37. The inner observables are subscribed in the order in which the source sent them, none
skipped, none twice (also if the subscription is disposed or something fails: then the rest is not
subscribed). -/
theorem C37_order {ls : List (Producer.Label (Label ω α))} {s : Producer.State (State ω) α}
    (hr : LTS.run (mergeInner mx).next (mergeInner mx).start ls = some s) (hw : Lawful (owns ls)) :
    s.src.started <+: sent (owns ls) :=
  started_prefix (solo_of hr) hw

theorem settled_started {ls : List (Label ω α)} {s : State ω} {posts : List (Notif α)} (hm : 0 ≤ mx)
    (hr : LTS.run (mergeInner mx).solo (State.initial, []) ls = some (s, posts)) (hw : Lawful ls)
    (hf : NoFailure ls) (hs : ¬ Stopped ls) (hq : Settled s) :
    s.started = sent ls ∨ 0 < mx ∧ ((unfinished ls s).length : Int) = mx := by
  have hi := inv_run hr hw
  rcases hq with hp | ⟨hp, hq⟩
  · have hd := hi.dead (by simp [State.alive, hp])
    exact .inl (hd.done hm (hd.stop hf hp hs)).2.1
  · have hl := hi.live (by simp [State.alive, hp])
    by_cases he : s.queue = []
    · left
      have := hl.outer
      rw [he, hq, List.append_nil, outers, List.filterMap_nil, List.append_nil] at this
      have h2 := congrArg (fun ns => (story ns).vals) this
      simp only [story_map_next_append, (noErr_grammar (show Grammar (hist ls).outer from hw.outer)).2.1] at h2
      have h3 : (story (if s.stopped = true then [Notif.completed] else ([] : List (Notif ω)))).vals = [] := by
        split <;> rfl
      rw [h3, List.append_nil] at h2
      exact h2
    · right
      have hpos : 0 < mx := by
        rcases Int.lt_or_eq_of_le hm with h1 | h1
        · exact h1
        · exact absurd (hl.unbounded h1.symm) he
      refine ⟨hpos, ?_⟩
      rw [← (hl.slots hpos).2 he]
      have hids : ids s.inbox = [] := by rw [hq]; rfl
      have h1 : (unfinished ls s).length ≤ s.live.length := by
        refine length_le_of_subset (List.nodup_range.filter _) fun k hk => ?_
        simp only [unfinished, List.mem_filter, List.mem_range, decide_eq_true_eq] at hk
        exact Classical.byContradiction fun hn => hk.2 (hl.gone k hk.1 hn)
      have h2 : s.live.length ≤ (unfinished ls s).length := by
        refine length_le_of_subset hl.nodup fun k hk => ?_
        simp only [unfinished, List.mem_filter, List.mem_range, decide_eq_true_eq]
        refine ⟨hl.lt k hk, fun hd => ?_⟩
        have := hl.liveDone k hk hd
        rw [hids] at this; cases this
      omega

/-- C37. A waiting inner observable is subscribed as soon as a slot is free: when the worker has
caught up, all were subscribed, or all slots are taken by inner observables that have not completed. -/
theorem C37_prompt {ls : List (Producer.Label (Label ω α))} {s : Producer.State (State ω) α}
    (hm : 0 ≤ mx) (hr : LTS.run (mergeInner mx).next (mergeInner mx).start ls = some s)
    (hw : Lawful (owns ls)) (hf : NoFailure (owns ls)) (hs : ¬ Stopped (owns ls)) (hq : Settled s.src) :
    s.src.started = sent (owns ls) ∨
      0 < mx ∧ ((unfinished (owns ls) s.src).length : Int) = mx :=
  settled_started hm (solo_of hr) hw hf hs hq

/-! ### the worker always catches up -/

def weight (s : State ω) : Nat :=
  match s.pc with
  | .waiting => 3 * s.inbox.length + s.model.subs.length + 2
  | .subscribing m => 3 * s.inbox.length + m.subs.length + 4
  | .disposing ks => ks.length + 1
  | .halted => 0

theorem weight_continue (s : State ω) (m : Model ω) :
    weight (s.continue m) ≤ 3 * s.inbox.length + m.subs.length + 2 := by
  simp only [State.continue, weight]
  by_cases h : m.stopped = true ∧ m.subs = []
  · simp [h]
  · simp [h]

theorem weight_update (s : State ω) (msg : Msg ω) :
    weight (update (α := α) mx s msg).1 ≤ 3 * s.inbox.length + s.model.subs.length + 4 := by
  cases msg with
  | inner xs =>
    simp only [update]
    split
    · exact Nat.le_refl _
    · exact Nat.le_trans (weight_continue _ _) (by dsimp only; omega)
  | innerCompleted k =>
    have he := List.length_erase_le (a := k) (l := s.model.subs)
    simp only [update]
    split
    · show 3 * s.inbox.length + (s.model.subs.erase k).length + 4 ≤ _; omega
    · split
      · exact Nat.le_trans (weight_continue _ _) (by dsimp only; omega)
      · exact Nat.le_trans (weight_continue _ _) (by simp only [List.length_nil]; omega)
  | completed =>
    simp only [update]
    exact Nat.le_trans (weight_continue _ _) (by dsimp only; omega)
  | dispose =>
    simp only [update]
    split
    · exact Nat.le_trans (weight_continue _ _) (by simp only [Model.initial, List.length_nil]; omega)
    · show s.model.subs.length + 1 ≤ _; omega

/-- C37, C38. The worker cannot go on forever by itself ... -/
theorem C37_worker_terminates (s : State ω) :
    Acc (fun s' s => ∃ l : Label ω α, Worker l ∧ ∃ o, step mx s l = some (s', o)) s := by
  refine Subrelation.accessible ?_ ((InvImage.wf weight Nat.lt_wfRel.wf).apply s)
  rintro s' s ⟨l, hl, o, hs⟩
  simp only [InvImage]
  show weight s' < weight s
  cases l with
  | outer n => exact absurd hl id
  | inner k n => exact absurd hl id
  | cancel => exact absurd hl id
  | receive =>
    simp only [step] at hs
    split at hs
    next msg q hp hq =>
      simp only [Option.some.injEq] at hs
      have := weight_update (α := α) (mx := mx) { s with inbox := q } msg
      rw [hs] at this
      dsimp only at this
      rw [show weight s = 3 * (q.length + 1) + s.model.subs.length + 2 by simp [weight, hp, hq]]
      omega
    next => cases hs
  | subscribed =>
    simp only [step] at hs
    split at hs
    next m hp =>
      simp only [Option.some.injEq, Prod.mk.injEq] at hs
      rw [← hs.1]
      have := weight_continue s { m with subs := m.subs ++ [m.key], key := m.key + 1 }
      simp only [List.length_append, List.length_singleton] at this
      rw [show weight s = 3 * s.inbox.length + m.subs.length + 4 by simp [weight, hp]]
      omega
    next => cases hs
  | subscribeFails =>
    simp only [step] at hs
    split at hs
    next m hp =>
      simp only [Option.some.injEq, Prod.mk.injEq] at hs
      rw [← hs.1]
      simp [weight, hp]
    next => cases hs
  | disposed =>
    simp only [step] at hs
    split at hs
    next k k' rest hp =>
      simp only [Option.some.injEq, Prod.mk.injEq] at hs
      rw [← hs.1]
      simp [weight, hp]
    next k hp =>
      simp only [Option.some.injEq, Prod.mk.injEq] at hs
      rw [← hs.1]
      simp [weight, hp, State.continue, Model.initial]
    next => cases hs
  | disposeFails =>
    simp only [step] at hs
    split at hs
    next m hp =>
      simp only [Option.some.injEq, Prod.mk.injEq] at hs
      rw [← hs.1]
      simp [weight, hp]
    next => cases hs

theorem disposing_nonempty {ls : List (Label ω α)} {s : State ω} {posts : List (Notif α)}
    (hr : LTS.run (mergeInner mx).solo (State.initial, []) ls = some (s, posts)) :
    s.pc ≠ .disposing [] := by
  refine LTS.inv (fun c : State ω × List (Notif α) => c.1.pc ≠ .disposing []) (by simp [State.initial]) ?_ hr
  rintro ⟨s, posts⟩ l ⟨s', posts'⟩ ih hs
  simp only [Producer.solo, mergeInner, Option.map_eq_some_iff, Prod.mk.injEq] at hs
  obtain ⟨⟨t, o⟩, h1, rfl, -⟩ := hs
  dsimp only at ih h1 ⊢
  have hcont : ∀ (s : State ω) m, (s.continue m).pc ≠ .disposing [] := fun s m => by
    simp only [State.continue]; split <;> simp
  cases l with
  | outer n => cases n <;> (simp only [step, Option.some.injEq, Prod.mk.injEq] at h1; obtain ⟨rfl, -⟩ := h1; exact ih)
  | inner k n =>
    simp only [step] at h1
    split at h1
    · cases n <;> (simp only [Option.some.injEq, Prod.mk.injEq] at h1; obtain ⟨rfl, -⟩ := h1; exact ih)
    · cases h1
  | cancel => simp only [step, Option.some.injEq, Prod.mk.injEq] at h1; obtain ⟨rfl, -⟩ := h1; exact ih
  | receive =>
    simp only [step] at h1
    split at h1
    next msg q hp hq =>
      simp only [Option.some.injEq] at h1
      have h2 := congrArg Prod.fst h1
      dsimp only at h2
      rw [← h2]
      cases msg with
      | inner xs => simp only [update]; split; · simp [State.subscribe]
                    · exact hcont _ _
      | innerCompleted k =>
        simp only [update]
        split
        · simp [State.subscribe]
        · split <;> exact hcont _ _
      | completed => simp only [update]; exact hcont _ _
      | dispose =>
        simp only [update]
        split
        · exact hcont _ _
        · simpa using by assumption
    next => cases h1
  | subscribed => simp only [step] at h1; split at h1 <;> simp at h1; rw [← h1.1]; exact hcont _ _
  | subscribeFails => simp only [step] at h1; split at h1 <;> simp at h1; rw [← h1.1]; simp
  | disposed =>
    simp only [step] at h1; split at h1 <;> simp at h1
    · rw [← h1.1]; simp
    · rw [← h1.1]; exact hcont _ _
  | disposeFails => simp only [step] at h1; split at h1 <;> simp at h1; rw [← h1.1]; simp

/-- C37, C38. ... and as long as it is not settled it can go on (if the awaited `subscribe_async` and
`dispose_async` of the inner observables return). -/
theorem C37_worker_progress {ls : List (Producer.Label (Label ω α))} {s : Producer.State (State ω) α}
    (hr : LTS.run (mergeInner mx).next (mergeInner mx).start ls = some s) (hq : ¬ Settled s.src) :
    ∃ l : Label ω α, Worker l ∧ l ≠ .subscribeFails ∧ l ≠ .disposeFails ∧
      (step mx s.src l).isSome = true := by
  have hd := disposing_nonempty (solo_of hr)
  cases hp : s.src.pc with
  | waiting =>
    cases hi : s.src.inbox with
    | nil => exact absurd (.inr ⟨hp, hi⟩) hq
    | cons m q => exact ⟨.receive, trivial, by simp, by simp, by simp [step, hp, hi]⟩
  | subscribing m => exact ⟨.subscribed, trivial, by simp, by simp, by simp [step, hp]⟩
  | disposing ks =>
    match ks, hp with
    | [], hp => exact absurd hp hd
    | [k], hp => exact ⟨.disposed, trivial, by simp, by simp, by simp [step, hp]⟩
    | k :: k' :: rest, hp => exact ⟨.disposed, trivial, by simp, by simp, by simp [step, hp]⟩
  | halted => exact absurd (.inl hp) hq

/-! ## C38 -/

theorem completed_posted {ls : List (Label ω α)} {s : State ω} {posts : List (Notif α)} (hm : 0 ≤ mx)
    (hr : LTS.run (mergeInner mx).solo (State.initial, []) ls = some (s, posts)) (hw : Lawful ls)
    (hc : .completed ∈ posts) : (story (outerCalls ls)).fin = .done ∧ s.started = sent ls ∧
      ∀ k < s.started.length, fin k ls = .done := by
  have hi := inv_run hr hw
  have hnal : s.alive = false := by
    cases h : s.alive with
    | false => rfl
    | true => exact absurd hc (hi.live h).nodone
  exact (hi.dead hnal).done hm hc

/-- C38. Completion is delivered only after the source has completed and every inner observable it
sent has been subscribed and has completed. -/
theorem C38_only_when_done {ls : List (Producer.Label (Label ω α))} {s : Producer.State (State ω) α}
    (hm : 0 ≤ mx) (hr : LTS.run (mergeInner mx).next (mergeInner mx).start ls = some s)
    (hn : NoRaise ls) (hw : Lawful (owns ls)) (hc : .completed ∈ s.received) :
    (story (outerCalls (owns ls))).fin = .done ∧ s.src.started = sent (owns ls) ∧
      ∀ k < s.src.started.length, fin k (owns ls) = .done :=
  completed_posted hm (solo_of hr) hw
    ((cut_prefix _).subset ((received_cut _ hr hn).1.subset hc))

theorem settled_completed {ls : List (Label ω α)} {s : State ω} {posts : List (Notif α)} (hm : 0 ≤ mx)
    (hr : LTS.run (mergeInner mx).solo (State.initial, []) ls = some (s, posts)) (hw : Lawful ls)
    (hf : NoFailure ls) (hs : ¬ Stopped ls) (hq : Settled s)
    (ho : (story (outerCalls ls)).fin = .done) (hk : ∀ k < s.started.length, fin k ls = .done) :
    .completed ∈ posts := by
  have hi := inv_run hr hw
  rcases hq with hp | ⟨hp, hq⟩
  · exact (hi.dead (by simp [State.alive, hp])).stop hf hp hs
  · exfalso
    have hl := hi.live (by simp [State.alive, hp])
    have hids : ids s.inbox = [] := by rw [hq]; rfl
    have hlive : s.live = [] := by
      refine List.eq_nil_iff_forall_not_mem.mpr fun k hkl => ?_
      have := hl.liveDone k hkl (hk k (hl.lt k hkl))
      rw [hids] at this; cases this
    have hst : s.stopped = false := by
      cases h : s.stopped with
      | false => rfl
      | true => exact absurd hlive (hl.busy h)
    have := hl.outer
    rw [hst, hq] at this
    simp only [Bool.false_eq_true, if_false, outers, List.filterMap_nil, List.append_nil] at this
    have h2 := (noErr_grammar (show Grammar (hist ls).outer from hw.outer)).2.2.mpr ho
    rw [← this] at h2
    have h3 := story_map_next_append (s.started ++ s.queue) ([] : List (Notif ω))
    rw [List.append_nil] at h3
    rw [h3] at h2
    cases h2

theorem cut_all_done {ls : List (Label ω α)} (hw : Lawful ls)
    (ho : (story (outerCalls ls)).fin = .done) (hk : ∀ k e, .error e ∉ innerCalls k ls) :
    (story (arrivals ls)).fin = .running := by
  have hnoErr : ∀ e, .error e ∉ arrivals ls := by
    intro e he
    simp only [arrivals, List.mem_filterMap] at he
    obtain ⟨l, hl, h⟩ := he
    split at h <;> simp at h
    next k e' =>
      subst h
      exact hk k e' (List.mem_filterMap.mpr ⟨_, hl, by simp⟩)
    next e' =>
      subst h
      have h1 : .error e' ∈ outerCalls ls := List.mem_filterMap.mpr ⟨_, hl, rfl⟩
      obtain ⟨⟨vs, f⟩, hv⟩ := hw.outer
      rw [hv, story_events] at ho
      dsimp only at ho
      subst ho
      rw [hv] at h1
      simp at h1
  have key : ∀ ns : List (Notif α), (∀ e, .error e ∉ ns) → .completed ∉ ns → (story ns).fin = .running := by
    intro ns h1 h2
    induction ns with
    | nil => rfl
    | cons n ns ih =>
      cases n with
      | next v => exact ih (fun e he => h1 e (by simp [he])) (fun he => h2 (by simp [he]))
      | error e => exact absurd (by simp) (h1 e)
      | completed => exact absurd (by simp) h2
  exact key _ hnoErr (arrivals_noDone ls)

theorem noError_of_done {ls : List (Label ω α)} {k : Nat} (hw : Lawful ls)
    (hk : fin k ls = .done ∨ innerCalls k ls = []) : ∀ e, .error e ∉ innerCalls k ls := by
  intro e he
  rcases hk with hk | hk
  · obtain ⟨⟨vs, f⟩, hv⟩ := hw.inner k
    rw [fin, hv, story_events] at hk
    dsimp only at hk
    subst hk
    rw [hv] at he
    simp at he
  · rw [hk] at he; cases he

/-- C38. When the source has completed and all inner observables subscribed so far have completed,
then completion is delivered (exactly once, and it is the last call) as soon as the workers have caught
up. -/
theorem C38_when_done {ls : List (Producer.Label (Label ω α))} {s : Producer.State (State ω) α}
    (hm : 0 ≤ mx) (hr : LTS.run (mergeInner mx).next (mergeInner mx).start ls = some s)
    (hn : NoRaise ls) (hw : Lawful (owns ls)) (hf : NoFailure (owns ls)) (hs : ¬ Stopped (owns ls))
    (hq : Settled s.src) (hd : Safe.Drained s.safe)
    (ho : (story (outerCalls (owns ls))).fin = .done)
    (hk : ∀ k < s.src.started.length, fin k (owns ls) = .done) :
    s.received = arrivals (owns ls) ++ [.completed] := by
  have hc := settled_completed hm (solo_of hr) hw hf hs hq ho hk
  rw [(received_cut _ hr hn).2 hd]
  rcases posts_shape hm (solo_of hr) hw with h | h
  · rw [h] at hc; exact absurd hc (arrivals_noDone _)
  · have hrun : (story (arrivals (owns ls))).fin = .running := by
      refine cut_all_done hw ho fun k => noError_of_done hw ?_
      by_cases hlt : k < s.src.started.length
      · exact .inl (hk k hlt)
      · exact .inr ((inv_run (solo_of hr) hw).fresh k (by omega))
    rw [h, cut_append_of_running hrun, cut_completed]

/-- C38 depends on `max_concurrent >= 0`: with -1 the source's completion completes the stream although
the inner observable was never subscribed. -/
theorem C38_negative : ∃ ls s, LTS.run (mergeInner (ω := Nat) (α := Nat) (-1)).next (mergeInner (-1)).start ls = some s ∧
    s.received = [.completed] ∧ sent (owns ls) = [7] ∧ s.src.started = [] :=
  ⟨[.own (.outer (.next 7)), .own (.outer .completed), .own .receive, .own .receive, .receive, .ret, .ret],
    _, rfl, by decide, by decide, by decide⟩

/-! ## C39 -/

/-- C39. The first error of the source or of any inner observable is the last thing the subscriber
gets. -/
theorem C39_error_ends {ls : List (Producer.Label (Label ω α))} {s : Producer.State (State ω) α} {e : Err}
    (hm : 0 ≤ mx) (hr : LTS.run (mergeInner mx).next (mergeInner mx).start ls = some s)
    (hn : NoRaise ls) (hw : Lawful (owns ls)) (hd : Safe.Drained s.safe)
    (he : (story (arrivals (owns ls))).fin = .failed e) :
    s.received = (story (arrivals (owns ls))).vals.map .next ++ [.error e] := by
  rw [(received_cut _ hr hn).2 hd]
  rcases posts_shape hm (solo_of hr) hw with h | h
  · rw [h, cut, Story.events, he]; rfl
  · rw [h, cut_append_of_ended (by rw [he]; simp), cut, Story.events, he]; rfl

theorem released {ls : List (Label ω α)} {s : State ω} {posts : List (Notif α)}
    (hr : LTS.run (mergeInner mx).solo (State.initial, []) ls = some (s, posts)) (hw : Lawful ls)
    (hf : NoFailure ls) (hs : Stopped ls) (hq : Settled s) :
    (∀ k < s.started.length, fin k ls = .done ∨ k ∈ s.disposed) ∧ s.disposed.Nodup ∧
      s.pc = .halted := by
  have hi := inv_run hr hw
  rcases hq with hp | ⟨hp, hq⟩
  · have hd := hi.dead (by simp [State.alive, hp])
    have hdm : s.doomed = [] := by simp [State.doomed, hp]
    refine ⟨fun k hk => ?_, ?_, hp⟩
    · have := hd.released hf k hk
      rw [hdm] at this
      simp only [List.not_mem_nil, or_false] at this
      exact this
    · have := hd.disNodup.1
      rw [hdm, List.append_nil] at this
      exact this
  · have hl := hi.live (by simp [State.alive, hp])
    have := hl.nodisp.mp hs
    rw [hq] at this; cases this

/-- C39, the part that holds: when the source fails, every inner observable that was subscribed and has
not completed is disposed, once, and the worker has ended (so no further ones are subscribed). Missing: the same for an error of
an inner observable (`C39_violated`). -/
theorem C39_source_error_partial {ls : List (Producer.Label (Label ω α))}
    {s : Producer.State (State ω) α} {e : Err}
    (hr : LTS.run (mergeInner mx).next (mergeInner mx).start ls = some s) (hw : Lawful (owns ls))
    (hf : NoFailure (owns ls)) (he : .outer (.error e) ∈ owns ls) (hq : Settled s.src) :
    (∀ k < s.src.started.length, fin k (owns ls) = .done ∨ k ∈ s.src.disposed) ∧
      s.src.disposed.Nodup ∧ s.src.pc = .halted :=
  released (solo_of hr) hw hf (.inr ⟨e, he⟩) hq

/-- C39 is false for an error of an inner observable: the subscriber gets the error, all workers have
nothing left to do, and the other inner observable is still subscribed. -/
theorem C39_violated : ∃ ls s, LTS.run (mergeInner (ω := Nat) (α := Nat) 0).next (mergeInner 0).start ls = some s ∧
    Lawful (owns ls) ∧ s.received = [.error (.user 1)] ∧ Settled s.src ∧ Safe.Drained s.safe ∧
    s.src.started = [7, 8] ∧ fin 0 (owns ls) = .running ∧ s.src.disposed = [] := by
  refine ⟨[.own (.outer (.next 7)), .own (.outer (.next 8)), .own .receive, .own .subscribed,
    .own .receive, .own .subscribed, .own (.inner 1 (.error (.user 1))), .receive, .ret, .ret],
    _, rfl, ⟨⟨⟨[7, 8], .running⟩, by decide⟩, fun k => ?_⟩, by decide, .inr (by decide), .inl (by decide), by decide, by decide, by decide⟩
  by_cases h : k = 1
  · subst h; exact ⟨⟨[], .failed (.user 1)⟩, by decide⟩
  · exact ⟨⟨[], .running⟩, by simp [innerCalls, owns, Ne.symm h]⟩

/-! ## C68 -/

/-- C68. After the merged subscription was disposed, every inner observable that was subscribed and has
not completed is disposed, once, and the worker has ended. -/
theorem C68_dispose_releases {ls : List (Producer.Label (Label ω α))}
    {s : Producer.State (State ω) α}
    (hr : LTS.run (mergeInner mx).next (mergeInner mx).start ls = some s) (hw : Lawful (owns ls))
    (hf : NoFailure (owns ls)) (he : .cancel ∈ owns ls) (hq : Settled s.src) :
    (∀ k < s.src.started.length, fin k (owns ls) = .done ∨ k ∈ s.src.disposed) ∧
      s.src.disposed.Nodup ∧ s.src.pc = .halted :=
  released (solo_of hr) hw hf (.inl he) hq

/-! ## C40 -/

theorem concat_append_done (ss ts : List (Story α)) (f : End) (h : ∀ s ∈ ss, s.fin = .done) :
    concat (ss ++ ts) f = ⟨ss.flatMap (·.vals) ++ (concat ts f).vals, (concat ts f).fin⟩ := by
  induction ss with
  | nil => simp
  | cons s ss ih =>
    rw [List.cons_append, concat, if_pos (h s (by simp)), ih fun t ht => h t (by simp [ht])]
    simp

/-- the inner observables' calls of the first `n` subscriptions, one after the other -/
def inOrder (n : Nat) (ls : List (Label ω α)) : List (Notif α) :=
  (List.range n).flatMap fun k => noDone (innerCalls k ls)

theorem inOrder_succ (n : Nat) (ls : List (Label ω α)) :
    inOrder (n + 1) ls = inOrder n ls ++ noDone (innerCalls n ls) := by
  simp [inOrder, List.range_succ]

theorem inOrder_congr {n : Nat} {ls ls' : List (Label ω α)}
    (h : ∀ k < n, innerCalls k ls = innerCalls k ls') : inOrder n ls = inOrder n ls' := by
  induction n with
  | zero => rfl
  | succ n ih => rw [inOrder_succ, inOrder_succ, ih fun k hk => h k (by omega), h n (by omega)]

/-- the number of subscriptions grows by at most one, and only by the worker -/
theorem step_started {s s' : State ω} {l : Label ω α} {o : List (Notif α)}
    (h : step mx s l = some (s', o)) :
    s'.started = s.started ∨ (l = .receive ∧ ∃ xs, s'.started = s.started ++ [xs]) := by
  cases l with
  | outer n => cases n <;> (simp only [step, Option.some.injEq, Prod.mk.injEq] at h; obtain ⟨rfl, -⟩ := h; exact .inl rfl)
  | inner k n =>
    simp only [step] at h
    split at h
    · cases n <;> (simp only [Option.some.injEq, Prod.mk.injEq] at h; obtain ⟨rfl, -⟩ := h; exact .inl rfl)
    · cases h
  | cancel => simp only [step, Option.some.injEq, Prod.mk.injEq] at h; obtain ⟨rfl, -⟩ := h; exact .inl rfl
  | receive =>
    simp only [step] at h
    split at h
    next msg q hp hq =>
      simp only [Option.some.injEq] at h
      have h2 := congrArg Prod.fst h
      dsimp only at h2
      rw [← h2]
      cases msg with
      | inner xs =>
        simp only [update]; split
        · exact .inr ⟨by trivial, xs, rfl⟩
        · exact .inl rfl
      | innerCompleted k =>
        simp only [update]
        split
        next x _ _ => exact .inr ⟨by trivial, x, rfl⟩
        next => split <;> exact .inl rfl
      | completed => exact .inl rfl
      | dispose => simp only [update]; split <;> exact .inl rfl
    next => cases h
  | subscribed => simp only [step] at h; split at h <;> simp at h; rw [← h.1]; exact .inl rfl
  | subscribeFails => simp only [step] at h; split at h <;> simp at h; rw [← h.1]; exact .inl rfl
  | disposed =>
    simp only [step] at h; split at h <;> simp at h
    · rw [← h.1]; exact .inl rfl
    · rw [← h.1]; exact .inl rfl
  | disposeFails => simp only [step] at h; split at h <;> simp at h; rw [← h.1]; exact .inl rfl

/-- with one slot, things arrive in the order of the subscriptions -/
theorem arrivals_inOrder {ls : List (Label ω α)} {s : State ω} {posts : List (Notif α)}
    (hr : LTS.run (mergeInner 1).solo (State.initial, []) ls = some (s, posts)) (hw : Lawful ls)
    (he : ∀ e, .outer (.error e) ∉ ls) : arrivals ls = inOrder s.started.length ls := by
  refine LTS.inv_reach (fun ls (c : State ω × List (Notif α)) => Lawful ls →
    (∀ e, .outer (.error e) ∉ ls) → arrivals ls = inOrder c.1.started.length ls)
    (fun _ _ => rfl) ?_ hr hw he
  rintro ls ⟨s, posts⟩ l ⟨s', posts'⟩ hr ih hs hw he
  simp only [Producer.solo, mergeInner, Option.map_eq_some_iff, Prod.mk.injEq] at hs
  obtain ⟨⟨t, o⟩, h1, rfl, -⟩ := hs
  have hi := inv_run hr hw.of_append
  have ih := ih hw.of_append fun e h => he e (by simp [h])
  dsimp only at ih h1 ⊢
  rw [arrivals_snoc, ih]
  by_cases hin : ∃ k n, l = .inner k n
  · obtain ⟨k, n, rfl⟩ := hin
    have hst : t.started = s.started := by
      rcases step_started h1 with h | ⟨h, -⟩
      · exact h
      · cases h
    have hlt : k < s.started.length := by
      simp only [step] at h1
      split at h1
      · assumption
      · cases h1
    have hkr : fin k ls = .running := by
      have := hw.inner k
      rw [innerCalls_snoc] at this
      simp only [if_true] at this
      exact grammar_snoc this
    have hlast : s.started.length = k + 1 := by
      by_cases h : k + 1 < s.started.length
      · have h2 : fin k ls = .done := hi.seq rfl k h
        rw [hkr] at h2; cases h2
      · omega
    rw [hst, hlast, inOrder_succ, inOrder_succ, innerCalls_snoc]
    simp only [if_true]
    rw [noDone_append, inOrder_congr (ls := ls ++ [Label.inner k n]) (ls' := ls) (fun j hj => ?_)]
    · rw [List.append_assoc]
      congr 2
      cases n <;> rfl
    · rw [innerCalls_snoc]
      simp only [if_neg (by omega : ¬ k = j), List.append_nil]
  · have hnc : ∀ j, innerCalls j (ls ++ [l]) = innerCalls j ls := fun j => by
      rw [innerCalls_snoc]
      cases l <;> simp_all
    have harr : arrivals [l] = [] := by
      cases l with
      | outer n =>
        cases n with
        | error e => exact absurd (by simp) (he e)
        | next x => rfl
        | completed => rfl
      | inner k n => exact absurd ⟨k, n, rfl⟩ hin
      | _ => rfl
    rw [harr, List.append_nil]
    rcases step_started h1 with h | ⟨-, xs, h⟩
    · rw [h, inOrder_congr fun j _ => hnc j]
    · rw [h, List.length_append, List.length_singleton, inOrder_succ, inOrder_congr fun j _ => hnc j, hnc]
      have : innerCalls s.started.length ls = [] := hi.fresh _ (Nat.le_refl _)
      rw [this]; simp [noDone]

theorem fresh_run {ls : List (Label ω α)} {s : State ω} {posts : List (Notif α)}
    (hr : LTS.run (mergeInner mx).solo (State.initial, []) ls = some (s, posts)) :
    ∀ k, s.started.length ≤ k → innerCalls k ls = [] := by
  refine LTS.inv_hist (fun ls (c : State ω × List (Notif α)) =>
    ∀ k, c.1.started.length ≤ k → innerCalls k ls = []) (fun _ _ => rfl) ?_ hr
  rintro ls ⟨s, posts⟩ l ⟨s', posts'⟩ ih hs k hk
  simp only [Producer.solo, mergeInner, Option.map_eq_some_iff, Prod.mk.injEq] at hs
  obtain ⟨⟨t, o⟩, h1, rfl, -⟩ := hs
  dsimp only at *
  have hle : s.started.length ≤ t.started.length := by
    rcases step_started h1 with h | ⟨-, xs, h⟩ <;> simp [h]
  rw [innerCalls_snoc, ih k (by omega)]
  cases l with
  | inner j n =>
    have : j < s.started.length := by
      simp only [step] at h1
      split at h1
      · assumption
      · cases h1
    simp only [if_neg (by omega : ¬ j = k), List.append_nil]
  | _ => rfl

theorem Scripted.lawful {src : ω → Story α} {os : List ω} {f : End} {ls : List (Label ω α)}
    {s : State ω} (h : Scripted src os f ls s) (hf : ∀ k, s.started.length ≤ k → innerCalls k ls = []) :
    Lawful ls where
  outer := grammar_prefix h.outer ⟨_, rfl⟩
  inner k := by
    by_cases hk : k < s.started.length
    · exact grammar_prefix (h.inner k _ (List.getElem?_eq_getElem hk)) ⟨_, rfl⟩
    · rw [hf k (by omega)]; exact ⟨⟨[], .running⟩, rfl⟩

theorem story_of_prefix_done {st : Story α} {ns : List (Notif α)} (h : ns <+: st.events)
    (hd : (story ns).fin = .done) : ns = st.events := by
  obtain ⟨t, ht⟩ := h
  have h1 : story (ns ++ t) = story ns := story_append_of_ended (by rw [hd]; simp)
  rw [ht, story_events] at h1
  have h2 : Grammar ns := grammar_prefix ⟨t, ht⟩ ⟨st, rfl⟩
  rw [← cut_of_grammar h2, cut, ← h1]

theorem noDone_events (st : Story α) : noDone st.events =
    st.vals.map .next ++ (if st.fin = .done then [] else st.fin.events) := by
  obtain ⟨vs, f⟩ := st
  rw [events_vals_map, noDone_append, noDone_of_not_mem (by simp)]
  cases f <;> simp [noDone]

theorem noDone_prefix {a b : List (Notif α)} (h : a <+: b) : noDone a <+: noDone b := by
  obtain ⟨t, rfl⟩ := h
  rw [noDone_append]; exact List.prefix_append ..

/-- the calls of the completed ones -/
theorem inOrder_done {src : ω → Story α} {ls : List (Label ω α)} :
    ∀ (n : Nat) (os : List ω), n = os.length →
    (∀ k o, os[k]? = some o → innerCalls k ls = (src o).events ∧ (src o).fin = .done) →
    inOrder n ls = ((os.map src).flatMap (·.vals)).map .next := by
  intro n
  induction n with
  | zero => intro os h0 _; rw [List.length_eq_zero_iff.mp h0.symm]; rfl
  | succ n ih =>
    intro os hn h
    have hne : os ≠ [] := by rintro rfl; simp at hn
    obtain ⟨o, ho⟩ : ∃ o, os = os.dropLast ++ [o] := ⟨os.getLast hne, (List.dropLast_concat_getLast hne).symm⟩
    have hlen : os.dropLast.length = n := by simp [← hn]
    rw [inOrder_succ, ih os.dropLast hlen.symm fun k o hk => h k o (by
      rw [ho, List.getElem?_append_left (List.getElem?_eq_some_iff.mp hk).1]; exact hk)]
    obtain ⟨h1, h2⟩ := h n o (by rw [ho, ← hlen]; simp)
    rw [h1, noDone_events, if_pos h2, List.append_nil]
    conv => rhs; rw [ho]
    simp

/-- What is posted with one slot: everything of the inner observables before the last one subscribed,
then what the last one has sent, and completion when all are done. -/
theorem concat_posts {src : ω → Story α} {os : List ω} {f : End} {ls : List (Label ω α)} {s : State ω}
    {posts : List (Notif α)} (hf : ∀ e, f ≠ .failed e)
    (hr : LTS.run (mergeInner 1).solo (State.initial, []) ls = some (s, posts))
    (hs : Scripted src os f ls s) :
    posts <+: (concat (os.map src) f).events ∧
    (Played src os f ls s → NoFailure ls → .cancel ∉ ls → Settled s →
      posts = (concat (os.map src) f).events) := by
  have hw := hs.lawful (fresh_run hr)
  have hi := inv_run hr hw
  have herr : ∀ e, .outer (.error e) ∉ ls := by
    intro e he
    have h1 : .error e ∈ outerCalls ls := List.mem_filterMap.mpr ⟨_, he, rfl⟩
    have h2 := hs.outer.subset h1
    cases f with
    | failed e => exact hf e rfl
    | running => simp at h2
    | done => simp at h2
  have harr := arrivals_inOrder hr hw herr
  have hsent : sent ls <+: os := by
    obtain ⟨t, ht⟩ := hs.outer
    have h1 : (story (outerCalls ls ++ t)).vals = os := by rw [ht, story_events]
    rw [← h1, sent]
    by_cases hrun : (story (outerCalls ls)).fin = .running
    · rw [story_append_of_running hrun]; exact List.prefix_append ..
    · rw [story_append_of_ended hrun]; exact List.prefix_rfl
  have hpre : s.started <+: os := (started_prefix hr hw).trans hsent
  have hdone : ∀ k o, s.started[k]? = some o → fin k ls = .done →
      innerCalls k ls = (src o).events ∧ (src o).fin = .done := fun k o hk hd => by
    have h1 := story_of_prefix_done (hs.inner k o hk) hd
    refine ⟨h1, ?_⟩
    rw [fin, h1, story_events] at hd
    exact hd
  obtain ⟨rest, hrest⟩ := hpre
  by_cases hall : ∀ k < s.started.length, fin k ls = .done
  · -- all subscribed ones are done
    have hA : arrivals ls = ((s.started.map src).flatMap (·.vals)).map .next := by
      rw [harr]
      exact inOrder_done _ _ rfl fun k o hk => hdone k o hk (hall k (List.getElem?_eq_some_iff.mp hk).1)
    have hfin : ∀ st ∈ s.started.map src, st.fin = .done := by
      intro st hst
      simp only [List.mem_map] at hst
      obtain ⟨o, ho, rfl⟩ := hst
      obtain ⟨k, hk, hko⟩ := List.getElem_of_mem ho
      exact (hdone k o (by rw [List.getElem?_eq_getElem hk, hko]) (hall k hk)).2
    have hcc : (concat (os.map src) f).events = arrivals ls ++ (concat (rest.map src) f).events := by
      rw [← hrest, List.map_append, concat_append_done _ _ _ hfin, hA]
      simp [Story.events]
    refine ⟨?_, fun hp hnf hca hq => ?_⟩
    · rcases posts_shape (by omega) hr hw with h | h
      · rw [hcc, h]; exact List.prefix_append ..
      · obtain ⟨h1, h2, h3⟩ := completed_posted (by omega) hr hw (by rw [h]; simp)
        have ho := story_of_prefix_done hs.outer h1
        rw [ho, story_events] at h1
        dsimp only at h1
        rw [sent, ho, story_events] at h2
        have : rest = [] := by simpa [h2] using hrest
        rw [hcc, this, h, h1]
        exact List.prefix_rfl
    · have hstop : ¬ Stopped ls := by rintro (h | ⟨e, h⟩); exact hca h; exact herr e h
      have hst : s.started = os := by
        rcases settled_started (by omega) hr hw hnf hstop hq with h | ⟨-, h⟩
        · rw [h, sent, hp.outer, story_events]
        · exfalso
          have : unfinished ls s = [] := by
            rw [unfinished, List.filter_eq_nil_iff]
            intro k hk
            simp [hall k (List.mem_range.mp hk)]
          rw [this] at h
          simp at h
      have : rest = [] := by simpa [hst] using hrest
      rw [hcc, this]
      cases f with
      | failed e => exact absurd rfl (hf e)
      | done =>
        have hc := settled_completed (by omega) hr hw hnf hstop hq (by rw [hp.outer, story_events]) hall
        rcases posts_shape (by omega) hr hw with h | h
        · rw [h] at hc; exact absurd hc (arrivals_noDone _)
        · exact h
      | running =>
        rcases posts_shape (by omega) hr hw with h | h
        · rw [h]; simp [concat]
        · have := (completed_posted (by omega) hr hw (by rw [h]; simp)).1
          rw [hp.outer, story_events] at this
          cases this
  · -- the last one is still running, or failed
    have ⟨k, hk, hkd⟩ : ∃ k, k < s.started.length ∧ fin k ls ≠ .done := by
      refine Classical.byContradiction fun h => hall fun k hk => ?_
      exact Classical.byContradiction fun h1 => h ⟨k, hk, h1⟩
    have hlast : s.started.length = k + 1 := by
      by_cases h : k + 1 < s.started.length
      · exact absurd (hi.seq rfl k h) hkd
      · omega
    have hne : s.started ≠ [] := by rintro h; rw [h] at hk; simp at hk
    obtain ⟨o, ho⟩ : ∃ o, s.started = s.started.dropLast ++ [o] :=
      ⟨s.started.getLast hne, (List.dropLast_concat_getLast hne).symm⟩
    have hdl : s.started.dropLast.length = k := by simp [hlast]
    have hko : s.started[k]? = some o := by
      conv => lhs; rw [ho]
      rw [← hdl]; simp
    have hget : ∀ j o', s.started.dropLast[j]? = some o' → s.started[j]? = some o' ∧ j < k := fun j o' hj => by
      have hjl := (List.getElem?_eq_some_iff.mp hj).1
      refine ⟨?_, by omega⟩
      conv => lhs; rw [ho]
      rw [List.getElem?_append_left hjl]; exact hj
    have hfd : ∀ j o', s.started.dropLast[j]? = some o' →
        innerCalls j ls = (src o').events ∧ (src o').fin = .done := fun j o' hj => by
      obtain ⟨h1, h2⟩ := hget j o' hj
      exact hdone j o' h1 (hi.seq rfl j (by omega))
    have hA : arrivals ls = (((s.started.dropLast).map src).flatMap (·.vals)).map .next ++ noDone (innerCalls k ls) := by
      rw [harr, hlast, inOrder_succ, inOrder_done k s.started.dropLast hdl.symm hfd]
    have hfin : ∀ st ∈ s.started.dropLast.map src, st.fin = .done := by
      intro st hst
      simp only [List.mem_map] at hst
      obtain ⟨o', ho', rfl⟩ := hst
      obtain ⟨j, hj, hjo⟩ := List.getElem_of_mem ho'
      exact (hfd j o' (by rw [List.getElem?_eq_getElem hj, hjo])).2
    have hcc : (concat (os.map src) f).events =
        (((s.started.dropLast).map src).flatMap (·.vals)).map .next ++
          (concat (src o :: rest.map src) f).events := by
      have : os = s.started.dropLast ++ (o :: rest) := by rw [← hrest]; conv => lhs; rw [ho]
                                                          simp
      rw [this, List.map_append, List.map_cons, concat_append_done _ _ _ hfin]
      simp [Story.events]
    have hnc : posts = arrivals ls := by
      rcases posts_shape (by omega) hr hw with h | h
      · exact h
      · have := (completed_posted (by omega) hr hw (by rw [h]; simp)).2.2
        exact absurd (this k hk) hkd
    have hin := hs.inner k o hko
    refine ⟨?_, fun hp hnf hca hq => ?_⟩
    · rw [hnc, hA, hcc, List.prefix_append_right_inj]
      have h1 := noDone_prefix hin
      rw [noDone_events] at h1
      by_cases hd : (src o).fin = .done
      · rw [if_pos hd, List.append_nil] at h1
        rw [concat, if_pos hd]
        refine h1.trans ?_
        simp only [Story.events, List.map_append, List.append_assoc]
        exact List.prefix_append ..
      · rw [if_neg hd] at h1
        rw [concat, if_neg hd]
        exact h1
    · have hev := hp.inner k o hko
      have hd : (src o).fin ≠ .done := by
        intro h; apply hkd; rw [fin, hev, story_events]; exact h
      rw [hnc, hA, hcc, hev, noDone_events, if_neg hd, concat, if_neg hd]
      rfl

/-- C40. Let the source send the observables `os` and then end as `f` says (complete, or not at all:
`concat_seq` and `concat_map` complete), and let inner observable `o`, when subscribed, send the stream
`src o`. Then, at any time and under any schedule, the subscriber has got an initial part of these
streams one after the other, and all of it once everybody has sent their part and the workers have
caught up. -/
theorem C40_concat {src : ω → Story α} {os : List ω} {f : End}
    {ls : List (Producer.Label (Label ω α))} {s : Producer.State (State ω) α}
    (hf : ∀ e, f ≠ .failed e) (hr : LTS.run concatInner.next concatInner.start ls = some s)
    (hn : NoRaise ls) (hs : Scripted src os f (owns ls) s.src) :
    s.received <+: (concat (os.map src) f).events ∧
    (Played src os f (owns ls) s.src → NoFailure (owns ls) → .cancel ∉ owns ls → Settled s.src →
      Safe.Drained s.safe → s.received = (concat (os.map src) f).events) := by
  obtain ⟨h1, h2⟩ := concat_posts hf (solo_of hr) hs
  obtain ⟨h3, h4⟩ := received_cut _ hr hn
  have hg : cut s.posts = s.posts := cut_of_grammar (grammar_prefix h1 ⟨_, rfl⟩)
  rw [hg] at h3 h4
  exact ⟨h3.trans h1, fun hp hnf hc hq hd => (h4 hd).trans (h2 hp hnf hc hq)⟩

/-! ## examples -/

/-- Two inner observables, one slot: 7 sends 1 and 2, 8 sends 3; both complete, the source completes
early. -/
abbrev demo : List (Producer.Label (Label Nat Nat)) :=
  [.own (.outer (.next 7)), .own (.outer (.next 8)), .own (.outer .completed), .own .receive,
   .own (.inner 0 (.next 1)), .own .subscribed, .own .receive, .own (.inner 0 (.next 2)),
   .own (.inner 0 .completed), .own .receive, .own .receive, .own .subscribed,
   .own (.inner 1 (.next 3)), .receive, .ret, .own (.inner 1 .completed), .own .receive,
   .receive, .ret, .receive, .ret, .receive, .ret, .ret]

abbrev demoSrc : Nat → Story Nat
  | 7 => ⟨[1, 2], .done⟩
  | _ => ⟨[3], .done⟩

def demoEnd : Option (Producer.State (State Nat) Nat) := LTS.run concatInner.next concatInner.start demo

example : demoEnd.map (·.received) = some [.next 1, .next 2, .next 3, .completed] := by decide
example : (concat ([7, 8].map demoSrc) .done).events = [.next 1, .next 2, .next 3, .completed] := by decide
example : demoEnd.map (·.src.started) = some [7, 8] := by decide
example : Played demoSrc [7, 8] .done (owns demo) (demoEnd.get (by decide)).src :=
  ⟨by decide, fun k o h => by
    match k, h with
    | 0, h => cases h; decide
    | 1, h => cases h; decide
    | k + 2, h => cases h⟩
example : NoFailure (owns demo) ∧ ¬ Stopped (owns demo) := by
  refine ⟨⟨by decide, by decide⟩, ?_⟩
  rintro (h | ⟨e, h⟩)
  · revert h; decide
  · simp [owns] at h
/-- while the first one runs, the second waits: the bound 1 is attained -/
example : (LTS.run concatInner.next concatInner.start (demo.take 8)).map
    (fun s => (active (owns (demo.take 8)) s.src, s.src.started)) = some ([0], [7]) := by decide
/-- the source fails while two inner observables are subscribed -/
example : (LTS.run (mergeInner (ω := Nat) (α := Nat) 0).next (mergeInner 0).start
    [.own (.outer (.next 7)), .own (.outer (.next 8)), .own .receive, .own .subscribed,
     .own .receive, .own .subscribed, .own (.outer (.error (.user 1))), .own .receive, .own .disposed,
     .own .disposed]).map (fun s => (s.src.disposed, s.src.pc)) = some ([0, 1], .halted) := by decide

end Aio.Merge
