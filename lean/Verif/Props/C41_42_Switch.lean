import Verif.Lemmas.Switch
import Verif.Spec.Switch
/-!
# C41, C42, C69: switch_latest

`LTS.run (switchLatest honour).next (switchLatest honour).start ls = some s`: the subscription was run
under the schedule `ls` and is now in state `s`. `honour`: an inner observable sends no further values or
errors once its `dispose_async` has returned (it may complete, as `of_async` does when it is cancelled). `s.src.started` are the inner observables that were subscribed,
number 1 first; `s.src.disposed` are the numbers of those whose `dispose_async` has returned.
-/

namespace Aio.Switch
open Spec Producer
open Merge (Label Msg outerCalls innerCalls sent arrivals noDone NoFailure Lawful)
variable {ω α : Type} {honour : Bool}

theorem solo_of {ls : List (Producer.Label (Label ω α))} {s : Producer.State (State ω) α}
    (hr : LTS.run (switchLatest honour).next (switchLatest honour).start ls = some s) :
    LTS.run (switchLatest honour).solo (State.initial, []) (owns ls) = some (s.src, s.posts) :=
  solo_run _ (fun _ => rfl) hr

theorem owns_append (a b : List (Producer.Label (Label ω α))) : owns (a ++ b) = owns a ++ owns b :=
  List.filterMap_append ..

/-! ## C41 -/

/-- C41. If an inner observable sends a value or an error, it is the one that was subscribed last - provided
that inner observables honour disposal. -/
theorem C41_latest {ls : List (Producer.Label (Label ω α))} {s s' : Producer.State (State ω) α}
    {i : Nat} {n : Notif α}
    (hr : LTS.run (switchLatest true).next (switchLatest true).start ls = some s)
    (hs : (switchLatest true).next s (.own (.inner i n)) = some s') (hn : n.kind ≠ .onCompleted)
    (hw : Lawful (owns ls ++ [.inner i n])) : i = s.src.started.length := by
  have hi := inv_run (solo_of hr)
  simp only [next, switchLatest, step] at hs
  split at hs
  · cases hs
  next h =>
    split at h
    next hc =>
      obtain ⟨⟨h1, h2⟩, h3⟩ := hc
      by_cases h4 : i < s.src.started.length
      · rcases hi.older i h1 h4 with h5 | h5
        · exact absurd ⟨trivial, h5, hn⟩ h3
        · exfalso
          have h6 := hw.inner i
          rw [Merge.innerCalls_snoc] at h6
          simp only [if_true] at h6
          have h7 := grammar_snoc h6
          rw [fin_of_mem_completed (hw.of_append.inner i) ?_] at h7
          · cases h7
          · rw [innerCalls, List.mem_filterMap]
            exact ⟨_, h5, by simp⟩
      · omega
    next => cases h

/-- C41. When an inner observable is subscribed, the dispose_async of every older one has returned. -/
theorem C41_older_disposed {ls : List (Producer.Label (Label ω α))} {s : Producer.State (State ω) α}
    (hr : LTS.run (switchLatest honour).next (switchLatest honour).start ls = some s)
    (hc : .cancel ∉ owns ls) {i : Nat} (h1 : 1 ≤ i) (h2 : i < s.src.started.length) :
    i ∈ s.src.disposed := by
  exact (tidy_run (solo_of hr) hc).older i h1 h2

/-- C41, also if the subscription was disposed (but the source goes on sending): then an older one may
instead have completed. -/
theorem C41_older_gone {ls : List (Producer.Label (Label ω α))} {s : Producer.State (State ω) α}
    (hr : LTS.run (switchLatest honour).next (switchLatest honour).start ls = some s)
    {i : Nat} (h1 : 1 ≤ i) (h2 : i < s.src.started.length) :
    i ∈ s.src.disposed ∨ .inner i .completed ∈ owns ls :=
  (inv_run (solo_of hr)).older i h1 h2

/-- C41. The inner observables are subscribed in the order in which the source sends them, none is
skipped. -/
theorem C41_order {ls : List (Producer.Label (Label ω α))} {s : Producer.State (State ω) α}
    (hr : LTS.run (switchLatest honour).next (switchLatest honour).start ls = some s)
    (hw : Lawful (owns ls)) : s.src.started <+: sent (owns ls) ∧
      (Settled s.src → NoFailure (owns ls) → s.src.started = sent (owns ls)) := by
  have ho := order_run (solo_of hr)
  rw [← offered_eq_sent hw]
  refine ⟨ho.pre, fun hq hf => ?_⟩
  rcases hq with h | ⟨h1, h2⟩
  · exact absurd h (not_halted_run (solo_of hr) hf)
  · have := ho.eq (by simp [h1])
    simpa [h1, h2, pend, inners] using this

/-- C41. What the subscriber got, apart from the completion, is what the inner observables sent while
they were the latest (and the errors), in that order, up to and including the first error; all of it
once the safe observer has caught up. With `C41_latest`: nothing of an older one. -/
theorem C41_forwards {ls : List (Producer.Label (Label ω α))} {s : Producer.State (State ω) α}
    (hr : LTS.run (switchLatest honour).next (switchLatest honour).start ls = some s)
    (hn : NoRaise ls) (hw : Lawful (owns ls)) (hc : .cancel ∉ owns ls) :
    noDone s.received <+: cut (arrivals (owns ls)) ∧
    (Safe.Drained s.safe → noDone s.received = cut (arrivals (owns ls))) := by
  have hcut : noDone (cut s.posts) = cut (arrivals (owns ls)) := by
    rcases (quiet_run (solo_of hr) hw hc).shape with h | h
    · rw [h]
      exact Merge.noDone_of_not_mem fun hm => Merge.arrivals_noDone _ ((cut_prefix _).subset hm)
    · rw [h]; exact Merge.noDone_cut_snoc _ (Merge.arrivals_noDone _)
  obtain ⟨h1, h2⟩ := received_cut _ hr hn
  refine ⟨hcut ▸ ?_, fun hd => by rw [h2 hd, hcut]⟩
  obtain ⟨t, ht⟩ := h1
  rw [← ht, Merge.noDone_append]
  exact List.prefix_append ..

/-! ## C42

In full: when the source has completed and the latest inner observable has completed, the output
completes, and not before. That is false: the message `completed` does not set `is_stopped`
(transform.py:302-304), and the completion of an inner observable does not reset `current`; so the
output never completes once the source has sent anything. -/

/-- Everything has completed, the worker and the safe observer have caught up. -/
def neverCompletes : List (Producer.Label (Label Unit Nat)) :=
  [.own (.outer (.next ())), .own .receive, .own .subscribed,
   .own (.inner 1 (.next 7)), .own (.inner 1 .completed), .own .receive,
   .own (.outer .completed), .own .receive, .receive, .ret]

/-- C42 is false: here the source has completed, its only inner observable has completed, all mailboxes
are empty, and the subscriber has got no completion. -/
theorem C42_violated : ∃ s, LTS.run (switchLatest true).next (switchLatest true).start neverCompletes = some s ∧
    Lawful (owns neverCompletes) ∧ outerCalls (owns neverCompletes) = [.next (), .completed] ∧
    innerCalls 1 (owns neverCompletes) = [.next 7, .completed] ∧
    Settled s.src ∧ Safe.Drained s.safe ∧ s.received = [.next 7] := by
  refine ⟨_, rfl, ⟨⟨⟨[()], .done⟩, rfl⟩, fun k => ?_⟩, rfl, rfl, .inr ⟨rfl, rfl⟩, .inr ⟨rfl, rfl⟩, rfl⟩
  by_cases h : k = 1
  · subst h; exact ⟨⟨[7], .done⟩, rfl⟩
  · refine ⟨⟨[], .running⟩, ?_⟩
    have : ¬ 1 = k := fun h' => h h'.symm
    simp [neverCompletes, owns, innerCalls, this, Story.events]

/-- C42, more generally: once the source has sent an inner observable, the output does not complete,
whatever happens (except by disposing the subscription, see `C69_completes_after_dispose`). -/
theorem C42_never {ls : List (Producer.Label (Label ω α))} {s : Producer.State (State ω) α}
    (hr : LTS.run (switchLatest honour).next (switchLatest honour).start ls = some s)
    (hn : NoRaise ls) (hw : Lawful (owns ls)) (hc : .cancel ∉ owns ls) (hne : sent (owns ls) ≠ []) :
    .completed ∉ s.received := by
  intro h
  have h1 := ((received_cut _ hr hn).1.trans (cut_prefix _)).subset h
  have := ((quiet_run (solo_of hr) hw hc).posted h1).2.1
  rw [offered_eq_sent hw] at this
  exact hne this

/-- C42, the part that holds ("not before"): when the output completes, the source has completed and
no inner observable was ever subscribed. -/
theorem C42_not_before_partial {ls : List (Producer.Label (Label ω α))} {s : Producer.State (State ω) α}
    (hr : LTS.run (switchLatest honour).next (switchLatest honour).start ls = some s)
    (hn : NoRaise ls) (hw : Lawful (owns ls)) (hc : .cancel ∉ owns ls) (h : .completed ∈ s.received) :
    (story (outerCalls (owns ls))).fin = .done ∧ s.src.started = [] := by
  have h1 := ((received_cut _ hr hn).1.trans (cut_prefix _)).subset h
  obtain ⟨h2, h3, -⟩ := (quiet_run (solo_of hr) hw hc).posted h1
  refine ⟨fin_of_mem_completed hw.outer (mem_outerCalls.mp h2), ?_⟩
  exact List.prefix_nil.mp (h3 ▸ (order_run (solo_of hr)).pre)

/-- C42, the other part that holds: a source that completes without having sent anything makes the
output complete. -/
theorem C42_empty_partial {ls : List (Producer.Label (Label ω α))} {s : Producer.State (State ω) α}
    (hr : LTS.run (switchLatest honour).next (switchLatest honour).start ls = some s)
    (hn : NoRaise ls) (hc : .cancel ∉ owns ls) (he : outerCalls (owns ls) = [.completed])
    (hq : Settled s.src) (hd : Safe.Drained s.safe) : s.received = [.completed] := by
  have hoff : offered (owns ls) = [] := by
    rw [offered, List.filterMap_eq_nil_iff]
    intro l hl
    split
    next xs => have := mem_outerCalls.mp hl; rw [he] at this; simp at this
    next => rfl
  have hb := bare_run (solo_of hr) hoff
  have hst : s.src.started = [] := List.prefix_nil.mp (hoff ▸ (order_run (solo_of hr)).pre)
  have hnoinner : ∀ k n, .inner k n ∉ owns ls := by
    intro k n hm
    refine (LTS.inv_hist (fun ls (c : State ω × List (Notif α)) =>
      ∀ k n, .inner k n ∈ ls → c.1.started ≠ []) (by simp) ?_ (solo_of hr)) k n hm hst
    rintro ls ⟨s, posts⟩ l ⟨s', posts'⟩ ih hs k n hm h0
    simp only [Producer.solo, switchLatest, Option.map_eq_some_iff, Prod.mk.injEq] at hs
    obtain ⟨⟨t, o⟩, h1, rfl, rfl⟩ := hs
    have hpre := started_mono h1
    dsimp only at h0 h1
    rw [h0, List.prefix_nil] at hpre
    rcases List.mem_append.mp hm with hm | hm
    · exact ih k n hm hpre
    · rw [List.mem_singleton] at hm; subst hm
      simp only [step, hpre, List.length_nil] at h1
      split at h1
      · omega
      · cases h1
  have hw : Lawful (owns ls) := ⟨he ▸ ⟨⟨[], .done⟩, rfl⟩, fun k => by
    have : innerCalls k (owns ls) = [] := by
      rw [innerCalls, List.filterMap_eq_nil_iff]
      intro l hl
      split
      · exact absurd hl (hnoinner _ _)
      · rfl
    rw [this]; exact ⟨⟨[], .running⟩, rfl⟩⟩
  have hin : s.src.inbox = [] := by
    rcases hq with h | h
    · rw [hb.pc] at h; cases h
    · exact h.2
  have hp : .completed ∈ s.posts := by
    have := hb.ans (mem_outerCalls.mpr (by rw [he]; simp))
    rw [hin] at this; simpa using this
  have harr : arrivals (owns ls) = [] := by
    rw [arrivals, List.filterMap_eq_nil_iff]
    intro l hl
    split
    · exact absurd hl (hnoinner _ _)
    · exact absurd hl (hnoinner _ _)
    · have := mem_outerCalls.mp hl; rw [he] at this; simp at this
    · rfl
  rw [(received_cut _ hr hn).2 hd]
  rcases (quiet_run (solo_of hr) hw hc).shape with h | h
  · rw [h, harr] at hp; cases hp
  · rw [h, harr]; rfl

/-! ## C69

In full: when the subscription is disposed, or the output ends with an error, the current inner
subscription is disposed. -/

/-- After a disposal, every inner observable was disposed or has completed. -/
theorem released {a b : List (Label ω α)} {s : State ω} {posts : List (Notif α)}
    (hsolo : LTS.run (switchLatest honour).solo (State.initial, []) (a ++ .cancel :: b) = some (s, posts))
    (hb' : ∀ xs, .outer (.next xs) ∉ b) (hf : NoFailure (a ++ .cancel :: b))
    (hq : Settled s) {i : Nat} (h1 : 1 ≤ i) (h2 : i ≤ s.started.length) :
    i ∈ s.disposed ∨ .inner i .completed ∈ a ++ .cancel :: b := by
  have hend : Ending s := by
    obtain ⟨⟨s1, p1⟩, h3, h4⟩ := LTS.run_append.mp hsolo
    obtain ⟨⟨s2, p2⟩, h5, h6⟩ := LTS.run_cons.mp h4
    have h7 : Ending s2 := by
      simp only [Producer.solo, switchLatest, step, Option.map_some, Option.some.injEq, Prod.mk.injEq] at h5
      rw [← h5.1]
      exact .inl ⟨s1.inbox, [], rfl, rfl⟩
    refine LTS.inv_of (fun l => (∀ xs, l ≠ .outer (.next xs)) ∧ l ≠ .subscribeFails ∧ l ≠ .disposeFails)
      (fun (c : State ω × List (Notif α)) => Ending c.1) h7 ?_ (fun l hl => ⟨?_, ?_, ?_⟩) h6
    · rintro ⟨s, posts⟩ l ⟨s', posts'⟩ hl ih hs
      simp only [Producer.solo, switchLatest, Option.map_eq_some_iff, Prod.mk.injEq] at hs
      obtain ⟨⟨t, o⟩, h1, rfl, rfl⟩ := hs
      exact ending_step ih h1 hl.1 hl.2
    · rintro xs rfl; exact hb' xs hl
    · rintro rfl; exact hf.1 (by simp [hl])
    · rintro rfl; exact hf.2 (by simp [hl])
  have hi := inv_run hsolo
  rcases hend with ⟨p, q, h3, -⟩ | ⟨-, h3⟩
  · rcases hq with h4 | ⟨h4, h5⟩
    · exact absurd h4 (not_halted_run hsolo hf)
    · rw [h5] at h3; simp at h3
  · rcases h3 with ⟨h4, h5⟩ | ⟨j, h4⟩
    · exact hi.none h4 h5 i h1 h2
    · rcases hq with h5 | ⟨h5, -⟩ <;> (rw [h4] at h5; cases h5)

/-- C69, disposing. When the subscription has been disposed (after which the source sends nothing) and
the worker has caught up, every inner observable that was ever subscribed was disposed or has
completed. -/
theorem C69_dispose_partial {a b : List (Producer.Label (Label ω α))} {s : Producer.State (State ω) α}
    (hr : LTS.run (switchLatest honour).next (switchLatest honour).start (a ++ .own .cancel :: b) = some s)
    (hb : ∀ xs, .own (.outer (.next xs)) ∉ b) (hf : NoFailure (owns (a ++ .own .cancel :: b)))
    (hq : Settled s.src) {i : Nat} (h1 : 1 ≤ i) (h2 : i ≤ s.src.started.length) :
    i ∈ s.src.disposed ∨ .inner i .completed ∈ owns (a ++ .own .cancel :: b) := by
  have hsolo := solo_of hr
  have ho : owns (a ++ .own Merge.Label.cancel :: b) = owns a ++ .cancel :: owns b := by
    rw [owns_append]; rfl
  have hb' : ∀ xs, .outer (.next xs) ∉ owns b := by
    intro xs h
    rw [owns, List.mem_filterMap] at h
    obtain ⟨l, hl, h⟩ := h
    split at h
    · cases h; exact hb xs hl
    · cases h
  rw [ho] at hsolo hf ⊢
  exact released hsolo hb' hf hq h1 h2

/-- The source fails while an inner observable is running. -/
def sourceFails : List (Producer.Label (Label Unit Nat)) :=
  [.own (.outer (.next ())), .own .receive, .own .subscribed, .own (.inner 1 (.next 7)),
   .own (.outer (.error (.user 0))), .receive, .ret, .receive, .ret, .ret]

/-- C69 is false for errors: the source has failed, the subscriber has got the error, everybody has
caught up - and the inner observable is still subscribed (and will stay so: nothing refers to it
any more). -/
theorem C69_violated : ∃ s, LTS.run (switchLatest true).next (switchLatest true).start sourceFails = some s ∧
    s.received = [.next 7, .error (.user 0)] ∧ Settled s.src ∧ s.safe.pc = .halted ∧
    s.src.started = [()] ∧ s.src.disposed = [] ∧ .inner 1 .completed ∉ owns sourceFails :=
  ⟨_, rfl, rfl, .inr ⟨rfl, rfl⟩, rfl, rfl, rfl, by decide⟩

/-! ## Examples -/

/-- Two inner observables; the first is replaced while it runs. -/
def switching : List (Producer.Label (Label Nat Nat)) :=
  [.own (.outer (.next 10)), .own .receive, .own .subscribed, .own (.inner 1 (.next 1)),
   .own (.outer (.next 20)), .own .receive, .own (.inner 1 (.next 2)), .own .disposed, .own .subscribed,
   .own (.inner 2 (.next 3)), .receive, .ret, .receive, .ret, .receive, .ret]

/-- C41: the hypotheses can be met; number 1 can no longer call, number 2 can. -/
example : ∃ s s', LTS.run (switchLatest true).next (switchLatest true).start switching = some s ∧
    (switchLatest true).next s (.own (.inner 2 (.next 4))) = some s' ∧
    (switchLatest true).next s (.own (.inner 1 (.next 4))) = none ∧
    s.src.started = [10, 20] ∧ s.src.disposed = [1] ∧
    s.received = [.next 1, .next 2, .next 3] :=
  ⟨_, _, rfl, rfl, rfl, rfl, rfl, rfl⟩

/-- C41 needs `honour`: there is no check of the id when a value arrives (transform.py:268-269), a
disposed inner observable that calls its observer is still heard. -/
theorem C41_stale : ∃ s s', LTS.run (switchLatest false).next (switchLatest false).start switching = some s ∧
    (switchLatest false).next s (.own (.inner 1 (.next 99))) = some s' ∧
    s.src.disposed = [1] ∧ s'.posts = [.next 1, .next 2, .next 3, .next 99] :=
  ⟨_, _, rfl, rfl, rfl, rfl⟩

/-- C42: a source without inner observables. -/
example : ∃ s, LTS.run (switchLatest true).next (switchLatest true).start
    ([.own (.outer .completed), .own .receive, .receive, .ret, .ret] :
      List (Producer.Label (Label Nat Nat))) = some s ∧ Settled s.src ∧ Safe.Drained s.safe ∧
    s.received = [.completed] :=
  ⟨_, rfl, .inr ⟨rfl, rfl⟩, .inl rfl, rfl⟩

/-- The subscriber disposes; an inner observable that completes just before it is disposed makes the
output complete afterwards. -/
def completesAfterDispose : List (Producer.Label (Label Nat Nat)) :=
  [.own (.outer (.next 10)), .own .receive, .own .subscribed, .own .cancel, .own .receive,
   .own (.inner 1 .completed), .own .disposed, .own .receive, .receive, .ret, .ret]

/-- C69: an execution with a disposal in which the inner observable is disposed. (The subscriber gets
a completion after having disposed its subscription.) -/
theorem C69_completes_after_dispose : ∃ s, LTS.run (switchLatest true).next (switchLatest true).start
    completesAfterDispose = some s ∧
    Settled s.src ∧ s.src.disposed = [1] ∧ s.received = [.completed] :=
  ⟨_, rfl, .inr ⟨rfl, rfl⟩, rfl, rfl⟩

/-- Disposed before the source has sent anything; the source goes on. -/
def sendsAfterDispose : List (Producer.Label (Label Nat Nat)) :=
  [.own .cancel, .own .receive, .own (.outer (.next 10)), .own .receive, .own .subscribed, .own (.inner 1 (.next 5)),
   .own (.inner 1 .completed), .own .receive, .receive, .ret, .receive, .ret, .ret]

/-- C69 is false for sources that go on after they were disposed (as a subject does for the call in progress): the inner
observable is subscribed although the subscription has been disposed, its values are delivered and then a completion, and
nothing disposes it. -/
theorem C69_violated_late : ∃ s, LTS.run (switchLatest true).next (switchLatest true).start sendsAfterDispose = some s ∧
    Settled s.src ∧ s.src.started = [10] ∧ s.src.disposed = [] ∧ s.received = [.next 5, .completed] :=
  ⟨_, rfl, .inr ⟨rfl, rfl⟩, rfl, rfl, rfl⟩

end Aio.Switch
