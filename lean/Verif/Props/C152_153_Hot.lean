import Verif.Lemmas.Hot
import Verif.Props.C41_42_Switch
/-!
# C152, C153: `merge` and `concat` over subjects
-/

namespace Aio
open Spec
variable {α γ : Type}

namespace Hot

/-! ### `merge_inner` fits -/

theorem merge_fits (mx : Int) : Fits (mergeInner mx : Producer _ (Merge.Label Nat α) α) Merge.State.started Merge.State.disposed 0 := by
  refine ⟨⟨rfl, rfl⟩, fun s n s' out h => ?_, fun s k n s' out h => ?_, fun s l s' out h => ⟨?_, ?_⟩, fun s k n _ h => ?_⟩
  · cases n <;> (simp only [mergeInner, Merge.step, Option.some.injEq, Prod.mk.injEq] at h; obtain ⟨rfl, -⟩ := h; exact ⟨rfl, rfl⟩)
  · simp only [mergeInner, Merge.step] at h
    split at h
    · cases n <;> (simp only [Option.some.injEq, Prod.mk.injEq] at h; obtain ⟨rfl, -⟩ := h; exact ⟨rfl, rfl⟩)
    · cases h
  · rcases Merge.step_started (mx := mx) h with h | ⟨-, xs, h⟩ <;> rw [h]
    · exact List.prefix_refl _
    · exact List.prefix_append ..
  · have h : Merge.step mx s l = some (s', out) := h
    cases l with
    | outer n => cases n <;> (simp only [Merge.step, Option.some.injEq, Prod.mk.injEq] at h; obtain ⟨rfl, -⟩ := h; exact List.prefix_refl _)
    | inner k n =>
      simp only [Merge.step] at h
      split at h
      · cases n <;> (simp only [Option.some.injEq, Prod.mk.injEq] at h; obtain ⟨rfl, -⟩ := h; exact List.prefix_refl _)
      · cases h
    | cancel => simp only [Merge.step, Option.some.injEq, Prod.mk.injEq] at h; obtain ⟨rfl, -⟩ := h; exact List.prefix_refl _
    | receive =>
      simp only [Merge.step] at h
      split at h
      next msg q hp hq =>
        simp only [Option.some.injEq] at h
        have h2 := congrArg Prod.fst h
        dsimp only at h2
        rw [← h2]
        cases msg with
        | inner xs => simp only [Merge.update]; split <;> exact List.prefix_refl _
        | innerCompleted k =>
          simp only [Merge.update]
          split
          · exact List.prefix_refl _
          · split <;> exact List.prefix_refl _
        | completed => exact List.prefix_refl _
        | dispose => simp only [Merge.update]; split <;> exact List.prefix_refl _
      next => cases h
    | subscribed => simp only [Merge.step] at h; split at h <;> simp at h; rw [← h.1]; exact List.prefix_refl _
    | subscribeFails => simp only [Merge.step] at h; split at h <;> simp at h; rw [← h.1]; exact List.prefix_refl _
    | disposed =>
      simp only [Merge.step] at h; split at h <;> simp at h
      · rw [← h.1]; exact List.prefix_append ..
      · rw [← h.1]; exact List.prefix_append ..
    | disposeFails => simp only [Merge.step] at h; split at h <;> simp at h; rw [← h.1]; exact List.prefix_refl _
  · have : k < s.started.length := by simpa using h
    cases n <;> simp [mergeInner, Merge.step, this]

/-- Without a disposal or an error of the source, `merge_inner` disposes nothing. -/
theorem merge_calm {mx : Int} {ls : List (Merge.Label Nat α)} {s : Merge.State Nat} {posts : List (Notif α)}
    (hr : LTS.run (mergeInner mx).solo (Merge.State.initial, []) ls = some (s, posts)) (hs : ¬ Merge.Stopped ls) :
    s.disposed = [] ∧ .dispose ∉ s.inbox ∧ ∀ ks, s.pc ≠ .disposing ks := by
  have key : ∀ (ls : List (Merge.Label Nat α)) (r r' : Merge.State Nat × List (Notif α)), LTS.run (mergeInner mx).solo r ls = some r' →
      (∀ l ∈ ls, l ≠ .cancel ∧ ∀ e, l ≠ .outer (.error e)) →
      (r.1.disposed = [] ∧ .dispose ∉ r.1.inbox ∧ ∀ ks, r.1.pc ≠ .disposing ks) → r'.1.disposed = [] ∧ .dispose ∉ r'.1.inbox ∧ ∀ ks, r'.1.pc ≠ .disposing ks := by
    intro ls r r' hr hl hi
    refine LTS.inv_of (s0 := r) (step := (mergeInner mx : Producer _ (Merge.Label Nat α) α).solo) (fun l => l ≠ .cancel ∧ ∀ e, l ≠ .outer (.error e))
      (fun r => r.1.disposed = [] ∧ .dispose ∉ r.1.inbox ∧ ∀ ks, r.1.pc ≠ .disposing ks) hi ?_ hl hr
    rintro ⟨s, ps⟩ l ⟨s', ps'⟩ ⟨hc, he⟩ ⟨h1, h2, h3⟩ h
    simp only [Producer.solo, Option.map_eq_some_iff, mergeInner] at h
    obtain ⟨⟨s1, o⟩, h, h'⟩ := h
    simp only [Prod.mk.injEq] at h'
    obtain ⟨rfl, -⟩ := h'
    dsimp only at h1 h2 h3 ⊢
    cases l with
    | outer n =>
      cases n with
      | error e => exact absurd rfl (he e)
      | _ => simp only [Merge.step, Option.some.injEq, Prod.mk.injEq] at h; obtain ⟨rfl, -⟩ := h; exact ⟨h1, by simp [h2], h3⟩
    | inner k n =>
      simp only [Merge.step] at h
      split at h
      · cases n <;> (simp only [Option.some.injEq, Prod.mk.injEq] at h; obtain ⟨rfl, -⟩ := h; exact ⟨h1, by simp [h2], h3⟩)
      · cases h
    | cancel => exact absurd rfl hc
    | receive =>
      simp only [Merge.step] at h
      split at h
      next msg q hp hq =>
        simp only [Option.some.injEq] at h
        have h4 := congrArg Prod.fst h
        dsimp only at h4
        rw [← h4]
        rw [hq] at h2
        have h2' : .dispose ∉ q := fun hm => h2 (by simp [hm])
        cases msg with
        | inner xs =>
          simp only [Merge.update]
          split
          · exact ⟨h1, h2', by simp [Merge.State.subscribe]⟩
          · refine ⟨h1, h2', fun ks => ?_⟩
            simp only [Merge.State.continue]; split <;> simp
        | innerCompleted k =>
          simp only [Merge.update]
          split
          · exact ⟨h1, h2', by simp [Merge.State.subscribe]⟩
          · split
            · refine ⟨h1, h2', fun ks => ?_⟩
              simp only [Merge.State.continue]; split <;> simp
            · refine ⟨h1, h2', fun ks => ?_⟩
              simp only [Merge.State.continue]; split <;> simp
        | completed =>
          refine ⟨h1, h2', fun ks => ?_⟩
          simp only [Merge.update, Merge.State.continue]; split <;> simp
        | dispose => simp at h2
      next => cases h
    | subscribed =>
      simp only [Merge.step] at h; split at h <;> simp at h; rw [← h.1]
      refine ⟨h1, h2, fun ks => ?_⟩
      simp only [Merge.State.continue]; split <;> simp
    | subscribeFails => simp only [Merge.step] at h; split at h <;> simp at h; rw [← h.1]; exact ⟨h1, h2, by simp⟩
    | disposed =>
      simp only [Merge.step] at h; split at h
      next hp => exact absurd hp (h3 _)
      next hp => exact absurd hp (h3 _)
      next => cases h
    | disposeFails => simp only [Merge.step] at h; cases h
  exact key ls _ _ hr (fun l hl => ⟨fun h => hs (.inl (h ▸ hl)), fun e h => hs (.inr ⟨e, h ▸ hl⟩)⟩) ⟨rfl, by simp [Merge.State.initial], by simp [Merge.State.initial]⟩

theorem merge_gone {mx : Int} {ls : List (Merge.Label Nat α)} {s : Merge.State Nat} {posts : List (Notif α)}
    (hr : LTS.run (mergeInner mx).solo (Merge.State.initial, []) ls = some (s, posts)) (hs : ¬ Merge.Stopped ls) : s.disposed = [] :=
  (merge_calm hr hs).1

/-! ### What is heard -/

variable {S : Type} {p : Producer S (Merge.Label Nat α) α} {started gone : S → List Nat} {base : Nat}

theorem completed_any {k : Nat} {heard : List (Nat × Notif α)} :
    ((heard.filter fun c => c.1 == k).any fun c => c.2.kind = .onCompleted) = true ↔ .completed ∈ heardBy k heard := by
  simp only [heardBy, List.any_eq_true, List.mem_map, decide_eq_true_eq]
  constructor
  · rintro ⟨⟨j, n⟩, h1, h2⟩
    cases n <;> simp [Notif.kind] at h2
    exact ⟨_, h1, rfl⟩
  · rintro ⟨⟨j, n⟩, h1, h2⟩
    dsimp only at h2
    subst h2
    exact ⟨_, h1, rfl⟩

/-- The merged stream, in terms of what the subscriptions have heard. -/
theorem merged_eq {ls : List (Merge.Label Nat α)} (hw : Merge.Lawful ls) (he : ∀ e, .outer (.error e) ∉ ls) :
    Merge.merged ls = result (story (Merge.outerCalls ls)).vals.length (story (Merge.outerCalls ls)).fin (inners ls) := by
  have h : Merge.Finished ls ↔ ((story (Merge.outerCalls ls)).fin = .done ∧ ∀ k < (story (Merge.outerCalls ls)).vals.length,
      (((inners ls).filter fun c => c.1 == k).any fun c => c.2.kind = .onCompleted) = true) := by
    simp only [Merge.Finished, Merge.fin, completed_any, Merge.sent]
    refine and_congr Iff.rfl (forall_congr' fun k => forall_congr' fun _ => ?_)
    rw [done_iff (hw.inner k), innerCalls_eq]
  rw [Merge.merged, result, arrivals_eq he]
  by_cases hF : Merge.Finished ls
  · rw [if_pos hF, if_pos (h.mp hF)]
  · rw [if_neg hF, if_neg (fun h' => hF (h.mpr h'))]

theorem merge_started {mx : Int} {ls : List (Label α)} {s : State (Merge.State Nat) α}
    (hr : LTS.run (merge mx).step (merge mx).init ls = some s) (hg : Grammar (outers ls)) : s.subs.map Sub.subject <+: (story (outers ls)).vals := by
  have hi := inv_run (merge_fits mx) hr
  have := Merge.started_prefix hi.run (lawful_run (merge_fits mx) hr hg)
  rw [Merge.sent, (trace_run (merge_fits mx) hr).2.1] at this
  rw [hi.subs]; exact this

theorem merge_settled {ls : List (Label α)} {s : State (Merge.State Nat) α}
    (hr : LTS.run (merge 0).step (merge 0).init ls = some s) (hg : Grammar (outers ls)) (hu : Undisturbed ls) (hq : Merge.Settled s.prod) :
    s.subs.map Sub.subject = (story (outers ls)).vals := by
  have hi := inv_run (merge_fits 0) hr
  obtain ⟨-, h2, h3, -⟩ := trace_run (merge_fits 0) hr
  have := Merge.settled_started (Int.le_refl 0) hi.run (lawful_run (merge_fits 0) hr hg) h3 (not_stopped (merge_fits 0) hr hu).2.2 hq
  rw [Merge.sent, h2] at this
  rw [hi.subs]
  rcases this with h | h
  · exact h
  · exact absurd h.1 (by omega)

theorem merge_until {mx : Int} {ls : List (Label α)} {s : State (Merge.State Nat) α}
    (hr : LTS.run (merge mx).step (merge mx).init ls = some s) (hu : Undisturbed ls) : ∀ x ∈ s.subs, x.until_ = none :=
  until_none (merge_fits mx) hr (merge_gone (inv_run (merge_fits mx) hr).run (not_stopped (merge_fits mx) hr hu).2.2)

end Hot

open Hot

/-- C152, C153: the calls in the schedules below are arbitrary, in each state each method of each subject can be called. -/
theorem C152_any_call {mx : Int} {ls : List (Hot.Label α)} {s : Hot.State (Merge.State Nat) α}
    (hr : LTS.run (Hot.merge mx).step (Hot.merge mx).init ls = some s) (i : Nat) (n : Notif α) : ((Hot.merge mx).step s (.call i n)).isSome :=
  call_isSome (merge_fits mx) (inv_run (merge_fits mx) hr) i n

/-- C152, C153, any `max_concurrent`, any schedule: what comes is exactly what is sent to each subject from the moment on at which the
worker has subscribed to it; and the completion, when each has completed after that. Nothing is unsubscribed before the end; the subjects are
subscribed in the order in which the source sends them, for `merge` and `flat_map` all of them once the worker is at rest. -/
theorem C152_exact_partial {mx : Int} (hm : 0 ≤ mx) {ls : List (Hot.Label α)} {s : Hot.State (Merge.State Nat) α}
    (hr : LTS.run (Hot.merge mx).step (Hot.merge mx).init ls = some s) (hg : Grammar (outers ls)) (hu : Undisturbed ls) :
    (story s.posts).events <+: (result (story (outers ls)).vals.length (story (outers ls)).fin (told (fun i p => hearers i p 0 s.subs) [] (made ls))).events ∧
    (Merge.Settled s.prod → story s.posts = result (story (outers ls)).vals.length (story (outers ls)).fin (told (fun i p => hearers i p 0 s.subs) [] (made ls))) ∧
    (∀ x ∈ s.subs, x.until_ = none ∧ x.since ≤ (made ls).length) ∧
    s.subs.map Sub.subject <+: (story (outers ls)).vals ∧
    (mx = 0 → Merge.Settled s.prod → s.subs.map Sub.subject = (story (outers ls)).vals) := by
  have hi := inv_run (merge_fits mx) hr
  have hw := lawful_run (merge_fits mx) hr hg
  obtain ⟨h1, h2, h3, -⟩ := trace_run (merge_fits mx) hr
  have hs := not_stopped (merge_fits mx) hr hu
  have hM := Merge.merged_of hm hi.run hw
  rw [merged_eq hw hs.2.1, h2, hi.told, h1] at hM
  refine ⟨hM.1, fun hq => hM.2 h3 hs.2.2 hq, fun x hx => ⟨merge_until hr hu x hx, h1 ▸ (hi.times x hx).1⟩, merge_started hr hg, ?_⟩
  rintro rfl hq
  exact merge_settled hr hg hu hq

namespace Hot
variable {S : Type} {p : Producer S (Merge.Label Nat α) α} {started gone : S → List Nat} {base : Nat}

/-! ### When the worker is at rest at each call -/

theorem timeline_append (a b : List (Label α)) : timeline (a ++ b) = timeline a ++ timeline b := List.filterMap_append ..

/-- What the source has sent so far. -/
def sentOf (tl : List (Nat ⊕ (Nat × Notif α))) : List Nat := tl.filterMap Sum.getLeft?
def callsOf (tl : List (Nat ⊕ (Nat × Notif α))) : List (Nat × Notif α) := tl.filterMap Sum.getRight?

theorem follow_append (who : List Nat → Nat → List Nat) : ∀ (a b : List (Nat ⊕ (Nat × Notif α))) (sent : List Nat) (before : List (Nat × Notif α)),
    follow who sent before (a ++ b) = follow who sent before a ++ follow who (sent ++ sentOf a) (before ++ callsOf a) b := by
  intro a
  induction a with
  | nil => intro b sent before; simp [follow, sentOf, callsOf]
  | cons x a ih =>
    intro b sent before
    cases x with
    | inl i =>
      have h1 : sentOf (.inl i :: a) = i :: sentOf a := rfl
      have h2 : callsOf (.inl i :: a) = callsOf a := rfl
      simp [follow, ih, h1, h2]
    | inr c =>
      have h1 : sentOf (.inr c :: a) = sentOf a := rfl
      have h2 : callsOf (.inr c :: a) = c :: callsOf a := rfl
      simp [follow, ih, h1, h2, List.append_assoc]

theorem callsOf_timeline (ls : List (Label α)) : callsOf (timeline ls) = made ls := by
  rw [callsOf, timeline, made, List.filterMap_filterMap]
  congr 1; funext l
  cases l with
  | outer n => cases n <;> rfl
  | _ => rfl

theorem sentOf_timeline {ls : List (Label α)} (hg : Grammar (outers ls)) : sentOf (timeline ls) = (story (outers ls)).vals := by
  have : sentOf (timeline ls) = (outers ls).filterMap fun | .next i => some i | _ => none := by
    rw [sentOf, timeline, outers, List.filterMap_filterMap, List.filterMap_filterMap]
    congr 1; funext l
    cases l with
    | outer n => cases n <;> rfl
    | _ => rfl
  rw [this]
  obtain ⟨⟨vs, f⟩, h⟩ := hg
  rw [h, story_events]
  have h1 : (vs.map (Notif.next : Nat → Notif Nat)).filterMap (fun | .next xs => some xs | _ => none) = vs := by
    rw [List.filterMap_map]; exact (List.filterMap_some (l := vs))
  have h2 : (f.events : List (Notif Nat)).filterMap (fun | .next xs => some xs | _ => none) = [] := by
    cases f <;> rfl
  rw [Story.events, List.filterMap_append, h1, h2, List.append_nil]

theorem Undisturbed.of_append {a b : List (Label α)} (h : Undisturbed (a ++ b)) : Undisturbed a :=
  ⟨fun h1 => h.1 (by simp [h1]), fun e h1 => h.2 e (by simp [h1])⟩

/-- If the worker has subscribed, whenever it is at rest, to those whom `who` names, then they hear what is sent while it is at rest. -/
theorem follow_run (hf : Fits p started gone base) {rest : S → Prop} {who : List Nat → Nat → List Nat}
    (hrest : ∀ ls s, LTS.run (step p started gone base) (init p) ls = some s → Grammar (outers ls) → Undisturbed ls → rest s.prod →
      ∀ i, ended i s.calls = false → (s.subjects i).observers = who (story (outers ls)).vals i)
    {ls : List (Label α)} {s : State S α} (hr : LTS.run (step p started gone base) (init p) ls = some s) (hg : Grammar (outers ls))
    (hu : Undisturbed ls) (hp : Paced (step p started gone base) (init p) rest ls) : inners s.trace = follow who [] [] (timeline ls) := by
  revert hg hu hp
  refine LTS.inv_reach (s0 := init p) (step := step p started gone base) (fun ls (s : State S α) => Grammar (outers ls) → Undisturbed ls →
    Paced (step p started gone base) (init p) rest ls → inners s.trace = follow who [] [] (timeline ls)) (fun _ _ _ => rfl) ?_ hr
  intro ls s l s' hr ih h hg hu hp
  have hg1 : Grammar (outers ls) := by rw [outers_append] at hg; exact grammar_prefix (List.prefix_append ..) hg
  have ih := ih hg1 hu.of_append fun a i n b hab => hp a i n (b ++ [l]) (by rw [hab]; simp)
  rw [timeline_append, follow_append, ← ih, List.nil_append, List.nil_append]
  cases l with
  | outer n =>
    have h : s.act p (.outer n) = some s' := h
    obtain ⟨out, h1, h2⟩ := act_some h
    rw [h2, inners_append]
    congr 1
    cases n <;> rfl
  | call i n =>
    have hobs := hrest ls s hr hg1 hu.of_append (hp ls i n [] rfl s hr) i
    have hi := inv_run hf hr
    have hst := hi.stopped i
    rw [callsOf_timeline, sentOf_timeline hg1, ← (trace_run hf hr).1]
    show _ = inners s.trace ++ ((if ended i s.calls then [] else _) ++ [])
    simp only [step] at h
    split at h
    · rename_i hs
      obtain rfl := (Option.some.inj h).symm
      rw [← hst, hs]; simp
    · rename_i hs
      have hend : ended i s.calls = false := by rw [← hst]; simpa using hs
      obtain ⟨h1, h2, h3, h4, h5, h6, h7⟩ := tell_some hf h
      rw [h6, inners_append, hend, hobs hend]
      simp [inners, List.filterMap_map, Function.comp_def]
  | own l =>
    obtain ⟨t, h1, h2⟩ : ∃ t, s'.trace = s.trace ++ [t] ∧ inners [t] = [] := by
      have h : (s.act p l).map (fun t => ((t.unsubscribe base ((gone t.prod).drop (gone s.prod).length)).subscribe base
          ((started t.prod).drop (started s.prod).length))) = some s' ∧ inners [l] = [] := by
        cases l <;> first | (simp [step] at h; done) | exact ⟨h, rfl⟩
      obtain ⟨h, hl⟩ := h
      obtain ⟨t, h1, h2⟩ := Option.map_eq_some_iff.mp h
      obtain ⟨out, h3, h4⟩ := act_some h1
      have hi := inv_run hf hr
      have ht : Part base t := by
        rw [h4]
        refine ⟨hi.obs, hi.stopped, hi.times, ?_⟩
        show inners (s.trace ++ [_]) = _
        rw [inners_append, hi.told, hl]; simp
      obtain ⟨u1, u2, u3, u4, u5, u6⟩ := unsubscribe_part (ks := (gone t.prod).drop (gone s.prod).length) ht
      obtain ⟨v1, v2, v3, v4, v5, v6⟩ := subscribe_part (is := (started t.prod).drop (started s.prod).length) u1
      subst h2
      exact ⟨l, by rw [v5, u5, h4], hl⟩
    rw [h1, inners_append, h2]
    rfl

theorem listening_places {i : Nat} : ∀ {subs : List Sub} {k : Nat}, (∀ x ∈ subs, x.until_ = none) →
    listening i k subs = places i k (subs.map Sub.subject) := by
  intro subs
  induction subs with
  | nil => intros; rfl
  | cons x subs ih =>
    intro k h
    rw [listening, List.map_cons, places, ih (fun y hy => h y (by simp [hy]))]
    simp [h x (by simp)]

theorem act_grows {s s' : State S α} {l : Merge.Label Nat α} (h : s.act p l = some s') : s.posts <+: s'.posts := by
  obtain ⟨out, -, h2⟩ := act_some h
  rw [h2]; exact List.prefix_append ..

theorem tell_grows {n : Notif α} : ∀ {ks : List Nat} {s s' : State S α}, s.tell p n ks = some s' → s.posts <+: s'.posts := by
  intro ks
  induction ks with
  | nil => intro s s' h; simp only [State.tell, Option.some.injEq] at h; subst h; exact List.prefix_refl _
  | cons k ks ih =>
    intro s s' h
    simp only [State.tell, Option.bind_eq_some_iff] at h
    obtain ⟨s1, h1, h2⟩ := h
    exact (act_grows h1).trans (ih h2)

theorem step_grows {s s' : State S α} {l : Label α} (h : step p started gone base s l = some s') : s.posts <+: s'.posts := by
  cases l with
  | outer n => exact act_grows (l := .outer n) h
  | call i n =>
    simp only [step] at h
    split at h
    · obtain rfl := (Option.some.inj h).symm; exact List.prefix_refl _
    · have := tell_grows h; exact this
  | own l =>
    have h : (s.act p l).map (fun t => ((t.unsubscribe base ((gone t.prod).drop (gone s.prod).length)).subscribe base
        ((started t.prod).drop (started s.prod).length))) = some s' := by
      cases l <;> first | (simp [step] at h; done) | exact h
    obtain ⟨t, h1, h2⟩ := Option.map_eq_some_iff.mp h
    have hu : ∀ (ks : List Nat) (u : State S α), (u.unsubscribe base ks).posts = u.posts := by
      intro ks
      induction ks with
      | nil => intro u; rfl
      | cons k ks ih => intro u; exact ih _
    have hv : ∀ (is : List Nat) (u : State S α), (u.subscribe base is).posts = u.posts := by
      intro is
      induction is with
      | nil => intro u; rfl
      | cons i is ih => intro u; exact ih _
    subst h2
    rw [hv, hu]
    exact act_grows h1

theorem merge_grows (mx : Int) : (merge mx : Source _ (Label α) α).Grows := ⟨rfl, fun _ _ _ h => step_grows h⟩
theorem switch_grows : (switch : Source _ (Label α) α).Grows := ⟨rfl, fun _ _ _ h => step_grows h⟩

end Hot

open Hot

/-- C152, `merge` and `flat_map`: whenever a method of a subject is called, the worker is at rest (the program has waited). Then everything
comes that is sent to the subjects which the source has sent so far, in that order, once for each time that the source has sent the subject; and the completion,
when all have completed. -/
theorem C152_paced_partial {ls : List (Hot.Label α)} {s : Hot.State (Merge.State Nat) α}
    (hr : LTS.run (Hot.merge 0).step (Hot.merge 0).init ls = some s) (hg : Grammar (outers ls)) (hu : Undisturbed ls)
    (hp : Paced (Hot.merge 0).step (Hot.merge 0).init Merge.Settled ls) :
    (story s.posts).events <+: (result (story (outers ls)).vals.length (story (outers ls)).fin (follow everybody [] [] (timeline ls))).events ∧
    (Merge.Settled s.prod → story s.posts = result (story (outers ls)).vals.length (story (outers ls)).fin (follow everybody [] [] (timeline ls))) := by
  have hfo := follow_run (merge_fits 0) (rest := Merge.Settled) (who := everybody) (fun ls s hr hg hu hq i _ => by
    rw [(inv_run (merge_fits 0) hr).obs i, listening_places (merge_until hr hu), merge_settled hr hg hu hq]; rfl) hr hg hu hp
  have h := C152_exact_partial (Int.le_refl 0) hr hg hu
  have hi := inv_run (merge_fits 0) hr
  rw [← (trace_run (merge_fits 0) hr).1, ← hi.told, hfo] at h
  exact ⟨h.1, h.2.1⟩

/-- C152 for the final observer behind any operators: under the same schedules it gets what the operators make of that stream. -/
theorem C152_observed_partial {op : Operator α γ} {G : Story α → Story γ} (hG : op.Computes G) :
    ((Hot.merge 0 : Source _ (Hot.Label α) α).pipe op.protected).Sends
      (fun ls _ => Grammar (outers (Piped.sources ls)) ∧ Undisturbed (Piped.sources ls) ∧
        Paced (Hot.merge 0).step (Hot.merge 0).init Merge.Settled (Piped.sources ls))
      (fun _ s => Merge.Settled s.src.prod ∧ op.protected.slowProc.Quiescent s.ps)
      (fun ls => G (result (story (outers (Piped.sources ls))).vals.length (story (outers (Piped.sources ls))).fin
        (follow everybody [] [] (timeline (Piped.sources ls))))) :=
  C101_pipe (merge_grows 0) hG.guarded (fun _ _ => trivial)
    (ok := fun ls _ => Grammar (outers ls) ∧ Undisturbed ls ∧ Paced (Hot.merge 0).step (Hot.merge 0).init Merge.Settled ls)
    (quiet := fun _ s => Merge.Settled s.prod)
    ⟨fun _ _ hr hok => (C152_paced_partial hr hok.1 hok.2.1 hok.2.2).1, fun _ _ hr hok hq => (C152_paced_partial hr hok.1 hok.2.1 hok.2.2).2 hq⟩
    (fun _ _ _ _ => trivial)

namespace Hot

/-- The worker takes the first message and subscribes, without being suspended in between. -/
def takes : List (Label α) := [.own .receive, .own .subscribed]

/-- `xs` and `ys` are merged; `xs.asend(7)` follows at once, then the workers run, then `xs.asend(8)`. -/
def sentAtOnce : List (Label Nat) :=
  [.call 0 (.next 7), .outer (.next 0), .outer (.next 1), .outer .completed] ++ takes ++ takes ++ [.own .receive, .call 0 (.next 8)]

/-- The same, but the program waits before it sends anything. -/
def sentLater : List (Label Nat) :=
  [.outer (.next 0), .outer (.next 1), .outer .completed] ++ takes ++ takes ++
    [.own .receive, .call 0 (.next 7), .call 1 (.next 5), .call 0 (.next 8), .call 0 .completed, .own .receive, .call 0 (.next 9), .call 1 (.next 6), .call 1 .completed, .own .receive]

/-- For examples: is the worker at rest at each call? -/
def pacedOk {S : Type} (step : State S α → Label α → Option (State S α)) (rest : S → Bool) : State S α → List (Label α) → Bool
  | _, [] => true
  | s, l :: ls =>
    (match l with | .call _ _ => rest s.prod | _ => true) && (match step s l with | some s' => pacedOk step rest s' ls | none => true)

theorem paced_of {S : Type} {step : State S α → Label α → Option (State S α)} {rest : S → Bool} : ∀ {ls : List (Label α)} {s : State S α},
    pacedOk step rest s ls = true → Paced step s (fun t => rest t = true) ls := by
  intro ls
  induction ls with
  | nil => intro s _ a i n b h; simp at h
  | cons l ls ih =>
    intro s h a i n b hab t ht
    simp only [pacedOk, Bool.and_eq_true] at h
    cases a with
    | nil =>
      simp only [List.nil_append, List.cons.injEq] at hab
      simp only [LTS.run, Option.some.injEq] at ht
      subst ht
      rw [hab.1] at h
      exact h.1
    | cons m a =>
      simp only [List.cons_append, List.cons.injEq] at hab
      obtain ⟨s1, h1, h2⟩ := LTS.run_cons.mp ht
      rw [← hab.1] at h1
      have h3 := h.2
      rw [h1] at h3
      exact ih h3 a i n b hab.2 t h2

/-- At rest. -/
def calm (s : Merge.State Nat) : Bool := match s.pc, s.inbox with | .halted, _ | .waiting, [] => true | _, _ => false

theorem Paced.mono {S : Type} {step : State S α → Label α → Option (State S α)} {rest rest' : S → Prop} {ls : List (Label α)} {s : State S α}
    (h : Paced step s rest ls) (hr : ∀ t, rest t → rest' t) : Paced step s rest' ls :=
  fun a i n b hab t ht => hr _ (h a i n b hab t ht)

theorem settled_of_calm {s : Merge.State Nat} (h : calm s = true) : Merge.Settled s := by
  unfold calm at h
  split at h
  · rename_i h1; exact .inl h1
  · rename_i h1 h2; exact .inr ⟨h1, h2⟩
  · cases h

end Hot

/-- C152 is false: `merge` subscribes to its sources only after `subscribe_async` has returned, when a worker runs. What is sent before that
is lost, although nothing else happens; what is sent later comes. -/
theorem C152_violated : ∃ s, LTS.run (Hot.merge 0).step (Hot.merge 0).init sentAtOnce = some s ∧
    outers sentAtOnce = [.next 0, .next 1, .completed] ∧ made sentAtOnce = [(0, .next 7), (0, .next 8)] ∧ Merge.Settled s.prod ∧
    s.posts = [.next 8] ∧ s.subs = [⟨0, 1, none⟩, ⟨1, 1, none⟩] := by
  refine ⟨_, rfl, rfl, rfl, ?_, rfl, rfl⟩
  exact .inr ⟨rfl, rfl⟩

/-- C152: a case for `C152_paced_partial`. -/
example : ∃ s, LTS.run (Hot.merge 0).step (Hot.merge 0).init sentLater = some s ∧ s.prod.pc = .halted ∧
    s.posts = [.next 7, .next 5, .next 8, .next 6, .completed] ∧
    Grammar (outers sentLater) ∧ Undisturbed sentLater ∧ Paced (Hot.merge 0).step (Hot.merge 0).init Merge.Settled sentLater :=
  ⟨_, rfl, rfl, rfl, ⟨⟨[0, 1], .done⟩, rfl⟩, by simp [Undisturbed, sentLater, takes], (paced_of (rest := calm) rfl).mono fun _ => settled_of_calm⟩

/-- C152: a subject that is merged with itself is heard twice. -/
example : result 2 .done (follow everybody [] [] [.inl 0, .inl 0, .inr (0, .next 7), .inr (0, (.completed : Notif Nat))]) = ⟨[7, 7], .done⟩ := by decide

/-! ## C153 -/

/-- C153 is false, also for `merge`: if a subject that the source sends has ended before the worker subscribes to it, the completion never comes, whatever happens
afterwards (an `AsyncSubject` does not tell new observers that it has ended). -/
theorem C153_never {mx : Int} (hm : 0 ≤ mx) {a b : List (Hot.Label α)} {s1 s : Hot.State (Merge.State Nat) α}
    (ha : LTS.run (Hot.merge mx).step (Hot.merge mx).init a = some s1) (hb : LTS.run (Hot.merge mx).step s1 b = some s)
    (hg : Grammar (outers (a ++ b))) {k i : Nat} (hk : s1.subs.length ≤ k) (hi : (story (outers (a ++ b))).vals[k]? = some i)
    (he : ended i (made a) = true) : .completed ∉ s.posts := by
  intro hc
  have hr : LTS.run (Hot.merge mx).step (Hot.merge mx).init (a ++ b) = some s := LTS.run_append.mpr ⟨s1, ha, hb⟩
  have hI := inv_run (merge_fits mx) hr
  have hI1 := inv_run (merge_fits mx) ha
  have hw := lawful_run (merge_fits mx) hr hg
  obtain ⟨-, h2, h3⟩ := Merge.completed_posted hm hI.run hw hc
  rw [Merge.sent, (trace_run (merge_fits mx) hr).2.1] at h2
  have hkl : k < s.prod.started.length := by
    rw [h2]; exact (List.getElem?_eq_some_iff.mp hi).1
  have h4 := h3 k hkl
  rw [Merge.fin, done_iff (hw.inner k), innerCalls_eq, hI.told] at h4
  simp only [heardBy, List.mem_map, List.mem_filter] at h4
  obtain ⟨c, ⟨h5, h6⟩, -⟩ := h4
  obtain ⟨hpre, ts, hts, htl⟩ := since_later (merge_fits mx) hI1 hb
  rw [← (trace_run (merge_fits mx) ha).1] at he
  refine told_ended (P := fun c => c.1 ≠ k) (fun j q k' n e1 e2 e3 => ?_) c h5 (by simpa using h6)
  rintro rfl
  obtain ⟨j', x, rfl, f2, rfl, f4, -⟩ := hearers_mem.mp e3
  simp only [Nat.zero_add, List.length_nil, List.nil_append] at *
  have f5 : x.subject = i := by
    have : (s.subs.map Sub.subject)[j']? = some x.subject := by rw [List.getElem?_map, f2]; rfl
    rw [hI.subs, h2, hi] at this
    exact (Option.some.inj this).symm
  have f6 : s1.calls.length ≤ x.since := by
    have : (s.subs.map Sub.since)[j']? = some x.since := by rw [List.getElem?_map, f2]; rfl
    rw [hts, List.getElem?_append_right (by simpa using hk)] at this
    exact htl _ (List.mem_of_getElem? this)
  rw [f5] at e1
  obtain ⟨r, hr2⟩ := hpre
  rw [← hr2, List.take_append, List.take_of_length_le (by omega), ended_append, he] at e1
  simp at e1

/-- `concat(xs, ys)`: `ys` ends while `xs` is still listened to, then `xs` does. -/
def Hot.endsEarly : List (Hot.Label Nat) :=
  [.outer (.next 0), .outer (.next 1), .outer .completed] ++ takes ++
    [.own .receive, .own .receive, .call 0 (.next 7), .call 1 .completed, .call 0 .completed] ++ takes

/-- `concat(xs, ys)`: `await xs.aclose(); await ys.asend(5)`, then the workers run, then `await ys.asend(6); await ys.aclose()`. -/
def Hot.sentInTheGap : List (Hot.Label Nat) :=
  [.outer (.next 0), .outer (.next 1), .outer .completed] ++ takes ++
    [.own .receive, .own .receive, .call 0 (.next 7), .call 0 .completed, .call 1 (.next 5)] ++ takes ++ [.call 1 (.next 6), .call 1 .completed, .own .receive]

/-- C153 is false: both subjects have completed, and the workers are at rest, but there is no completion (and, by `C153_never`, there will be none). -/
theorem C153_violated : ∃ s, LTS.run (Hot.merge 1).step (Hot.merge 1).init endsEarly = some s ∧
    outers endsEarly = [.next 0, .next 1, .completed] ∧ made endsEarly = [(0, .next 7), (1, .completed), (0, .completed)] ∧ Merge.Settled s.prod ∧
    s.posts = [.next 7] := by
  refine ⟨_, rfl, rfl, rfl, ?_, rfl⟩
  exact .inr ⟨rfl, rfl⟩

/-- C153 is false: `xs.aclose()` has returned, but what is then sent to `ys` is lost until the worker has run. -/
theorem C153_violated_gap : ∃ s, LTS.run (Hot.merge 1).step (Hot.merge 1).init sentInTheGap = some s ∧
    made sentInTheGap = [(0, .next 7), (0, .completed), (1, .next 5), (1, .next 6), (1, .completed)] ∧ Merge.Settled s.prod ∧
    s.posts = [.next 7, .next 6, .completed] := by
  refine ⟨_, rfl, rfl, ?_, rfl⟩
  exact .inl rfl

namespace Hot

/-- How many have completed. -/
def turns (k : Nat) : List (Nat × Notif α) → Nat
  | [] => k
  | (_, .completed) :: heard => turns (k + 1) heard
  | _ :: heard => turns k heard

theorem inTurn_append : ∀ (a b : List (Nat ⊕ (Nat × Notif α))) (k : Nat) (sent : List Nat) (before : List (Nat × Notif α)),
    inTurn k sent before (a ++ b) = inTurn k sent before a ++ inTurn (turns k (inTurn k sent before a)) (sent ++ sentOf a) (before ++ callsOf a) b := by
  intro a
  induction a with
  | nil => intro b k sent before; simp [inTurn, sentOf, callsOf, turns]
  | cons x a ih =>
    intro b k sent before
    cases x with
    | inl i =>
      have h1 : sentOf (.inl i :: a) = i :: sentOf a := rfl
      have h2 : callsOf (.inl i :: a) = callsOf a := rfl
      simp [inTurn, ih, h1, h2]
    | inr c =>
      obtain ⟨i, n⟩ := c
      have h1 : sentOf (.inr (i, n) :: a) = sentOf a := rfl
      have h2 : callsOf (.inr (i, n) :: a) = (i, n) :: callsOf a := rfl
      simp only [List.cons_append, inTurn, h1, h2]
      split
      · rw [ih]
        cases n <;> simp [turns, List.append_assoc]
      · rw [ih]; simp [List.append_assoc]

theorem turns_append (a b : List (Nat × Notif α)) : ∀ k, turns k (a ++ b) = turns (turns k a) b := by
  induction a with
  | nil => intro k; rfl
  | cons c a ih =>
    intro k
    obtain ⟨j, n⟩ := c
    cases n <;> simp [turns, ih]

theorem places_append {i : Nat} : ∀ {a b : List Nat} {k : Nat}, places i k (a ++ b) = places i k a ++ places i (k + a.length) b := by
  intro a
  induction a with
  | nil => intro b k; simp [places]
  | cons x a ih =>
    intro b k
    simp only [List.cons_append, places, ih, List.length_cons]
    rw [show k + (a.length + 1) = k + 1 + a.length by omega]
    split <;> simp

theorem places_none {i : Nat} : ∀ {a : List Nat} {k : Nat}, i ∉ a → places i k a = [] := by
  intro a
  induction a with
  | nil => intros; rfl
  | cons x a ih =>
    intro k h
    rw [places, if_neg (fun hx => h (by simp [hx])), ih (fun hm => h (by simp [hm]))]

theorem places_one {i k : Nat} {l : List Nat} (hl : l.length ≤ k + 1) (hk : k ≤ l.length) (hn : ∀ j < k, l[j]? ≠ some i) :
    places i 0 l = if l[k]? = some i then [k] else [] := by
  have h1 : i ∉ l.take k := fun h => by
    obtain ⟨j, hj⟩ := List.mem_iff_getElem?.mp h
    rw [List.getElem?_take] at hj
    split at hj
    · rename_i h2; exact hn j h2 hj
    · cases hj
  have h2 : places i 0 l = places i 0 (l.take k) ++ places i (0 + (l.take k).length) (l.drop k) := by
    rw [← places_append, List.take_append_drop]
  rw [h2, places_none h1, List.length_take, Nat.min_eq_left hk, Nat.zero_add, List.nil_append]
  by_cases hlt : k < l.length
  · have h3 : l.drop k = [l[k]] := by
      rw [List.drop_eq_getElem_cons hlt, List.drop_eq_nil_of_le (by omega)]
    rw [h3, List.getElem?_eq_getElem hlt]
    simp [places]
  · rw [List.drop_eq_nil_of_le (by omega), List.getElem?_eq_none (by omega)]
    simp [places]

/-- Who has heard a completion, has heard it from a subject that has ended. -/
theorem Inv.heard_ended {S : Type} {p : Producer S (Merge.Label Nat α) α} {started : S → List Nat} {base : Nat} {s : State S α}
    (hi : Inv p started base s) {j : Nat} (h : .completed ∈ heardBy (base + j) (inners s.trace)) : ∃ x, s.subs[j]? = some x ∧ ended x.subject s.calls = true := by
  rw [hi.told] at h
  simp only [heardBy, List.mem_map, List.mem_filter] at h
  obtain ⟨c, ⟨h1, h2⟩, h3⟩ := h
  refine told_ended (P := fun c => c.1 = base + j → c.2 = .completed → ∃ x, s.subs[j]? = some x ∧ ended x.subject s.calls = true) (fun i q k n e1 e2 e3 e4 e5 => ?_)
    c h1 (by simpa using h2) h3
  simp only at e4 e5
  subst e4 e5
  obtain ⟨j', x, f1, f2, f3, -⟩ := hearers_mem.mp e3
  obtain rfl : j' = j := by omega
  refine ⟨x, f2, ?_⟩
  rw [f3]
  simp only [ended, List.any_eq_true]
  exact ⟨_, List.mem_of_getElem? e2, by simp [Notif.isTerminal]⟩

/-- `concat`, at rest: of the subjects that have not ended, the one whose turn it is, is listened to. -/
theorem concat_rest {ls : List (Label α)} {s : State (Merge.State Nat) α} (hr : LTS.run (merge 1).step (merge 1).init ls = some s)
    (hg : Grammar (outers ls)) (hu : Undisturbed ls) (hq : Merge.Settled s.prod) {k : Nat}
    (hk : ∀ j, .completed ∈ heardBy j (inners s.trace) ↔ j < k) {i : Nat} (he : ended i s.calls = false) :
    (s.subjects i).observers = if (story (outers ls)).vals[k]? = some i then [k] else [] := by
  have hi := inv_run (merge_fits 1) hr
  have hw := lawful_run (merge_fits 1) hr hg
  obtain ⟨-, h2, h3, -⟩ := trace_run (merge_fits 1) hr
  have hfin : ∀ j, Merge.fin j s.trace = .done ↔ j < k := fun j => by
    rw [Merge.fin, done_iff (hw.inner j), innerCalls_eq]; exact hk j
  have hmi := Merge.inv_run hi.run hw
  have hpre : s.prod.started <+: (story (outers ls)).vals := by rw [← hi.subs]; exact merge_started hr hg
  have hkl : k ≤ s.prod.started.length := by
    refine Nat.le_of_not_lt fun h => ?_
    have h1 := (hk _).mpr h
    rw [← innerCalls_eq, Merge.fresh_run hi.run _ (Nat.le_refl _)] at h1
    cases h1
  have hlk : s.prod.started.length ≤ k + 1 := by
    refine Nat.le_of_not_lt fun h => ?_
    have := (hfin k).mp (hmi.seq rfl k h)
    omega
  rw [hi.obs i, listening_places (merge_until hr hu), hi.subs, places_one hlk hkl]
  · by_cases hlt : k < s.prod.started.length
    · have : (story (outers ls)).vals[k]? = s.prod.started[k]? := by
        obtain ⟨r, hr2⟩ := hpre
        rw [← hr2, List.getElem?_append_left hlt]
      rw [this]
    · have hall : s.prod.started = (story (outers ls)).vals := by
        rcases Merge.settled_started (by decide) hi.run hw h3 (not_stopped (merge_fits 1) hr hu).2.2 hq with h | ⟨-, h⟩
        · rw [h, Merge.sent, h2]
        · exfalso
          have h0 : Merge.unfinished s.trace s.prod = [] := by
            simp only [Merge.unfinished, List.filter_eq_nil_iff, List.mem_range, decide_eq_true_eq]
            intro j hj h1
            exact h1 ((hfin j).mpr (by omega))
          rw [h0] at h
          simp at h
      rw [← hall]
  · intro j hj h
    obtain ⟨x, h1, h4⟩ := hi.heard_ended (j := j) (by rw [Nat.zero_add]; exact (hk j).mpr hj)
    have : (s.subs.map Sub.subject)[j]? = some x.subject := by rw [List.getElem?_map, h1]; rfl
    rw [hi.subs, h] at this
    rw [← Option.some.inj this, he] at h4
    cases h4

theorem paced_turns {ls : List (Label α)} {s : State (Merge.State Nat) α} (hr : LTS.run (merge 1).step (merge 1).init ls = some s)
    (hg : Grammar (outers ls)) (hu : Undisturbed ls) (hp : Paced (merge 1).step (merge 1).init Merge.Settled ls) :
    inners s.trace = inTurn 0 [] [] (timeline ls) ∧ ∀ j, .completed ∈ heardBy j (inners s.trace) ↔ j < turns 0 (inners s.trace) := by
  revert hg hu hp
  refine LTS.inv_reach (s0 := (merge 1).init) (step := (merge 1).step) (fun ls (s : State (Merge.State Nat) α) => Grammar (outers ls) → Undisturbed ls →
    Paced (merge 1).step (merge 1).init Merge.Settled ls → inners s.trace = inTurn 0 [] [] (timeline ls) ∧
      ∀ j, .completed ∈ heardBy j (inners s.trace) ↔ j < turns 0 (inners s.trace))
    (fun _ _ _ => ⟨rfl, fun j => by simp [merge, init, inners, heardBy, turns]⟩) ?_ hr
  intro ls s l s' hr ih h hg hu hp
  have hg1 : Grammar (outers ls) := by rw [outers_append] at hg; exact grammar_prefix (List.prefix_append ..) hg
  obtain ⟨ih, ih2⟩ := ih hg1 hu.of_append fun a i n b hab => hp a i n (b ++ [l]) (by rw [hab]; simp)
  rw [timeline_append, inTurn_append, ← ih, List.nil_append, List.nil_append]
  have hquiet : ∀ t, s'.trace = s.trace ++ t → inners t = [] → inTurn (turns 0 (inners s.trace)) (sentOf (timeline ls)) (callsOf (timeline ls)) (timeline [l]) = [] →
      inners s'.trace = inners s.trace ++ inTurn (turns 0 (inners s.trace)) (sentOf (timeline ls)) (callsOf (timeline ls)) (timeline [l]) ∧
      ∀ j, .completed ∈ heardBy j (inners s'.trace) ↔ j < turns 0 (inners s'.trace) := by
    intro t h1 h2 h3
    rw [h3, h1, inners_append, h2, List.append_nil]
    exact ⟨rfl, ih2⟩
  cases l with
  | outer n =>
    have h : s.act (mergeInner 1) (.outer n) = some s' := h
    obtain ⟨out, h1, h2⟩ := act_some h
    refine hquiet [.outer n] (by rw [h2]) rfl ?_
    cases n <;> rfl
  | call i n =>
    have hobs := fun he => concat_rest hr hg1 hu.of_append (hp ls i n [] rfl s hr) ih2 (i := i) he
    have hi := inv_run (merge_fits 1) hr
    have hst := hi.stopped i
    rw [callsOf_timeline, sentOf_timeline hg1, ← (trace_run (merge_fits 1) hr).1] at hquiet ⊢
    have h : step (mergeInner 1) Merge.State.started Merge.State.disposed 0 s (.call i n) = some s' := h
    simp only [step] at h
    show inners s'.trace = inners s.trace ++ (if ended i s.calls = false ∧ _ then _ else _) ∧ _
    split at h
    · rename_i hs
      obtain rfl := (Option.some.inj h).symm
      rw [hst] at hs
      rw [if_neg (by simp [hs])]
      exact ⟨by simp [inTurn], ih2⟩
    · rename_i hs
      have hend : ended i s.calls = false := by rw [← hst]; simpa using hs
      obtain ⟨h1, h2, h3, h4, h5, h6, h7⟩ := tell_some (merge_fits 1) h
      have hobs := hobs hend
      by_cases hcur : (story (outers ls)).vals[turns 0 (inners s.trace)]? = some i
      · rw [if_pos hcur] at hobs
        rw [if_pos ⟨hend, hcur⟩, h6, hobs, inners_append]
        refine ⟨by simp [inners, inTurn], fun j => ?_⟩
        have hin : inners ([turns 0 (inners s.trace)].map (Merge.Label.inner (ω := Nat) · n)) = [(turns 0 (inners s.trace), n)] := rfl
        rw [hin, turns_append, heardBy_append, List.mem_append, ih2]
        cases n with
        | completed =>
          simp only [turns, heardBy]
          by_cases hj : turns 0 (inners s.trace) = j
          · simp [hj]
          · simp [hj]; omega
        | next v => simp [turns, heardBy]
        | error e => simp [turns, heardBy]
      · rw [if_neg hcur] at hobs
        rw [if_neg (fun hh => hcur hh.2), h6, hobs, inners_append]
        simp only [List.map_nil, inTurn, inners, List.filterMap_nil, List.append_nil]
        exact ⟨trivial, ih2⟩
  | own l =>
    obtain ⟨-, t, h1, -, -, -, h2⟩ := step_trace (merge_fits 1) (show step (mergeInner 1) Merge.State.started Merge.State.disposed 0 s (.own l) = some s' from h)
    exact hquiet t h1 (h2 rfl) rfl

end Hot

/-- C153, `concat`: whenever a method of a subject is called, the worker is at rest. Then what comes is what each subject sends from the completion of the one before
on (or from when the source sends it), until it completes; the completion comes when all have completed in their turn. -/
theorem C153_paced_partial {ls : List (Hot.Label α)} {s : Hot.State (Merge.State Nat) α}
    (hr : LTS.run (Hot.merge 1).step (Hot.merge 1).init ls = some s) (hg : Grammar (outers ls)) (hu : Undisturbed ls)
    (hp : Paced (Hot.merge 1).step (Hot.merge 1).init Merge.Settled ls) :
    (story s.posts).events <+: (result (story (outers ls)).vals.length (story (outers ls)).fin (inTurn 0 [] [] (timeline ls))).events ∧
    (Merge.Settled s.prod → story s.posts = result (story (outers ls)).vals.length (story (outers ls)).fin (inTurn 0 [] [] (timeline ls))) := by
  have h := C152_exact_partial (mx := 1) (by decide) hr hg hu
  have hi := inv_run (merge_fits 1) hr
  rw [← (trace_run (merge_fits 1) hr).1, ← hi.told, (paced_turns hr hg hu hp).1] at h
  exact ⟨h.1, h.2.1⟩

/-- C153 for the final observer behind any operators. -/
theorem C153_observed_partial {op : Operator α γ} {G : Story α → Story γ} (hG : op.Computes G) :
    ((Hot.merge 1 : Source _ (Hot.Label α) α).pipe op.protected).Sends
      (fun ls _ => Grammar (outers (Piped.sources ls)) ∧ Undisturbed (Piped.sources ls) ∧
        Paced (Hot.merge 1).step (Hot.merge 1).init Merge.Settled (Piped.sources ls))
      (fun _ s => Merge.Settled s.src.prod ∧ op.protected.slowProc.Quiescent s.ps)
      (fun ls => G (result (story (outers (Piped.sources ls))).vals.length (story (outers (Piped.sources ls))).fin
        (inTurn 0 [] [] (timeline (Piped.sources ls))))) :=
  C101_pipe (merge_grows 1) hG.guarded (fun _ _ => trivial)
    (ok := fun ls _ => Grammar (outers ls) ∧ Undisturbed ls ∧ Paced (Hot.merge 1).step (Hot.merge 1).init Merge.Settled ls)
    (quiet := fun _ s => Merge.Settled s.prod)
    ⟨fun _ _ hr hok => (C153_paced_partial hr hok.1 hok.2.1 hok.2.2).1, fun _ _ hr hok hq => (C153_paced_partial hr hok.1 hok.2.1 hok.2.2).2 hq⟩
    (fun _ _ _ _ => trivial)

/-- C153, in any schedule: the next subject is listened to only after the one before has completed (and `C152_exact_partial` says what is heard). -/
theorem C153_order_partial {ls : List (Hot.Label α)} {s : Hot.State (Merge.State Nat) α}
    (hr : LTS.run (Hot.merge 1).step (Hot.merge 1).init ls = some s) (hg : Grammar (outers ls)) (j : Nat) (x y : Hot.Sub)
    (hx : s.subs[j]? = some x) (hy : s.subs[j + 1]? = some y) :
    ∃ q, x.since ≤ q ∧ q < y.since ∧ (made ls)[q]? = some (x.subject, .completed) := by
  rw [← (trace_run (merge_fits 1) hr).1]
  revert hg j x y
  refine LTS.inv_reach (s0 := (Hot.merge 1).init) (step := (Hot.merge 1).step) (fun ls (s : Hot.State (Merge.State Nat) α) => Grammar (outers ls) →
    ∀ (j : Nat) (x y : Hot.Sub), s.subs[j]? = some x → s.subs[j + 1]? = some y → ∃ q, x.since ≤ q ∧ q < y.since ∧ s.calls[q]? = some (x.subject, .completed))
    (fun _ j x y hx => by simp [Hot.merge, Hot.init] at hx) ?_ hr
  intro ls s l s' hr ih h hg j x y hx hy
  have hr' : LTS.run (Hot.merge 1).step (Hot.merge 1).init (ls ++ [l]) = some s' := LTS.run_append.mpr ⟨s, hr, LTS.run_cons.mpr ⟨s', h, rfl⟩⟩
  have hg1 : Grammar (outers ls) := by rw [outers_append] at hg; exact grammar_prefix (List.prefix_append ..) hg
  have hi := inv_run (merge_fits 1) hr
  have hi' := inv_run (merge_fits 1) hr'
  obtain ⟨m, hm, hsub, hcm⟩ := step_since (merge_fits 1) hi h
  have hc := (step_trace (merge_fits 1) (show Hot.step (mergeInner 1) Merge.State.started Merge.State.disposed 0 s l = some s' from h)).1
  have hlen : s'.subs.length = s.subs.length + m := by simpa using congrArg List.length hm
  have hold : ∀ {k : Nat} {z : Hot.Sub}, k < s.subs.length → s'.subs[k]? = some z → ∃ z0, s.subs[k]? = some z0 ∧ z0.since = z.since ∧ z0.subject = z.subject := by
    intro k z hk hz
    refine ⟨s.subs[k], List.getElem?_eq_getElem hk, ?_, ?_⟩
    · have h1 : (s'.subs.map Sub.since)[k]? = some z.since := by rw [List.getElem?_map, hz]; rfl
      rw [hm, List.getElem?_append_left (by simpa using hk), List.getElem?_map, List.getElem?_eq_getElem hk] at h1
      exact Option.some.inj h1
    · have h1 : (s'.subs.map Sub.subject)[k]? = some z.subject := by rw [List.getElem?_map, hz]; rfl
      obtain ⟨r, hr2⟩ := hsub
      rw [← hr2, List.getElem?_append_left (by simpa using hk), List.getElem?_map, List.getElem?_eq_getElem hk] at h1
      exact Option.some.inj h1
  by_cases hj : j + 1 < s.subs.length
  · obtain ⟨x0, a1, a2, a3⟩ := hold (by omega) hx
    obtain ⟨y0, b1, b2, -⟩ := hold hj hy
    obtain ⟨q, c1, c2, c3⟩ := ih hg1 j x0 y0 a1 b1
    refine ⟨q, by omega, by omega, ?_⟩
    rw [hc, List.getElem?_append_left (List.getElem?_eq_some_iff.mp c3).1, c3, a3]
  · have hjl : j + 1 < s'.subs.length := (List.getElem?_eq_some_iff.mp hy).1
    have hcc : s'.calls = s.calls := by
      rcases hcm with h0 | h0
      · omega
      · exact h0
    have hys : y.since = s'.calls.length := by
      have h1 : (s'.subs.map Sub.since)[j + 1]? = some y.since := by rw [List.getElem?_map, hy]; rfl
      rw [hm, List.getElem?_append_right (by simp; omega)] at h1
      rw [hcc]
      exact List.eq_of_mem_replicate (List.mem_of_getElem? h1)
    have hw := lawful_run (merge_fits 1) hr' hg
    have hls : s'.subs.length = s'.prod.started.length := by rw [← hi'.subs]; simp
    have hd : Merge.fin j s'.trace = .done := (Merge.inv_run hi'.run hw).seq rfl j (by omega)
    rw [Merge.fin, done_iff (hw.inner j), innerCalls_eq, hi'.told] at hd
    simp only [heardBy, List.mem_map, List.mem_filter] at hd
    obtain ⟨c, ⟨d1, d2⟩, d3⟩ := hd
    refine told_ended (P := fun c => c.1 = j → c.2 = .completed → ∃ q, x.since ≤ q ∧ q < y.since ∧ s'.calls[q]? = some (x.subject, .completed))
      (fun i q k n e1 e2 e3 e4 e5 => ?_) c d1 (by simpa using d2) d3
    simp only at e4 e5
    subst e4 e5
    obtain ⟨j', z, f1, f2, f3, f4, -⟩ := hearers_mem.mp e3
    obtain rfl : j' = k := by omega
    rw [hx] at f2
    obtain rfl := Option.some.inj f2
    simp only [List.length_nil, Nat.zero_add] at f4
    refine ⟨q, f4, ?_, by rw [f3]; exact e2⟩
    rw [hys]
    exact (List.getElem?_eq_some_iff.mp e2).1

/-- C153: a case for `C153_paced_partial`, in which the program waits after `xs.aclose()`. -/
def Hot.waits : List (Hot.Label Nat) :=
  [.outer (.next 0), .outer (.next 1), .outer .completed] ++ takes ++
    [.own .receive, .own .receive, .call 1 (.next 3), .call 0 (.next 7), .call 0 .completed] ++ takes ++ [.call 1 (.next 5), .call 1 .completed, .own .receive]

example : ∃ s, LTS.run (Hot.merge 1).step (Hot.merge 1).init waits = some s ∧ s.prod.pc = .halted ∧ s.posts = [.next 7, .next 5, .completed] ∧
    s.subs = [⟨0, 0, none⟩, ⟨1, 3, none⟩] ∧ Grammar (outers waits) ∧ Undisturbed waits ∧
    Paced (Hot.merge 1).step (Hot.merge 1).init Merge.Settled waits :=
  ⟨_, rfl, rfl, rfl, rfl, ⟨⟨[0, 1], .done⟩, rfl⟩, by simp [Undisturbed, waits, takes], (paced_of (rest := calm) rfl).mono fun _ => settled_of_calm⟩

end Aio
