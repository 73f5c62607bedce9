import Verif.Props.C121_Pool
import Verif.Props.C154_HotSwitch
/-!
# C155: the subjects let go
-/

namespace Aio
open Spec
variable {α : Type}

namespace Hot
variable {S : Type} {p : Producer S (Merge.Label Nat α) α} {started gone : S → List Nat} {base : Nat}

/-- What is marked has ended, and what has ended stays so. -/
theorem mark_get {t k : Nat} : ∀ {subs : List Sub} {b j : Nat} {x : Sub}, (mark t k b subs)[j]? = some x →
    ∃ y, subs[j]? = some y ∧ x.subject = y.subject ∧ (y.until_ ≠ none → x.until_ ≠ none) ∧ (b + j = k → x.until_ ≠ none) := by
  intro subs
  induction subs with
  | nil => intro b j x h; simp [mark] at h
  | cons y subs ih =>
    intro b j x h
    rw [mark] at h
    cases j with
    | zero =>
      simp only [List.getElem?_cons_zero, Option.some.injEq] at h
      refine ⟨y, rfl, ?_⟩
      subst h
      split
      · exact ⟨rfl, fun _ => by simp, fun _ => by simp⟩
      · rename_i hn
        exact ⟨rfl, fun h => h, fun hb h => hn ⟨hb, h⟩⟩
    | succ j =>
      simp only [List.getElem?_cons_succ] at h ⊢
      obtain ⟨y, h1, h2, h3, h4⟩ := ih h
      exact ⟨y, h1, h2, h3, fun hb => h4 (by omega)⟩

theorem unsubscribe_get : ∀ {ks : List Nat} {s : State S α} {j : Nat} {x : Sub}, (s.unsubscribe base ks).subs[j]? = some x →
    ∃ y, s.subs[j]? = some y ∧ x.subject = y.subject ∧ (y.until_ ≠ none → x.until_ ≠ none) ∧ (base + j ∈ ks → x.until_ ≠ none) := by
  intro ks
  induction ks with
  | nil => intro s j x h; exact ⟨x, h, rfl, fun h => h, fun h => by simp at h⟩
  | cons k ks ih =>
    intro s j x h
    rw [State.unsubscribe] at h
    obtain ⟨y, h1, h2, h3, h4⟩ := ih h
    dsimp only at h1
    rw [mark_eq] at h1
    obtain ⟨z, h5, h6, h7, h8⟩ := mark_get h1
    refine ⟨z, h5, h2.trans h6, fun h => h3 (h7 h), fun h => ?_⟩
    rcases List.mem_cons.mp h with h | h
    · exact h3 (h8 h)
    · exact h4 h

/-- Whoever is disposed has been subscribed to before. -/
def Known (p : Producer S (Merge.Label Nat α) α) (started gone : S → List Nat) (base : Nat) : Prop :=
  ∀ (ls : List (Label α)) (s : State S α) (l : Merge.Label Nat α) (s' : S) (out : List (Notif α)),
    LTS.run (step p started gone base) (init p) ls = some s → Grammar (outers ls) →
    (∀ n, l ≠ .outer n) → (∀ k n, l ≠ .inner k n) → p.step s.prod l = some (s', out) → ∀ k ∈ gone s', k < base + (started s.prod).length

/-- Whose subscription has been disposed, is no longer listened to. -/
theorem until_some (hf : Fits p started gone base) (hk : Known p started gone base) {ls : List (Label α)} {s : State S α}
    (hr : LTS.run (step p started gone base) (init p) ls = some s) (hg : Grammar (outers ls)) :
    (∀ k ∈ gone s.prod, k < base + s.subs.length) ∧
    ∀ (j : Nat) (x : Sub), s.subs[j]? = some x → base + j ∈ gone s.prod → x.until_ ≠ none := by
  revert hg
  refine LTS.inv_reach (s0 := init p) (step := step p started gone base) (fun ls (s : State S α) => Grammar (outers ls) →
    (∀ k ∈ gone s.prod, k < base + s.subs.length) ∧
    ∀ (j : Nat) (x : Sub), s.subs[j]? = some x → base + j ∈ gone s.prod → x.until_ ≠ none) (fun _ => ?_) ?_ hr
  · show (∀ k ∈ gone p.init, _) ∧ _
    rw [hf.init.2]; exact ⟨by simp, fun j x h => by simp [init] at h⟩
  intro ls s l s' hr ih h hg
  rw [outers_append] at hg
  replace hg : Grammar (outers ls) := grammar_prefix (List.prefix_append ..) hg
  obtain ⟨ih1, ih2⟩ := ih hg
  have hi := inv_run hf hr
  cases l with
  | outer n =>
    have h : s.act p (.outer n) = some s' := h
    obtain ⟨out, h1, h2⟩ := act_some h
    rw [(hf.outer _ _ _ _ h1).2, show s'.subs = s.subs by rw [h2]]
    exact ⟨ih1, ih2⟩
  | call i n =>
    simp only [step] at h
    split at h
    · obtain rfl := (Option.some.inj h).symm
      exact ⟨ih1, ih2⟩
    · obtain ⟨h1, h2, h3, h4, h5, h6, h7⟩ := tell_some hf h
      rw [h5, h3]; exact ⟨ih1, ih2⟩
  | own l =>
    have h : (s.act p l).map (fun t => ((t.unsubscribe base ((gone t.prod).drop (gone s.prod).length)).subscribe base
        ((started t.prod).drop (started s.prod).length))) = some s' ∧ inners [l] = [] ∧ (∀ n, l ≠ .outer n) ∧ ∀ k n, l ≠ .inner k n := by
      cases l <;> first | (simp [step] at h; done) | exact ⟨h, rfl, fun _ => nofun, fun _ _ => nofun⟩
    obtain ⟨h, hl, hl1, hl2⟩ := h
    obtain ⟨t, h1, h2⟩ := Option.map_eq_some_iff.mp h
    obtain ⟨out, h3, h4⟩ := act_some h1
    have hkn := hk ls s l _ out hr hg hl1 hl2 h3
    have ht : Part base t := by
      rw [h4]
      refine ⟨hi.obs, hi.stopped, hi.times, ?_⟩
      show inners (s.trace ++ [_]) = _
      rw [inners_append, hi.told, hl]; simp
    obtain ⟨u1, u2, u3, u4, u5, u6⟩ := unsubscribe_part (ks := (gone t.prod).drop (gone s.prod).length) ht
    obtain ⟨v1, v2, v3, v4, v5, v6⟩ := subscribe_part (is := (started t.prod).drop (started s.prod).length) u1
    subst h2
    have h5 : t.subs = s.subs := by rw [h4]
    have hlen : (t.unsubscribe base ((gone t.prod).drop (gone s.prod).length)).subs.length = s.subs.length := by
      have := congrArg List.length u2
      rw [h5] at this
      simpa using this
    have hlen2 : s.subs.length = (started s.prod).length := by
      have := congrArg List.length hi.subs
      simpa using this
    rw [v3, u3, v2]
    refine ⟨fun k hm => ?_, fun j x hx hm => ?_⟩
    · have := hkn k hm
      rw [List.length_append, hlen]; omega
    · have hj := hkn _ hm
      rw [List.getElem?_append_left (by omega)] at hx
      obtain ⟨y, h6, -, h7, h8⟩ := unsubscribe_get hx
      rw [h5] at h6
      obtain ⟨r, hr2⟩ := (hf.grows _ _ _ _ h3).2
      rw [← hr2] at hm h8
      simp only [List.drop_left] at h8
      rcases List.mem_append.mp hm with hm | hm
      · exact h7 (ih2 j y h6 hm)
      · exact h8 hm

theorem listening_mem {i : Nat} : ∀ {subs : List Sub} {b k : Nat}, k ∈ listening i b subs → ∃ (j : Nat) (x : Sub), k = b + j ∧ subs[j]? = some x ∧ x.subject = i ∧ x.until_ = none := by
  intro subs
  induction subs with
  | nil => intro b k h; simp [listening] at h
  | cons x subs ih =>
    intro b k h
    rw [listening] at h
    have key : k ∈ listening i (b + 1) subs → ∃ (j : Nat) (y : Sub), k = b + j ∧ (x :: subs)[j]? = some y ∧ y.subject = i ∧ y.until_ = none := fun h => by
      obtain ⟨j, y, h1, h2, h3⟩ := ih h
      exact ⟨j + 1, y, by omega, h2, h3⟩
    split at h
    · rename_i hx
      rcases List.mem_cons.mp h with h | h
      · exact ⟨0, x, h, rfl, hx⟩
      · exact key h
    · exact key h

/-- If each subscription was disposed, or has heard a completion, then nobody is listening to a subject that has not ended. -/
theorem observers_nil (hf : Fits p started gone base) (hk : Known p started gone base) {ls : List (Label α)} {s : State S α}
    (hr : LTS.run (step p started gone base) (init p) ls = some s) (hg : Grammar (outers ls))
    (h : ∀ j < (started s.prod).length, base + j ∈ gone s.prod ∨ .completed ∈ heardBy (base + j) (inners s.trace)) {i : Nat}
    (he : ended i (made ls) = false) : (s.subjects i).observers = [] := by
  have hi := inv_run hf hr
  rw [hi.obs, List.eq_nil_iff_forall_not_mem]
  intro k hm
  obtain ⟨j, x, -, h1, h2, h3⟩ := listening_mem hm
  have hj : j < (started s.prod).length := by
    have := congrArg List.length hi.subs
    rw [List.length_map] at this
    have := (List.getElem?_eq_some_iff.mp h1).1
    omega
  rcases h j hj with h | h
  · exact (until_some hf hk hr hg).2 j x h1 h h3
  · obtain ⟨y, h4, h5⟩ := hi.heard_ended h
    rw [h1] at h4
    obtain rfl := Option.some.inj h4
    rw [(trace_run hf hr).1, h2, he] at h5
    cases h5

/-- What is sent to subjects nobody is listening to goes nowhere. -/
theorem calls_silent {cs : List (Nat × Notif α)} : ∀ {s : State S α}, (∀ i, (s.subjects i).stopped = true ∨ (s.subjects i).observers = []) →
    ∃ s', LTS.run (step p started gone base) s (cs.map fun c => .call c.1 c.2) = some s' ∧ s'.posts = s.posts ∧ s'.prod = s.prod := by
  induction cs with
  | nil => intro s _; exact ⟨s, rfl, rfl, rfl⟩
  | cons c cs ih =>
    intro s h
    have h1 : ∃ t, step p started gone base s (.call c.1 c.2) = some t ∧ t.posts = s.posts ∧ t.prod = s.prod ∧
        ∀ i, (t.subjects i).stopped = true ∨ (t.subjects i).observers = [] := by
      simp only [step]
      split
      · exact ⟨_, rfl, rfl, rfl, h⟩
      · rename_i hs
        have ho : (s.subjects c.1).observers = [] := (h c.1).resolve_left hs
        rw [ho]
        refine ⟨_, rfl, rfl, rfl, fun i => ?_⟩
        dsimp only
        split
        · exact .inr rfl
        · exact h i
    obtain ⟨t, h1, h2, h3, h4⟩ := h1
    obtain ⟨s', h5, h6, h7⟩ := ih h4
    exact ⟨s', LTS.run_cons.mpr ⟨t, h1, h5⟩, h6.trans h2, h7.trans h3⟩

theorem merge_known (mx : Int) : Known (mergeInner mx : Producer _ (Merge.Label Nat α) α) Merge.State.started Merge.State.disposed 0 := by
  intro ls s l s' out hr hg hl1 hl2 h k hk
  have hi := inv_run (merge_fits mx) hr
  have hw := lawful_run (merge_fits mx) hr hg
  have hw' : Merge.Lawful (s.trace ++ [l]) := by
    refine ⟨?_, fun k => ?_⟩
    · rw [outerCalls_append, show Merge.outerCalls [l] = [] by cases l <;> first | rfl | exact absurd rfl (hl1 _), List.append_nil]
      exact hw.outer
    · rw [innerCalls_eq, inners_append, show inners [l] = [] by cases l <;> first | rfl | exact absurd rfl (hl2 _ _), List.append_nil, ← innerCalls_eq]
      exact hw.inner k
  have hrun : LTS.run (mergeInner mx).solo (Merge.State.initial, []) (s.trace ++ [l]) = some (s', s.posts ++ out) := by
    refine LTS.run_append.mpr ⟨_, hi.run, LTS.run_cons.mpr ⟨_, ?_, rfl⟩⟩
    simp only [Producer.solo, h, Option.map_some]
  have hm := Merge.inv_run hrun hw'
  rw [Nat.zero_add]
  by_cases ha : s'.alive = true
  · rw [(hm.live ha).nodis] at hk; cases hk
  · have h1 := (hm.dead (by simpa using ha)).disNodup.2 k (by simp [hk])
    have h2 : s'.started = s.prod.started := Classical.byContradiction fun hne => ha (Merge.step_started_alive h hne)
    rw [← h2]; exact h1

theorem switch_known : Known (switchLatest false : Producer _ (Merge.Label Nat α) α) Switch.State.started Switch.State.disposed 1 := by
  have key : ∀ {ls : List (Merge.Label Nat α)} {s s' : Switch.State Nat} {l : Merge.Label Nat α} {o : List (Notif α)}, Switch.Inv ls s →
      Switch.step false s l = some (s', o) → ∀ k ∈ s'.disposed, k ∈ s.disposed ∨ k = s.started.length := by
    intro ls s s' l o hi h k hk
    by_cases hout : Switch.Outside l
    · obtain ⟨rfl, -⟩ := Switch.step_outside hout h; exact .inl hk
    · cases l with
      | receive =>
        simp only [Switch.step] at h
        split at h
        next msg q hp hq =>
          have h2 := congrArg Prod.fst (Option.some.inj h)
          dsimp only at h2
          rw [← h2] at hk
          left
          cases msg with
          | inner xs => simp only [Switch.update] at hk; split at hk <;> exact hk
          | innerCompleted k => simp only [Switch.update] at hk; split at hk <;> exact hk
          | completed => exact hk
          | dispose => simp only [Switch.update] at hk; split at hk <;> exact hk
        next => cases h
      | subscribed => simp only [Switch.step] at h; split at h <;> simp at h; rw [← h.1] at hk; exact .inl hk
      | subscribeFails => simp only [Switch.step] at h; split at h <;> simp at h; rw [← h.1] at hk; exact .inl hk
      | disposed =>
        simp only [Switch.step] at h; split at h <;> simp at h
        · rename_i hp
          rw [← h.1] at hk
          rcases List.mem_append.mp hk with hk | hk
          · exact .inl hk
          · right; rw [List.mem_singleton.mp hk]; exact (hi.old _ _ hp).1
        · rename_i hp
          rw [← h.1] at hk
          rcases List.mem_append.mp hk with hk | hk
          · exact .inl hk
          · right; rw [List.mem_singleton.mp hk]; exact (hi.old' _ hp).1
      | disposeFails =>
        simp only [Switch.step] at h; split at h <;> simp at h
        · rw [← h.1] at hk; exact .inl hk
        · rw [← h.1] at hk; exact .inl hk
      | _ => exact (hout trivial).elim
  have bound : ∀ {ls : List (Merge.Label Nat α)} {r : Switch.State Nat × List (Notif α)},
      LTS.run (switchLatest false : Producer _ (Merge.Label Nat α) α).solo (Switch.State.initial, []) ls = some r → ∀ k ∈ r.1.disposed, k ≤ r.1.started.length := by
    intro ls r hr
    refine LTS.inv_reach (s0 := (Switch.State.initial, [])) (step := (switchLatest false : Producer _ (Merge.Label Nat α) α).solo)
      (fun _ r => ∀ k ∈ r.1.disposed, k ≤ r.1.started.length) (by simp [Switch.State.initial]) ?_ hr
    rintro ls ⟨s, ps⟩ l ⟨s', ps'⟩ hr ih h k hk
    simp only [Producer.solo, Option.map_eq_some_iff, switchLatest] at h
    obtain ⟨⟨s1, o⟩, h, h'⟩ := h
    simp only [Prod.mk.injEq] at h'
    obtain ⟨rfl, -⟩ := h'
    have hle := (switch_grown h).1.length_le
    dsimp only at hle ih ⊢
    rcases key (Switch.inv_run hr) h k hk with h1 | h1
    · exact Nat.le_trans (ih k h1) hle
    · omega
  intro ls s l s' out hr hg hl1 hl2 h k hk
  have hi := inv_run switch_fits hr
  rcases key (Switch.inv_run hi.run) h k hk with h1 | h1
  · have := bound hi.run k h1; dsimp only at this; omega
  · omega

/-- What is done later comes later. -/
theorem trace_later (hf : Fits p started gone base) {s s' : State S α} {ls : List (Label α)} (hr : LTS.run (step p started gone base) s ls = some s') :
    ∃ t, s'.trace = s.trace ++ t ∧ Merge.outerCalls t = outers ls := by
  refine LTS.inv_hist (s0 := s) (step := step p started gone base) (fun ls (s' : State S α) => ∃ t, s'.trace = s.trace ++ t ∧ Merge.outerCalls t = outers ls)
    ⟨[], by simp, rfl⟩ ?_ hr
  rintro ls s1 l s2 ⟨t, h1, h2⟩ h
  obtain ⟨-, t', h3, h4, -⟩ := step_trace hf h
  exact ⟨t ++ t', by rw [h3, h1, List.append_assoc], by rw [outerCalls_append, outers_append, h2, h4]⟩

theorem cancel_trace (hf : Fits p started gone base) {a b : List (Label α)} {s : State S α}
    (hr : LTS.run (step p started gone base) (init p) (a ++ .own .cancel :: b) = some s) :
    ∃ t t', s.trace = t ++ .cancel :: t' ∧ Merge.outerCalls t' = outers b := by
  obtain ⟨s1, h1, h2⟩ := LTS.run_append.mp hr
  obtain ⟨s2, h3, h4⟩ := LTS.run_cons.mp h2
  obtain ⟨t', h5, h6⟩ := trace_later hf h4
  have h7 : s2.trace = s1.trace ++ [.cancel] := by
    have h3 : (s1.act p .cancel).map (fun t => ((t.unsubscribe base ((gone t.prod).drop (gone s1.prod).length)).subscribe base
        ((started t.prod).drop (started s1.prod).length))) = some s2 := h3
    obtain ⟨t, h8, h9⟩ := Option.map_eq_some_iff.mp h3
    obtain ⟨out, h10, h11⟩ := act_some h8
    have hi := inv_run hf h1
    have ht : Part base t := by
      rw [h11]
      refine ⟨hi.obs, hi.stopped, hi.times, ?_⟩
      show inners (s1.trace ++ [_]) = _
      rw [inners_append, hi.told]; simp [inners]
    obtain ⟨u1, u2, u3, u4, u5, u6⟩ := unsubscribe_part (ks := (gone t.prod).drop (gone s1.prod).length) ht
    obtain ⟨v1, v2, v3, v4, v5, v6⟩ := subscribe_part (is := (started t.prod).drop (started s1.prod).length) u1
    rw [← h9, v5, u5, h11]
  exact ⟨s1.trace, t', by rw [h5, h7]; simp, h6⟩

end Hot
open Hot

/-! ## C155: the subjects let go -/

/-- C155 for `merge`, `concat` and `merge_inner(n)`: once the subscription has been disposed or the source has failed, and the worker is at rest, no
subject that has not ended holds an observer of it; what is sent to any subject later reaches nobody. -/
theorem C155_merge_partial {mx : Int} {ls : List (Hot.Label α)} {s : Hot.State (Merge.State Nat) α}
    (hr : LTS.run (Hot.merge mx).step (Hot.merge mx).init ls = some s) (hg : Grammar (outers ls))
    (hc : .own .cancel ∈ ls ∨ ∃ e, .outer (.error e) ∈ ls) (hq : Merge.Settled s.prod) :
    (∀ i, ended i (made ls) = false → (s.subjects i).observers = []) ∧
    ∀ cs : List (Nat × Notif α), ∃ s', LTS.run (Hot.merge mx).step s (cs.map fun c => .call c.1 c.2) = some s' ∧ s'.posts = s.posts := by
  have hi := inv_run (merge_fits mx) hr
  have hw := lawful_run (merge_fits mx) hr hg
  obtain ⟨h1, h2, h3, -⟩ := trace_run (merge_fits mx) hr
  have hs : Merge.Stopped s.trace := by
    rcases hc with hc | ⟨e, hc⟩
    · obtain ⟨a, b, rfl⟩ := List.append_of_mem hc
      obtain ⟨t, t', h4, -⟩ := cancel_trace (merge_fits mx) hr
      exact .inl (by rw [h4]; simp)
    · refine .inr ⟨e, Switch.mem_outerCalls.mpr ?_⟩
      rw [h2]
      exact List.mem_filterMap.mpr ⟨_, hc, rfl⟩
  have hrel := (Merge.released hi.run hw h3 hs hq).1
  have hall : ∀ i, ended i (made ls) = false → (s.subjects i).observers = [] := fun i he => by
    refine observers_nil (merge_fits mx) (merge_known mx) hr hg (fun j hj => ?_) he
    rw [Nat.zero_add]
    rcases hrel j hj with h | h
    · right
      rwa [Merge.fin, done_iff (hw.inner j), innerCalls_eq] at h
    · exact .inl h
  refine ⟨hall, fun cs => ?_⟩
  obtain ⟨s', h4, h5, -⟩ := calls_silent (p := mergeInner mx) (started := Merge.State.started) (gone := Merge.State.disposed) (base := 0) (cs := cs) (s := s) (fun i => by
    rw [hi.stopped i, h1]
    cases he : ended i (made ls) with
    | true => exact .inl rfl
    | false => exact .inr (hall i he))
  exact ⟨s', h4, h5⟩

/-- C155 for `switch_latest`: the same once the subscription has been disposed, if the source sends no further subject after that. -/
theorem C155_switch_partial {a b : List (Hot.Label α)} {s : Hot.State (Switch.State Nat) α}
    (hr : LTS.run Hot.switch.step Hot.switch.init (a ++ .own .cancel :: b) = some s) (hg : Grammar (outers (a ++ .own .cancel :: b)))
    (hb : ∀ i, .outer (.next i) ∉ b) (hq : Switch.Settled s.prod) :
    (∀ i, ended i (made (a ++ .own .cancel :: b)) = false → (s.subjects i).observers = []) ∧
    ∀ cs : List (Nat × Notif α), ∃ s', LTS.run Hot.switch.step s (cs.map fun c => .call c.1 c.2) = some s' ∧ s'.posts = s.posts := by
  have hi := inv_run switch_fits hr
  obtain ⟨h1, h2, h3, -⟩ := trace_run switch_fits hr
  obtain ⟨t, t', h4, h5⟩ := cancel_trace switch_fits hr
  have hrel : ∀ i, 1 ≤ i → i ≤ s.prod.started.length → i ∈ s.prod.disposed ∨ .inner i .completed ∈ s.trace := by
    have hrun := hi.run
    rw [h4] at hrun h3 ⊢
    intro i h6 h7
    refine Switch.released hrun (fun xs hm => ?_) h3 hq h6 h7
    rw [Switch.mem_outerCalls, h5] at hm
    obtain ⟨l, hl, hm⟩ := List.mem_filterMap.mp hm
    cases l with
    | outer n => cases hm; exact hb xs hl
    | _ => cases hm
  have hall : ∀ i, ended i (made (a ++ .own .cancel :: b)) = false → (s.subjects i).observers = [] := fun i he => by
    refine observers_nil switch_fits switch_known hr hg (fun j hj => ?_) he
    rcases hrel (1 + j) (by omega) (by omega) with h | h
    · exact .inl h
    · right
      simp only [heardBy, List.mem_map, List.mem_filter, inners, List.mem_filterMap]
      exact ⟨(1 + j, .completed), ⟨⟨_, h, rfl⟩, by simp⟩, rfl⟩
  refine ⟨hall, fun cs => ?_⟩
  obtain ⟨s', h4, h5, -⟩ := calls_silent (p := switchLatest false) (started := Switch.State.started) (gone := Switch.State.disposed) (base := 1) (cs := cs) (s := s) (fun i => by
    rw [hi.stopped i, h1]
    cases he : ended i (made (a ++ .own .cancel :: b)) with
    | true => exact .inl rfl
    | false => exact .inr (hall i he))
  exact ⟨s', h4, h5⟩

/-- `merge` of two subjects, of which the first fails. -/
def Hot.firstFails (e : Err) : List (Hot.Label Nat) :=
  [.outer (.next 0), .outer (.next 1), .outer .completed] ++ takes ++ takes ++ [.own .receive, .call 0 (.error e)]

/-- `switch_latest`: the source fails while it listens to a subject. -/
def Hot.sourceThrows (e : Err) : List (Hot.Label Nat) := [.outer (.next 0)] ++ takes ++ [.outer (.error e)]

/-- Values that are sent to a subject which is listened to. -/
theorem Hot.keeps_posting {S : Type} {p : Producer S (Merge.Label Nat Nat) Nat} {started gone : S → List Nat} {base i k : Nat}
    (c : S) (hc : ∀ v, p.step c (.inner k (.next v)) = some (c, [.next v])) : ∀ {vs : List Nat} {s : Hot.State S Nat}, s.prod = c →
    (s.subjects i).stopped = false → (s.subjects i).observers = [k] →
    ∃ s', LTS.run (Hot.step p started gone base) s (vs.map fun v => .call i (.next v)) = some s' ∧ s'.posts = s.posts ++ vs.map .next ∧ s'.prod = c ∧
      (s'.subjects i).observers = [k] := by
  intro vs
  induction vs with
  | nil => intro s h1 h2 h3; exact ⟨s, rfl, by simp, h1, h3⟩
  | cons v vs ih =>
    intro s h1 h2 h3
    have h4 : ∃ t, Hot.step p started gone base s (.call i (.next v)) = some t ∧ t.prod = c ∧ t.posts = s.posts ++ [.next v] ∧
        (t.subjects i).stopped = false ∧ (t.subjects i).observers = [k] := by
      simp only [Hot.step, h2, h3, Hot.State.tell, Hot.State.act, h1, hc]
      exact ⟨_, rfl, rfl, rfl, by simp [Notif.isTerminal], by simp⟩
    obtain ⟨t, h5, h6, h7, h8, h9⟩ := h4
    obtain ⟨s', h10, h11, h12⟩ := ih h6 h8 h9
    exact ⟨s', LTS.run_cons.mpr ⟨t, h5, h10⟩, by rw [h11, h7]; simp, h12⟩

/-- C155 is false when a subject fails: the merged stream has ended with the error, the worker is at rest, but the other subject still holds its
observer, and whatever is sent to it from then on is still posted (to a safe observer that is at its end). -/
theorem C155_violated (e : Err) (vs : List Nat) : ∃ s,
    LTS.run (Hot.merge 0).step (Hot.merge 0).init (firstFails e ++ vs.map fun v => .call 1 (.next v)) = some s ∧
    Merge.Settled s.prod ∧ s.posts = .error e :: vs.map .next ∧ (s.subjects 1).observers = [1] := by
  obtain ⟨s0, h1, h2, h3, h4, h5⟩ : ∃ s, LTS.run (Hot.merge 0).step (Hot.merge 0).init (firstFails e) = some s ∧
    (s.prod.started = [0, 1] ∧ s.prod.pc = .waiting ∧ s.prod.inbox = []) ∧ s.posts = [.error e] ∧
    (s.subjects 1).stopped = false ∧ (s.subjects 1).observers = [1] := ⟨_, rfl, ⟨rfl, rfl, rfl⟩, rfl, rfl, rfl⟩
  obtain ⟨s, h6, h7, h8, h9⟩ := Hot.keeps_posting (p := mergeInner 0) (started := Merge.State.started) (gone := Merge.State.disposed) (base := 0) (vs := vs)
    s0.prod (fun v => by simp [mergeInner, Merge.step, h2.1]) rfl h4 h5
  exact ⟨s, LTS.run_append.mpr ⟨s0, h1, h6⟩, .inr (by rw [h8]; exact h2.2), by rw [h7, h3]; rfl, h9⟩

/-- C155 is false when the source of `switch_latest` fails. -/
theorem C155_violated_switch (e : Err) (vs : List Nat) : ∃ s,
    LTS.run Hot.switch.step Hot.switch.init (sourceThrows e ++ vs.map fun v => .call 0 (.next v)) = some s ∧
    Switch.Settled s.prod ∧ s.posts = .error e :: vs.map .next ∧ (s.subjects 0).observers = [1] := by
  obtain ⟨s0, h1, h2, h3, h4, h5⟩ : ∃ s, LTS.run Hot.switch.step Hot.switch.init (sourceThrows e) = some s ∧
    (s.prod.started = [0] ∧ s.prod.pc = .waiting ∧ s.prod.inbox = []) ∧ s.posts = [.error e] ∧
    (s.subjects 0).stopped = false ∧ (s.subjects 0).observers = [1] := ⟨_, rfl, ⟨rfl, rfl, rfl⟩, rfl, rfl, rfl⟩
  obtain ⟨s, h6, h7, h8, h9⟩ := Hot.keeps_posting (p := switchLatest false) (started := Switch.State.started) (gone := Switch.State.disposed) (base := 1) (vs := vs)
    s0.prod (fun v => by simp [switchLatest, Switch.step, h2.1]) rfl h4 h5
  exact ⟨s, LTS.run_append.mpr ⟨s0, h1, h6⟩, .inr (by rw [h8]; exact h2.2), by rw [h7, h3]; rfl, h9⟩

/-- C155: two subjects are merged, one is sent to, then the subscription is disposed. -/
def Hot.mergedThenDisposed : List (Hot.Label Nat) :=
  [.outer (.next 0), .outer (.next 1)] ++ takes ++ takes ++ [.call 0 (.next 7), .own .cancel, .own .receive, .own .disposed, .own .disposed]

example : ∃ s, LTS.run (Hot.merge 0).step (Hot.merge 0).init mergedThenDisposed = some s ∧ Grammar (outers mergedThenDisposed) ∧
    .own .cancel ∈ mergedThenDisposed ∧ Merge.Settled s.prod ∧ ended 0 (made mergedThenDisposed) = false ∧ s.posts = [.next 7] ∧
    s.subs = [⟨0, 0, some 1⟩, ⟨1, 0, some 1⟩] := by
  refine ⟨_, rfl, ?_, ?_, .inl rfl, rfl, rfl, rfl⟩
  · exact ⟨⟨[0, 1], .running⟩, rfl⟩
  · simp [mergedThenDisposed]

/-- C155: the subscription to `switch_latest` is disposed. -/
def Hot.switchedThenDisposed : List (Hot.Label Nat) :=
  [.outer (.next 0)] ++ takes ++ [.call 0 (.next 7)] ++ .own .cancel :: [.own .receive, .own .disposed]

example : ∃ s, LTS.run Hot.switch.step Hot.switch.init switchedThenDisposed = some s ∧ Grammar (outers switchedThenDisposed) ∧
    Switch.Settled s.prod ∧ s.posts = [.next 7] ∧ s.subs = [⟨0, 0, some 1⟩] := by
  refine ⟨_, rfl, ?_, .inr ⟨rfl, rfl⟩, rfl, rfl⟩
  exact ⟨⟨[0], .running⟩, rfl⟩

end Aio
