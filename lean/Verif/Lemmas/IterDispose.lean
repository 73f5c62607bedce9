import Verif.Spec.IterDispose
import Verif.Props.C80_81_Iterate
/-!
# Lemmas about disposing an iterator
-/

namespace Aio.IterDispose
variable {α : Type}
open Iterator (Consumer)

/-- The iterator as `Model.Iterator` has it: a consumer that subscribes once more is, there, not in `__anext__` yet. -/
def State.view (s : State α) : Iterator.State α :=
  if s.it.consumer = .subscribing ∧ s.subs ≠ [] then { s.it with consumer := .idle } else s.it

theorem handOver_as (s : Iterator.State α) (c : Nat) (n : Notif α) (k : Consumer) (h : s.consumer ≠ .waiting) (hk : k ≠ .waiting) :
    Iterator.State.handOver { s with consumer := k } c n = { s.handOver c n with consumer := k } := by
  unfold Iterator.State.handOver
  cases s with
  | mk push pull awaiters busy consumer calls ready handed taken =>
    dsimp only at h ⊢
    cases push with
    | some _ => rfl
    | none =>
      simp only [if_neg h, if_neg hk]
      split <;> rfl

theorem access_as (s : Iterator.State α) (c : Nat) (n : Notif α) (k : Consumer) (h : s.consumer ≠ .waiting) (hk : k ≠ .waiting) :
    Iterator.State.access { s with consumer := k } c n = { s.access c n with consumer := k } := by
  unfold Iterator.State.access
  dsimp only
  split
  · rfl
  · exact handOver_as { s with busy := true } c n k h hk

theorem take_as (s : Iterator.State α) (n : Notif α) (k : Consumer) :
    Iterator.State.take { s with consumer := k } n = s.take n := by
  unfold Iterator.State.take
  cases n with
  | error e => rfl
  | completed => rfl
  | next v => rfl

theorem receive_as (s : Iterator.State α) (k : Consumer) : Iterator.State.receive { s with consumer := k } = s.receive := by
  unfold Iterator.State.receive
  dsimp only
  split
  · exact take_as _ _ _
  · rfl

theorem handOver_consumer (s : Iterator.State α) (c : Nat) (n : Notif α) : (s.handOver c n).consumer = s.consumer := by
  unfold Iterator.State.handOver
  split
  · rfl
  · dsimp only; split <;> rfl

theorem access_consumer (s : Iterator.State α) (c : Nat) (n : Notif α) : (s.access c n).consumer = s.consumer := by
  unfold Iterator.State.access
  split
  · rfl
  · exact handOver_consumer _ c n

theorem take_consumer (s : Iterator.State α) (n : Notif α) : (s.take n).consumer = .idle := by
  unfold Iterator.State.take
  split
  · rfl
  · rfl
  · split
    · rfl
    · dsimp only; split <;> rfl

theorem receive_consumer (s : Iterator.State α) : s.receive.consumer = .idle ∨ s.receive.consumer = .waiting := by
  unfold Iterator.State.receive
  split
  · exact Or.inl (take_consumer _ _)
  · exact Or.inr rfl

/-- A call does not move the consumer; a scheduled task moves it only out of `__anext__`. -/
theorem call_consumer {it it' : Iterator.State α} {n : Notif α} (h : Iterator.step it (.call n) = some it') :
    it'.consumer = it.consumer := by
  cases h
  exact access_consumer _ _ _

theorem run_consumer {it it' : Iterator.State α} (h : Iterator.step it .run = some it') :
    it'.consumer = it.consumer ∨ it'.consumer = .idle := by
  simp only [Iterator.step] at h
  split at h
  · cases h
  · split at h
    · cases h; exact Or.inr (take_consumer _ _)
    · cases h
  · cases h; exact Or.inl rfl
  · split at h
    · cases h; exact Or.inl (access_consumer _ _ _)
    · cases h

/-- Before the first subscription is made the consumer has not got past `subscribe_async`, afterwards it is not fresh. -/
def Started (s : State α) : Prop :=
  (s.subs = [] → (s.it.consumer = .fresh ∨ s.it.consumer = .subscribing) ∧ s.it.taken = [] ∧ s.cur = none) ∧
  (s.subs ≠ [] → s.it.consumer ≠ .fresh)

theorem view_of_ne {s : State α} (h : s.it.consumer ≠ .subscribing) : s.view = s.it := if_neg fun hh => h hh.1

theorem view_of_nil {s : State α} (h : s.subs = []) : s.view = s.it := if_neg fun hh => hh.2 h

theorem view_again {s : State α} (h : s.it.consumer = .subscribing) (h' : s.subs ≠ []) :
    s.view = { s.it with consumer := .idle } := if_pos ⟨h, h'⟩

theorem mk_ne {it : Iterator.State α} {cur subs ds} (h : it.consumer ≠ .subscribing) : (State.mk it cur subs ds).view = it :=
  view_of_ne (s := State.mk it cur subs ds) h

theorem mk_nil {it : Iterator.State α} {cur subs ds} (h : subs = []) : (State.mk it cur subs ds).view = it :=
  view_of_nil (s := State.mk it cur subs ds) h

theorem mk_again {it : Iterator.State α} {cur subs ds} (h : it.consumer = .subscribing) (h' : subs ≠ []) :
    (State.mk it cur subs ds).view = { it with consumer := .idle } := view_again (s := State.mk it cur subs ds) h h'

theorem view_same {s s' : State α} (hi : s'.it = s.it) (hs : s'.subs = [] ↔ s.subs = []) : s'.view = s.view := by
  unfold State.view
  rw [hi]
  by_cases h : s.subs = [] <;> simp [h, hs]

theorem modify_nil {u : List Sub} {k : Nat} {f : Sub → Sub} : u.modify k f = [] ↔ u = [] := by
  cases u with
  | nil => simp
  | cons a u => cases k <;> simp

/-- The steps that leave the subscriptions alone and call nothing of the consumer. -/
theorem sim_inner {s : State α} {it : Iterator.State α} {l : Iterator.Label α} {ls : List (Iterator.Label α)}
    (hr : LTS.run Iterator.step Iterator.init ls = some s.view) (hst : Started s)
    (hl : l = .run ∨ ∃ n, l = .call n) (h : Iterator.step s.it l = some it) :
    Iterator.step s.view l = some (State.view { s with it }) ∧ Started { s with it } := by
  have hcons : it.consumer = s.it.consumer ∨ it.consumer = .idle := by
    rcases hl with rfl | ⟨n, rfl⟩
    · exact run_consumer h
    · exact Or.inl (call_consumer h)
  by_cases hn : s.subs = []
  · rw [view_of_nil hn] at hr ⊢
    rw [view_of_nil (s := { s with it }) hn]
    have hne : l ≠ .subscribed := by rcases hl with rfl | ⟨n, rfl⟩ <;> simp
    have hk := hst.1 hn
    have := Iterate.unsubscribed_step hr h hne hk.1 hk.2.1
    exact ⟨h, ⟨fun _ => ⟨this.1, this.2, hk.2.2⟩, fun hh => absurd hn hh⟩⟩
  · have hst' : Started { s with it } := by
      refine ⟨fun hh => absurd hh hn, fun _ => ?_⟩
      rcases hcons with hc | hc
      · show it.consumer ≠ _
        rw [hc]; exact hst.2 hn
      · show it.consumer ≠ _
        rw [hc]; simp
    refine ⟨?_, hst'⟩
    by_cases hk : s.it.consumer = .subscribing
    · have hw : s.it.consumer ≠ .waiting := by rw [hk]; simp
      rw [view_again hk hn]
      rcases hl with rfl | ⟨n, rfl⟩
      · simp only [Iterator.step] at h ⊢
        split at h
        · cases h
        · next ready hready =>
          split at h
          · next n hp =>
            cases h
            rw [view_of_ne (by rw [take_consumer]; simp)]
            exact congrArg some (take_as { s.it with ready } n .idle)
          · cases h
        · next c ready hready =>
          cases h
          exact (congrArg some (mk_again (it := { s.it with ready, pull := false, busy := false, calls := s.it.calls.set c .returned }) hk hn)).symm
        · next c ready hready =>
          split at h
          · next n hc =>
            cases h
            refine Eq.trans ?_ (congrArg some (mk_again ?_ hn)).symm
            rotate_left
            · exact (access_consumer _ _ _).trans hk
            exact congrArg some (access_as { s.it with ready, awaiters := s.it.awaiters.filter (·.1 ≠ c) } c n .idle hw (by simp))
          · cases h
      · simp only [Iterator.step, Option.some.injEq] at h
        subst h
        refine Eq.trans ?_ (congrArg some (mk_again ?_ hn)).symm
        rotate_left
        · exact (access_consumer _ _ _).trans hk
        exact congrArg some (access_as { s.it with calls := s.it.calls ++ [.returned] } s.it.calls.length n .idle hw (by simp))
    · rw [view_of_ne hk, view_of_ne (s := { s with it }) ?_, h]
      rcases hcons with hc | hc
      · show it.consumer ≠ _
        rw [hc]; exact hk
      · show it.consumer ≠ _
        rw [hc]; simp

/-- Every step is a step of `Model.Iterator`, or none. -/
theorem sim_step {s s' : State α} {l : Label α} {ls : List (Iterator.Label α)}
    (hr : LTS.run Iterator.step Iterator.init ls = some s.view) (hst : Started s) (h : step s l = some s') :
    ∃ b, LTS.run Iterator.step s.view b = some s'.view ∧ Iterator.made b = made [l] ∧ Started s' ∧
      (l ≠ .anext → l ≠ .subscribed → .anext ∉ b) := by
  cases l with
  | call n =>
    simp only [step] at h
    obtain ⟨it, h1, rfl⟩ := Option.map_eq_some_iff.mp h
    obtain ⟨h2, h3⟩ := sim_inner hr hst (Or.inr ⟨n, rfl⟩) h1
    exact ⟨[.call n], LTS.run_cons.mpr ⟨_, h2, rfl⟩, rfl, h3, by simp⟩
  | run =>
    simp only [step] at h
    obtain ⟨it, h1, rfl⟩ := Option.map_eq_some_iff.mp h
    obtain ⟨h2, h3⟩ := sim_inner hr hst (Or.inl rfl) h1
    exact ⟨[.run], LTS.run_cons.mpr ⟨_, h2, rfl⟩, rfl, h3, by simp⟩
  | anext =>
    simp only [step] at h
    split at h
    · cases h
    · next hturn =>
      split at h
      · next hk =>
        split at h
        · next hcur =>
          cases h
          by_cases hn : s.subs = []
          · have hf : s.it.consumer = .fresh := by
              rcases (hst.1 hn).1 with h1 | h1
              · exact h1
              · rw [h1] at hk; simp at hk
            rw [view_of_nil hn, mk_nil hn]
            refine ⟨[.anext], LTS.run_cons.mpr ⟨_, ?_, rfl⟩, rfl, ⟨fun _ => ⟨Or.inr rfl, (hst.1 hn).2⟩, fun hh => absurd hn hh⟩,
              fun hh => absurd rfl hh⟩
            simp only [Iterator.step, if_neg hturn, hf]
          · have hf : s.it.consumer = .idle := by
              rcases hk with h1 | h1
              · exact absurd h1 (hst.2 hn)
              · exact h1
            refine ⟨[], ?_, rfl, ⟨fun hh => absurd hh hn, fun _ => by simp⟩, fun hh => absurd rfl hh⟩
            rw [mk_again (it := { s.it with consumer := .subscribing }) rfl hn, view_of_ne (by rw [hf]; simp)]
            obtain ⟨⟨push, pull, awaiters, busy, consumer, calls, ready, handed, taken⟩, cur, subs, ds⟩ := s
            dsimp only at hf
            subst hf
            rfl
        · next j hcur =>
          cases h
          have hn : s.subs ≠ [] := fun hn => by rw [(hst.1 hn).2.2] at hcur; cases hcur
          have hf : s.it.consumer = .idle := by
            rcases hk with h1 | h1
            · exact absurd h1 (hst.2 hn)
            · exact h1
          have hrc := receive_consumer s.it
          rw [view_of_ne (by rw [hf]; simp), mk_ne (it := s.it.receive) (by rcases hrc with hh | hh <;> rw [hh] <;> simp)]
          refine ⟨[.anext], LTS.run_cons.mpr ⟨_, ?_, rfl⟩, rfl, ⟨fun hh => absurd hh hn, fun _ => ?_⟩, fun hh => absurd rfl hh⟩
          · simp only [Iterator.step, if_neg hturn, hf]
          · rcases hrc with hh | hh <;> rw [hh] <;> simp
      · cases h
  | subscribed =>
    simp only [step] at h
    split at h
    · cases h
    · next hturn =>
      split at h
      · next hk =>
        cases h
        have hrc := receive_consumer s.it
        have hst' : Started { s with it := s.it.receive, cur := some s.subs.length, subs := s.subs ++ [⟨0, 0, 0⟩] } :=
          ⟨fun hh => by simp at hh, fun _ => by rcases hrc with hh | hh <;> rw [hh] <;> simp⟩
        rw [mk_ne (it := s.it.receive) (by rcases hrc with hh | hh <;> rw [hh] <;> simp)]
        by_cases hn : s.subs = []
        · rw [view_of_nil hn]
          refine ⟨[.subscribed], LTS.run_cons.mpr ⟨_, ?_, rfl⟩, rfl, hst', fun _ hh => absurd rfl hh⟩
          simp only [Iterator.step, if_neg hturn, hk]
        · rw [view_again hk hn]
          refine ⟨[.anext], LTS.run_cons.mpr ⟨_, ?_, rfl⟩, rfl, hst', fun _ hh => absurd rfl hh⟩
          simp only [Iterator.step, if_neg hturn]
          rw [receive_as]
      · cases h
  | dispose =>
    simp only [step] at h
    split at h
    · cases h
      exact ⟨[], rfl, rfl, hst, by simp⟩
    · next k hcur =>
      cases h
      refine ⟨[], ?_, rfl, ⟨fun hh => hst.1 (modify_nil.mp hh), fun hh => hst.2 (fun h0 => hh (modify_nil.mpr h0))⟩, by simp⟩
      exact congrArg some (Eq.symm (view_same (by rfl) (by exact modify_nil)))
  | disposed d =>
    simp only [step] at h
    split at h
    · cases h
      refine ⟨[], ?_, rfl, ⟨fun hh => ?_, fun hh => hst.2 (fun h0 => hh (modify_nil.mpr h0))⟩, by simp⟩
      · exact congrArg some (Eq.symm (view_same (by rfl) (by exact modify_nil)))
      · obtain ⟨h1, h2, _⟩ := hst.1 (modify_nil.mp hh)
        exact ⟨h1, h2, rfl⟩
    · cases h
  | disposeRaises d =>
    simp only [step] at h
    split at h
    · cases h
      refine ⟨[], ?_, rfl, ⟨fun hh => hst.1 (modify_nil.mp hh), fun hh => hst.2 (fun h0 => hh (modify_nil.mpr h0))⟩, by simp⟩
      exact congrArg some (Eq.symm (view_same (by rfl) (by exact modify_nil)))
    · cases h

theorem made_append (a b : List (Label α)) : made (a ++ b) = made a ++ made b := List.filterMap_append ..

theorem sim {ls : List (Label α)} {s : State α} (hr : LTS.run step init ls = some s) :
    ∃ ls', LTS.run Iterator.step Iterator.init ls' = some s.view ∧ Iterator.made ls' = made ls ∧ Started s := by
  refine LTS.inv_hist (step := step) (fun ls s => ∃ ls', LTS.run Iterator.step Iterator.init ls' = some s.view ∧
    Iterator.made ls' = made ls ∧ Started s) ⟨[], rfl, rfl, ⟨fun _ => ⟨Or.inl rfl, rfl, rfl⟩, fun h => absurd rfl h⟩⟩ ?_ hr
  rintro ls s l s' ⟨ls', h1, h2, h3⟩ h
  obtain ⟨b, hb, hm, h4, _⟩ := sim_step h1 h3 h
  refine ⟨ls' ++ b, LTS.run_append.mpr ⟨_, h1, hb⟩, ?_, h4⟩
  rw [made_append, ← h2, ← hm]
  exact List.filterMap_append ..

end Aio.IterDispose
