import Verif.Model.HostedLoop
import Verif.Lemmas.HostedParts
import Verif.Lemmas.Loop
/-!
# `async for` on the `VirtualTimeEventLoop`
-/

namespace Aio.Loop
open Iterator (Waiter Call)
variable {α β σ : Type} {o : Handler σ α β} {s0 : σ} {m : Nat → β → Option Nat} {gone : Nat}

/-- A step that lets nobody of those go on that are scheduled leaves the first of them where it is. -/
def Keeps (it it' : Iterator.State β) : Prop := ∃ x, it'.ready = it.ready ++ x

theorem Keeps.next {it it' : Iterator.State β} (h : Keeps it it') {t : Task} (hn : next it = some t) : next it' = some t := by
  obtain ⟨x, h⟩ := h
  unfold Loop.next at hn ⊢
  rw [h]
  cases hr : it.ready with
  | nil => rw [hr] at hn; cases hn
  | cons w ws => rw [hr] at hn; cases w <;> exact hn

theorem keeps_take (it : Iterator.State β) (n : Notif β) : Keeps it (it.take n) := by
  cases n with
  | error e => exact ⟨[], by simp [Iterator.State.take]⟩
  | completed => exact ⟨[], by simp [Iterator.State.take]⟩
  | next v =>
    simp only [Iterator.State.take]
    split
    · exact ⟨[], by simp⟩
    · split
      · exact ⟨_, rfl⟩
      · exact ⟨_, rfl⟩
      · exact ⟨_, List.append_assoc ..⟩

theorem keeps_receive (it : Iterator.State β) : Keeps it it.receive := by
  unfold Iterator.State.receive
  split
  · exact keeps_take it _
  · exact ⟨[], by simp⟩

theorem keeps_handOver (it : Iterator.State β) (c : Nat) (n : Notif β) :
    Keeps it (it.handOver c n) ∧ (it.handOver c n).consumer = it.consumer ∧ (it.handOver c n).taken = it.taken := by
  unfold Iterator.State.handOver
  split
  · exact ⟨⟨[], by simp⟩, rfl, rfl⟩
  · dsimp only
    split <;> split <;> first | exact ⟨⟨_, rfl⟩, rfl, rfl⟩ | exact ⟨⟨[], by simp⟩, rfl, rfl⟩

theorem keeps_access (it : Iterator.State β) (c : Nat) (n : Notif β) :
    Keeps it (it.access c n) ∧ (it.access c n).consumer = it.consumer ∧ (it.access c n).taken = it.taken := by
  unfold Iterator.State.access
  split
  · exact ⟨⟨[], by simp⟩, rfl, rfl⟩
  · exact keeps_handOver _ c n

/-- The turn of a call that goes on. -/
theorem run_worker {it it' : Iterator.State β} (hn : next it = some .worker) (h : Iterator.step it .run = some it') :
    it'.consumer = it.consumer ∧ it'.taken = it.taken := by
  obtain ⟨push, pull, awaiters, busy, consumer, calls, ready, handed, taken⟩ := it
  unfold Loop.next at hn
  cases ready with
  | nil => cases hn
  | cons w ws =>
    cases w with
    | consumer => cases hn
    | pull c => cases h; exact ⟨rfl, rfl⟩
    | turn c =>
      simp only [Iterator.step] at h
      split at h
      · cases h; exact (keeps_access _ c _).2
      · cases h

theorem absorb_keeps (s : State α β σ) (it : Iterator.State β) : (absorb m s it).it = it ∧ (absorb m s it).pc = s.pc := by
  unfold absorb
  split <;> exact ⟨rfl, rfl⟩

theorem worker_sleeps {s s' : State α β σ} (hp : s'.pc = s.pc) (hk : next s.it = some .worker → next s'.it = some .worker) {w : Nat}
    (h : host.need s' .worker = .until w) : host.need s .worker = .until w := by
  simp only [host] at h ⊢
  split at h
  · cases h
  next hn =>
  rw [hp] at h
  rw [if_neg fun hw => hn (hk hw)]
  cases hpc : s.pc with
  | asleep due k => rw [hpc] at h; exact h
  | waiting u => rw [hpc] at h; dsimp only at h; split at h <;> cases h
  | running k => rw [hpc] at h; cases h
  | calling k => rw [hpc] at h; dsimp only at h; split at h <;> cases h
  | halted => rw [hpc] at h; cases h

theorem consumer_sleeps {s s' : State α β σ} (hb : s'.body = s.body) (hk : next s.it = some .consumer → next s'.it = some .consumer)
    (hc : s'.it.consumer = s.it.consumer) {w : Nat} (h : host.need s' .consumer = .until w) : host.need s .consumer = .until w := by
  simp only [host] at h ⊢
  split at h
  · cases h
  next hn =>
  rw [hb] at h
  rw [if_neg fun hw => hn (hw.imp hk fun e => hc.trans e)]
  exact h

theorem names_all (n : Task) (s : State α β σ) : n ∈ host.names s := by
  cases n
  · exact .head _
  · exact .tail _ (.head _)

theorem run_runs {s : State α β σ} : (Iterator.step s.it .run = none ∧ runs (α := α) s.it = []) ∨
    ∃ it, Iterator.step s.it .run = some it ∧ runs (α := α) s.it = [.run] ∧ LTS.run (step o m gone) s (runs s.it) = some (absorb m s it) := by
  cases h : Iterator.step s.it .run with
  | none => exact .inl ⟨rfl, by simp [runs, h]⟩
  | some it => exact .inr ⟨it, rfl, by simp [runs, h], by simp [runs, h, LTS.run, step]⟩

theorem turn_worker_ok {s : State α β σ} (hd : ∀ w, host.need s .worker = .until w → w ≤ s.now) :
    (∀ l ∈ host.turn s .worker, (stage o s0 m gone).own l = true) ∧
    ∃ s', LTS.run (step o m gone) s (host.turn s .worker) = some s' ∧ ∀ w, host.need s' .consumer = .until w → host.need s .consumer = .until w := by
  by_cases hn : next s.it = some .worker
  · have ht : host.turn s .worker = runs s.it := by simp only [host]; rw [if_pos hn]
    rw [ht]
    rcases run_runs (o := o) (m := m) (gone := gone) (s := s) with ⟨_, h⟩ | ⟨it, h1, h2, h3⟩
    · rw [h]; exact ⟨fun _ h => (by cases h), s, rfl, fun _ => id⟩
    · refine ⟨by rw [h2]; simp [stage], _, h3, fun w hw => ?_⟩
      obtain ⟨g1, g2⟩ := run_worker hn h1
      rw [absorb_nothing g2] at hw
      exact consumer_sleeps (s := s) (s' := { s with it }) rfl (fun e => absurd (hn.symm.trans e) (by decide)) g1 hw
  · obtain ⟨inbox, pc, it, body, now, sent⟩ := s
    simp only at hn
    cases pc with
    | waiting u =>
      cases inbox with
      | nil => exact ⟨by simp [host, hn], _, by simp only [host]; rw [if_neg hn]; rfl, fun _ => id⟩
      | cons n q =>
        have ht : host.turn (⟨n :: q, .waiting u, it, body, now, sent⟩ : State α β σ) .worker = [.receive] := by simp only [host]; rw [if_neg hn]; rfl
        rw [ht]
        exact ⟨by simp [stage], _, rfl, fun _ => id⟩
    | running k =>
      refine ⟨by simp [host, hn, stage], ?_⟩
      have ht : host.turn (⟨inbox, .running k, it, body, now, sent⟩ : State α β σ) .worker = [.go] := by simp only [host]; rw [if_neg hn]
      rw [ht]
      cases k with
      | done r => cases r <;> exact ⟨_, rfl, fun _ => id⟩
      | raise e => exact ⟨_, rfl, fun _ => id⟩
      | wait d k => exact ⟨_, rfl, fun _ => id⟩
      | call n k =>
        obtain ⟨g1, g2, g3⟩ := keeps_access { it with calls := it.calls ++ [.returned] } it.calls.length n
        refine ⟨_, rfl, fun w hw => ?_⟩
        exact consumer_sleeps (s := ⟨inbox, .running (.call n k), it, body, now, sent⟩)
          (s' := ⟨inbox, .calling k, Iterator.State.access { it with calls := it.calls ++ [.returned] } it.calls.length n, body, now, sent⟩) rfl (fun e => g1.next e) g2 hw
    | asleep due k =>
      have ht : host.turn (⟨inbox, .asleep due k, it, body, now, sent⟩ : State α β σ) .worker = [.wake] := by simp only [host]; rw [if_neg hn]
      have : due ≤ now := hd due (by simp only [host]; rw [if_neg hn])
      rw [ht]
      refine ⟨by simp [stage], ⟨inbox, .running k, it, body, now, sent⟩, by simp [LTS.run, step, this], fun _ => id⟩
    | calling k =>
      by_cases hr : returned it = true
      · have ht : host.turn (⟨inbox, .calling k, it, body, now, sent⟩ : State α β σ) .worker = [.back] := by simp only [host]; rw [if_neg hn, if_pos hr]
        rw [ht]
        refine ⟨by simp [stage], ⟨inbox, .running k, it, body, now, sent⟩, by simp [LTS.run, step, hr], fun _ => id⟩
      · have ht : host.turn (⟨inbox, .calling k, it, body, now, sent⟩ : State α β σ) .worker = [] := by simp only [host]; rw [if_neg hn, if_neg hr]
        rw [ht]
        exact ⟨fun _ h => (by cases h), _, rfl, fun _ => id⟩
    | halted =>
      have ht : host.turn (⟨inbox, .halted, it, body, now, sent⟩ : State α β σ) .worker = [] := by simp only [host]; rw [if_neg hn]
      rw [ht]
      exact ⟨fun _ h => (by cases h), _, rfl, fun _ => id⟩

theorem turn_consumer_ok {s : State α β σ} (hd : ∀ w, host.need s .consumer = .until w → w ≤ s.now) :
    (∀ l ∈ host.turn s .consumer, (stage o s0 m gone).own l = true) ∧
    ∃ s', LTS.run (step o m gone) s (host.turn s .consumer) = some s' ∧ ∀ w, host.need s' .worker = .until w → host.need s .worker = .until w := by
  by_cases hn : next s.it = some .consumer
  · have ht : host.turn s .consumer = runs s.it := by simp only [host]; rw [if_pos hn]
    rw [ht]
    rcases run_runs (o := o) (m := m) (gone := gone) (s := s) with ⟨_, h⟩ | ⟨it, h1, h2, h3⟩
    · rw [h]; exact ⟨fun _ h => (by cases h), s, rfl, fun _ => id⟩
    · refine ⟨by rw [h2]; simp [stage], _, h3, fun w hw => ?_⟩
      exact worker_sleeps (absorb_keeps s it).2 (fun e => absurd (hn.symm.trans e) (by decide)) hw
  · by_cases hs : s.it.consumer = .subscribing
    · cases h : Iterator.step s.it .subscribed with
      | none =>
        have ht : host.turn s .consumer = [] := by simp only [host]; rw [if_neg hn, if_pos hs, h]; rfl
        rw [ht]; exact ⟨fun _ h => (by cases h), s, rfl, fun _ => id⟩
      | some it =>
        have ht : host.turn s .consumer = [.subscribed] := by simp only [host]; rw [if_neg hn, if_pos hs, h]; rfl
        rw [ht]
        refine ⟨by simp [stage], absorb m s it, by simp [LTS.run, step, h], fun w hw => worker_sleeps (absorb_keeps s it).2 ?_ hw⟩
        rw [(absorb_keeps s it).1]
        simp only [Iterator.step, hs] at h
        split at h
        · cases h
        · cases h; exact fun e => (keeps_receive _).next e
    · cases hb : s.body with
      | asking =>
        have ht : host.turn s .consumer = [] := by simp only [host]; rw [if_neg hn, if_neg hs, hb]
        rw [ht]; exact ⟨fun _ h => (by cases h), s, rfl, fun _ => id⟩
      | over =>
        have ht : host.turn s .consumer = [] := by simp only [host]; rw [if_neg hn, if_neg hs, hb]
        rw [ht]; exact ⟨fun _ h => (by cases h), s, rfl, fun _ => id⟩
      | busy due =>
        have hdue : due ≤ s.now := hd due (by simp only [host]; rw [if_neg (by simp [hn, hs]), hb])
        cases h : Iterator.step s.it .anext with
        | none =>
          have ht : host.turn s .consumer = [] := by simp only [host]; rw [if_neg hn, if_neg hs, hb, h]; rfl
          rw [ht]; exact ⟨fun _ h => (by cases h), s, rfl, fun _ => id⟩
        | some it =>
          have ht : host.turn s .consumer = [.anext] := by simp only [host]; rw [if_neg hn, if_neg hs, hb, h]; rfl
          rw [ht]
          refine ⟨by simp [stage], absorb m { s with body := .asking } it, by simp [LTS.run, step, h, hb, hdue], fun w hw =>
            worker_sleeps (s := s) (absorb_keeps (m := m) { s with body := .asking } it).2 ?_ hw⟩
          rw [(absorb_keeps _ it).1]
          simp only [Iterator.step] at h
          split at h
          · cases h
          · split at h
            · cases h; exact id
            · cases h; exact fun e => (keeps_receive _).next e
            · cases h

theorem host_lawful : (host (α := α) (β := β) (σ := σ)).Lawful (stage o s0 m gone) where
  names := by intro s n _; exact names_all n s
  turn := by
    intro s n hd
    cases n with
    | worker =>
      obtain ⟨h1, s', h2, h3⟩ := turn_worker_ok (o := o) (s0 := s0) (m := m) (gone := gone) hd
      refine ⟨h1, s', h2, fun n' w hne => ?_⟩
      cases n' with
      | worker => exact absurd rfl hne
      | consumer => exact h3 w
    | consumer =>
      obtain ⟨h1, s', h2, h3⟩ := turn_consumer_ok (o := o) (s0 := s0) (m := m) (gone := gone) hd
      refine ⟨h1, s', h2, fun n' w hne => ?_⟩
      cases n' with
      | worker => exact h3 w
      | consumer => exact absurd rfl hne
  event := by
    intro s e
    refine ⟨_, rfl, ?_⟩
    intro n w
    cases n with
    | worker => exact worker_sleeps (s := s) (s' := { s with inbox := s.inbox ++ [e] }) rfl id
    | consumer => exact id
  tick := by
    intro s d hc
    refine ⟨{ s with now := s.now + d }, ?_, fun n => by cases n <;> rfl⟩
    have hw := hc .worker
    have hc := hc .consumer
    have hr : ready s d = false := by
      obtain ⟨inbox, pc, it, body, now, sent⟩ := s
      have hn : it.ready = [] := by
        cases hr : it.ready with
        | nil => rfl
        | cons x xs => cases x <;> simp [host, Loop.next, hr] at hw hc
      have hn' : next it = none := by simp [Loop.next, hn]
      simp only [host, hn', reduceCtorEq, if_false, false_or] at hw hc
      have hs : it.consumer ≠ .subscribing := fun e => by rw [if_pos e] at hc; exact hc
      rw [if_neg hs] at hc
      have h1 : (match (generalizing := false) body with | .busy due => decide (due < now + d) | _ => false) = false := by
        cases body with
        | busy due => exact decide_eq_false (Nat.not_lt.mpr hc)
        | _ => rfl
      have h2 : (match (generalizing := false) pc with | .waiting _ => !inbox.isEmpty | .running _ => true | .asleep due _ => decide (due < now + d) | .calling _ => returned it | .halted => false) = false := by
        cases pc with
        | waiting u => cases inbox with
          | nil => rfl
          | cons => exact hw.elim
        | running k => exact hw.elim
        | asleep due k => exact decide_eq_false (Nat.not_lt.mpr hw)
        | calling k =>
          dsimp only at hw ⊢
          cases hr : returned it with
          | false => rfl
          | true => rw [hr] at hw; exact hw.elim
        | halted => rfl
      unfold ready
      simp only [Bool.or_eq_false_iff]
      exact ⟨⟨⟨h2, by simp [hn]⟩, by simp [hs]⟩, h1⟩
    simp [stage, step, hr]

theorem absorb_calls (s : State α β σ) (it : Iterator.State β) :
    (absorb m s it).now = s.now ∧ ∃ ns : List (Notif β), (absorb m s it).sent = s.sent ++ ns.map fun n => (n, s.now) := by
  unfold absorb
  split
  · exact ⟨rfl, [_], rfl⟩
  · exact ⟨rfl, [_], rfl⟩
  · exact ⟨rfl, [_], rfl⟩
  · exact ⟨rfl, [], (List.append_nil _).symm⟩

theorem stage_lawful : (stage o s0 m gone).Lawful := by
  have none : ∀ s : State α β σ, ∃ ns : List (Notif β), s.sent = s.sent ++ ns.map fun n => (n, s.now) := fun s => ⟨[], (List.append_nil _).symm⟩
  have some : ∀ {s s' : State α β σ} {x : Option (Iterator.State β)}, x.map (absorb m s) = some s' →
      s'.now = s.now ∧ ∃ ns : List (Notif β), s'.sent = s.sent ++ ns.map fun n => (n, s.now) := by
    intro s s' x h
    cases x with
    | none => cases h
    | some it => cases h; exact absorb_calls s it
  refine ⟨fun t => ⟨rfl, rfl⟩, ?_, ?_, ?_⟩
  · intro s n t h
    simp only [stage, step, Option.some.injEq] at h
    subst h
    exact ⟨rfl, rfl⟩
  · intro s d t h
    simp only [stage, step] at h
    split at h
    · cases h
    · cases h
      exact ⟨rfl, rfl⟩
  · intro s l t hl h
    cases l with
    | event n => cases hl
    | tick d => cases hl
    | receive =>
      simp only [stage, step] at h
      split at h <;> cases h
      exact ⟨rfl, none s⟩
    | wake =>
      simp only [stage, step] at h
      split at h
      · split at h <;> cases h
        exact ⟨rfl, none s⟩
      · cases h
    | back =>
      simp only [stage, step] at h
      split at h
      · split at h <;> cases h
        exact ⟨rfl, none s⟩
      · cases h
    | go =>
      simp only [stage, step] at h
      split at h
      · cases h; exact ⟨rfl, none s⟩
      · cases h; exact ⟨rfl, none s⟩
      · cases h; exact ⟨rfl, none s⟩
      · cases h; exact ⟨rfl, none s⟩
      · cases h; exact ⟨rfl, none s⟩
      · cases h
    | subscribed => exact some h
    | run => exact some h
    | anext =>
      simp only [stage, step] at h
      split at h
      · split at h
        · exact some (s := { s with body := .asking }) h
        · cases h
      · cases h

/-! ## the tasks do not run idle -/

theorem can_worker {ls : List (Label α)} {t0 : Nat} {s : State α β σ} (hr : LTS.run (step o m gone) ((stage o s0 m gone).init t0) ls = some s)
    (hn : host.need s .worker ≠ .nothing) : host.turn s .worker ≠ [] := by
  obtain ⟨sh, r, t, free, rest, hi⟩ := (inv_run hr).1
  have hf := hi.fits
  obtain ⟨inbox, pc, it, body, now, sent⟩ := s
  by_cases hw : next it = some .worker
  · simp only [host, hw, if_true]
    cases sh with
    | free => obtain ⟨_, _, _, _, e⟩ := hf; simp only at e; rw [e] at hw; cases hw
    | offered n =>
      obtain ⟨calls, h, u, ha, e⟩ := hf
      simp only at e
      rw [e] at hw
      simp only [Loop.next] at hw
      by_cases hc : it.consumer = .waiting
      · simp [hc] at hw
      · simp [hc] at hw
    | taken =>
      obtain ⟨calls, h, u, n, ha, e⟩ := hf
      simp only at e
      rw [e]
      simp [runs, Iterator.step]
  · simp only [host] at hn ⊢
    rw [if_neg hw] at hn ⊢
    cases pc with
    | waiting u => cases inbox <;> simp at hn ⊢
    | running k => simp
    | asleep d k => simp
    | calling k => dsimp only at hn ⊢; split at hn <;> simp_all
    | halted => exact absurd rfl hn

theorem can_consumer {ls : List (Label α)} {t0 : Nat} {s : State α β σ} (hr : LTS.run (step o m gone) ((stage o s0 m gone).init t0) ls = some s)
    (hn : host.need s .consumer ≠ .nothing) : host.turn s .consumer ≠ [] := by
  obtain ⟨sh, r, t, free, rest, hi⟩ := (inv_run hr).1
  have hf := hi.fits
  have hidle := hi.idle
  obtain ⟨inbox, pc, it, body, now, sent⟩ := s
  simp only at hf hidle
  have turns : Iterator.isTurn it.ready = false := by
    cases sh with
    | free => obtain ⟨_, _, _, _, e⟩ := hf; rw [e]; rfl
    | offered n => obtain ⟨_, _, _, _, e⟩ := hf; rw [e]; dsimp only; split <;> rfl
    | taken => obtain ⟨_, _, _, _, _, e⟩ := hf; rw [e]; rfl
  by_cases hw : next it = some .consumer
  · simp only [host, hw, if_true]
    cases sh with
    | free => obtain ⟨_, _, _, _, e⟩ := hf; rw [e] at hw; cases hw
    | taken => obtain ⟨_, _, _, _, _, e⟩ := hf; rw [e] at hw; cases hw
    | offered n =>
      obtain ⟨calls, h, u, ha, e⟩ := hf
      by_cases hc : it.consumer = .waiting
      · rw [hc] at e
        rw [e]
        simp [runs, Iterator.step]
      · rw [e] at hw
        simp [Loop.next, hc] at hw
  · by_cases hs : it.consumer = .subscribing
    · simp [host, hw, hs, Iterator.step, turns]
    · simp only [host, hw, hs, false_or, if_false] at hn ⊢
      cases body with
      | asking => exact absurd rfl hn
      | over => exact absurd rfl hn
      | busy d => simp [Iterator.step, turns, hidle nofun]

end Aio.Loop
