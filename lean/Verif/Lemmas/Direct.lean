import Verif.Model.Direct
import Verif.Lemmas.Work
import Verif.Lemmas.Hosted
/-!
# Lemmas about `Model/Direct.lean`
-/

namespace Aio
variable {α β γ A σ : Type}

theorem Co.run_segment (c : Co β A) (t : Nat) : c.run t = (c.segment.1.map (fun n => (n, t)) ++ (c.segment.2.run t).1, (c.segment.2.run t).2) := by
  induction c with
  | done a => simp [segment]
  | raise e => simp [segment]
  | wait d k ih => simp [segment]
  | call n k ih => simp only [segment, run, List.map_cons, List.cons_append]; rw [ih]

theorem Co.segment_call (c : Co β A) {n : Notif β} {k : Co β A} : c.segment.2 ≠ .call n k := by
  induction c with
  | done a => simp [segment]
  | raise e => simp [segment]
  | wait d k ih => simp [segment]
  | call n k ih => exact ih

namespace Direct
variable {round : Nat → σ → Co β (Option σ)} {s0 : σ} {t0 : Nat}

/-- What follows when a coroutine of a round has ended. -/
def after (f : σ → Nat → List (Notif β × Nat)) (x : List (Notif β × Nat) × Nat × Except Err (Option σ)) : List (Notif β × Nat) :=
  x.1 ++ match x.2.2 with
    | .ok (some s) => f s x.2.1
    | _ => []

/-- What `n` rounds do, from round `k` and time `t` on. -/
def plan (round : Nat → σ → Co β (Option σ)) : Nat → Nat → σ → Nat → List (Notif β × Nat)
  | 0, _, _, _ => []
  | n + 1, k, s, t => after (fun s' t' => plan round n (k + 1) s' t') ((round k s).run t)

theorem after_ge {f : σ → Nat → List (Notif β × Nat)} (hf : ∀ s t, ∀ x ∈ f s t, t ≤ x.2) (c : Co β (Option σ)) (t : Nat) : ∀ x ∈ after f (c.run t), t ≤ x.2 := by
  intro x hx
  obtain ⟨h1, h2⟩ := c.run_ge t
  rcases List.mem_append.mp hx with hx | hx
  · exact h2 x hx
  · split at hx
    · exact Nat.le_trans h1 (hf _ _ x hx)
    · cases hx

theorem plan_ge : ∀ (n k : Nat) (s : σ) (t : Nat), ∀ x ∈ plan round n k s t, t ≤ x.2
  | 0, _, _, _ => fun _ h => by cases h
  | n + 1, k, s, t => after_ge (fun s' t' => plan_ge n (k + 1) s' t') _ _

/-- What `n` more rounds do. -/
def left (round : Nat → σ → Co β (Option σ)) (s0 : σ) (s : State β σ) (n : Nat) : List (Notif β × Nat) :=
  match s.pc with
  | .fresh => plan round n 0 s0 s.now
  | .round k t => plan round n k t s.now
  | .asleep k due c => after (fun s' t' => plan round n (k + 1) s' t') (c.run due)
  | .dead => []

theorem proceed_left (s : State β σ) (k : Nat) (c : Co β (Option σ)) (n : Nat) :
    s.sent ++ after (fun s' t' => plan round n (k + 1) s' t') (c.run s.now) = (proceed s k c).sent ++ left round s0 (proceed s k c) n := by
  rw [Co.run_segment]
  simp only [after, proceed, left, List.append_assoc]
  congr 1
  congr 1
  cases hc : c.segment.2 with
  | done a => cases a <;> simp [Co.run]
  | raise e => simp [Co.run]
  | wait d k => simp [Co.run, after]
  | call n k => exact absurd hc c.segment_call

/-- When everything that belongs to the task is over. -/
def State.stop (s : State β σ) : Nat := s.since.getD s.now

structure Inv (round : Nat → σ → Co β (Option σ)) (s0 : σ) (t0 : Nat) (s : State β σ) : Prop where
  told : ∃ (m : Nat) (rest : Nat → List (Notif β × Nat)), (∀ n, plan round (m + n) 0 s0 t0 = s.sent ++ rest n) ∧
    (∀ n, ∀ x ∈ rest n, s.stop ≤ x.2) ∧ ((s.pc = .dead → s.since = none) → ∀ n, rest n = left round s0 s n)
  sent : ∀ x ∈ s.sent, x.2 ≤ s.stop
  since : ∀ c, s.since = some c → c ≤ s.now ∧ (s.pc ≠ .dead → s.now = c)
  due : ∀ k due c, s.pc = .asleep k due c → s.now ≤ due

theorem Inv.stop_eq {s : State β σ} (I : Inv round s0 t0 s) (h : s.pc = .dead → s.since = none) : s.stop = s.now := by
  cases hs : s.since with
  | none => simp [State.stop, hs]
  | some c =>
    have := (I.since c hs).2 (fun hd => by have := h hd; rw [hs] at this; cases this)
    simp [State.stop, hs, this]

theorem left_ge {s : State β σ} (hd : ∀ k due c, s.pc = .asleep k due c → s.now ≤ due) (n : Nat) : ∀ x ∈ left round s0 s n, s.now ≤ x.2 := by
  intro x hx
  unfold left at hx
  split at hx
  · exact plan_ge _ _ _ _ x hx
  · exact plan_ge _ _ _ _ x hx
  · next k due c hc => exact Nat.le_trans (hd _ _ _ hc) (after_ge (fun s' t' => plan_ge n (k + 1) s' t') _ _ x hx)
  · cases hx

theorem inv_init : Inv round s0 t0 (clocked round s0 t0).init where
  told := ⟨0, fun n => plan round n 0 s0 t0, fun n => by simp [clocked], fun n x hx => plan_ge _ _ _ _ x hx, fun _ n => rfl⟩
  sent := by intro x hx; cases hx
  since := by intro c h; cases h
  due := by intro k due c h; cases h

/-- A segment of the task that is executed while it is alive. -/
theorem Inv.move {s s' : State β σ} (I : Inv round s0 t0 s) (ha : s.pc ≠ .dead) (hn : s'.now = s.now) (hc : s'.since = s.since)
    (hsent : ∀ x ∈ s'.sent, x ∈ s.sent ∨ x.2 = s.now) (hdue : ∀ k due c, s'.pc = .asleep k due c → s'.now ≤ due) (b : Nat)
    (hl : ∀ n, s.sent ++ left round s0 s (b + n) = s'.sent ++ left round s0 s' n) : Inv round s0 t0 s' where
  told := by
    obtain ⟨m, rest, h1, h2, h3⟩ := I.told
    have h3 := h3 fun h => absurd h ha
    refine ⟨m + b, fun n => left round s0 s' n, fun n => ?_, fun n x hx => ?_, fun _ n => rfl⟩
    · rw [Nat.add_assoc, h1, h3, hl]
    · have := left_ge (round := round) (s0 := s0) hdue n x hx
      have he := I.stop_eq fun h => absurd h ha
      simp only [State.stop, hc, hn] at this he ⊢
      omega
  sent := by
    intro x hx
    have he := I.stop_eq fun h => absurd h ha
    have : s'.stop = s.stop := by simp [State.stop, hc, hn]
    rcases hsent x hx with h | h
    · rw [this]; exact I.sent x h
    · omega
  since := by
    intro c h
    rw [hc] at h
    obtain ⟨h1, h2⟩ := I.since c h
    exact ⟨by omega, fun _ => by rw [hn]; exact h2 ha⟩
  due := hdue

theorem proceed_sent (s : State β σ) (k : Nat) (c : Co β (Option σ)) : ∀ x ∈ (proceed s k c).sent, x ∈ s.sent ∨ x.2 = s.now := by
  intro x hx
  rcases List.mem_append.mp hx with h | h
  · exact .inl h
  · obtain ⟨n, _, rfl⟩ := List.mem_map.mp h; exact .inr rfl

theorem proceed_due (s : State β σ) (k : Nat) (c : Co β (Option σ)) : ∀ j due c', (proceed s k c).pc = .asleep j due c' → (proceed s k c).now ≤ due := by
  intro j due c' h
  simp only [proceed] at h ⊢
  split at h
  · cases h
  · cases h; exact Nat.le_add_right ..
  · cases h

theorem Inv.act {s s' : State β σ} (I : Inv round s0 t0 s) {l : Label} (h : act round s0 s l = some s') : Inv round s0 t0 s' := by
  cases l with
  | start =>
    simp only [Direct.act] at h
    split at h
    · next hp hs =>
      cases h
      exact I.move (by rw [hp]; simp) rfl rfl (fun x hx => .inl hx) (by intro k due c h; cases h) 0 (fun n => by simp [left, hp])
    · cases h
  | next =>
    simp only [Direct.act] at h
    split at h
    · next k t hp =>
      cases h
      refine I.move (by rw [hp]; simp) rfl rfl (proceed_sent _ _ _) (proceed_due _ _ _) 1 (fun n => ?_)
      rw [← proceed_left, Nat.add_comm 1]
      simp only [left, hp, plan]
    · cases h
  | wake =>
    simp only [Direct.act] at h
    split at h
    · next k due c hp hs =>
      split at h
      · next hd =>
        cases h
        have hdue : s.now = due := Nat.le_antisymm (I.due _ _ _ hp) hd
        refine I.move (by rw [hp]; simp) rfl rfl (proceed_sent _ _ _) (proceed_due _ _ _) 0 (fun n => ?_)
        rw [← proceed_left, Nat.zero_add]
        simp only [left, hp, hdue]
      · cases h
    · cases h
  | thrown =>
    suffices h : s.since ≠ none ∧ s' = { s with pc := .dead } by
      obtain ⟨h1, rfl⟩ := h
      obtain ⟨m, rest, g1, g2, g3⟩ := I.told
      exact ⟨⟨m, rest, g1, g2, fun h => absurd (h rfl) h1⟩, I.sent, fun c h => ⟨(I.since c h).1, fun h => absurd rfl h⟩, by intro k due c h; cases h⟩
    simp only [Direct.act] at h
    split at h <;> first | cases h | skip
    · next hs => exact ⟨by rw [hs]; simp, rfl⟩
    · next hs => exact ⟨by rw [hs]; simp, rfl⟩
  | dispose =>
    cases h
    cases hs : s.since with
    | some c =>
      have : ({ s with since := some ((some c).getD s.now) } : State β σ) = s := by
        obtain ⟨now, pc, since, sent⟩ := s
        cases hs
        rfl
      rw [this]
      exact I
    | none =>
      obtain ⟨m, rest, g1, g2, g3⟩ := I.told
      have hst : s.stop = s.now := by simp [State.stop, hs]
      rw [hst] at g2
      refine ⟨⟨m, rest, g1, g2, fun _ => g3 fun _ => hs⟩, fun x hx => ?_, fun c h => ?_, I.due⟩
      · have := I.sent x hx; rw [hst] at this; exact this
      · cases h; exact ⟨Nat.le_refl _, fun _ => rfl⟩

theorem Inv.pass {s s' : State β σ} (I : Inv round s0 t0 s) {d : Nat} (h : pass s d = some s') : Inv round s0 t0 s' := by
  simp only [Direct.pass] at h
  split at h
  · next hp =>
    cases h
    obtain ⟨m, rest, g1, g2, g3⟩ := I.told
    refine ⟨⟨m, rest, g1, fun n x hx => ?_, fun h n => by rw [g3 (fun hd => h hd) n]; simp [left, hp]⟩, fun x hx => ?_, fun c h => ⟨Nat.le_trans (I.since c h).1 (Nat.le_add_right ..), fun h => absurd hp h⟩,
      fun k due c h => by rw [hp] at h; cases h⟩
    · cases hs : s.since with
      | none => have := g3 (fun _ => hs) n; rw [this] at hx; simp [left, hp] at hx
      | some c => have := g2 n x hx; simp only [State.stop, hs] at this ⊢; exact this
    · have := I.sent x hx
      simp only [State.stop] at this ⊢
      cases hs : s.since with
      | none => simp only [hs, Option.getD_none] at this ⊢; omega
      | some c => simp only [hs, Option.getD_some] at this ⊢; exact this
  · next k due c hp hs =>
    split at h
    · next hd =>
      cases h
      obtain ⟨m, rest, g1, g2, g3⟩ := I.told
      have g3 := g3 fun h => by rw [hp] at h; cases h
      have hl : ∀ n, left round s0 { s with now := s.now + d } n = left round s0 s n := fun n => by simp [left, hp]
      refine ⟨⟨m, rest, g1, fun n x hx => ?_, fun _ n => by rw [hl, g3]⟩, fun x hx => ?_, fun c h => (by rw [hs] at h; cases h), fun k' due' c' h => ?_⟩
      · rw [g3, ← hl] at hx
        have := left_ge (fun k' due' c' h => by rw [hp] at h; cases h; exact hd) n x hx
        simpa [State.stop, hs] using this
      · have := I.sent x hx
        simp only [State.stop, hs, Option.getD_none] at this ⊢
        omega
      · rw [hp] at h; cases h; exact hd
    · cases h
  · cases h

theorem inv_run {ls s} (hr : LTS.run (clocked round s0 t0).step (clocked round s0 t0).init ls = some s) : Inv round s0 t0 s := by
  refine LTS.inv (step := (clocked round s0 t0).step) (Inv round s0 t0) inv_init ?_ hr
  intro s l s' I h
  cases l with
  | pass d => exact I.pass h
  | act l => exact I.act h

theorem act_lawful {s s' : State β σ} {l : Label} (h : act round s0 s l = some s') :
    s'.now = s.now ∧ ∃ ns : List (Notif β), s'.sent = s.sent ++ ns.map fun n => (n, s.now) := by
  cases l <;> simp only [act] at h
  · split at h <;> cases h; exact ⟨rfl, [], by simp⟩
  · split at h <;> cases h; exact ⟨rfl, _, rfl⟩
  · split at h
    · split at h <;> cases h; exact ⟨rfl, _, rfl⟩
    · cases h
  · split at h <;> cases h <;> exact ⟨rfl, [], by simp⟩
  · cases h; exact ⟨rfl, [], by simp⟩

theorem pass_lawful {s s' : State β σ} {d : Nat} (h : pass s d = some s') : s' = { s with now := s.now + d } := by
  simp only [pass] at h
  split at h
  · cases h; rfl
  · split at h <;> cases h; rfl
  · cases h

theorem lawful : (clocked round s0 t0).Lawful where
  init := rfl
  act _ h := act_lawful h
  pass _ h := by rw [pass_lawful h]; exact ⟨rfl, rfl⟩

theorem host_lawful : (host (β := β) (σ := σ)).Lawful (clocked round s0 t0) where
  clock := lawful
  names _ _ := by simp [host]
  turn := by
    intro s t hr hd
    suffices h : ∃ s', LTS.run (clocked round s0 t0).act s (host.turn s t) = some s' by
      obtain ⟨s', h⟩ := h
      exact ⟨s', h, fun t' w hne => absurd rfl hne⟩
    obtain ⟨now, pc, since, sent⟩ := s
    cases pc with
    | dead => exact ⟨_, rfl⟩
    | fresh => cases since <;> exact ⟨_, rfl⟩
    | round k t => exact ⟨_, rfl⟩
    | asleep k due c =>
      cases since with
      | some c => exact ⟨_, rfl⟩
      | none =>
        have hd : due ≤ now := hd due rfl
        exact ⟨proceed ⟨now, .asleep k due c, none, sent⟩ k c, by simp [host, LTS.run, clocked, Direct.act, hd]⟩
  outside := by
    intro s l s' _ ho h t w
    have : l = .dispose := by simpa [host] using ho
    subst this
    cases h
    obtain ⟨now, pc, since, sent⟩ := s
    cases pc <;> simp [host]
  pass := by
    intro s d _ hc
    have hc := hc ()
    obtain ⟨now, pc, since, sent⟩ := s
    cases pc with
    | dead => exact ⟨_, rfl, fun t => rfl⟩
    | fresh => exact absurd hc (by simp [host])
    | round k t => exact absurd hc (by simp [host])
    | asleep k due c =>
      cases since with
      | some c => exact absurd hc (by simp [host])
      | none =>
        have hc : now + d ≤ due := hc
        exact ⟨⟨now + d, .asleep k due c, none, sent⟩, by simp [clocked, Direct.pass, hc], fun t => rfl⟩

end Direct
end Aio
