import Verif.Lemmas.Delay
/-!
# `delay` on a prompt loop, after a cancellation, and without one
-/

namespace Aio.Delay
variable {α : Type}
open Aio.Spec.Delay

theorem prompt_run {seconds : Nat} {ls : List (Label α)} : ∀ {s s' : State α},
    LTS.run (promptStep seconds) s ls = some s' → LTS.run (step seconds) s ls = some s' := by
  induction ls with
  | nil => intro s s' h; exact h
  | cons l ls ih =>
    intro s s' h
    obtain ⟨s1, h1, h2⟩ := LTS.run_cons.mp h
    simp only [promptStep, Option.ite_none_right_eq_some] at h1
    exact LTS.run_cons.mpr ⟨s1, h1.2, ih h2⟩

theorem prompt_sync {seconds : Nat} {ls : List (Label α)} : ∀ {s s' : State α},
    LTS.run (promptStep seconds) s ls = some s' → Synchronous ls := by
  induction ls with
  | nil => intro s s' _ x y h; cases h
  | cons l ls ih =>
    intro s s' h x y hm
    obtain ⟨s1, h1, h2⟩ := LTS.run_cons.mp h
    rcases List.mem_cons.mp hm with rfl | hm
    · simp only [promptStep, Option.ite_none_right_eq_some, prompt, Bool.and_eq_true, beq_iff_eq] at h1
      exact h1.1.1
    · exact ih h2 x y hm

theorem prompt_snoc {seconds : Nat} {ls : List (Label α)} {l : Label α} {s s' : State α}
    (hr : LTS.run (step seconds) init ls = some s)
    (h : LTS.run (promptStep seconds) init (ls ++ [l]) = some s') :
    LTS.run (promptStep seconds) init ls = some s ∧ prompt s l = true := by
  obtain ⟨s1, h1, h2⟩ := LTS.run_append.mp h
  have := prompt_run h1
  rw [hr] at this; cases this
  obtain ⟨s2, h3, _⟩ := LTS.run_cons.mp h2
  simp only [promptStep, Option.ite_none_right_eq_some] at h3
  exact ⟨h1, h3.1⟩

theorem arrivals_le {i : Nat} {ls : List (Label α)} : ∀ {t : Nat},
    (∀ a ∈ arrivalsFrom i t ls, t ≤ a.2) ∧ (arrivalsFrom i t ls).Pairwise fun a b => a.2 ≤ b.2 := by
  induction ls with
  | nil => intro t; simp [arrivalsFrom]
  | cons l ls ih =>
    intro t
    cases l
    case tick dw dl =>
      simp only [arrivalsFrom]
      exact ⟨fun a ha => by have := (ih (t := t + dl)).1 a ha; omega, (ih (t := t + dl)).2⟩
    case event j n =>
      simp only [arrivalsFrom]
      split
      · refine ⟨?_, List.pairwise_cons.mpr ⟨fun a ha => (ih (t := t)).1 a ha, (ih (t := t)).2⟩⟩
        intro a ha
        rcases List.mem_cons.mp ha with rfl | ha
        · exact Nat.le_refl _
        · exact (ih (t := t)).1 a ha
      · exact ih
    all_goals simpa only [arrivalsFrom] using ih

theorem shifted_sorted {i seconds : Nat} {ls : List (Label α)} :
    (shifted seconds (arrivals i ls)).Pairwise fun a b => a.2 ≤ b.2 := by
  simp only [shifted, List.pairwise_map]
  exact (arrivals_le (t := 0)).2.imp fun h => by simpa using h

def Worker.live : Worker α → Bool
  | .finished => false
  | .dead => false
  | _ => true

/-- On a prompt loop everything delivered was delivered when due, and nothing pending is overdue. -/
def OnTime (seconds : Nat) (ls : List (Label α)) (i : Nat) (loop : Nat) (b : Sub α) : Prop :=
  ∃ h : List (Notif α × Nat), HoldsDue b.worker h ∧
    b.delivered ++ h ++ b.queue = shifted seconds (arrivals i ls) ∧
    (b.worker.live = true → ∀ x ∈ h ++ b.queue, loop ≤ x.2)

theorem onTime {seconds : Nat} {ls : List (Label α)} {s : State α}
    (h : LTS.run (promptStep seconds) init ls = some s) :
    ∀ (i : Nat) (b : Sub α), s.subs[i]? = some b → OnTime seconds ls i s.loop b := by
  intro i b hb
  refine sub_inv (seconds := seconds) (fun ls i s b => LTS.run (promptStep seconds) init ls = some s → OnTime seconds ls i s.loop b)
    ?_ ?_ ?_ (prompt_run h) i b hb h
  · intro ls i s _ h _
    exact ⟨[], rfl, by rw [arrivals_other (by simp), h]; rfl, by simp⟩
  · intro ls i s b l s' hr hs hb ht hI hp
    obtain ⟨hp, hl⟩ := prompt_snoc hr hp
    obtain ⟨h, hh, he, hd⟩ := hI hp
    refine ⟨h, hh, by rw [arrivals_other (target_event ht)]; exact he, ?_⟩
    rcases step_cases hs with ⟨rfl, rfl⟩ | ⟨dw, dl, rfl, rfl⟩ | ⟨j, c, c', _, _, _, rfl⟩
    · exact hd
    · intro hlive x hx
      simp only [prompt, Bool.and_eq_true, beq_iff_eq, List.all_eq_true] at hl
      have hc := hl.2 b (List.mem_of_getElem? hb)
      cases hw : b.worker <;> simp only [hw, Sub.calm, List.isEmpty_iff, decide_eq_true_eq, reduceCtorEq, Worker.live] at hc hlive
      · rw [hw] at hh; change h = [] at hh; subst hh; rw [hc] at hx; cases hx
      · rename_i n w
        rw [hw] at hh; change h = [(n, w)] at hh; subst hh
        have hsort := shifted_sorted (i := i) (seconds := seconds) (ls := ls)
        rw [← he, List.append_assoc] at hsort
        have := (List.pairwise_append.mp hsort).2.1
        simp only [List.singleton_append] at this hx
        have h3 := (List.pairwise_cons.mp this).1
        dsimp only
        rcases List.mem_cons.mp hx with rfl | hx
        · exact hc
        · have := h3 x hx; dsimp only at this; omega
    · exact hd
  · intro ls i s b l b' hrun _ ht hst hI hp
    obtain ⟨hp, -⟩ := prompt_snoc hrun hp
    have hwl := run_sync hrun (prompt_sync hp)
    have hcl := run_clock hrun
    obtain ⟨h, hh, he, hd⟩ := hI hp
    cases l <;> simp only [Label.target, Option.some.injEq, reduceCtorEq] at ht <;> subst ht
    case event n =>
      simp [subStep] at hst; subst hst
      refine ⟨h, hh, ?_, ?_⟩
      · rw [arrivals_event]; simp only [shifted, List.map_append] at he ⊢; rw [← he]
        simp [hwl, hcl]
      · intro hlive x hx
        rw [← List.append_assoc] at hx
        rcases List.mem_append.mp hx with hx | hx
        · exact hd hlive x hx
        · simp at hx; subst hx; simp only; omega
    case start =>
      simp only [OnTime]; rw [arrivals_other (by simp)]
      cases hw : b.worker <;> simp only [subStep, hw, reduceCtorEq, Option.some.injEq] at hst
      subst hst
      rw [hw] at hh hd; refine ⟨h, ?_, he, fun _ => hd rfl⟩
      cases s.cancelled <;> exact hh
    case receive =>
      simp only [OnTime]; rw [arrivals_other (by simp)]
      cases hw : b.worker <;> cases hq : b.queue <;> simp only [subStep, hw, hq, reduceCtorEq, Option.some.injEq] at hst
      rename_i p q
      obtain ⟨n, due⟩ := p
      rw [hw] at hh hd
      have hd := hd rfl
      change h = [] at hh; subst hh
      rw [hq] at he hd
      simp only [List.nil_append] at hd
      have hdue := hd (n, due) (by simp)
      dsimp only at hdue
      simp only [Sub.handle] at hst
      split at hst <;> subst hst
      · rename_i hlt
        refine ⟨[(n, due)], ?_, by simpa using he, fun _ => by simpa using hd⟩
        simp only [HoldsDue]
        have : s.loop + (due - s.wall) = due := by omega
        rw [this]
      · rename_i hlt
        have : s.loop = due := by omega
        refine ⟨[], rfl, ?_, fun _ x hx => hd x (List.mem_cons_of_mem _ (by simpa [Sub.call] using hx))⟩
        simpa [Sub.call, this] using he
    case wake =>
      simp only [OnTime]; rw [arrivals_other (by simp)]
      cases hw : b.worker <;> simp only [subStep, hw, reduceCtorEq, Option.ite_none_right_eq_some, Option.some.injEq] at hst
      rename_i n w
      obtain ⟨hle, rfl⟩ := hst
      rw [hw] at hh hd; change h = [(n, w)] at hh; subst hh
      have hd := hd rfl
      have hdue := hd (n, w) (by simp)
      dsimp only at hdue
      have : s.loop = w := by omega
      refine ⟨[], rfl, by simpa [Sub.call, this] using he, fun _ x hx => hd x ?_⟩
      exact List.mem_append_right _ (by simpa [Sub.call] using hx)
    case ret =>
      simp only [OnTime]; rw [arrivals_other (by simp)]
      cases hw : b.worker <;> simp only [subStep, hw, reduceCtorEq, Option.some.injEq] at hst
      subst hst
      rw [hw] at hh hd; refine ⟨h, ?_, he, fun _ => hd rfl⟩
      cases s.cancelled <;> exact hh
    case raise =>
      simp only [OnTime]; rw [arrivals_other (by simp)]
      cases hw : b.worker <;> simp only [subStep, hw, reduceCtorEq, Option.some.injEq] at hst
      subst hst
      rw [hw] at hh; change h = [] at hh; subst hh
      exact ⟨[], by simp [HoldsDue], he, by simp [Worker.live]⟩
    case dispose =>
      simp [subStep] at hst; subst hst
      simp only [OnTime]; rw [arrivals_other (by simp)]; exact ⟨h, hh, he, hd⟩
    case kill =>
      simp only [subStep, Option.ite_none_right_eq_some, Option.some.injEq] at hst
      obtain ⟨_, rfl⟩ := hst
      simp only [OnTime]; rw [arrivals_other (by simp)]
      refine ⟨h, ?_, he, by simp [Worker.live]⟩
      cases hw : b.worker <;> rw [hw] at hh <;> simp only [HoldsDue] at hh ⊢ <;> simp [hh]

/-- Only a disposal sets the token, and nothing clears it. -/
theorem cancelled_iff {seconds : Nat} {ls : List (Label α)} {s : State α} (h : LTS.run (step seconds) init ls = some s) :
    s.cancelled = false ↔ Undisposed ls := by
  refine LTS.inv_hist (fun ls (s : State α) => s.cancelled = false ↔ Undisposed ls) (s0 := init)
    (by simp [init, Undisposed]) ?_ h
  intro ls s l s' hI hs
  have hsn : Undisposed (ls ++ [l]) ↔ Undisposed ls ∧ l.isDispose = false := by
    simp only [Undisposed, List.mem_append, List.mem_singleton, not_or]
    constructor
    · intro h; refine ⟨fun i => (h i).1, ?_⟩
      cases l <;> simp [Label.isDispose]
      rename_i i; exact (h i).2 rfl
    · rintro ⟨h1, h2⟩ i; refine ⟨h1 i, ?_⟩
      rintro rfl; simp [Label.isDispose] at h2
  rw [hsn, ← hI]
  rcases step_cases hs with ⟨rfl, rfl⟩ | ⟨dw, dl, rfl, rfl⟩ | ⟨i, b, b', ht, _, _, rfl⟩
  · simp [Label.isDispose]
  · simp [Label.isDispose]
  · simp

/-- Without a disposal and without an exception the worker goes on. -/
theorem live_of {seconds : Nat} {ls : List (Label α)} {s : State α} (h : LTS.run (step seconds) init ls = some s)
    (hu : Undisposed ls) : ∀ (i : Nat) (b : Sub α), s.subs[i]? = some b → Unraised i ls → b.worker.live = true := by
  intro i b hb hur
  refine sub_inv (seconds := seconds) (fun ls i s b => Undisposed ls → Unraised i ls → b.worker.live = true)
    ?_ ?_ ?_ h i b hb hu hur
  · intros; rfl
  · intro ls i s b l s' _ _ _ _ hI hu hr
    exact hI (fun i hm => hu i (by simp [hm])) (fun hm => hr (by simp [hm]))
  · intro ls i s b l b' hrun _ ht hst hI hu hr
    have hu' : Undisposed ls := fun i hm => hu i (by simp [hm])
    have hlive := hI hu' (fun hm => hr (by simp [hm]))
    have hc := (cancelled_iff hrun).mpr hu'
    cases l <;> simp only [Label.target, Option.some.injEq, reduceCtorEq] at ht <;> subst ht
    case event n => simp [subStep] at hst; subst hst; exact hlive
    case start =>
      cases hw : b.worker <;> simp only [subStep, hw, reduceCtorEq, Option.some.injEq] at hst
      subst hst; simp [loopHead, hc, Worker.live]
    case receive =>
      cases hw : b.worker <;> cases hq : b.queue <;> simp only [subStep, hw, hq, reduceCtorEq, Option.some.injEq] at hst
      simp only [Sub.handle] at hst
      split at hst <;> subst hst <;> rfl
    case wake =>
      cases hw : b.worker <;> simp only [subStep, hw, reduceCtorEq, Option.ite_none_right_eq_some, Option.some.injEq] at hst
      obtain ⟨_, rfl⟩ := hst; rfl
    case ret =>
      cases hw : b.worker <;> simp only [subStep, hw, reduceCtorEq, Option.some.injEq] at hst
      subst hst; simp [loopHead, hc, Worker.live]
    case raise => exact absurd (by simp) hr
    case dispose => exact (hu _ (List.mem_append_right _ (List.mem_singleton.mpr rfl))).elim
    case kill => simp [subStep, hc] at hst

/-- How many calls a subscription can still make once the token is cancelled. -/
def Worker.more : Worker α → Nat
  | .receiving => 1
  | .sleeping _ _ => 1
  | _ => 0

theorem subStep_more {seconds : Nat} {s : State α} {b b' : Sub α} {l : Label α} (hc : s.cancelled = true)
    (h : subStep seconds s b l = some b') :
    b'.delivered.length + b'.worker.more ≤ b.delivered.length + b.worker.more := by
  cases l
  case event i n => simp [subStep] at h; subst h; exact Nat.le_refl _
  case start i =>
    cases hw : b.worker <;> simp only [subStep, hw, reduceCtorEq, Option.some.injEq] at h
    subst h; simp [loopHead, hc, Worker.more]
  case receive i =>
    cases hw : b.worker <;> cases hq : b.queue <;> simp only [subStep, hw, hq, reduceCtorEq, Option.some.injEq] at h
    simp only [Sub.handle] at h
    split at h <;> subst h <;> simp [Worker.more, Sub.call]
  case wake i =>
    cases hw : b.worker <;> simp only [subStep, hw, reduceCtorEq, Option.ite_none_right_eq_some, Option.some.injEq] at h
    obtain ⟨_, rfl⟩ := h; simp [Worker.more, Sub.call]
  case ret i =>
    cases hw : b.worker <;> simp only [subStep, hw, reduceCtorEq, Option.some.injEq] at h
    subst h; simp [loopHead, hc, Worker.more]
  case raise i =>
    cases hw : b.worker <;> simp only [subStep, hw, reduceCtorEq, Option.some.injEq] at h
    subst h; simp [Worker.more]
  case dispose i => simp [subStep] at h; subst h; exact Nat.le_refl _
  case kill i =>
    simp only [subStep, Option.ite_none_right_eq_some, Option.some.injEq] at h
    obtain ⟨_, rfl⟩ := h; simp [Worker.more]
  all_goals simp [subStep] at h

theorem more_le (w : Worker α) : w.more ≤ 1 := by cases w <;> simp [Worker.more]

/-- Once the token is cancelled, every subscription makes at most one more call, and a new one none. -/
theorem run_cancelled {seconds : Nat} {ls : List (Label α)} {s0 s : State α} (hc : s0.cancelled = true)
    (h : LTS.run (step seconds) s0 ls = some s) :
    s.cancelled = true ∧ s0.subs.length ≤ s.subs.length ∧
    (∀ (i : Nat) (b0 b : Sub α), s0.subs[i]? = some b0 → s.subs[i]? = some b →
      b.delivered.length + b.worker.more ≤ b0.delivered.length + b0.worker.more) ∧
    (∀ (i : Nat) (b : Sub α), s0.subs.length ≤ i → s.subs[i]? = some b →
      b.delivered.length + b.worker.more = 0) := by
  refine LTS.inv (fun s => s.cancelled = true ∧ s0.subs.length ≤ s.subs.length ∧
    (∀ (i : Nat) (b0 b : Sub α), s0.subs[i]? = some b0 → s.subs[i]? = some b →
      b.delivered.length + b.worker.more ≤ b0.delivered.length + b0.worker.more) ∧
    (∀ (i : Nat) (b : Sub α), s0.subs.length ≤ i → s.subs[i]? = some b →
      b.delivered.length + b.worker.more = 0)) (s0 := s0) ?_ ?_ h
  · refine ⟨hc, Nat.le_refl _, ?_, ?_⟩
    · intro i b0 b h1 h2; rw [h1] at h2; cases h2; exact Nat.le_refl _
    · intro i b hi hb; have := (List.getElem?_eq_some_iff.mp hb).1; omega
  · rintro s l s' ⟨hc, hlen, hold, hnew⟩ hs
    rcases step_cases hs with ⟨rfl, rfl⟩ | ⟨dw, dl, rfl, rfl⟩ | ⟨j, c, c', _, hj, hst, rfl⟩
    · refine ⟨hc, by simp; omega, ?_, ?_⟩
      · intro i b0 b h1 h2
        rcases get_push.mp h2 with h2 | ⟨rfl, rfl⟩
        · exact hold i b0 b h1 h2
        · have := (List.getElem?_eq_some_iff.mp h1).1; omega
      · intro i b hi hb
        rcases get_push.mp hb with hb | ⟨rfl, rfl⟩
        · exact hnew i b hi hb
        · rfl
    · exact ⟨hc, hlen, hold, hnew⟩
    · have hjl := (List.getElem?_eq_some_iff.mp hj).1
      refine ⟨by simp [hc], by simpa using hlen, ?_, ?_⟩
      · intro i b0 b h1 h2
        rcases (get_set hjl).mp h2 with ⟨rfl, rfl⟩ | ⟨_, h2⟩
        · exact Nat.le_trans (subStep_more hc hst) (hold i b0 c h1 hj)
        · exact hold i b0 b h1 h2
      · intro i b hi hb
        rcases (get_set hjl).mp hb with ⟨rfl, rfl⟩ | ⟨_, hb⟩
        · have := subStep_more hc hst; have := hnew i c hi hj; omega
        · exact hnew i b hi hb

/-- The labels of the worker of subscription `i`, its observer returning, and time passing. -/
def Label.isWork (i : Nat) : Label α → Bool
  | .start j | .receive j | .wake j | .ret j => i == j
  | .tick dw dl => dw == dl
  | _ => false

theorem get_upd {s : State α} {i : Nat} {b b' : Sub α} (hb : s.subs[i]? = some b) :
    (s.upd i b').subs[i]? = some b' := by
  simp [State.upd, (List.getElem?_eq_some_iff.mp hb).1]

/-- A worker that waits for messages can deliver all that is in its mailbox. -/
theorem drain_receiving {seconds : Nat} {i : Nat} : ∀ {q : List (Notif α × Nat)} {s : State α} {b : Sub α},
    s.subs[i]? = some b → s.cancelled = false → b.worker = .receiving → b.queue = q →
    ∃ (ls : List (Label α)) (s' : State α) (b' : Sub α), (∀ l ∈ ls, l.isWork i = true) ∧ LTS.run (step seconds) s ls = some s' ∧ s'.subs[i]? = some b' ∧
      b'.delivered.map Prod.fst = b.delivered.map Prod.fst ++ q.map Prod.fst ∧ b'.worker = .receiving ∧ b'.queue = [] := by
  intro q
  induction q with
  | nil =>
    intro s b hb hc hw hq
    exact ⟨[], s, b, by simp, rfl, hb, by simp, hw, hq⟩
  | cons p q ih =>
    intro s b hb hc hw hq
    obtain ⟨n, due⟩ := p
    by_cases hd : due > s.wall
    · let b1 : Sub α := { b with queue := q, worker := .sleeping n (s.loop + (due - s.wall)) }
      let s1 : State α := s.upd i b1
      let d := due - s.wall
      let s2 : State α := { s1 with wall := s1.wall + d, loop := s1.loop + d }
      let b3 : Sub α := b1.call s2.loop n
      let s3 : State α := s2.upd i b3
      let b4 : Sub α := { b3 with worker := .receiving }
      let s4 : State α := s3.upd i b4
      have g1 : s1.subs[i]? = some b1 := get_upd hb
      have g2 : s2.subs[i]? = some b1 := g1
      have g3 : s3.subs[i]? = some b3 := get_upd g2
      have g4 : s4.subs[i]? = some b4 := get_upd g3
      have e1 : step seconds s (.receive i) = some s1 := by
        simp only [step, hb, subStep, hw, hq, Sub.handle, hd, if_true]; rfl
      have e2 : step seconds s1 (.tick d d) = some s2 := rfl
      have e3 : step seconds s2 (.wake i) = some s3 := by
        have : s.loop + (due - s.wall) ≤ s2.loop := Nat.le_refl _
        simp only [step, g2, subStep, b1, this, if_true]; rfl
      have e4 : step seconds s3 (.ret i) = some s4 := by
        have hc3 : s3.cancelled = false := hc
        simp only [step, g3, subStep, b3, Sub.call, hc3]; rfl
      obtain ⟨ls, s', b', h1, h2, h3, h4, h5, h6⟩ := ih g4 hc rfl rfl
      refine ⟨.receive i :: .tick d d :: .wake i :: .ret i :: ls, s', b', ?_, ?_, h3, ?_, h5, h6⟩
      · intro l hl; simp at hl
        rcases hl with rfl | rfl | rfl | rfl | hl
        · simp [Label.isWork]
        · simp [Label.isWork]
        · simp [Label.isWork]
        · simp [Label.isWork]
        · exact h1 l hl
      · simp only [LTS.run, e1, e2, e3, e4, Option.bind_some, h2]
      · rw [h4]; simp [b4, b3, b1, Sub.call]
    · let b3 : Sub α := Sub.call { b with queue := q } s.loop n
      let s3 : State α := s.upd i b3
      let b4 : Sub α := { b3 with worker := .receiving }
      let s4 : State α := s3.upd i b4
      have g3 : s3.subs[i]? = some b3 := get_upd hb
      have g4 : s4.subs[i]? = some b4 := get_upd g3
      have e1 : step seconds s (.receive i) = some s3 := by
        simp only [step, hb, subStep, hw, hq, Sub.handle, hd, if_false]; rfl
      have e4 : step seconds s3 (.ret i) = some s4 := by
        have hc3 : s3.cancelled = false := hc
        simp only [step, g3, subStep, b3, Sub.call, hc3]; rfl
      obtain ⟨ls, s', b', h1, h2, h3, h4, h5, h6⟩ := ih g4 hc rfl rfl
      refine ⟨.receive i :: .ret i :: ls, s', b', ?_, ?_, h3, ?_, h5, h6⟩
      · intro l hl; simp at hl
        rcases hl with rfl | rfl | hl
        · simp [Label.isWork]
        · simp [Label.isWork]
        · exact h1 l hl
      · simp only [LTS.run, e1, e4, Option.bind_some, h2]
      · rw [h4]; simp [b4, b3, Sub.call]

theorem drain {seconds : Nat} {i : Nat} {s : State α} {b : Sub α}
    (hb : s.subs[i]? = some b) (hc : s.cancelled = false) (hl : b.worker.live = true) :
    ∃ (ls : List (Label α)) (s' : State α) (b' : Sub α), (∀ l ∈ ls, l.isWork i = true) ∧ LTS.run (step seconds) s ls = some s' ∧ s'.subs[i]? = some b' ∧
      b'.worker = .receiving ∧ b'.queue = [] := by
  have key : ∀ {s s1 : State α} {b1 : Sub α} {pre : List (Label α)}, (∀ l ∈ pre, l.isWork i = true) →
      LTS.run (step seconds) s pre = some s1 → s1.subs[i]? = some b1 → s1.cancelled = false → b1.worker = .receiving →
      ∃ (ls : List (Label α)) (s' : State α) (b' : Sub α), (∀ l ∈ ls, l.isWork i = true) ∧ LTS.run (step seconds) s ls = some s' ∧ s'.subs[i]? = some b' ∧
        b'.worker = .receiving ∧ b'.queue = [] := by
    intro s s1 b1 pre hpre hrun hb1 hc1 hw1
    obtain ⟨ls, s', b', h1, h2, h3, _, h5, h6⟩ := drain_receiving (seconds := seconds) hb1 hc1 hw1 rfl
    refine ⟨pre ++ ls, s', b', ?_, LTS.run_append.mpr ⟨s1, hrun, h2⟩, h3, h5, h6⟩
    intro l hl; rcases List.mem_append.mp hl with hl | hl
    · exact hpre l hl
    · exact h1 l hl
  cases hw : b.worker with
  | fresh =>
    let b1 : Sub α := { b with worker := .receiving }
    have e : step seconds s (.start i) = some (s.upd i b1) := by
      simp only [step, hb, subStep, hw, hc]; rfl
    exact key (pre := [.start i]) (by simp [Label.isWork]) (by simp [LTS.run, e]; rfl) (get_upd hb) hc rfl
  | receiving => exact key (pre := []) (by simp) rfl hb hc hw
  | sleeping n w =>
    let d := w - s.loop
    let s2 : State α := { s with wall := s.wall + d, loop := s.loop + d }
    let b3 : Sub α := b.call s2.loop n
    let s3 : State α := s2.upd i b3
    let b4 : Sub α := { b3 with worker := .receiving }
    let s4 : State α := s3.upd i b4
    have g2 : s2.subs[i]? = some b := hb
    have g3 : s3.subs[i]? = some b3 := get_upd g2
    have g4 : s4.subs[i]? = some b4 := get_upd g3
    have e2 : step seconds s (.tick d d) = some s2 := rfl
    have e3 : step seconds s2 (.wake i) = some s3 := by
      have : w ≤ s2.loop := by simp only [s2, d]; omega
      simp only [step, g2, subStep, hw, this, if_true]; rfl
    have e4 : step seconds s3 (.ret i) = some s4 := by
      have hc3 : s3.cancelled = false := hc
      simp only [step, g3, subStep, b3, Sub.call, hc3]; rfl
    refine key (pre := [.tick d d, .wake i, .ret i]) ?_ ?_ g4 hc rfl
    · intro l hl; simp at hl; rcases hl with rfl | rfl | rfl <;> simp [Label.isWork]
    · simp only [LTS.run, e2, e3, e4, Option.bind_some]
  | calling n =>
    let b1 : Sub α := { b with worker := .receiving }
    have e : step seconds s (.ret i) = some (s.upd i b1) := by
      simp only [step, hb, subStep, hw, hc]; rfl
    exact key (pre := [.ret i]) (by simp [Label.isWork]) (by simp [LTS.run, e]; rfl) (get_upd hb) hc rfl
  | finished => rw [hw] at hl; cases hl
  | dead => rw [hw] at hl; cases hl

/-- The label belongs to subscription `i` or to none. -/
def Label.keeps (i : Nat) (l : Label α) : Bool :=
  match l.target with
  | none => true
  | some j => j == i

theorem step_sub {seconds : Nat} {s : State α} {l : Label α} {i : Nat} {b b' : Sub α} (ht : l.target = some i)
    (hb : s.subs[i]? = some b) (h : subStep seconds s b l = some b') :
    step seconds s l = some { s with cancelled := s.cancelled || l.isDispose, subs := s.subs.set i b' } := by
  cases l <;> simp only [Label.target, Option.some.injEq, reduceCtorEq] at ht <;> subst ht <;>
    simp [step, hb, h, State.upd, Label.isDispose]

theorem subStep_ext {seconds : Nat} {s s1 : State α} {b : Sub α} {l : Label α} (h1 : s1.wall = s.wall)
    (h2 : s1.loop = s.loop) (h3 : s1.cancelled = s.cancelled) : subStep seconds s1 b l = subStep seconds s b l := by
  cases l <;> simp [subStep, h1, h2, h3]

/-- Without a disposal a subscription behaves as if the others were left alone. -/
theorem isolated {seconds : Nat} {ls : List (Label α)} {s : State α} (i : Nat) (h : LTS.run (step seconds) init ls = some s)
    (hu : Undisposed ls) :
    ∃ s1, LTS.run (step seconds) init (ls.filter (Label.keeps i)) = some s1 ∧ s1.wall = s.wall ∧ s1.loop = s.loop ∧
      s1.cancelled = s.cancelled ∧ s1.subs.length = s.subs.length ∧ s1.subs[i]? = s.subs[i]? := by
  refine LTS.inv_reach (fun ls (s : State α) => Undisposed ls → ∃ s1, LTS.run (step seconds) init (ls.filter (Label.keeps i)) = some s1 ∧ s1.wall = s.wall ∧ s1.loop = s.loop ∧
      s1.cancelled = s.cancelled ∧ s1.subs.length = s.subs.length ∧ s1.subs[i]? = s.subs[i]?) (s0 := init)
      (fun _ => ⟨init, rfl, rfl, rfl, rfl, rfl, rfl⟩) ?_ h hu
  intro ls s l s' hr hI hs hu
  have hu' : Undisposed ls := fun i hm => hu i (by simp [hm])
  obtain ⟨s1, h1, h2, h3, h4, h5, h6⟩ := hI hu'
  rw [List.filter_append]
  rcases step_cases hs with ⟨rfl, rfl⟩ | ⟨dw, dl, rfl, rfl⟩ | ⟨j, b, b', ht, hb, hst, rfl⟩
  · refine ⟨{ s1 with subs := s1.subs ++ [⟨[], .fresh, [], 0⟩] }, LTS.run_append.mpr ⟨s1, h1, rfl⟩, h2, h3, h4, by simp [h5], ?_⟩
    simp only [List.getElem?_append, h5, h6]
  · exact ⟨{ s1 with wall := s1.wall + dw, loop := s1.loop + dl }, LTS.run_append.mpr ⟨s1, h1, rfl⟩, by simp [h2], by simp [h3], h4, h5, h6⟩
  · have hnd : l.isDispose = false := by
      cases l <;> simp [Label.isDispose]
      rename_i k; exact hu k (by simp)
    by_cases hji : j = i
    · subst hji
      have hk : Label.keeps j l = true := by simp [Label.keeps, ht]
      rw [← h6] at hb
      rw [← subStep_ext h2 h3 h4] at hst
      have hs1 := step_sub ht hb hst
      refine ⟨{ s1 with cancelled := s1.cancelled || l.isDispose, subs := s1.subs.set j b' },
        LTS.run_append.mpr ⟨s1, h1, by simp only [List.filter, hk, LTS.run, hs1]; rfl⟩, h2, h3, by simp [h4], by simp [h5], ?_⟩
      simp [List.getElem?_set, h5]
    · have hk : Label.keeps i l = false := by simp [Label.keeps, ht, hji]
      refine ⟨s1, ?_, h2, h3, by simp [h4, hnd], by simp [h5], ?_⟩
      · simp [List.filter, hk, h1]
      · rw [h6, List.getElem?_set_ne hji]

end Aio.Delay
