import Verif.Model.Work
import Verif.Spec.Queue
import Verif.Lemmas.Clocked
/-!
# Lemmas about `Model/Work.lean`
-/

namespace Aio
variable {α β γ A B σ : Type}

namespace Co

/-- What a coroutine does that begins at time `t`: its calls, when it ends and how. -/
def run : Co β A → Nat → List (Notif β × Nat) × Nat × Except Err A
  | .done a, t => ([], t, .ok a)
  | .raise e, t => ([], t, .error e)
  | .wait d k, t => k.run (t + d)
  | .call n k, t => ((n, t) :: (k.run t).1, (k.run t).2)

theorem run_ge (c : Co β A) : ∀ t, t ≤ (c.run t).2.1 ∧ ∀ x ∈ (c.run t).1, t ≤ x.2 := by
  induction c with
  | done a => intro t; exact ⟨Nat.le_refl _, fun _ h => (by cases h)⟩
  | raise e => intro t; exact ⟨Nat.le_refl _, fun _ h => (by cases h)⟩
  | wait d k ih =>
    intro t
    obtain ⟨h1, h2⟩ := ih (t + d)
    exact ⟨by simp only [run]; omega, fun x hx => Nat.le_trans (Nat.le_add_right ..) (h2 x hx)⟩
  | call n k ih =>
    intro t
    obtain ⟨h1, h2⟩ := ih t
    refine ⟨h1, fun x hx => ?_⟩
    rcases List.mem_cons.mp hx with rfl | hx
    · exact Nat.le_refl _
    · exact h2 x hx

theorem run_bind (c : Co β A) (f : A → Co β B) : ∀ t, (c.bind f).run t =
    match (c.run t).2.2 with
    | .ok a => ((c.run t).1 ++ ((f a).run (c.run t).2.1).1, ((f a).run (c.run t).2.1).2)
    | .error e => ((c.run t).1, (c.run t).2.1, .error e) := by
  induction c with
  | done a => intro t; simp [bind, run]
  | raise e => intro t; simp [bind, run]
  | wait d k ih => intro t; simp only [bind, run]; exact ih (t + d)
  | call n k ih =>
    intro t
    simp only [bind, run, ih t]
    cases h : (k.run t).2.2 <;> simp

theorem run_attempt (c : Co β A) (f : A → Co β B) (h : Err → Co β B) : ∀ t, (c.attempt f h).run t =
    match (c.run t).2.2 with
    | .ok a => ((c.run t).1 ++ ((f a).run (c.run t).2.1).1, ((f a).run (c.run t).2.1).2)
    | .error e => if e = .cancelled then ((c.run t).1, (c.run t).2.1, .error e)
      else ((c.run t).1 ++ ((h e).run (c.run t).2.1).1, ((h e).run (c.run t).2.1).2) := by
  induction c with
  | done a => intro t; simp [attempt, run]
  | raise e => intro t; simp only [attempt, run]; split <;> simp [run]
  | wait d k ih => intro t; simp only [attempt, run]; exact ih (t + d)
  | call n k ih =>
    intro t
    simp only [attempt, run, ih t]
    cases h : (k.run t).2.2 with
    | ok a => simp
    | error e => dsimp only; split <;> simp

theorem run_work (w : Nat × Except Err A) (t : Nat) : (work w : Co β A).run t = ([], t + w.1, w.2) := by
  obtain ⟨d, r⟩ := w
  cases r <;> rfl

end Co

namespace Work
variable {o : Handler σ α β} {gone : Nat}

/-- What the worker does from time `t` on if it is at `k` and the messages `cs` follow. -/
def serve (o : Handler σ α β) (gone : Nat) : σ → Nat → List (Notif α × Nat) → List (Notif β × Nat)
  | _, _, [] => []
  | s, free, (n, a) :: cs =>
    ((body o gone s n).run (max a free)).1 ++
      match ((body o gone s n).run (max a free)).2.2 with
      | .ok (some t) => serve o gone t ((body o gone s n).run (max a free)).2.1 cs
      | _ => []

def cont (o : Handler σ α β) (gone : Nat) (k : Co β (Option σ)) (t : Nat) (cs : List (Notif α × Nat)) : List (Notif β × Nat) :=
  (k.run t).1 ++
    match (k.run t).2.2 with
    | .ok (some s) => serve o gone s (k.run t).2.1 cs
    | _ => []

theorem serve_cons (s : σ) (free : Nat) (n : Notif α) (a : Nat) (cs : List (Notif α × Nat)) :
    serve o gone s free ((n, a) :: cs) = cont o gone (body o gone s n) (max a free) cs := by
  rw [serve, cont]

def arrivals : Nat → List (Label α) → List (Notif α × Nat)
  | _, [] => []
  | t, .tick d :: ls => arrivals (t + d) ls
  | t, .event n :: ls => (n, t) :: arrivals t ls
  | t, _ :: ls => arrivals t ls

def clock : List (Label α) → Nat
  | [] => 0
  | .tick d :: ls => d + clock ls
  | _ :: ls => clock ls

theorem clock_append (a b : List (Label α)) : clock (a ++ b) = clock a + clock b := by
  induction a with
  | nil => simp [clock]
  | cons l a ih => cases l <;> simp [clock, ih] <;> omega

theorem arrivals_append (a b : List (Label α)) (t : Nat) : arrivals t (a ++ b) = arrivals t a ++ arrivals (t + clock a) b := by
  induction a generalizing t with
  | nil => simp [arrivals, clock]
  | cons l a ih => cases l <;> simp [arrivals, clock, ih, Nat.add_assoc]

theorem stage_reads {s0 : σ} : (stage o s0 gone).Reads arrivals clock := by
  refine ⟨fun t => ⟨rfl, rfl⟩, fun t ms n => ⟨?_, ?_⟩, fun t ms d => ⟨?_, ?_⟩, fun t ms l hl => ?_⟩
  · rw [arrivals_append]; rfl
  · rw [clock_append]; rfl
  · rw [arrivals_append]; exact List.append_nil _
  · rw [clock_append]; rfl
  · rw [arrivals_append, clock_append]
    cases l with
    | event n => cases hl
    | tick d => cases hl
    | _ => exact ⟨List.append_nil _, rfl⟩

/-- What remains to be done. -/
def left (o : Handler σ α β) (gone : Nat) (s : State α β σ) (free : Nat) (rest : List (Notif α × Nat)) : List (Notif β × Nat) :=
  match s.pc with
  | .waiting t => serve o gone t free rest
  | .running k => cont o gone k s.now rest
  | .asleep due k => cont o gone k due rest
  | .halted => []

/-- What holds after the calls `cs`. -/
structure Inv (o : Handler σ α β) (s0 : σ) (gone : Nat) (cs : List (Notif α × Nat)) (s : State α β σ) : Prop where
  told : ∃ free rest, s.inbox = rest.map (·.1) ∧ (∀ c ∈ rest, c.2 ≤ s.now) ∧
    (∀ more, serve o gone s0 0 (cs ++ more) = s.sent ++ left o gone s free (rest ++ more)) ∧
    (∀ t, s.pc = .waiting t → free ≤ s.now ∧ ∀ c ∈ rest.head?, max c.2 free = s.now)
  due : ∀ due k, s.pc = .asleep due k → s.now ≤ due

theorem inv_step {s0 : σ} {cs : List (Notif α × Nat)} {s t : State α β σ} (hi : Inv o s0 gone cs s) {l : Label α} (h : step o gone s l = some t) :
    Inv o s0 gone (cs ++ arrivals s.now [l]) t ∧ t.now = s.now + clock [l] := by
  obtain ⟨⟨free, rest, hbox, hpast, htold, hwait⟩, hdue⟩ := hi
  cases l with
  | event n =>
    simp only [step, Option.some.injEq] at h
    subst h
    refine ⟨⟨⟨free, rest ++ [(n, s.now)], by simp [hbox], ?_, ?_, ?_⟩, hdue⟩, rfl⟩
    · intro c hc
      rcases List.mem_append.mp hc with hc | hc
      · exact hpast c hc
      · simp at hc; subst hc; exact Nat.le_refl _
    · intro more
      have := htold ((n, s.now) :: more)
      simp only [arrivals, List.append_assoc, List.singleton_append]
      exact this
    · intro t hp
      obtain ⟨h1, h2⟩ := hwait t hp
      refine ⟨h1, ?_⟩
      cases rest with
      | nil => simp; omega
      | cons c rest => exact h2
  | tick d =>
    simp only [step] at h
    split at h
    · cases h
    · next hr =>
      cases h
      refine ⟨⟨⟨free, rest, hbox, fun c hc => Nat.le_trans (hpast c hc) (Nat.le_add_right ..), ?_, ?_⟩, ?_⟩, rfl⟩
      · intro more
        simp only [arrivals, List.append_nil]
        rw [htold more]
        simp only [left]
        split
        · rfl
        · next k hp => simp [ready, hp] at hr
        · rfl
        · rfl
      · intro t hp
        obtain ⟨h1, h2⟩ := hwait t hp
        dsimp only at hp
        have : rest = [] := by
          simp only [ready, hp, hbox] at hr
          simpa using hr
        subst this
        exact ⟨by dsimp only; omega, by simp⟩
      · intro due k hp
        dsimp only at hp ⊢
        simp only [ready, hp, decide_eq_true_eq] at hr
        omega
  | receive =>
    simp only [step] at h
    simp only [arrivals, List.append_nil, clock, Nat.add_zero]
    cases hp : s.pc with
    | waiting u =>
      obtain ⟨hf, hh⟩ := hwait u hp
      cases rest with
      | nil => rw [hp, hbox] at h; cases h
      | cons c rest =>
        obtain ⟨n, a⟩ := c
        have ha : max a free = s.now := hh (n, a) rfl
        rw [hp, hbox] at h
        simp only [left, hp] at htold
        cases h
        refine ⟨⟨⟨0, rest, rfl, fun c hc => hpast c (by simp [hc]), ?_, nofun⟩, nofun⟩, rfl⟩
        intro more
        rw [htold more, List.cons_append, serve_cons, ha]
        rfl
    | _ => rw [hp] at h; cases h
  | go =>
    simp only [step] at h
    simp only [arrivals, List.append_nil, clock, Nat.add_zero]
    cases hp : s.pc with
    | running k =>
      rw [hp] at h
      simp only [left, hp] at htold
      cases k with
      | done r =>
        cases r with
        | none =>
          cases h
          refine ⟨⟨⟨0, rest, hbox, hpast, ?_, nofun⟩, nofun⟩, rfl⟩
          intro more
          rw [htold more]
          rfl
        | some u =>
          cases h
          refine ⟨⟨⟨s.now, rest, hbox, hpast, ?_, ?_⟩, nofun⟩, rfl⟩
          · intro more
            rw [htold more]
            simp [left, cont, Co.run]
          · intro t _
            refine ⟨Nat.le_refl _, fun c hc => ?_⟩
            have := hpast c (List.mem_of_mem_head? hc)
            dsimp only
            omega
      | raise e =>
        cases h
        refine ⟨⟨⟨0, rest, hbox, hpast, ?_, nofun⟩, nofun⟩, rfl⟩
        intro more
        rw [htold more]
        rfl
      | wait d k =>
        cases h
        refine ⟨⟨⟨0, rest, hbox, hpast, ?_, nofun⟩, ?_⟩, rfl⟩
        · intro more
          rw [htold more]
          rfl
        · intro due k' hk
          cases hk
          exact Nat.le_add_right ..
      | call n k =>
        cases h
        refine ⟨⟨⟨0, rest, hbox, hpast, ?_, nofun⟩, nofun⟩, rfl⟩
        intro more
        rw [htold more]
        simp [left, cont, Co.run]
    | _ => rw [hp] at h; cases h
  | wake =>
    simp only [step] at h
    simp only [arrivals, List.append_nil, clock, Nat.add_zero]
    cases hp : s.pc with
    | asleep due k =>
      rw [hp] at h
      simp only [left, hp] at htold
      dsimp only at h
      split at h
      · next hd =>
        have := hdue due k hp
        have he : due = s.now := by omega
        subst he
        cases h
        refine ⟨⟨⟨0, rest, hbox, hpast, htold, nofun⟩, nofun⟩, rfl⟩
      · cases h
    | _ => rw [hp] at h; cases h

theorem inv_run {s0 : σ} {t0 : Nat} {ls : List (Label α)} {s : State α β σ} (hr : LTS.run (step o gone) ((stage o s0 gone).init t0) ls = some s) :
    Inv o s0 gone (arrivals t0 ls) s ∧ s.now = t0 + clock ls := by
  refine LTS.inv_hist (step := step o gone) (fun ls s => Inv o s0 gone (arrivals t0 ls) s ∧ s.now = t0 + clock ls) (s0 := (stage o s0 gone).init t0) ?_ ?_ hr
  · refine ⟨⟨⟨0, [], rfl, fun _ h => (by cases h), fun _ => rfl, fun _ _ => ⟨Nat.zero_le _, fun _ h => (by cases h)⟩⟩, nofun⟩, rfl⟩
  · intro ls s l t ⟨h1, h2⟩ h
    obtain ⟨h3, h4⟩ := inv_step h1 h
    rw [arrivals_append, clock_append, ← h2]
    exact ⟨h3, by omega⟩

theorem serve_late {t : Nat} {cs : List (Notif α × Nat)} : ∀ {s : σ} {free : Nat}, (t ≤ free ∨ ∀ c ∈ cs.head?, t ≤ max c.2 free) → ∀ c ∈ serve o gone s free cs, t ≤ c.2 := by
  induction cs with
  | nil => intro s free h; exact fun _ h => (by cases h)
  | cons c cs ih =>
    intro s free h
    obtain ⟨n, a⟩ := c
    have h0 : t ≤ max a free := by
      rcases h with h | h
      · omega
      · exact h (n, a) rfl
    intro c hc
    obtain ⟨g1, g2⟩ := (body o gone s n).run_ge (max a free)
    rw [serve] at hc
    rcases List.mem_append.mp hc with hc | hc
    · exact Nat.le_trans h0 (g2 c hc)
    · split at hc
      · exact ih (.inl (Nat.le_trans h0 g1)) c hc
      · cases hc

theorem cont_late {k : Co β (Option σ)} {t : Nat} {cs : List (Notif α × Nat)} : ∀ c ∈ cont o gone k t cs, t ≤ c.2 := by
  intro c hc
  obtain ⟨g1, g2⟩ := k.run_ge t
  rw [cont] at hc
  rcases List.mem_append.mp hc with hc | hc
  · exact g2 c hc
  · split at hc
    · exact serve_late (.inl g1) c hc
    · cases hc

/-- The calls so far are the beginning of those that `serve` tells of, and what remains is not due before now. -/
theorem told {s0 : σ} {t0 : Nat} {ls : List (Label α)} {s : State α β σ} (hr : LTS.run (step o gone) ((stage o s0 gone).init t0) ls = some s) :
    ∃ r, serve o gone s0 0 (arrivals t0 ls) = s.sent ++ r ∧ ∀ c ∈ r, s.now ≤ c.2 := by
  obtain ⟨⟨⟨free, rest, -, -, htold, hwait⟩, hdue⟩, -⟩ := inv_run hr
  have := htold []
  rw [List.append_nil, List.append_nil] at this
  refine ⟨_, this, ?_⟩
  simp only [left]
  intro c hc
  split at hc
  · next t hp =>
    exact serve_late (.inr fun c hc => by rw [(hwait t hp).2 c hc]; exact Nat.le_refl _) c hc
  · exact cont_late c hc
  · next due k hp => exact Nat.le_trans (hdue due k hp) (cont_late c hc)
  · cases hc

end Work
end Aio
