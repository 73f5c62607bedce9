import Verif.Model.Busy
import Verif.Spec.Queue
import Verif.Lemmas.Clocked
import Verif.Lemmas.Jobs
/-!
# Lemmas about `Model/Busy.lean`
-/

namespace Aio.Busy
open Spec.Queue
variable {α : Type} {m : Nat → α → Nat × Option Err} {gone : Nat}

def arrivals : Nat → List (Label α) → List (Notif α × Nat)
  | _, [] => []
  | t, .tick d :: ls => arrivals (t + d) ls
  | t, .event n :: ls => (n, t) :: arrivals t ls
  | t, _ :: ls => arrivals t ls

def clock : List (Label α) → Nat
  | [] => 0
  | .tick d :: ls => d + clock ls
  | _ :: ls => clock ls

theorem clock_append (a b : List (Label α)) : clock (a ++ b) = clock a + clock b := by
  induction a with
  | nil => simp [clock]
  | cons l a ih => cases l <;> simp [clock, ih] <;> omega

theorem arrivals_append (a b : List (Label α)) (t : Nat) : arrivals t (a ++ b) = arrivals t a ++ arrivals (t + clock a) b := by
  induction a generalizing t with
  | nil => simp [arrivals, clock]
  | cons l a ih => cases l <;> simp [arrivals, clock, ih, Nat.add_assoc]

theorem stage_reads : (stage m gone).Reads arrivals clock := by
  refine ⟨fun t => ⟨rfl, rfl⟩, fun t ms n => ⟨?_, ?_⟩, fun t ms d => ⟨?_, ?_⟩, fun t ms l hl => ?_⟩
  · rw [arrivals_append]; rfl
  · rw [clock_append]; rfl
  · rw [arrivals_append]; exact List.append_nil _
  · rw [clock_append]; rfl
  · rw [arrivals_append, clock_append]
    cases l with
    | event n => cases hl
    | tick d => cases hl
    | _ => exact ⟨List.append_nil _, rfl⟩

theorem stage_lawful : (stage m gone).Lawful := by
  refine ⟨fun t => ⟨rfl, rfl⟩, ?_, ?_, ?_⟩
  · intro s n t h
    simp only [stage, step, Safe.step, Option.map_some, Option.some.injEq] at h
    subst h
    exact ⟨rfl, rfl⟩
  · intro s d t h
    simp only [stage, step] at h
    split at h
    · cases h
    · cases h
      exact ⟨rfl, rfl⟩
  · intro s l t hl h
    cases l with
    | event n => cases hl
    | tick d => cases hl
    | receive =>
      simp only [stage, step, Option.map_eq_some_iff] at h
      obtain ⟨u, -, rfl⟩ := h
      exact ⟨rfl, _, rfl⟩
    | ret =>
      simp only [stage, step] at h
      split at h
      · simp only [Option.map_eq_some_iff] at h
        obtain ⟨u, -, rfl⟩ := h
        exact ⟨rfl, _, rfl⟩
      · cases h

/-- What remains to be told after `i` calls. -/
def left (m : Nat → α → Nat × Option Err) (gone : Nat) (s : State α) (free : Nat) (rest : List (Notif α × Nat)) : List (Notif α × Nat) :=
  match s.safe.pc with
  | .waiting => serve m gone s.sent.length free rest
  | .sending v =>
    match (m (s.sent.length - 1) v).2 with
    | none => serve m gone s.sent.length s.due rest
    | some e => if e = .cancelled then [] else [(.error e, s.due)]
  | .disposing n => [(n, s.due)]
  | _ => []

/-- What holds after the calls `cs`. -/
structure Inv (m : Nat → α → Nat × Option Err) (gone : Nat) (cs : List (Notif α × Nat)) (s : State α) : Prop where
  log : s.sent.map (·.1) = Safe.calls s.safe.log
  told : ∃ free rest, s.safe.inbox = rest.map (·.1) ∧ (∀ c ∈ rest, c.2 ≤ s.now) ∧
    (∀ more, serve m gone 0 0 (cs ++ more) = s.sent ++ left m gone s free (rest ++ more)) ∧
    (s.safe.pc = .waiting → free ≤ s.now ∧ ∀ c ∈ rest.head?, max c.2 free = s.now)
  due : (s.safe.pc = .waiting ∨ s.safe.pc = .halted) ∨ s.now ≤ s.due
  some : ∀ v, s.safe.pc = .sending v → 0 < s.sent.length
  terminal : ∀ n, s.safe.pc = .disposing n → n.isTerminal = true

theorem inv_step {cs : List (Notif α × Nat)} {s t : State α} (hi : Inv m gone cs s) {l : Label α} (h : step m gone s l = some t) :
    Inv m gone (cs ++ arrivals s.now [l]) t ∧ t.now = s.now + clock [l] := by
  obtain ⟨hlog, ⟨free, rest, hbox, hpast, htold, hwait⟩, hdue, hsome, hterm⟩ := hi
  cases l with
  | event n =>
    simp only [step, Safe.step, Option.map_some, Option.some.injEq] at h
    subst h
    refine ⟨⟨hlog, ⟨free, rest ++ [(n, s.now)], by simp [hbox], ?_, ?_, ?_⟩, hdue, hsome, hterm⟩, rfl⟩
    · intro c hc
      rcases List.mem_append.mp hc with hc | hc
      · exact hpast c hc
      · simp at hc; subst hc; exact Nat.le_refl _
    · intro more
      have := htold ((n, s.now) :: more)
      simp only [arrivals, List.append_assoc, List.singleton_append]
      exact this
    · intro hp
      obtain ⟨h1, h2⟩ := hwait hp
      refine ⟨h1, ?_⟩
      cases rest with
      | nil => simp; omega
      | cons c rest => exact h2
  | tick d =>
    simp only [step] at h
    split at h
    · cases h
    · next hr =>
      cases h
      refine ⟨⟨hlog, ⟨free, rest, hbox, fun c hc => Nat.le_trans (hpast c hc) (Nat.le_add_right ..), ?_, ?_⟩, ?_, hsome, hterm⟩, rfl⟩
      · intro more
        simp only [arrivals, List.append_nil]
        exact htold more
      · intro hp
        obtain ⟨h1, h2⟩ := hwait hp
        dsimp only at hp
        have : rest = [] := by
          simp only [ready, hp, hbox] at hr
          simpa using hr
        subst this
        exact ⟨by dsimp only; omega, by simp⟩
      · simp only [ready] at hr
        dsimp only
        split at hr
        · next hp => exact .inl (.inl hp)
        · next hp => exact .inl (.inr hp)
        · right; simp at hr; omega
  | receive =>
    simp only [step, Option.map_eq_some_iff] at h
    obtain ⟨u, hu, rfl⟩ := h
    simp only [arrivals, List.append_nil, clock, Nat.add_zero]
    simp only [Safe.step] at hu
    cases hp : s.safe.pc with
    | waiting =>
      obtain ⟨hf, hh⟩ := hwait hp
      cases rest with
      | nil => rw [hp, hbox] at hu; cases hu
      | cons c rest =>
        obtain ⟨n, a⟩ := c
        have ha : max a free = s.now := hh (n, a) rfl
        rw [hp, hbox] at hu
        simp only [left, hp] at htold
        cases n with
        | next v =>
          cases hu
          refine ⟨⟨?_, ⟨0, rest, rfl, fun c hc => hpast c (by simp [hc]), ?_, nofun⟩, .inr ?_, ?_, nofun⟩, rfl⟩
          · simp [arrive, hlog, Safe.calls_append, Safe.calls]
          · intro more
            rw [htold more, List.cons_append, serve, ha]
            simp only [arrive, left, Safe.calls_append, Safe.calls, List.drop_left, List.map_cons, List.map_nil, List.append_assoc, List.singleton_append,
              List.length_append, List.length_singleton, Nat.add_sub_cancel]
            cases (m s.sent.length v).2 <;> rfl
          · simp [arrive]
          · intro v' _; simp [arrive, Safe.calls_append, Safe.calls]
        | error e =>
          cases hu
          refine ⟨⟨?_, ⟨0, rest, rfl, fun c hc => hpast c (by simp [hc]), ?_, nofun⟩, .inr ?_, nofun, ?_⟩, rfl⟩
          · simp [arrive, hlog, Safe.calls_append, Safe.calls]
          · intro more
            rw [htold more, List.cons_append, serve, ha]
            simp [arrive, left, Safe.calls_append, Safe.calls]
          · simp [arrive]
          · intro n hn; cases hn; rfl
        | completed =>
          cases hu
          refine ⟨⟨?_, ⟨0, rest, rfl, fun c hc => hpast c (by simp [hc]), ?_, nofun⟩, .inr ?_, nofun, ?_⟩, rfl⟩
          · simp [arrive, hlog, Safe.calls_append, Safe.calls]
          · intro more
            rw [htold more, List.cons_append, serve, ha]
            simp [arrive, left, Safe.calls_append, Safe.calls]
          · simp [arrive]
          · intro n hn; cases hn; rfl
    | _ => rw [hp] at hu; cases hu
  | ret =>
    simp only [step] at h
    split at h
    · next hd =>
      simp only [Option.map_eq_some_iff] at h
      obtain ⟨u, hu, rfl⟩ := h
      simp only [arrivals, List.append_nil, clock, Nat.add_zero]
      cases hp : s.safe.pc with
      | waiting => simp only [ending, hp, Safe.step] at hu; cases hu
      | halted => simp only [ending, hp, Safe.step] at hu; cases hu
      | sending v =>
        have hdn : s.due = s.now := by
          rcases hdue with hh | hh
          · rw [hp] at hh; rcases hh with hh | hh <;> cases hh
          · omega
        have hpos := hsome v hp
        simp only [left, hp] at htold
        simp only [ending, hp] at hu
        cases hm : (m (s.sent.length - 1) v).2 with
        | none =>
          rw [hm] at hu htold
          simp only [Safe.step, hp] at hu
          cases hu
          refine ⟨⟨?_, ⟨s.due, rest, hbox, hpast, ?_, fun _ => ⟨Nat.le_of_eq hdn, ?_⟩⟩, .inl (.inl rfl), nofun, nofun⟩, rfl⟩
          · simp [arrive, hlog, Safe.calls_append, Safe.calls]
          · intro more
            rw [htold more]
            simp [arrive, left, Safe.calls_append, Safe.calls]
          · intro c hc
            have := hpast c (List.mem_of_mem_head? hc)
            simp only [arrive]
            omega
        | some e =>
          rw [hm] at hu htold
          simp only [Safe.step, hp] at hu
          by_cases he : e = .cancelled
          · rw [if_pos he] at hu
            cases hu
            refine ⟨⟨?_, ⟨0, rest, hbox, hpast, ?_, nofun⟩, .inl (.inr rfl), nofun, nofun⟩, rfl⟩
            · simp [arrive, hlog, Safe.calls_append, Safe.calls]
            · intro more
              rw [htold more]
              simp [arrive, left, Safe.calls_append, Safe.calls, he]
          · rw [if_neg he] at hu
            cases hu
            refine ⟨⟨?_, ⟨0, rest, hbox, hpast, ?_, nofun⟩, .inr (Nat.le_refl _), nofun, nofun⟩, rfl⟩
            · simp [arrive, hlog, Safe.calls_append, Safe.calls]
            · intro more
              rw [htold more]
              simp [arrive, left, Safe.calls_append, Safe.calls, he, hdn]
      | rethrowing e =>
        simp only [left, hp] at htold
        simp only [ending, hp, Safe.step] at hu
        cases hu
        refine ⟨⟨?_, ⟨0, rest, hbox, hpast, ?_, nofun⟩, .inl (.inr rfl), nofun, nofun⟩, rfl⟩
        · simp [arrive, hlog, Safe.calls_append, Safe.calls]
        · intro more
          rw [htold more]
          simp [arrive, left, Safe.calls_append, Safe.calls]
      | terminating e =>
        simp only [left, hp] at htold
        simp only [ending, hp, Safe.step] at hu
        cases hu
        refine ⟨⟨?_, ⟨0, rest, hbox, hpast, ?_, nofun⟩, .inl (.inr rfl), nofun, nofun⟩, rfl⟩
        · simp [arrive, hlog, Safe.calls_append, Safe.calls]
        · intro more
          rw [htold more]
          simp [arrive, left, Safe.calls_append, Safe.calls]
      | disposing n =>
        have hdn : s.due = s.now := by
          rcases hdue with hh | hh
          · rw [hp] at hh; rcases hh with hh | hh <;> cases hh
          · omega
        simp only [left, hp] at htold
        simp only [ending, hp, Safe.step] at hu
        cases hu
        refine ⟨⟨?_, ⟨0, rest, hbox, hpast, ?_, nofun⟩, .inr (Nat.le_refl _), nofun, nofun⟩, rfl⟩
        · simp [arrive, hlog, Safe.calls_append, Safe.calls]
        · intro more
          rw [htold more]
          simp [arrive, left, Safe.calls_append, Safe.calls, hdn]
    · cases h

theorem inv_run {t0 : Nat} {ls : List (Label α)} {s : State α} (hr : LTS.run (step m gone) ((stage m gone).init t0) ls = some s) :
    Inv m gone (arrivals t0 ls) s ∧ s.now = t0 + clock ls := by
  refine LTS.inv_hist (step := step m gone) (fun ls s => Inv m gone (arrivals t0 ls) s ∧ s.now = t0 + clock ls) (s0 := (stage m gone).init t0) ?_ ?_ hr
  · exact ⟨⟨rfl, ⟨0, [], rfl, fun _ h => (by cases h), fun _ => rfl, fun _ => ⟨Nat.zero_le _, fun _ h => (by cases h)⟩⟩, .inl (.inl rfl), nofun, nofun⟩, rfl⟩
  · intro ls s l t ⟨h1, h2⟩ h
    obtain ⟨h3, h4⟩ := inv_step h1 h
    rw [arrivals_append, clock_append, ← h2]
    exact ⟨h3, by omega⟩

theorem serve_late {i free : Nat} {t : Nat} {cs : List (Notif α × Nat)} (h : t ≤ free ∨ ∀ c ∈ cs.head?, t ≤ max c.2 free) : ∀ c ∈ serve m gone i free cs, t ≤ c.2 := by
  induction cs generalizing i free with
  | nil => exact fun _ h => (by cases h)
  | cons c cs ih =>
    obtain ⟨n, a⟩ := c
    have h0 : t ≤ max a free := by
      rcases h with h | h
      · omega
      · exact h (n, a) rfl
    intro c hc
    cases n with
    | next v =>
      rw [serve] at hc
      rcases List.mem_cons.mp hc with rfl | hc
      · exact h0
      · split at hc
        · exact ih (.inl (by omega)) c hc
        · split at hc
          · cases hc
          · simp at hc; subst hc; dsimp only; omega
    | error e => simp [serve] at hc; subst hc; dsimp only; omega
    | completed => simp [serve] at hc; subst hc; dsimp only; omega

/-- The calls so far are the beginning of those that `serve` tells of, and what remains is not due before now. -/
theorem told {t0 : Nat} {ls : List (Label α)} {s : State α} (hr : LTS.run (step m gone) ((stage m gone).init t0) ls = some s) :
    ∃ r, serve m gone 0 0 (arrivals t0 ls) = s.sent ++ r ∧ ∀ c ∈ r, s.now ≤ c.2 := by
  obtain ⟨⟨-, ⟨free, rest, -, -, htold, hwait⟩, hdue, -, -⟩, -⟩ := inv_run hr
  have := htold []
  rw [List.append_nil, List.append_nil] at this
  refine ⟨_, this, ?_⟩
  simp only [left]
  intro c hc
  split at hc
  · next hp =>
    exact serve_late (.inr fun c hc => by rw [(hwait hp).2 c hc]; exact Nat.le_refl _) c hc
  · next v hp =>
    have hd : s.now ≤ s.due := by
      rcases hdue with hh | hh
      · rw [hp] at hh; rcases hh with hh | hh <;> cases hh
      · exact hh
    split at hc
    · exact serve_late (.inl hd) c hc
    · split at hc
      · cases hc
      · simp at hc; subst hc; exact hd
  · next n hp =>
    have hd : s.now ≤ s.due := by
      rcases hdue with hh | hh
      · rw [hp] at hh; rcases hh with hh | hh <;> cases hh
      · exact hh
    simp at hc; subst hc; exact hd
  · cases hc

end Aio.Busy
