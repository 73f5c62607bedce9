import Verif.Lemmas.DebouncePrompt
import Verif.Lemmas.DelayPrompt
/-!
# C146: what `debounce` and `delay` hold on to
-/

namespace Aio.Debounce
variable {α : Type}
open Aio.Spec.Debounce

/-- Specification: which of the events came less than `seconds` ago. -/
def recent (seconds now : Nat) (arr : List (Notif α × Nat)) : List Bool := arr.map fun p => decide (now < p.2 + seconds)

/-- Which of the tasks that were made, one per event, are not over. -/
def alive (s : State α) : List Bool := s.timers.map fun p => decide (p.2 ≠ .done)

private theorem done_past {seconds : Nat} {ls : List (Label α)} {s : State α} (h : LTS.run (step seconds) init ls = some s) :
    ∀ (k : Nat) (n : Notif α), s.timers[k]? = some (n, .done) → ∃ t : Nat, (arrivals ls)[k]? = some (n, t) ∧ t + seconds ≤ s.now := by
  refine LTS.inv_reach (fun ls (s : State α) => ∀ (k : Nat) (n : Notif α), s.timers[k]? = some (n, .done) → ∃ t : Nat, (arrivals ls)[k]? = some (n, t) ∧ t + seconds ≤ s.now)
    (s0 := init) (by simp [init]) ?_ h
  intro ls s l s' hr hI hs k n hk
  cases l with
  | event m =>
    simp only [step, Option.some.injEq] at hs; subst hs
    rw [arrivals_event]
    rcases Nat.lt_or_ge k s.timers.length with hlt | hge
    · rw [List.getElem?_append_left hlt] at hk
      obtain ⟨t, h1, h2⟩ := hI k n hk
      exact ⟨t, by rw [List.getElem?_append_left (List.getElem?_eq_some_iff.mp h1).1]; exact h1, h2⟩
    · rw [List.getElem?_append_right hge] at hk
      cases hj : k - s.timers.length <;> simp [hj] at hk
  | start j =>
    rw [arrivals_other _ (by simp)]
    simp only [step] at hs
    split at hs
    · simp only [Option.some.injEq] at hs; subst hs
      rename_i m hm
      by_cases hjk : j = k
      · subst hjk; simp [List.getElem?_set, (List.getElem?_eq_some_iff.mp hm).1] at hk
      · rw [List.getElem?_set_ne hjk] at hk; exact hI k n hk
    · cases hs
  | wake j =>
    rw [arrivals_other _ (by simp)]
    simp only [step] at hs
    split at hs
    · split at hs
      · simp only [Option.some.injEq] at hs; subst hs
        rename_i m w hm hw
        by_cases hjk : j = k
        · subst hjk
          simp only [List.getElem?_set, (List.getElem?_eq_some_iff.mp hm).1, if_true, Option.some.injEq, Prod.mk.injEq, and_true] at hk
          subst hk
          obtain ⟨Q, R, L, hi, _⟩ := good hr
          obtain ⟨t, h1, h2⟩ := hi.wake j m w hm
          exact ⟨t, h1, Nat.le_trans h2 hw⟩
        · rw [List.getElem?_set_ne hjk] at hk; exact hI k n hk
      · cases hs
    · cases hs
  | receive =>
    rw [arrivals_other _ (by simp)]
    simp only [step] at hs
    split at hs
    · simp only [Option.some.injEq] at hs; subst hs; exact hI k n hk
    · cases hs
  | dispose =>
    rw [arrivals_other _ (by simp)]
    simp only [step, Option.some.injEq] at hs; subst hs; exact hI k n hk
  | tick d =>
    rw [arrivals_other _ (by simp)]
    simp only [step, Option.some.injEq] at hs; subst hs
    obtain ⟨t, h1, h2⟩ := hI k n hk
    exact ⟨t, h1, by dsimp only; omega⟩

/-- Whenever everything that is due has been done: the tasks of `debounce` that are alive are those for the events that came less than `seconds` ago. (Also after the subscription was disposed, as the tasks are not cancelled.) -/
theorem C146_debounce (seconds : Nat) (ls : List (Label α)) (s : State α) (h : LTS.run (promptStep seconds) init ls = some s) (hc : prompt s (.tick 1) = true) :
    alive s = recent seconds (clock ls) (arrivals ls) := by
  have hr := prompt_run h
  obtain ⟨Q, R, L, hi, hp⟩ := good hr
  have hp := hp h
  rw [← run_clock hr]
  apply List.ext_getElem?
  intro k
  simp only [alive, recent, List.getElem?_map]
  cases hk : s.timers[k]? with
  | none =>
    have : (arrivals ls)[k]? = none := by
      rw [List.getElem?_eq_none_iff] at hk ⊢; have := hi.len; omega
    rw [this]; rfl
  | some p =>
    obtain ⟨n, x⟩ := p
    simp only [prompt, Bool.and_eq_true, List.all_eq_true] at hc
    have hx := hc.2 _ (List.mem_of_getElem? hk)
    cases x with
    | fresh => simp at hx
    | sleeping w =>
      obtain ⟨_, t, h1, h2⟩ := hp.wake k n w hk
      simp only [decide_eq_true_eq] at hx
      rw [h1]
      simp
      omega
    | done =>
      obtain ⟨t, h1, h2⟩ := done_past hr k n hk
      rw [h1]
      simp
      omega

/-- Under any schedule, prompt or not: one task per event, and none is over before its `seconds` are. -/
theorem C146_debounce_any (seconds : Nat) (ls : List (Label α)) (s : State α) (h : LTS.run (step seconds) init ls = some s) :
    (alive s).length = (arrivals ls).length ∧ ∀ k : Nat, (recent seconds (clock ls) (arrivals ls))[k]? = some true → (alive s)[k]? = some true := by
  obtain ⟨Q, R, L, hi, _⟩ := good h
  refine ⟨by simp [alive, hi.len], fun k hk => ?_⟩
  rw [← run_clock h] at hk
  simp only [alive, recent, List.getElem?_map] at hk ⊢
  cases hs : s.timers[k]? with
  | none =>
    have : (arrivals ls)[k]? = none := by
      rw [List.getElem?_eq_none_iff] at hs ⊢; have := hi.len; omega
    rw [this] at hk; cases hk
  | some p =>
    obtain ⟨n, x⟩ := p
    cases x with
    | fresh => rfl
    | sleeping w => rfl
    | done =>
      obtain ⟨t, h1, h2⟩ := done_past h k n hs
      rw [h1] at hk
      simp at hk
      omega

/-- Three events at times 0, 1 and 2, `debounce(2)`, the subscription is disposed at once: at time 2 (when all that is due then has been done) two tasks are alive. -/
example : ∃ s : State Nat, LTS.run (promptStep 2) init
    [.event (.next 7), .start 0, .receive, .tick 1, .event (.next 8), .start 1, .receive, .tick 1, .wake 0, .event (.next 9), .start 2, .dispose, .receive, .receive, .receive] = some s ∧
    prompt s (.tick 1) = true ∧ alive s = [false, true, true] := ⟨_, rfl, rfl, rfl⟩

end Aio.Debounce

namespace Aio.Delay
variable {α : Type}
open Aio.Spec.Delay

/-- The events that `delay` holds: in the mailbox, and the one for which the worker sleeps. -/
def held (b : Sub α) : Nat :=
  (match b.worker with
    | .sleeping _ _ => 1
    | _ => 0) + b.queue.length

private theorem delivered_past {seconds : Nat} {ls : List (Label α)} {s : State α} (h : LTS.run (step seconds) init ls = some s) :
    ∀ (i : Nat) (b : Sub α), s.subs[i]? = some b → ∀ x ∈ b.delivered, x.2 ≤ s.loop := by
  intro i b hb
  refine sub_inv (seconds := seconds) (fun _ _ s b => ∀ x ∈ b.delivered, x.2 ≤ s.loop) ?_ ?_ ?_ h i b hb
  · intro ls i s _ _ x hx; cases hx
  · intro ls i s b l s' _ hs _ _ hI x hx
    have := hI x hx
    rcases step_cases hs with ⟨rfl, rfl⟩ | ⟨dw, dl, rfl, rfl⟩ | ⟨j, c, c', _, _, _, rfl⟩
    · exact this
    · dsimp only; omega
    · exact this
  · intro ls i s b l b' _ _ _ hst hI x hx
    have hcall : ∀ (b : Sub α) n, (∀ x ∈ b.delivered, x.2 ≤ s.loop) → ∀ x ∈ (b.call s.loop n).delivered, x.2 ≤ s.loop := by
      intro b n hb x hx
      rcases List.mem_append.mp hx with hx | hx
      · exact hb x hx
      · rw [List.mem_singleton.mp hx]; exact Nat.le_refl _
    dsimp only
    cases l <;> simp only [subStep] at hst
    case receive j =>
      split at hst
      · simp only [Option.some.injEq] at hst; subst hst
        simp only [Sub.handle] at hx
        split at hx
        · exact hI x hx
        · exact hcall _ _ (by exact hI) x hx
      · cases hst
    case wake j =>
      split at hst
      · split at hst
        · simp only [Option.some.injEq] at hst; subst hst; exact hcall _ _ hI x hx
        · cases hst
      · cases hst
    all_goals first
      | (cases hst; done)
      | (simp only [Option.some.injEq] at hst; subst hst; exact hI x hx)
      | (split at hst
         · simp only [Option.some.injEq] at hst; subst hst; exact hI x hx
         · cases hst)

/-- Whenever everything that is due has been done: `delay` holds exactly the events that came less than `seconds` ago. (No disposal, the observer does not raise.) -/
theorem C146_delay (seconds : Nat) (ls : List (Label α)) (s : State α) (h : LTS.run (promptStep seconds) init ls = some s) (hc : prompt s (.tick 1 1) = true) (hu : Undisposed ls) (i : Nat) (b : Sub α)
    (hb : s.subs[i]? = some b) (hr : Unraised i ls) : held b = ((arrivals i ls).filter fun p => decide (clock ls < p.2 + seconds)).length := by
  obtain ⟨q, hh, he, hd⟩ := onTime h i b hb
  have hl := live_of (prompt_run h) hu i b hb hr
  have hp := delivered_past (prompt_run h) i b hb
  have hck := run_clock (prompt_run h)
  have hcount : ((arrivals i ls).filter fun p => decide (clock ls < p.2 + seconds)).length = ((b.delivered ++ q ++ b.queue).filter fun p => decide (s.loop < p.2)).length := by
    rw [he, shifted, List.filter_map, List.length_map, hck]
    rfl
  rw [hcount]
  have hdel : b.delivered.filter (fun p => decide (s.loop < p.2)) = [] := by
    rw [List.filter_eq_nil_iff]; intro x hx; have := hp x hx; simp; omega
  rw [List.append_assoc, List.filter_append, hdel, List.nil_append]
  simp only [prompt, Bool.and_eq_true, List.all_eq_true] at hc
  have hcb := hc.2 b (List.mem_of_getElem? hb)
  cases hw : b.worker <;> simp only [hw, Sub.calm, Worker.live, reduceCtorEq, List.isEmpty_iff, decide_eq_true_eq] at hcb hl
  · rw [hw] at hh; change q = [] at hh; subst hh
    simp [held, hw, hcb]
  · rename_i n w
    rw [hw] at hh; change q = [(n, w)] at hh; subst hh
    have hsort := shifted_sorted (i := i) (seconds := seconds) (ls := ls)
    rw [← he, List.append_assoc] at hsort
    have h3 := (List.pairwise_cons.mp (List.pairwise_append.mp hsort).2.1).1
    rw [List.filter_eq_self.mpr]
    · simp [held, hw]; omega
    · intro x hx
      simp only [List.singleton_append, List.mem_cons] at hx
      rcases hx with rfl | hx
      · simp; omega
      · have := h3 x hx; simp at this ⊢; omega

/-- Three events at times 0, 1 and 1, `delay(2)`: two of them are held at time 2. -/
example : ∃ s : State Nat, LTS.run (promptStep 2) init
    [.subscribe, .start 0, .event 0 (.next 7), .receive 0, .tick 1 1, .event 0 (.next 8), .event 0 .completed, .tick 1 1, .wake 0, .ret 0, .receive 0] = some s ∧
    prompt s (.tick 1 1) = true ∧ s.subs.map held = [2] := ⟨_, rfl, rfl, rfl⟩

end Aio.Delay
