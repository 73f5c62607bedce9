import Verif.Props.C184_DebounceMoves
/-!
# C185: `delay` can be moved past `debounce`
-/

namespace Aio
open Spec Spec.Timed Spec.SearchBox Spec.Pauses Spec.Delay
variable {S L α : Type} {q : Clocked S L α} {d e : Nat}

namespace DelayDebounce

/-- `pipe(source, delay(e), debounce(d))` -/
abbrev delayFirst (q : Clocked S L α) (e d : Nat) := (q.through (Delay.stage true e)).through (Debounce.stage true d)

/-- `pipe(source, debounce(d), delay(e))` -/
abbrev delayLast (q : Clocked S L α) (d e : Nat) := (q.through (Debounce.stage true d)).through (Delay.stage true e)

/-- What `delay` has delivered, and what it has not: nothing of that is overdue. -/
private theorem delayed (hq : q.Lawful) {ls s} (hr : LTS.run (q.through (Delay.stage true e)).step (q.through (Delay.stage true e)).init ls = some s)
    (h1 : Time.act (.inr (.dispose 0)) ∉ ls) (h2 : Time.act (.inr (.raise 0)) ∉ ls) :
    ∃ rest, shifted e (q.calls s.1) = (q.through (Delay.stage true e)).calls s ++ rest ∧ ∀ c ∈ rest, q.now s.1 ≤ c.2 := by
  obtain ⟨⟨rest, g1⟩, g2⟩ := Delay.C107_exact hq e hr
  refine ⟨rest, g1.symm, fun c hc => ?_⟩
  rcases Nat.lt_or_ge c.2 (q.now s.1) with h | h
  · exfalso
    obtain ⟨k, hk⟩ := List.mem_iff_getElem?.mp hc
    have hk' : (shifted e (q.calls s.1))[((q.through (Delay.stage true e)).calls s).length + k]? = some c := by
      rw [← g1, List.getElem?_append_right (by omega), Nat.add_sub_cancel_left]; exact hk
    rw [shifted, List.getElem?_map] at hk'
    obtain ⟨c', a1, a2⟩ := Option.map_eq_some_iff.mp hk'
    subst a2
    have := g2 h1 h2 _ c' a1 h
    have := (List.getElem?_eq_some_iff.mp this).1
    omega
  · exact h

private theorem valuesAt_shifted (cs : List (Notif α × Nat)) : valuesAt (shifted e cs) = (valuesAt cs).map fun c => (c.1, c.2 + e) := by
  induction cs with
  | nil => rfl
  | cons c cs ih =>
    obtain ⟨n, t⟩ := c
    cases n with
    | next v => exact congrArg ((v, t + e) :: ·) ih
    | error => exact ih
    | completed => exact ih

private theorem quiet_late {now : Nat} : ∀ {r : List (α × Nat)}, (∀ c ∈ r, now ≤ c.2) → quiet d now r = []
  | [], _ => rfl
  | (v, t) :: r, h => by
    have := h (v, t) (List.mem_cons_self ..)
    rw [quiet, if_neg (fun h' => by have := h'.1; dsimp only at *; omega)]
    exact quiet_late fun c hc => h c (List.mem_cons_of_mem _ hc)

private theorem quiet_append {now : Nat} {r : List (α × Nat)} (hr : ∀ c ∈ r, now ≤ c.2) : ∀ l : List (α × Nat), quiet d now (l ++ r) = quiet d now l
  | [] => quiet_late hr
  | (v, t) :: l => by
    have ih := quiet_append hr l
    rw [List.cons_append, quiet, quiet, ih]
    have : (t + d < now ∧ ∀ c ∈ l ++ r, t + d < c.2) ↔ (t + d < now ∧ ∀ c ∈ l, t + d < c.2) := by
      refine ⟨fun h => ⟨h.1, fun c hc => h.2 c (List.mem_append_left _ hc)⟩, fun h => ⟨h.1, fun c hc => ?_⟩⟩
      rcases List.mem_append.mp hc with hc | hc
      · exact h.2 c hc
      · have := hr c hc; have := h.1; omega
    simp only [this]

private theorem quiet_shift {now : Nat} : ∀ l : List (α × Nat), quiet d now (l.map fun c => (c.1, c.2 + e)) = pauses d (d + e) now l
  | [] => rfl
  | (v, t) :: l => by
    have ih := quiet_shift (now := now) l
    rw [List.map_cons, quiet, pauses, ih]
    have h1 : t + e + d = t + (d + e) := by omega
    have : (t + e + d < now ∧ ∀ c ∈ l.map (fun c => (c.1, c.2 + e)), t + e + d < c.2) ↔ (t + (d + e) < now ∧ ∀ c ∈ l, t + d < c.2) := by
      refine ⟨fun h => ⟨by omega, fun c hc => ?_⟩, fun h => ⟨by omega, fun c hc => ?_⟩⟩
      · have := h.2 _ (List.mem_map_of_mem hc); dsimp only at this; omega
      · obtain ⟨c', h3, rfl⟩ := List.mem_map.mp hc
        have := h.2 c' h3
        dsimp only; omega
    rw [h1] at this ⊢
    simp only [this]

private theorem shift_quiet {now : Nat} : ∀ l : List (α × Nat),
    (shifted e ((quiet d now l).map fun c => ((.next c.1, c.2) : Notif α × Nat))).filter (fun c => decide (c.2 < now)) = (pauses d (d + e) now l).map fun c => (.next c.1, c.2)
  | [] => rfl
  | (v, t) :: l => by
    have ih := shift_quiet (now := now) l
    rw [quiet, pauses]
    by_cases h : ∀ c ∈ l, t + d < c.2
    · by_cases h1 : t + (d + e) < now
      · rw [if_pos (c := t + d < now ∧ _) ⟨by omega, h⟩, if_pos (c := t + (d + e) < now ∧ _) ⟨h1, h⟩, List.map_cons, List.map_cons, shifted, List.map_cons,
          List.filter_cons_of_pos (by simp; omega), Nat.add_assoc]
        exact congrArg _ ih
      · rw [if_neg (c := t + (d + e) < now ∧ _) (fun h' => h1 h'.1)]
        split
        · rw [List.map_cons, shifted, List.map_cons, List.filter_cons_of_neg (by simp; omega)]
          exact ih
        · exact ih
    · rw [if_neg (c := t + d < now ∧ _) (fun h' => h h'.2), if_neg (c := t + (d + e) < now ∧ _) (fun h' => h h'.2)]
      exact ih

private theorem unsourced {M : Type} {ls : List (Time (L ⊕ M))} {l : L} (h : Time.act (.inl l) ∉ ls) : Time.act l ∉ Clocked.sources ls := by
  intro h'
  obtain ⟨x, hx, hxe⟩ := List.mem_filterMap.mp h'
  split at hxe <;> cases hxe
  exact h hx

/-- C185: `pipe(source, delay(e), debounce(d))` sends the values that nothing follows within `d`, `d + e` after the source sent them. -/
theorem C185_delay_first (hq : q.Lawful) {ls s} (hr : LTS.run (delayFirst q e d).step (delayFirst q e d).init ls = some s)
    (h1 : Time.act (.inl (.inr (.dispose 0))) ∉ ls) (h2 : Time.act (.inl (.inr (.raise 0))) ∉ ls) (h3 : Time.act (.inr .dispose) ∉ ls)
    (hv : ∀ c ∈ q.calls s.1.1, c.1.isTerminal = false) (ha : (valuesAt (q.calls s.1.1)).Pairwise fun x y => x.2 + d ≠ y.2)
    (hn : ∀ c ∈ valuesAt (q.calls s.1.1), c.2 + d + e ≠ q.now s.1.1) :
    (delayFirst q e d).calls s = (pauses d (d + e) (q.now s.1.1) (valuesAt (q.calls s.1.1))).map fun c => (.next c.1, c.2) := by
  have l1 := Clocked.through_lawful hq (Delay.stage_lawful (α := α) true e)
  have r1 := (Clocked.clocks l1 (Debounce.stage_lawful (α := α) true d) hr).1
  obtain ⟨rest, g1, g2⟩ := delayed hq r1 (unsourced h1) (unsourced h2)
  have g3 : (valuesAt (q.calls s.1.1)).map (fun c => (c.1, c.2 + e)) = valuesAt ((q.through (Delay.stage true e)).calls s.1) ++ valuesAt rest := by
    rw [← valuesAt_shifted, g1, valuesAt, List.filterMap_append]; rfl
  have hsub : ∀ c ∈ valuesAt ((q.through (Delay.stage true e)).calls s.1), ∃ c' ∈ valuesAt (q.calls s.1.1), c = (c'.1, c'.2 + e) := by
    intro c hc
    have : c ∈ (valuesAt (q.calls s.1.1)).map (fun c => (c.1, c.2 + e)) := by rw [g3]; exact List.mem_append_left _ hc
    obtain ⟨c', a1, a2⟩ := List.mem_map.mp this
    exact ⟨c', a1, a2.symm⟩
  have hpair : (valuesAt ((q.through (Delay.stage true e)).calls s.1)).Pairwise fun x y => x.2 + d ≠ y.2 := by
    have : ((valuesAt (q.calls s.1.1)).map (fun c => (c.1, c.2 + e))).Pairwise fun x y => x.2 + d ≠ y.2 :=
      List.pairwise_map.mpr (ha.imp fun h => by dsimp only; omega)
    rw [g3] at this
    exact (List.pairwise_append.mp this).1
  have hvals : ∀ c ∈ (q.through (Delay.stage true e)).calls s.1, c.1.isTerminal = false := by
    intro c hc
    have : c ∈ shifted e (q.calls s.1.1) := by rw [g1]; exact List.mem_append_left _ hc
    obtain ⟨c', a1, rfl⟩ := List.mem_map.mp this
    exact hv c' a1
  have h4 := C119_debounce l1 hr h3 hvals ⟨hpair, fun c hc => by
    obtain ⟨c', a1, rfl⟩ := hsub c hc
    have := hn c' a1
    show c'.2 + e + d ≠ q.now s.1.1
    omega⟩
  have h5 : (delayFirst q e d).calls s = _ := h4
  rw [h5]
  congr 1
  rw [← quiet_shift, g3]
  refine (quiet_append (fun c hc => ?_) _).symm
  obtain ⟨x, hx, hxe⟩ := List.mem_filterMap.mp hc
  split at hxe
  · cases hxe; exact g2 _ hx
  · exact absurd hxe (by simp)

/-- C185: `pipe(source, debounce(d), delay(e))` sends the same at the same times. -/
theorem C185_delay_last (hq : q.Lawful) {ls s} (hr : LTS.run (delayLast q d e).step (delayLast q d e).init ls = some s)
    (h1 : Time.act (.inr (.dispose 0)) ∉ ls) (h2 : Time.act (.inr (.raise 0)) ∉ ls) (h3 : Time.act (.inl (.inr .dispose)) ∉ ls)
    (hv : ∀ c ∈ q.calls s.1.1, c.1.isTerminal = false) (ha : Apart d (q.now s.1.1) (valuesAt (q.calls s.1.1)))
    (hn : ∀ c ∈ valuesAt (q.calls s.1.1), c.2 + d + e ≠ q.now s.1.1) :
    (delayLast q d e).calls s = (pauses d (d + e) (q.now s.1.1) (valuesAt (q.calls s.1.1))).map fun c => (.next c.1, c.2) := by
  have l1 := Clocked.through_lawful hq (Debounce.stage_lawful (α := α) true d)
  have r1 := (Clocked.clocks l1 (Delay.stage_lawful (α := α) true e) hr).1
  have e1 : (q.through (Debounce.stage true d)).calls s.1 = _ := C119_debounce hq r1 (unsourced h3) hv ha
  obtain ⟨rest, g1, g2⟩ := delayed l1 hr h1 h2
  have hst := (Clocked.through_lawful l1 (Delay.stage_lawful (α := α) true e)).stamps hr
  have hrest : rest.filter (fun c => decide (c.2 < q.now s.1.1)) = [] := by
    refine List.filter_eq_nil_iff.mpr fun c hc => ?_
    have : q.now s.1.1 ≤ c.2 := g2 c hc
    simp; omega
  rw [← shift_quiet, ← e1, g1, List.filter_append, hrest, List.append_nil, List.filter_eq_self.mpr]
  · intro c hc
    have hle : c.2 ≤ q.now s.1.1 := hst c hc
    have hm : c ∈ shifted e ((q.through (Debounce.stage true d)).calls s.1) := by rw [g1]; exact List.mem_append_left _ hc
    obtain ⟨c', a1, rfl⟩ := List.mem_map.mp hm
    rw [e1] at a1
    obtain ⟨x, hx, rfl⟩ := List.mem_map.mp a1
    obtain ⟨y, hy, rfl⟩ := Debounces.mem_quiet hx
    have := hn y hy
    dsimp only at hle ⊢
    exact decide_eq_true (by omega)

/-- C185: so if the source has sent the same, both pipelines have sent the same values at the same times. -/
theorem C185_moves (hq : q.Lawful) {ls s} (hr : LTS.run (delayFirst q e d).step (delayFirst q e d).init ls = some s)
    (h1 : Time.act (.inl (.inr (.dispose 0))) ∉ ls) (h2 : Time.act (.inl (.inr (.raise 0))) ∉ ls) (h3 : Time.act (.inr .dispose) ∉ ls)
    {ls' s'} (hr' : LTS.run (delayLast q d e).step (delayLast q d e).init ls' = some s')
    (h1' : Time.act (.inr (.dispose 0)) ∉ ls') (h2' : Time.act (.inr (.raise 0)) ∉ ls') (h3' : Time.act (.inl (.inr .dispose)) ∉ ls')
    (hv : ∀ c ∈ q.calls s.1.1, c.1.isTerminal = false) (ha : Apart d (q.now s.1.1) (valuesAt (q.calls s.1.1)))
    (hn : ∀ c ∈ valuesAt (q.calls s.1.1), c.2 + d + e ≠ q.now s.1.1) (hsame : q.calls s'.1.1 = q.calls s.1.1) (hnow : q.now s'.1.1 = q.now s.1.1) :
    (delayFirst q e d).calls s = (delayLast q d e).calls s' := by
  rw [C185_delay_first hq hr h1 h2 h3 hv ha.1 hn, C185_delay_last hq hr' h1' h2' h3' (by rw [hsame]; exact hv) (by rw [hsame, hnow]; exact ha) (by rw [hsame, hnow]; exact hn),
    hsame, hnow]

/-! ## a case -/

section Examples
open Debounces (driven)

abbrev demoFirst := delayFirst (Clocked.typed 0 : Clocked _ Nat Nat) 3 2
abbrev demoLast := delayLast (Clocked.typed 0 : Clocked _ Nat Nat) 2 3
abbrev demoWaits : List (Delay.Label Nat) := [.start 0, .receive 0, .wake 0, .ret 0]
/-- 7 is sent at 0, 8 at 1, 9 at 5 -/
abbrev demoSent : List (Option Nat) := [some 7, none, some 8, none, none, none, none, some 9] ++ List.replicate 8 none
def demoFirstRun := driven demoFirst (.inl ∘ .inl) (demoWaits.map (.inl ∘ .inr) ++ DebounceMoves.demoTimers.map .inr) 100 demoSent demoFirst.init
def demoLastRun := driven demoLast (.inl ∘ .inl) (DebounceMoves.demoTimers.map (.inl ∘ .inr) ++ demoWaits.map .inr) 100 demoSent demoLast.init

/-- The hypotheses of `C185_moves` are met. -/
example : ∃ s s', LTS.run demoFirst.step demoFirst.init demoFirstRun = some s ∧ LTS.run demoLast.step demoLast.init demoLastRun = some s' ∧
    demoFirst.calls s = [(.next 8, 6), (.next 9, 10)] ∧ demoFirst.calls s = demoLast.calls s' := by
  have h1 : (LTS.run demoFirst.step demoFirst.init demoFirstRun).map (fun s => (demoFirst.calls s, s.1.1)) =
    some ([(.next 8, 6), (.next 9, 10)], (13, [(.next 7, 0), (.next 8, 1), (.next 9, 5)])) := by decide +kernel
  have h2 : (LTS.run demoLast.step demoLast.init demoLastRun).map (fun s => s.1.1) = some (13, [(.next 7, 0), (.next 8, 1), (.next 9, 5)]) := by decide +kernel
  obtain ⟨s, g1, g2⟩ := Option.map_eq_some_iff.mp h1
  obtain ⟨s', g3, g4⟩ := Option.map_eq_some_iff.mp h2
  simp only [Prod.mk.injEq] at g2
  have b1 : demoFirstRun.all (fun | .act (.inl (.inr (.dispose 0))) | .act (.inl (.inr (.raise 0))) | .act (.inr .dispose) => false | _ => true) = true := by decide +kernel
  have b2 : demoLastRun.all (fun | .act (.inr (.dispose 0)) | .act (.inr (.raise 0)) | .act (.inl (.inr .dispose)) => false | _ => true) = true := by decide +kernel
  refine ⟨s, s', g1, g3, g2.1, C185_moves (Clocked.typed_lawful 0) g1 (fun h => by simpa using List.all_eq_true.mp b1 _ h) (fun h => by simpa using List.all_eq_true.mp b1 _ h)
    (fun h => by simpa using List.all_eq_true.mp b1 _ h) g3 (fun h => by simpa using List.all_eq_true.mp b2 _ h) (fun h => by simpa using List.all_eq_true.mp b2 _ h)
    (fun h => by simpa using List.all_eq_true.mp b2 _ h) ?_ ?_ ?_ ?_ ?_⟩
  · rw [show (Clocked.typed 0 : Clocked _ Nat Nat).calls s.1.1 = s.1.1.2 from rfl, g2.2]; decide
  · rw [show (Clocked.typed 0 : Clocked _ Nat Nat).calls s.1.1 = s.1.1.2 from rfl, show (Clocked.typed 0 : Clocked _ Nat Nat).now s.1.1 = s.1.1.1 from rfl, g2.2]
    simp [Apart, valuesAt]
  · rw [show (Clocked.typed 0 : Clocked _ Nat Nat).calls s.1.1 = s.1.1.2 from rfl, show (Clocked.typed 0 : Clocked _ Nat Nat).now s.1.1 = s.1.1.1 from rfl, g2.2]
    simp [valuesAt]
  · rw [show (Clocked.typed 0 : Clocked _ Nat Nat).calls s.1.1 = s.1.1.2 from rfl, show (Clocked.typed 0 : Clocked _ Nat Nat).calls s'.1.1 = s'.1.1.2 from rfl, g2.2, g4]
  · rw [show (Clocked.typed 0 : Clocked _ Nat Nat).now s.1.1 = s.1.1.1 from rfl, show (Clocked.typed 0 : Clocked _ Nat Nat).now s'.1.1 = s'.1.1.1 from rfl, g2.2, g4]

end Examples

end DelayDebounce
end Aio
