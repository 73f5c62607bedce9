import Verif.Props.C183_Debounces
/-!
# C184: `map` can be moved past `debounce`; `filter` only sends more if it is moved before it
-/

namespace Aio
open Spec Spec.Timed Spec.SearchBox
variable {S L α β : Type} {q : Clocked S L α} {d : Nat} {op : Operator α β} {pick : α → Option β}

namespace DebounceMoves

/-- `pipe(source, debounce(d), op)` -/
abbrev behind (q : Clocked S L α) (d : Nat) (op : Operator α β) := (q.through (Debounce.stage true d)).operate op.protected.slowProc

/-- `pipe(source, op, debounce(d))` -/
abbrev before (q : Clocked S L α) (op : Operator α β) (d : Nat) := (q.operate op.direct.slowProc).through (Debounce.stage true d)

private theorem quiet_map (f : α → β) (now : Nat) : ∀ l : List (α × Nat), quiet d now (wanted (fun v => some (f v)) l) = wanted (fun v => some (f v)) (quiet d now l)
  | [] => rfl
  | (v, t) :: rest => by
    have ih := quiet_map f now rest
    have hc : wanted (fun v => some (f v)) ((v, t) :: rest) = (f v, t) :: wanted (fun v => some (f v)) rest := rfl
    have hm : (∀ c ∈ wanted (fun v => some (f v)) rest, t + d < c.2) ↔ ∀ c ∈ rest, t + d < c.2 := by
      simp only [wanted, Option.map_some, List.filterMap_eq_map', List.mem_map, forall_exists_index, and_imp, forall_apply_eq_imp_iff₂]
    rw [hc, quiet, quiet]
    simp only [hm]
    split
    · rw [ih]; rfl
    · exact ih

private theorem quiet_pick (now : Nat) : ∀ l : List (α × Nat), (wanted pick (quiet d now l)).Sublist (quiet d now (wanted pick l))
  | [] => List.Sublist.refl _
  | (v, t) :: rest => by
    have ih := quiet_pick now rest
    rw [quiet]
    cases hp : pick v with
    | none =>
      have hc : ∀ u (r : List (α × Nat)), wanted pick ((v, u) :: r) = wanted pick r := fun u r => by simp [wanted, hp]
      rw [hc]
      split
      · rw [hc]; exact ih
      · exact ih
    | some w =>
      have hc : ∀ u (r : List (α × Nat)), wanted pick ((v, u) :: r) = (w, u) :: wanted pick r := fun u r => by simp [wanted, hp]
      rw [hc, quiet]
      split
      · next h =>
        have h' : ∀ c ∈ wanted pick rest, t + d < c.2 := by
          intro c hc
          obtain ⟨x, hx, hxe⟩ := List.mem_filterMap.mp hc
          obtain ⟨y, -, rfl⟩ := Option.map_eq_some_iff.mp hxe
          exact h.2 x hx
        rw [hc, if_pos (c := t + d < now ∧ ∀ c ∈ wanted pick rest, t + d < c.2) ⟨h.1, h'⟩]
        exact ih.cons_cons _
      · split
        · exact ih.cons _
        · exact ih

/-- C184: `pipe(source, debounce(d), op)` with an operator that drops or rewrites values: of the values that nothing follows within `d`, those that `op` wants. -/
theorem C184_behind (hq : q.Lawful) (hc : op.Computes fun s => ⟨s.vals.filterMap pick, s.fin⟩) {ls s} (hr : LTS.run (behind q d op).step (behind q d op).init ls = some s)
    (hp : (behind q d op).Prompt (fun s => op.protected.slowProc.Quiescent s.2.ps) ls) (hs : op.protected.slowProc.Quiescent s.2.ps) (hd : Time.act (.inl (.inr .dispose)) ∉ ls)
    (hv : ∀ c ∈ q.calls s.1.1, c.1.isTerminal = false) (ha : Apart d (q.now s.1.1) (valuesAt (q.calls s.1.1))) :
    (behind q d op).calls s = (wanted pick (quiet d (q.now s.1.1) (valuesAt (q.calls s.1.1)))).map fun c => (.next c.1, c.2) := by
  have l1 := Clocked.through_lawful hq (Debounce.stage_lawful (α := α) true d)
  have r1 := (Clocked.operate_source l1 hr).1
  have hd' : Time.act (.inr .dispose) ∉ Clocked.sources ls := by
    intro h
    obtain ⟨x, hx, hxe⟩ := List.mem_filterMap.mp h
    split at hxe <;> cases hxe
    exact hd hx
  have e1 := C119_debounce hq r1 hd' hv ha
  have o1 : OnlyValues s.1.2.posted := by rw [e1]; exact onlyValues_map _
  have e2 := Clocked.operate_values l1 hc.guarded.slow (F := wanted pick) rfl (fun cs t h => ⟨wanted_inTime pick h, by rw [wanted_upto]⟩) (fun _ _ _ => trivial) hr hp hs o1
  have e3 : (q.through (Debounce.stage true d)).calls s.1 = s.1.2.posted := rfl
  rw [e3, e1, valuesAt_map] at e2
  exact e2

/-- C184: `pipe(source, op, debounce(d))`: of the values that `op` wants, those that no other such value follows within `d`. -/
theorem C184_before (hq : q.Lawful) (hg : ∀ ls s, LTS.run q.step q.init ls = some s → Grammar ((q.calls s).map (·.1)))
    (hc : op.Computes fun s => ⟨s.vals.filterMap pick, s.fin⟩) {ls s} (hr : LTS.run (before q op d).step (before q op d).init ls = some s)
    (hp : (before q op d).Prompt (fun s => op.direct.slowProc.Quiescent s.1.2.ps) ls) (hs : op.direct.slowProc.Quiescent s.1.2.ps) (hd : Time.act (.inr .dispose) ∉ ls)
    (hv : ∀ c ∈ q.calls s.1.1, c.1.isTerminal = false) (ha : Apart d (q.now s.1.1) (wanted pick (valuesAt (q.calls s.1.1)))) :
    (before q op d).calls s = (quiet d (q.now s.1.1) (wanted pick (valuesAt (q.calls s.1.1)))).map fun c => (.next c.1, c.2) := by
  have l1 := Clocked.operate_lawful hq op.direct.slowProc
  have r1 := (Clocked.clocks l1 (Debounce.stage_lawful true d) hr).1
  have p1 := Clocked.Prompt.before (rest := fun s => op.direct.slowProc.Quiescent s.2.ps) l1 (Debounce.stage_lawful true d) hr hp
  have e1 : s.1.2.sent = (wanted pick (valuesAt (q.calls s.1.1))).map fun c => (.next c.1, c.2) :=
    Clocked.operate_values hq hc.direct.slow rfl (fun cs t h => ⟨wanted_inTime pick h, by rw [wanted_upto]⟩) hg r1 p1 hs hv
  have v1 : valuesAt ((q.operate op.direct.slowProc).calls s.1) = wanted pick (valuesAt (q.calls s.1.1)) := by
    rw [show (q.operate op.direct.slowProc).calls s.1 = s.1.2.sent from rfl, e1, valuesAt_map]
  have o1 : OnlyValues s.1.2.sent := by rw [e1]; exact onlyValues_map _
  have e2 := C119_debounce l1 hr hd o1 (by rw [v1]; exact ha)
  rw [v1] at e2
  exact e2

section
variable (hq : q.Lawful) (hg : ∀ ls s, LTS.run q.step q.init ls = some s → Grammar ((q.calls s).map (·.1)))
  {ls} {s} (hr : LTS.run (behind q d op).step (behind q d op).init ls = some s)
  (hp : (behind q d op).Prompt (fun s => op.protected.slowProc.Quiescent s.2.ps) ls) (hs : op.protected.slowProc.Quiescent s.2.ps) (hd : Time.act (.inl (.inr .dispose)) ∉ ls)
  {ls'} {s'} (hr' : LTS.run (before q op d).step (before q op d).init ls' = some s')
  (hp' : (before q op d).Prompt (fun s => op.direct.slowProc.Quiescent s.1.2.ps) ls') (hs' : op.direct.slowProc.Quiescent s'.1.2.ps) (hd' : Time.act (.inr .dispose) ∉ ls')
  (hv : ∀ c ∈ q.calls s.1.1, c.1.isTerminal = false) (ha : Apart d (q.now s.1.1) (valuesAt (q.calls s.1.1)))
  (hsame : q.calls s'.1.1 = q.calls s.1.1) (hnow : q.now s'.1.1 = q.now s.1.1)
include hq hg hr hp hs hd hr' hp' hs' hd' hv ha hsame hnow

/-- C184: `map` can be moved past `debounce`: if the source has sent the same, the observer has got the same values at the same times. -/
theorem C184_map {f : α → β} (hc : op.Computes fun s => ⟨s.vals.map f, s.fin⟩) : (behind q d op).calls s = (before q op d).calls s' := by
  have hc' : op.Computes fun s => ⟨s.vals.filterMap fun v => some (f v), s.fin⟩ := by simpa [List.filterMap_eq_map'] using hc
  rw [C184_behind hq hc' hr hp hs hd hv ha, C184_before hq hg hc' hr' hp' hs' hd' (by rw [hsame]; exact hv) ?_, hsame, hnow, quiet_map]
  rw [hsame, hnow]
  refine ⟨?_, ?_⟩
  · simp only [wanted, Option.map_some, List.filterMap_eq_map']
    exact List.pairwise_map.mpr ha.1
  · intro c h
    obtain ⟨x, hx, hxe⟩ := List.mem_filterMap.mp h
    cases hxe
    exact ha.2 x hx

/-- C184: an operator that drops values sends more if it stands before `debounce`: what `pipe(source, debounce(d), filter(p))` sends,
`pipe(source, filter(p), debounce(d))` sends also, at the same time. -/
theorem C184_filter (hc : op.Computes fun s => ⟨s.vals.filterMap pick, s.fin⟩) : ((behind q d op).calls s).Sublist ((before q op d).calls s') := by
  rw [C184_behind hq hc hr hp hs hd hv ha, C184_before hq hg hc hr' hp' hs' hd' (by rw [hsame]; exact hv) ?_, hsame, hnow]
  · exact (quiet_pick _ _).map _
  rw [hsame, hnow]
  refine ⟨?_, ?_⟩
  · refine List.Pairwise.filterMap _ (fun a a' h b hb b' hb' => ?_) ha.1
    obtain ⟨_, -, rfl⟩ := Option.map_eq_some_iff.mp hb
    obtain ⟨_, -, rfl⟩ := Option.map_eq_some_iff.mp hb'
    exact h
  · intro c h
    obtain ⟨x, hx, hxe⟩ := List.mem_filterMap.mp h
    obtain ⟨_, -, rfl⟩ := Option.map_eq_some_iff.mp hxe
    exact ha.2 x hx

end

/-! ## cases -/

section Examples

private theorem map_total (f : α → β) : (map fun x => .ok (f x)).Acts fun s => ⟨s.vals.map f, s.fin⟩ :=
  (map_acts (f := fun x => .ok (f x))).congr fun s => by
    have := tryEach_ok (fun x => some (f x)) s.vals s.fin
    simpa [Except.map] using this

open Debounces (driven)

abbrev demoEven : Operator Nat Nat := cleaning (fun x => x) fun x => x % 2 == 0
abbrev demoPlus : Operator Nat Nat := map fun x => .ok (x + 10)
abbrev demoBehind (op : Operator Nat Nat) := behind (Clocked.typed 0 : Clocked _ Nat Nat) 2 op
abbrev demoBefore (op : Operator Nat Nat) := before (Clocked.typed 0 : Clocked _ Nat Nat) op 2
abbrev demoTimers : List (Debounce.Label Nat) := .receive :: (List.range 4).flatMap fun k => [.start k, .wake k]
/-- 2 is sent at 0, 3 at 1, 4 at 6 -/
abbrev demoTyped : List (Option Nat) := [some 2, none, some 3, none, none, none, none, none, some 4] ++ List.replicate 6 none
def demoBehindRun (op : Operator Nat Nat) (works : List op.protected.compileSlow.SlowLab) :=
  driven (demoBehind op) (.inl ∘ .inl) (demoTimers.map (.inl ∘ .inr) ++ works.map .inr) 100 demoTyped (demoBehind op).init
def demoBeforeRun (op : Operator Nat Nat) (works : List op.direct.compileSlow.SlowLab) :=
  driven (demoBefore op) (.inl ∘ .inl) (demoTimers.map .inr ++ works.map (.inl ∘ .inr)) 100 demoTyped (demoBefore op).init

/-- `pipe(subject, debounce(2), filter(even))` and `pipe(subject, filter(even), debounce(2))` -/
abbrev evenBehind := demoBehindRun demoEven [.inl (), .inr ()]
abbrev evenBefore := demoBeforeRun demoEven [()]

set_option synthInstance.maxSize 2000 in
/-- C184: it can send more. 2 is followed by 3, which is dropped: behind `filter`, `debounce` does not see it and sends 2; before `filter` it does and drops 2. -/
theorem C184_filter_order :
    (LTS.run (demoBehind demoEven).step (demoBehind demoEven).init evenBehind).map (fun s => ((demoBehind demoEven).calls s, s.1.1)) =
      some ([(.next 4, 8)], 12, [(.next 2, 0), (.next 3, 1), (.next 4, 6)]) ∧
    (LTS.run (demoBefore demoEven).step (demoBefore demoEven).init evenBefore).map (fun s => ((demoBefore demoEven).calls s, s.1.1)) =
      some ([(.next 2, 2), (.next 4, 8)], 12, [(.next 2, 0), (.next 3, 1), (.next 4, 6)]) := by decide +kernel

abbrev idleBehind (op : Operator Nat Nat) (works : List op.protected.compileSlow.SlowLab) (ps : op.protected.compileSlow.SlowSt) : Bool :=
  works.all fun w => (op.protected.slowProc.step ps w).isNone
abbrev idleBefore (op : Operator Nat Nat) (works : List op.direct.compileSlow.SlowLab) (ps : op.direct.compileSlow.SlowSt) : Bool :=
  works.all fun w => (op.direct.slowProc.step ps w).isNone
theorem quiescent_behind {op : Operator Nat Nat} {works} (hw : ∀ w, w ∈ works) (ps) (h : idleBehind op works ps = true) : op.protected.slowProc.Quiescent ps :=
  fun w => Option.isNone_iff_eq_none.mp (List.all_eq_true.mp h w (hw w))
theorem quiescent_before {op : Operator Nat Nat} {works} (hw : ∀ w, w ∈ works) (ps) (h : idleBefore op works ps = true) : op.direct.slowProc.Quiescent ps :=
  fun w => Option.isNone_iff_eq_none.mp (List.all_eq_true.mp h w (hw w))

/-- `pipe(subject, debounce(2), map(x + 10))` and `pipe(subject, map(x + 10), debounce(2))` -/
abbrev plusBehind := demoBehindRun demoPlus [.inl (), .inr ()]
abbrev plusBefore := demoBeforeRun demoPlus [()]

set_option synthInstance.maxSize 2000 in
/-- The hypotheses of `C184_map` are met. -/
example : ∃ s s', LTS.run (demoBehind demoPlus).step (demoBehind demoPlus).init plusBehind = some s ∧ LTS.run (demoBefore demoPlus).step (demoBefore demoPlus).init plusBefore = some s' ∧
    (demoBehind demoPlus).calls s = [(.next 13, 3), (.next 14, 8)] ∧ (demoBehind demoPlus).calls s = (demoBefore demoPlus).calls s' := by
  have h1 : (LTS.run (demoBehind demoPlus).step (demoBehind demoPlus).init plusBehind).map (fun s => ((demoBehind demoPlus).calls s, s.1.1, idleBehind demoPlus [.inl (), .inr ()] s.2.ps)) =
    some ([(.next 13, 3), (.next 14, 8)], (12, [(.next 2, 0), (.next 3, 1), (.next 4, 6)]), true) := by decide +kernel
  have h2 : (LTS.run (demoBefore demoPlus).step (demoBefore demoPlus).init plusBefore).map (fun s => (s.1.1, idleBefore demoPlus [()] s.1.2.ps)) =
    some ((12, [(.next 2, 0), (.next 3, 1), (.next 4, 6)]), true) := by decide +kernel
  obtain ⟨s, g1, g2⟩ := Option.map_eq_some_iff.mp h1
  obtain ⟨s', g3, g4⟩ := Option.map_eq_some_iff.mp h2
  simp only [Prod.mk.injEq] at g2 g4
  have w1 : ∀ w : demoPlus.protected.compileSlow.SlowLab, w ∈ [.inl (), .inr ()] := fun | .inl () => List.mem_cons_self .. | .inr () => List.mem_cons_of_mem _ (List.mem_cons_self ..)
  have w2 : ∀ w : demoPlus.direct.compileSlow.SlowLab, w ∈ [()] := fun () => List.mem_cons_self ..
  refine ⟨s, s', g1, g3, g2.1, ?_⟩
  refine C184_map (Clocked.typed_lawful 0) (Clocked.typed_grammar 0) g1
    (Clocked.Prompt.of_rests (q := demoBehind demoPlus) (idle := fun s => idleBehind demoPlus [.inl (), .inr ()] s.2.ps) (fun _ => quiescent_behind w1 _) (by decide +kernel))
    (quiescent_behind w1 _ g2.2.2) ?_ g3
    (Clocked.Prompt.of_rests (q := demoBefore demoPlus) (idle := fun s => idleBefore demoPlus [()] s.1.2.ps) (fun _ => quiescent_before w2 _) (by decide +kernel))
    (quiescent_before w2 _ g4.2) ?_ ?_ ?_ ?_ ?_ ((map_total fun x => x + 10).computes (map_calm _))
  · have : plusBehind.all (fun | .act (.inl (.inr .dispose)) => false | _ => true) = true := by decide +kernel
    exact fun h => by simpa using List.all_eq_true.mp this _ h
  · have : plusBefore.all (fun | .act (.inr .dispose) => false | _ => true) = true := by decide +kernel
    exact fun h => by simpa using List.all_eq_true.mp this _ h
  · rw [show (Clocked.typed 0 : Clocked _ Nat Nat).calls s.1.1 = s.1.1.2 from rfl, g2.2.1]; decide
  · rw [show (Clocked.typed 0 : Clocked _ Nat Nat).calls s.1.1 = s.1.1.2 from rfl, show (Clocked.typed 0 : Clocked _ Nat Nat).now s.1.1 = s.1.1.1 from rfl, g2.2.1]
    simp [Apart, valuesAt]
  · rw [show (Clocked.typed 0 : Clocked _ Nat Nat).calls s.1.1 = s.1.1.2 from rfl, show (Clocked.typed 0 : Clocked _ Nat Nat).calls s'.1.1 = s'.1.1.2 from rfl, g2.2.1, g4.1]
  · rw [show (Clocked.typed 0 : Clocked _ Nat Nat).now s.1.1 = s.1.1.1 from rfl, show (Clocked.typed 0 : Clocked _ Nat Nat).now s'.1.1 = s'.1.1.1 from rfl, g2.2.1, g4.1]

end Examples

end DebounceMoves
end Aio
