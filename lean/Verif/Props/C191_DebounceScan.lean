import Verif.Props.C184_DebounceMoves
import Verif.Props.C31_34_Scan
/-!
# C191: `scan` before `debounce` and behind it
-/

namespace Aio
open Spec Spec.Timed Spec.SearchBox
variable {S L α ρ : Type} {q : Clocked S L α} {d : Nat} {op : Operator α ρ} {f : ρ → α → ρ} {s0 : ρ}

namespace DebounceScan
open DebounceMoves (behind)

/-- The running totals of values with times, each at the time of its value. -/
def totals (f : ρ → α → ρ) (s0 : ρ) (cs : List (α × Nat)) : List (ρ × Nat) := (accumulate f s0 (cs.map (·.1))).zip (cs.map (·.2))

private theorem totals_cons (s0 : ρ) (v : α) (t : Nat) (cs : List (α × Nat)) : totals f s0 ((v, t) :: cs) = (f s0 v, t) :: totals f (f s0 v) cs := rfl

private theorem totals_times : ∀ (s0 : ρ) (cs : List (α × Nat)), (totals f s0 cs).map (·.2) = cs.map (·.2)
  | _, [] => rfl
  | s0, (v, t) :: cs => by rw [totals_cons, List.map_cons, totals_times, List.map_cons]

private theorem inTime_times {ι : Type} {cs : List (ι × Nat)} : InTime cs ↔ (cs.map (·.2)).Pairwise (· ≤ ·) := by rw [InTime, List.pairwise_map]

private theorem totals_inTime {s0 : ρ} {cs : List (α × Nat)} (h : InTime cs) : InTime (totals f s0 cs) := by
  rw [inTime_times, totals_times]; exact inTime_times.mp h

private theorem upto_late {ι : Type} {t : Nat} {cs : List (ι × Nat)} (h : ∀ c ∈ cs, t < c.2) : upto t cs = [] := by
  rw [upto, List.filter_eq_nil_iff.mpr]
  · rfl
  · intro c hc; have := h c hc; simp; omega

private theorem totals_upto (t : Nat) : ∀ (s0 : ρ) (cs : List (α × Nat)), InTime cs → upto t (totals f s0 cs) = accumulate f s0 (upto t cs)
  | _, [], _ => rfl
  | s0, (v, u) :: cs, h => by
    have h' := List.pairwise_cons.mp h
    rw [totals_cons, upto_cons, upto_cons, totals_upto t _ cs h'.2]
    dsimp only
    split
    · rfl
    · rw [upto_late (cs := cs) fun c hc => by have := h'.1 c hc; dsimp only at this; omega]; rfl

private theorem quiet_late {now : Nat} : ∀ {l : List (α × Nat)} {t : Nat}, (∀ c ∈ l, t ≤ c.2) → ∀ c ∈ quiet d now l, t ≤ c.2
  | [], _, _, _, h => by simp [quiet] at h
  | (v, u) :: l, t, hl, c, h => by
    have ih := quiet_late (now := now) (l := l) (t := t) (fun c hc => hl c (List.mem_cons_of_mem _ hc)) c
    rw [quiet] at h
    split at h
    · rcases List.mem_cons.mp h with rfl | h
      · have := hl (v, u) (List.mem_cons_self ..); dsimp only at this ⊢; omega
      · exact ih h
    · exact ih h

private theorem quiet_totals (now : Nat) : ∀ (s0 : ρ) (l : List (α × Nat)), InTime l →
    quiet d now (totals f s0 l) = (quiet d now l).map fun c => ((upto c.2 l).foldl f s0, c.2)
  | _, [], _ => rfl
  | s0, (v, t) :: l, h => by
    have h' := List.pairwise_cons.mp h
    have ih := quiet_totals now (f s0 v) l h'.2
    have e : ((quiet d now l).map fun c => ((upto c.2 l).foldl f (f s0 v), c.2)) = (quiet d now l).map fun c => ((upto c.2 ((v, t) :: l)).foldl f s0, c.2) := by
      refine List.map_congr_left fun c hc => ?_
      have := quiet_late h'.1 c hc
      dsimp only at this
      rw [upto_cons, if_pos this]; rfl
    have hm : (∀ c ∈ totals f (f s0 v) l, t + d < c.2) ↔ ∀ c ∈ l, t + d < c.2 := by
      have a : ∀ {ι : Type} (l : List (ι × Nat)), (∀ c ∈ l, t + d < c.2) ↔ ∀ u ∈ l.map (·.2), t + d < u := fun l => List.forall_mem_map.symm
      rw [a, a, totals_times]
    rw [totals_cons, quiet, quiet]
    simp only [hm]
    split
    next hh =>
      rw [List.map_cons, ih, e]
      dsimp only
      rw [upto_cons, if_pos (by dsimp only; omega), upto_late hh.2]
      rfl
    next => rw [ih, e]

/-- C191: `pipe(source, debounce(d), scan(f, s0))`: the totals of those values only that nothing follows within `d`. -/
theorem C191_behind (hq : q.Lawful) (hc : op.Computes (Spec.scan f s0)) {ls s} (hr : LTS.run (behind q d op).step (behind q d op).init ls = some s)
    (hp : (behind q d op).Prompt (fun s => op.protected.slowProc.Quiescent s.2.ps) ls) (hs : op.protected.slowProc.Quiescent s.2.ps) (hd : Time.act (.inl (.inr .dispose)) ∉ ls)
    (hv : ∀ c ∈ q.calls s.1.1, c.1.isTerminal = false) (ha : Apart d (q.now s.1.1) (valuesAt (q.calls s.1.1))) :
    (behind q d op).calls s = (totals f s0 (quiet d (q.now s.1.1) (valuesAt (q.calls s.1.1)))).map fun c => (.next c.1, c.2) := by
  have l1 := Clocked.through_lawful hq (Debounce.stage_lawful (α := α) true d)
  have r1 := (Clocked.operate_source l1 hr).1
  have hd' : Time.act (.inr .dispose) ∉ Clocked.sources ls := by
    intro h
    obtain ⟨x, hx, hxe⟩ := List.mem_filterMap.mp h
    split at hxe <;> cases hxe
    exact hd hx
  have e1 := C119_debounce hq r1 hd' hv ha
  have o1 : OnlyValues s.1.2.posted := by rw [e1]; exact onlyValues_map _
  have e2 := Clocked.operate_values l1 hc.guarded.slow (F := totals f s0) rfl (fun cs t h => ⟨totals_inTime h, by rw [totals_upto t s0 cs h]; rfl⟩) (fun _ _ _ => trivial) hr hp hs o1
  have e3 : (q.through (Debounce.stage true d)).calls s.1 = s.1.2.posted := rfl
  rw [e3, e1, valuesAt_map] at e2
  exact e2

/-- C191: `pipe(source, scan(f, s0), debounce(d))`: whenever `d` have passed without a value, the total of all values so far, also of those that were followed soon. -/
theorem C191_before (hq : q.Lawful) (hg : ∀ ls s, LTS.run q.step q.init ls = some s → Grammar ((q.calls s).map (·.1)))
    (hc : op.Computes (Spec.scan f s0)) {ls s} (hr : LTS.run (DebounceMoves.before q op d).step (DebounceMoves.before q op d).init ls = some s)
    (hp : (DebounceMoves.before q op d).Prompt (fun s => op.direct.slowProc.Quiescent s.1.2.ps) ls) (hs : op.direct.slowProc.Quiescent s.1.2.ps) (hd : Time.act (.inr .dispose) ∉ ls)
    (hv : ∀ c ∈ q.calls s.1.1, c.1.isTerminal = false) (ha : Apart d (q.now s.1.1) (valuesAt (q.calls s.1.1))) :
    (DebounceMoves.before q op d).calls s =
      (quiet d (q.now s.1.1) (valuesAt (q.calls s.1.1))).map fun c => (.next ((upto c.2 (valuesAt (q.calls s.1.1))).foldl f s0), c.2) := by
  have l1 := Clocked.operate_lawful hq op.direct.slowProc
  have r1 := (Clocked.clocks l1 (Debounce.stage_lawful true d) hr).1
  have p1 := Clocked.Prompt.before (rest := fun s => op.direct.slowProc.Quiescent s.2.ps) l1 (Debounce.stage_lawful true d) hr hp
  have e1 : s.1.2.sent = (totals f s0 (valuesAt (q.calls s.1.1))).map fun c => (.next c.1, c.2) :=
    Clocked.operate_values hq hc.direct.slow rfl (fun cs t h => ⟨totals_inTime h, by rw [totals_upto t s0 cs h]; rfl⟩) hg r1 p1 hs hv
  have v1 : valuesAt ((q.operate op.direct.slowProc).calls s.1) = totals f s0 (valuesAt (q.calls s.1.1)) := by
    rw [show (q.operate op.direct.slowProc).calls s.1 = s.1.2.sent from rfl, e1, valuesAt_map]
  have o1 : OnlyValues s.1.2.sent := by rw [e1]; exact onlyValues_map _
  have hi := Nested.inTime_values (hq.inTime (Clocked.operate_source hq r1).1).1
  have ha' : Apart d (q.now s.1.1) (totals f s0 (valuesAt (q.calls s.1.1))) := by
    have a : ∀ {ι : Type} (l : List (ι × Nat)), Apart d (q.now s.1.1) l ↔ (l.map (·.2)).Pairwise (fun a b => a + d ≠ b) ∧ ∀ u ∈ l.map (·.2), u + d ≠ q.now s.1.1 :=
      fun l => by rw [Apart, List.pairwise_map, List.forall_mem_map]
    rw [a, totals_times, ← a]; exact ha
  have e2 := C119_debounce l1 hr hd o1 (by rw [v1]; exact ha')
  rw [v1] at e2
  rw [show (q.operate op.direct.slowProc).now s.1 = q.now s.1.1 from rfl, quiet_totals _ _ _ hi, List.map_map] at e2
  exact e2

/-- C191: the two orders send at the same times, only the totals differ. -/
theorem C191_same_times (hq : q.Lawful) (hg : ∀ ls s, LTS.run q.step q.init ls = some s → Grammar ((q.calls s).map (·.1)))
    (hc : op.Computes (Spec.scan f s0)) {ls s} (hr : LTS.run (behind q d op).step (behind q d op).init ls = some s)
    (hp : (behind q d op).Prompt (fun s => op.protected.slowProc.Quiescent s.2.ps) ls) (hs : op.protected.slowProc.Quiescent s.2.ps) (hd : Time.act (.inl (.inr .dispose)) ∉ ls)
    {ls' s'} (hr' : LTS.run (DebounceMoves.before q op d).step (DebounceMoves.before q op d).init ls' = some s')
    (hp' : (DebounceMoves.before q op d).Prompt (fun s => op.direct.slowProc.Quiescent s.1.2.ps) ls') (hs' : op.direct.slowProc.Quiescent s'.1.2.ps) (hd' : Time.act (.inr .dispose) ∉ ls')
    (hv : ∀ c ∈ q.calls s.1.1, c.1.isTerminal = false) (ha : Apart d (q.now s.1.1) (valuesAt (q.calls s.1.1)))
    (hsame : q.calls s'.1.1 = q.calls s.1.1) (hnow : q.now s'.1.1 = q.now s.1.1) :
    ((behind q d op).calls s).map (·.2) = ((DebounceMoves.before q op d).calls s').map (·.2) := by
  rw [C191_behind hq hc hr hp hs hd hv ha, C191_before hq hg hc hr' hp' hs' hd' (by rw [hsame]; exact hv) (by rw [hsame, hnow]; exact ha), hsame, hnow, List.map_map, List.map_map]
  exact totals_times _ _

section Examples
open DebounceMoves (demoBehind demoBefore demoBehindRun demoBeforeRun)

abbrev demoSum : Operator Nat Nat := scan (fun s x => .ok (s + x)) 0

/-- `pipe(subject, debounce(2), scan(add, 0))` and `pipe(subject, scan(add, 0), debounce(2))`; 2 is sent at 0, 3 at 1, 4 at 6 -/
abbrev sumBehind := demoBehindRun demoSum [.inl (), .inr ()]
abbrev sumBefore := demoBeforeRun demoSum [()]

set_option synthInstance.maxSize 2000 in
/-- C191: the order matters. The 2, which the 3 followed at once, counts only with `scan` before `debounce`. -/
theorem C191_order :
    (LTS.run (demoBehind demoSum).step (demoBehind demoSum).init sumBehind).map (fun s => ((demoBehind demoSum).calls s, s.1.1)) =
      some ([(.next 3, 3), (.next 7, 8)], 12, [(.next 2, 0), (.next 3, 1), (.next 4, 6)]) ∧
    (LTS.run (demoBefore demoSum).step (demoBefore demoSum).init sumBefore).map (fun s => ((demoBefore demoSum).calls s, s.1.1)) =
      some ([(.next 5, 3), (.next 9, 8)], 12, [(.next 2, 0), (.next 3, 1), (.next 4, 6)]) := by decide +kernel

set_option synthInstance.maxSize 2000 in
/-- The hypotheses of `C191_same_times`, and with them those of `C191_behind` and `C191_before`, are met. -/
example : ∃ s s', LTS.run (demoBehind demoSum).step (demoBehind demoSum).init sumBehind = some s ∧
    LTS.run (demoBefore demoSum).step (demoBefore demoSum).init sumBefore = some s' ∧ ((demoBehind demoSum).calls s).map (·.2) = ((demoBefore demoSum).calls s').map (·.2) := by
  have h1 : (LTS.run (demoBehind demoSum).step (demoBehind demoSum).init sumBehind).map (fun s => (s.1.1, DebounceMoves.idleBehind demoSum [.inl (), .inr ()] s.2.ps)) =
    some ((12, [(.next 2, 0), (.next 3, 1), (.next 4, 6)]), true) := by decide +kernel
  have h2 : (LTS.run (demoBefore demoSum).step (demoBefore demoSum).init sumBefore).map (fun s => (s.1.1, DebounceMoves.idleBefore demoSum [()] s.1.2.ps)) =
    some ((12, [(.next 2, 0), (.next 3, 1), (.next 4, 6)]), true) := by decide +kernel
  obtain ⟨s, g1, g2⟩ := Option.map_eq_some_iff.mp h1
  obtain ⟨s', g3, g4⟩ := Option.map_eq_some_iff.mp h2
  simp only [Prod.mk.injEq] at g2 g4
  have w1 : ∀ w : demoSum.protected.compileSlow.SlowLab, w ∈ ([.inl (), .inr ()] : List demoSum.protected.compileSlow.SlowLab) := fun
    | .inl () => .head _
    | .inr () => .tail _ (.head _)
  have w2 : ∀ w : demoSum.direct.compileSlow.SlowLab, w ∈ ([()] : List demoSum.direct.compileSlow.SlowLab) := fun () => .head _
  refine ⟨s, s', g1, g3, ?_⟩
  refine C191_same_times (Clocked.typed_lawful 0) (Clocked.typed_grammar 0) (C31_scan (fun s x => s + x) 0) g1
    (Clocked.Prompt.of_rests (q := demoBehind demoSum) (idle := fun s => DebounceMoves.idleBehind demoSum [.inl (), .inr ()] s.2.ps) (fun _ => DebounceMoves.quiescent_behind w1 _) (by decide +kernel))
    (DebounceMoves.quiescent_behind w1 _ g2.2) ?_ g3
    (Clocked.Prompt.of_rests (q := demoBefore demoSum) (idle := fun s => DebounceMoves.idleBefore demoSum [()] s.1.2.ps) (fun _ => DebounceMoves.quiescent_before w2 _) (by decide +kernel))
    (DebounceMoves.quiescent_before w2 _ g4.2) ?_ ?_ ?_ ?_ ?_
  · have : sumBehind.all (fun | .act (.inl (.inr .dispose)) => false | _ => true) = true := by decide +kernel
    exact fun h => by simpa using List.all_eq_true.mp this _ h
  · have : sumBefore.all (fun | .act (.inr .dispose) => false | _ => true) = true := by decide +kernel
    exact fun h => by simpa using List.all_eq_true.mp this _ h
  · rw [show (Clocked.typed 0 : Clocked _ Nat Nat).calls s.1.1 = s.1.1.2 from rfl, g2.1]; decide
  · rw [show (Clocked.typed 0 : Clocked _ Nat Nat).calls s.1.1 = s.1.1.2 from rfl, show (Clocked.typed 0 : Clocked _ Nat Nat).now s.1.1 = s.1.1.1 from rfl, g2.1]
    simp [Apart, valuesAt]
  · rw [show (Clocked.typed 0 : Clocked _ Nat Nat).calls s'.1.1 = s'.1.1.2 from rfl, g4.1, show (Clocked.typed 0 : Clocked _ Nat Nat).calls s.1.1 = s.1.1.2 from rfl, g2.1]
  · rw [show (Clocked.typed 0 : Clocked _ Nat Nat).now s'.1.1 = s'.1.1.1 from rfl, g4.1, show (Clocked.typed 0 : Clocked _ Nat Nat).now s.1.1 = s.1.1.1 from rfl, g2.1]

end Examples
end DebounceScan
end Aio
