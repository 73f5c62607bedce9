import Verif.Props.C184_DebounceMoves
import Verif.Props.C45_52_Filtering
/-!
# C193: `skip` before `debounce` and behind it
-/

namespace Aio
open Spec Spec.Timed Spec.SearchBox
variable {S L α : Type} {q : Clocked S L α} {d n : Nat} {op : Operator α α}

namespace DebounceSkip
open DebounceMoves (behind)

private theorem upto_late {ι : Type} {t : Nat} {cs : List (ι × Nat)} (h : ∀ c ∈ cs, t < c.2) : upto t cs = [] := by
  rw [upto, List.filter_eq_nil_iff.mpr]
  · rfl
  · intro c hc; have := h c hc; simp; omega

private theorem drop_upto (t : Nat) : ∀ (n : Nat) (cs : List (α × Nat)), InTime cs → upto t (cs.drop n) = (upto t cs).drop n
  | 0, _, _ => rfl
  | _ + 1, [], _ => rfl
  | n + 1, c :: cs, h => by
    have h' := List.pairwise_cons.mp h
    rw [List.drop_succ_cons, drop_upto t n cs h'.2, upto_cons]
    split
    · rfl
    · rw [upto_late (cs := cs) fun x hx => by have := h'.1 x hx; omega, List.drop_nil, List.drop_nil]

private theorem skip_law (n : Nat) (cs : List (α × Nat)) (t : Nat) (h : InTime cs) :
    InTime (cs.drop n) ∧ Spec.skip n ⟨upto t cs, .running⟩ = ⟨upto t (cs.drop n), .running⟩ :=
  ⟨h.sublist (List.drop_sublist ..), by rw [drop_upto t n cs h, Spec.skip, Int.toNat_natCast]⟩

/-- C193: `pipe(source, debounce(d), skip(n))`: of the values that nothing follows within `d`, all but the first `n`. -/
theorem C193_behind (hq : q.Lawful) (hc : op.Computes (Spec.skip n)) {ls s} (hr : LTS.run (behind q d op).step (behind q d op).init ls = some s)
    (hp : (behind q d op).Prompt (fun s => op.protected.slowProc.Quiescent s.2.ps) ls) (hs : op.protected.slowProc.Quiescent s.2.ps) (hd : Time.act (.inl (.inr .dispose)) ∉ ls)
    (hv : ∀ c ∈ q.calls s.1.1, c.1.isTerminal = false) (ha : Apart d (q.now s.1.1) (valuesAt (q.calls s.1.1))) :
    (behind q d op).calls s = ((quiet d (q.now s.1.1) (valuesAt (q.calls s.1.1))).drop n).map fun c => (.next c.1, c.2) := by
  have l1 := Clocked.through_lawful hq (Debounce.stage_lawful (α := α) true d)
  have r1 := (Clocked.operate_source l1 hr).1
  have hd' : Time.act (.inr .dispose) ∉ Clocked.sources ls := by
    intro h
    obtain ⟨x, hx, hxe⟩ := List.mem_filterMap.mp h
    split at hxe <;> cases hxe
    exact hd hx
  have e1 := C119_debounce hq r1 hd' hv ha
  have o1 : OnlyValues s.1.2.posted := by rw [e1]; exact onlyValues_map _
  have e2 := Clocked.operate_values l1 hc.guarded.slow (F := List.drop n) (by simp [Spec.skip, Story.events, End.events]) (fun cs t h => skip_law n cs t h) (fun _ _ _ => trivial) hr hp hs o1
  have e3 : (q.through (Debounce.stage true d)).calls s.1 = s.1.2.posted := rfl
  rw [e3, e1, valuesAt_map] at e2
  exact e2

/-- C193: `pipe(source, skip(n), debounce(d))`: of the source's values after the first `n`, those that nothing follows within `d`. -/
theorem C193_before (hq : q.Lawful) (hg : ∀ ls s, LTS.run q.step q.init ls = some s → Grammar ((q.calls s).map (·.1)))
    (hc : op.Computes (Spec.skip n)) {ls s} (hr : LTS.run (DebounceMoves.before q op d).step (DebounceMoves.before q op d).init ls = some s)
    (hp : (DebounceMoves.before q op d).Prompt (fun s => op.direct.slowProc.Quiescent s.1.2.ps) ls) (hs : op.direct.slowProc.Quiescent s.1.2.ps) (hd : Time.act (.inr .dispose) ∉ ls)
    (hv : ∀ c ∈ q.calls s.1.1, c.1.isTerminal = false) (ha : Apart d (q.now s.1.1) ((valuesAt (q.calls s.1.1)).drop n)) :
    (DebounceMoves.before q op d).calls s = (quiet d (q.now s.1.1) ((valuesAt (q.calls s.1.1)).drop n)).map fun c => (.next c.1, c.2) := by
  have l1 := Clocked.operate_lawful hq op.direct.slowProc
  have r1 := (Clocked.clocks l1 (Debounce.stage_lawful true d) hr).1
  have p1 := Clocked.Prompt.before (rest := fun s => op.direct.slowProc.Quiescent s.2.ps) l1 (Debounce.stage_lawful true d) hr hp
  have e1 : s.1.2.sent = ((valuesAt (q.calls s.1.1)).drop n).map fun c => (.next c.1, c.2) :=
    Clocked.operate_values hq hc.direct.slow (by simp [Spec.skip, Story.events, End.events]) (fun cs t h => skip_law n cs t h) hg r1 p1 hs hv
  have v1 : valuesAt ((q.operate op.direct.slowProc).calls s.1) = (valuesAt (q.calls s.1.1)).drop n := by
    rw [show (q.operate op.direct.slowProc).calls s.1 = s.1.2.sent from rfl, e1, valuesAt_map]
  have o1 : OnlyValues s.1.2.sent := by rw [e1]; exact onlyValues_map _
  have e2 := C119_debounce l1 hr hd o1 (by rw [v1]; exact ha)
  rw [v1] at e2
  exact e2

private theorem quiet_drop (now : Nat) : ∀ (n : Nat) (l : List (α × Nat)), ∃ pre, pre.length ≤ n ∧ quiet d now l = pre ++ quiet d now (l.drop n)
  | 0, _ => ⟨[], Nat.le_refl _, rfl⟩
  | _ + 1, [] => ⟨[], Nat.zero_le _, rfl⟩
  | n + 1, (v, t) :: l => by
    obtain ⟨pre, h1, h2⟩ := quiet_drop now n l
    rw [List.drop_succ_cons, quiet]
    split
    · exact ⟨(v, t + d) :: pre, by rw [List.length_cons]; omega, by rw [h2]; rfl⟩
    · exact ⟨pre, by omega, h2⟩

/-- C193: with `skip` behind, the last of the values that are sent with it before, at the same times, and no others: `skip(n)` behind drops at least as much, as it counts only values that are followed by a pause. -/
theorem C193_suffix (hq : q.Lawful) (hg : ∀ ls s, LTS.run q.step q.init ls = some s → Grammar ((q.calls s).map (·.1)))
    (hc : op.Computes (Spec.skip n)) {ls s} (hr : LTS.run (behind q d op).step (behind q d op).init ls = some s)
    (hp : (behind q d op).Prompt (fun s => op.protected.slowProc.Quiescent s.2.ps) ls) (hs : op.protected.slowProc.Quiescent s.2.ps) (hd : Time.act (.inl (.inr .dispose)) ∉ ls)
    {ls' s'} (hr' : LTS.run (DebounceMoves.before q op d).step (DebounceMoves.before q op d).init ls' = some s')
    (hp' : (DebounceMoves.before q op d).Prompt (fun s => op.direct.slowProc.Quiescent s.1.2.ps) ls') (hs' : op.direct.slowProc.Quiescent s'.1.2.ps) (hd' : Time.act (.inr .dispose) ∉ ls')
    (hv : ∀ c ∈ q.calls s.1.1, c.1.isTerminal = false) (ha : Apart d (q.now s.1.1) (valuesAt (q.calls s.1.1)))
    (hsame : q.calls s'.1.1 = q.calls s.1.1) (hnow : q.now s'.1.1 = q.now s.1.1) :
    (behind q d op).calls s <:+ (DebounceMoves.before q op d).calls s' := by
  have ha' : Apart d (q.now s.1.1) ((valuesAt (q.calls s.1.1)).drop n) := ⟨ha.1.sublist (List.drop_sublist ..), fun c hc => ha.2 c (List.mem_of_mem_drop hc)⟩
  rw [C193_behind hq hc hr hp hs hd hv ha, C193_before hq hg hc hr' hp' hs' hd' (by rw [hsame]; exact hv) (by rw [hsame, hnow]; exact ha'), hsame, hnow]
  obtain ⟨pre, h1, h2⟩ := quiet_drop (d := d) (q.now s.1.1) n (valuesAt (q.calls s.1.1))
  rw [h2, List.drop_append, List.drop_eq_nil_of_le h1, List.nil_append]
  exact (List.drop_suffix _ _).map _

section Examples
open DebounceMoves (demoBehind demoBefore demoBehindRun demoBeforeRun)

abbrev demoSkip : Operator Nat Nat := skip 1
/-- `pipe(subject, debounce(2), skip(1))` and `pipe(subject, skip(1), debounce(2))`; 2 is sent at 0, 3 at 1, 4 at 6 -/
abbrev worksBehind : List demoSkip.protected.compileSlow.SlowLab := [.inl (), .inr (.inl ()), .inr (.inr ())]
abbrev worksBefore : List demoSkip.direct.compileSlow.SlowLab := [.inl (), .inr ()]
abbrev runBehind := demoBehindRun demoSkip worksBehind
abbrev runBefore := demoBeforeRun demoSkip worksBefore

set_option synthInstance.maxSize 2000 in
/-- C193: `skip(1)` before `debounce` drops the 2, which would not have been sent anyway; behind, it drops the 3. -/
theorem C193_order :
    (LTS.run (demoBehind demoSkip).step (demoBehind demoSkip).init runBehind).map (fun s => ((demoBehind demoSkip).calls s, s.1.1)) =
      some ([(.next 4, 8)], 12, [(.next 2, 0), (.next 3, 1), (.next 4, 6)]) ∧
    (LTS.run (demoBefore demoSkip).step (demoBefore demoSkip).init runBefore).map (fun s => ((demoBefore demoSkip).calls s, s.1.1)) =
      some ([(.next 3, 3), (.next 4, 8)], 12, [(.next 2, 0), (.next 3, 1), (.next 4, 6)]) := by decide +kernel

set_option synthInstance.maxSize 2000 in
/-- The hypotheses of `C193_suffix`, and with them those of `C193_behind` and `C193_before`, are met. -/
example : ∃ s s', LTS.run (demoBehind demoSkip).step (demoBehind demoSkip).init runBehind = some s ∧
    LTS.run (demoBefore demoSkip).step (demoBefore demoSkip).init runBefore = some s' ∧ (demoBehind demoSkip).calls s <:+ (demoBefore demoSkip).calls s' := by
  have h1 : (LTS.run (demoBehind demoSkip).step (demoBehind demoSkip).init runBehind).map (fun s => (s.1.1, DebounceMoves.idleBehind demoSkip worksBehind s.2.ps)) =
    some ((12, [(.next 2, 0), (.next 3, 1), (.next 4, 6)]), true) := by decide +kernel
  have h2 : (LTS.run (demoBefore demoSkip).step (demoBefore demoSkip).init runBefore).map (fun s => (s.1.1, DebounceMoves.idleBefore demoSkip worksBefore s.1.2.ps)) =
    some ((12, [(.next 2, 0), (.next 3, 1), (.next 4, 6)]), true) := by decide +kernel
  obtain ⟨s, g1, g2⟩ := Option.map_eq_some_iff.mp h1
  obtain ⟨s', g3, g4⟩ := Option.map_eq_some_iff.mp h2
  simp only [Prod.mk.injEq] at g2 g4
  have w1 : ∀ w, w ∈ worksBehind := fun
    | .inl () => .head _
    | .inr (.inl ()) => .tail _ (.head _)
    | .inr (.inr ()) => .tail _ (.tail _ (.head _))
  have w2 : ∀ w, w ∈ worksBefore := fun
    | .inl () => .head _
    | .inr () => .tail _ (.head _)
  refine ⟨s, s', g1, g3, ?_⟩
  refine C193_suffix (n := 1) (Clocked.typed_lawful 0) (Clocked.typed_grammar 0) (C45_skip 1) g1
    (Clocked.Prompt.of_rests (q := demoBehind demoSkip) (idle := fun s => DebounceMoves.idleBehind demoSkip worksBehind s.2.ps) (fun _ => DebounceMoves.quiescent_behind w1 _) (by decide +kernel))
    (DebounceMoves.quiescent_behind w1 _ g2.2) ?_ g3
    (Clocked.Prompt.of_rests (q := demoBefore demoSkip) (idle := fun s => DebounceMoves.idleBefore demoSkip worksBefore s.1.2.ps) (fun _ => DebounceMoves.quiescent_before w2 _) (by decide +kernel))
    (DebounceMoves.quiescent_before w2 _ g4.2) ?_ ?_ ?_ ?_ ?_
  · have : runBehind.all (fun | .act (.inl (.inr .dispose)) => false | _ => true) = true := by decide +kernel
    exact fun h => by simpa using List.all_eq_true.mp this _ h
  · have : runBefore.all (fun | .act (.inr .dispose) => false | _ => true) = true := by decide +kernel
    exact fun h => by simpa using List.all_eq_true.mp this _ h
  · rw [show (Clocked.typed 0 : Clocked _ Nat Nat).calls s.1.1 = s.1.1.2 from rfl, g2.1]; decide
  · rw [show (Clocked.typed 0 : Clocked _ Nat Nat).calls s.1.1 = s.1.1.2 from rfl, show (Clocked.typed 0 : Clocked _ Nat Nat).now s.1.1 = s.1.1.1 from rfl, g2.1]
    simp [Apart, valuesAt]
  · rw [show (Clocked.typed 0 : Clocked _ Nat Nat).calls s'.1.1 = s'.1.1.2 from rfl, g4.1, show (Clocked.typed 0 : Clocked _ Nat Nat).calls s.1.1 = s.1.1.2 from rfl, g2.1]
  · rw [show (Clocked.typed 0 : Clocked _ Nat Nat).now s'.1.1 = s'.1.1.1 from rfl, g4.1, show (Clocked.typed 0 : Clocked _ Nat Nat).now s.1.1 = s.1.1.1 from rfl, g2.1]

end Examples
end DebounceSkip
end Aio
