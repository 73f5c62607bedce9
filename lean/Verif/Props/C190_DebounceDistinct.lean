import Verif.Props.C184_DebounceMoves
import Verif.Props.C45_52_Filtering
/-!
# C190: `distinct_until_changed` behind `debounce` and before it
-/

namespace Aio
open Spec Spec.Timed Spec.SearchBox
variable {S L α : Type} {q : Clocked S L α} {d : Nat} {op : Operator α α} {eq : α → α → Bool}

namespace DebounceDistinct
open DebounceMoves (behind)

/-- `changes` of values with times. -/
abbrev changesAt (eq : α → α → Bool) (cs : List (α × Nat)) := changes (fun a b => eq a.1 b.1) cs

/-- C190: `pipe(source, debounce(d), distinct_until_changed)`: of the values that nothing follows within `d`, those that differ from the one before. -/
theorem C190_behind (hq : q.Lawful) (hc : op.Computes (Spec.distinct eq)) {ls s} (hr : LTS.run (behind q d op).step (behind q d op).init ls = some s)
    (hp : (behind q d op).Prompt (fun s => op.protected.slowProc.Quiescent s.2.ps) ls) (hs : op.protected.slowProc.Quiescent s.2.ps) (hd : Time.act (.inl (.inr .dispose)) ∉ ls)
    (hv : ∀ c ∈ q.calls s.1.1, c.1.isTerminal = false) (ha : Apart d (q.now s.1.1) (valuesAt (q.calls s.1.1))) :
    (behind q d op).calls s = (changesAt eq (quiet d (q.now s.1.1) (valuesAt (q.calls s.1.1)))).map fun c => (.next c.1, c.2) := by
  have l1 := Clocked.through_lawful hq (Debounce.stage_lawful (α := α) true d)
  have r1 := (Clocked.operate_source l1 hr).1
  have hd' : Time.act (.inr .dispose) ∉ Clocked.sources ls := by
    intro h
    obtain ⟨x, hx, hxe⟩ := List.mem_filterMap.mp h
    split at hxe <;> cases hxe
    exact hd hx
  have e1 := C119_debounce hq r1 hd' hv ha
  have o1 : OnlyValues s.1.2.posted := by rw [e1]; exact onlyValues_map _
  have e2 := Clocked.operate_values l1 hc.guarded.slow (F := changesAt eq) rfl (fun cs t h => ⟨changes_inTime _ h, by rw [changes_upto eq t h]; rfl⟩) (fun _ _ _ => trivial) hr hp hs o1
  have e3 : (q.through (Debounce.stage true d)).calls s.1 = s.1.2.posted := rfl
  rw [e3, e1, valuesAt_map] at e2
  exact e2

/-- C190: `pipe(source, distinct_until_changed, debounce(d))`: of the values that differ from the one before, those that no other such value follows within `d`. -/
theorem C190_before (hq : q.Lawful) (hg : ∀ ls s, LTS.run q.step q.init ls = some s → Grammar ((q.calls s).map (·.1)))
    (hc : op.Computes (Spec.distinct eq)) {ls s} (hr : LTS.run (DebounceMoves.before q op d).step (DebounceMoves.before q op d).init ls = some s)
    (hp : (DebounceMoves.before q op d).Prompt (fun s => op.direct.slowProc.Quiescent s.1.2.ps) ls) (hs : op.direct.slowProc.Quiescent s.1.2.ps) (hd : Time.act (.inr .dispose) ∉ ls)
    (hv : ∀ c ∈ q.calls s.1.1, c.1.isTerminal = false) (ha : Apart d (q.now s.1.1) (changesAt eq (valuesAt (q.calls s.1.1)))) :
    (DebounceMoves.before q op d).calls s = (quiet d (q.now s.1.1) (changesAt eq (valuesAt (q.calls s.1.1)))).map fun c => (.next c.1, c.2) := by
  have l1 := Clocked.operate_lawful hq op.direct.slowProc
  have r1 := (Clocked.clocks l1 (Debounce.stage_lawful true d) hr).1
  have p1 := Clocked.Prompt.before (rest := fun s => op.direct.slowProc.Quiescent s.2.ps) l1 (Debounce.stage_lawful true d) hr hp
  have e1 : s.1.2.sent = (changesAt eq (valuesAt (q.calls s.1.1))).map fun c => (.next c.1, c.2) :=
    Clocked.operate_values hq hc.direct.slow rfl (fun cs t h => ⟨changes_inTime _ h, by rw [changes_upto eq t h]; rfl⟩) hg r1 p1 hs hv
  have v1 : valuesAt ((q.operate op.direct.slowProc).calls s.1) = changesAt eq (valuesAt (q.calls s.1.1)) := by
    rw [show (q.operate op.direct.slowProc).calls s.1 = s.1.2.sent from rfl, e1, valuesAt_map]
  have o1 : OnlyValues s.1.2.sent := by rw [e1]; exact onlyValues_map _
  have e2 := C119_debounce l1 hr hd o1 (by rw [v1]; exact ha)
  rw [v1] at e2
  exact e2

/-! ## what follows for the values -/

/-- The changes after `p`. -/
private def after (eq : α → α → Bool) (p : α × Nat) : List (α × Nat) → List (α × Nat)
  | [] => []
  | x :: xs => if eq x.1 p.1 then after eq x xs else x :: after eq x xs

private theorem changes_after (eq : α → α → Bool) (p : α × Nat) : ∀ xs : List (α × Nat), ((xs.zip (p :: xs)).filter fun c => !eq c.1.1 c.2.1).map Prod.fst = after eq p xs
  | [] => rfl
  | x :: xs => by
    rw [after, List.zip_cons_cons, List.filter_cons]
    cases h : eq x.1 p.1
    · simpa using changes_after eq x xs
    · simpa using changes_after eq x xs

private theorem changesAt_cons (eq : α → α → Bool) (x : α × Nat) (xs : List (α × Nat)) : changesAt eq (x :: xs) = x :: after eq x xs := by
  rw [changesAt, changes, changes_after]

private theorem after_sublist (eq : α → α → Bool) : ∀ (p : α × Nat) (xs : List (α × Nat)), (after eq p xs).Sublist xs
  | _, [] => List.Sublist.refl _
  | p, x :: xs => by
    rw [after]
    split
    · exact (after_sublist eq x xs).cons _
    · exact (after_sublist eq x xs).cons_cons _

private theorem changesAt_sublist (eq : α → α → Bool) : ∀ xs : List (α × Nat), (changesAt eq xs).Sublist xs
  | [] => List.Sublist.refl _
  | x :: xs => by rw [changesAt_cons]; exact (after_sublist eq x xs).cons_cons _

private theorem after_apart [DecidableEq α] : ∀ (p q : α × Nat) (xs : List (α × Nat)), p.1 = q.1 → ∀ i a b, (q :: after (fun a b => a == b) p xs)[i]? = some a →
    (q :: after (fun a b => a == b) p xs)[i + 1]? = some b → a.1 ≠ b.1
  | p, q, [], _, i, a, b, _, h2 => by simp [after] at h2
  | p, q, x :: xs, hpq, i, a, b, h1, h2 => by
    rw [after] at h1 h2
    split at h1
    next he =>
      rw [if_pos he] at h2
      exact after_apart x q xs (by rw [eq_of_beq he, hpq]) i a b h1 h2
    next he =>
      rw [if_neg he] at h2
      cases i with
      | zero =>
        cases h1; cases h2
        exact fun h => he (beq_iff_eq.mpr (by rw [← h, hpq]))
      | succ i => exact after_apart x x xs rfl i a b h1 h2

private theorem changesAt_apart [DecidableEq α] {l : List (α × Nat)} {i : Nat} {v w : α} {t u : Nat} (h1 : (changesAt (fun a b => a == b) l)[i]? = some (v, t))
    (h2 : (changesAt (fun a b => a == b) l)[i + 1]? = some (w, u)) : v ≠ w := by
  cases l with
  | nil => cases h1
  | cons x xs => rw [changesAt_cons] at h1 h2; exact after_apart x x xs rfl i _ _ h1 h2

private theorem quiet_cons {now : Nat} {x c : α × Nat} {l : List (α × Nat)} (h : c ∈ quiet d now l) : c ∈ quiet d now (x :: l) := by
  obtain ⟨v, t⟩ := x
  rw [quiet]
  split
  · exact List.mem_cons_of_mem _ h
  · exact h

private theorem quiet_head {now : Nat} {v : α} {t : Nat} {l : List (α × Nat)} (h1 : t + d < now) (h2 : ∀ c ∈ l, t + d < c.2) : (v, t + d) ∈ quiet d now ((v, t) :: l) := by
  rw [quiet, if_pos ⟨h1, h2⟩]; exact List.mem_cons_self ..

private theorem held [DecidableEq α] (now : Nat) (v : α) (u : Nat) : ∀ (p : α × Nat) (l : List (α × Nat)), InTime l → (v, u) ∈ quiet d now l →
    u < now ∧ (∃ c ∈ l, c.2 + d = u) ∧
    ((∃ u' ≤ u, (v, u') ∈ quiet d now (after (fun a b => a == b) p l)) ∨ (p.1 = v ∧ ∀ c ∈ after (fun a b => a == b) p l, u < c.2))
  | _, [], _, h => by simp [quiet] at h
  | p, (w, t) :: l, hi, h => by
    have hi' := List.pairwise_cons.mp hi
    have step : (v, u) ∈ quiet d now l → u < now ∧ (∃ c ∈ (w, t) :: l, c.2 + d = u) ∧
        ((∃ u' ≤ u, (v, u') ∈ quiet d now (after (fun a b => a == b) p ((w, t) :: l))) ∨ (p.1 = v ∧ ∀ c ∈ after (fun a b => a == b) p ((w, t) :: l), u < c.2)) := by
      intro h
      obtain ⟨g1, ⟨c, g2, g3⟩, g4⟩ := held now v u (w, t) l hi'.2 h
      have ht : t + d ≤ u := by have := hi'.1 c g2; dsimp only at this; omega
      refine ⟨g1, ⟨c, List.mem_cons_of_mem _ g2, g3⟩, ?_⟩
      rw [after]
      rcases g4 with ⟨u', k1, k2⟩ | ⟨k1, k2⟩
      · refine .inl ⟨u', k1, ?_⟩
        split
        · exact k2
        · exact quiet_cons k2
      · dsimp only at k1
        subst k1
        split
        next he => exact .inr ⟨(eq_of_beq he).symm, k2⟩
        · exact .inl ⟨t + d, ht, quiet_head (by omega) fun c hc => by have := k2 c hc; omega⟩
    rw [quiet] at h
    split at h
    next hq =>
      rcases List.mem_cons.mp h with h | h
      · cases h
        have hsub : ∀ c ∈ after (fun a b => a == b) (v, t) l, t + d < c.2 := fun c hc => hq.2 c ((after_sublist _ _ _).subset hc)
        refine ⟨hq.1, ⟨_, List.mem_cons_self .., rfl⟩, ?_⟩
        rw [after]
        split
        next he => exact .inr ⟨(eq_of_beq he).symm, hsub⟩
        · exact .inl ⟨t + d, Nat.le_refl _, quiet_head hq.1 hsub⟩
      · exact step h
    next => exact step h

private theorem quiet_changes [DecidableEq α] {now : Nat} {v : α} {u : Nat} : ∀ {l : List (α × Nat)}, InTime l → (v, u) ∈ quiet d now l →
    ∃ u' ≤ u, (v, u') ∈ quiet d now (changesAt (fun a b => a == b) l)
  | [], _, h => by simp [quiet] at h
  | (w, t) :: l, hi, h => by
    have hi' := List.pairwise_cons.mp hi
    rw [changesAt_cons]
    rw [quiet] at h
    have step : (v, u) ∈ quiet d now l → ∃ u' ≤ u, (v, u') ∈ quiet d now ((w, t) :: after (fun a b => a == b) (w, t) l) := fun h => by
      obtain ⟨g1, ⟨c, g2, g3⟩, g4⟩ := held now v u (w, t) l hi'.2 h
      have ht : t + d ≤ u := by have := hi'.1 c g2; dsimp only at this; omega
      rcases g4 with ⟨u', k1, k2⟩ | ⟨k1, k2⟩
      · exact ⟨u', k1, quiet_cons k2⟩
      · dsimp only at k1
        subst k1
        exact ⟨t + d, ht, quiet_head (by omega) fun c hc => by have := k2 c hc; omega⟩
    split at h
    next hq =>
      rcases List.mem_cons.mp h with h | h
      · cases h
        exact ⟨_, Nat.le_refl _, quiet_head hq.1 fun c hc => hq.2 c ((after_sublist _ _ _).subset hc)⟩
      · exact step h
    next => exact step h

/-- C190: with `distinct_until_changed` behind, the same value is never sent twice in a row. -/
theorem C190_no_repeat [DecidableEq α] (hq : q.Lawful) (hc : op.Computes (Spec.distinct fun a b => a == b)) {ls s} (hr : LTS.run (behind q d op).step (behind q d op).init ls = some s)
    (hp : (behind q d op).Prompt (fun s => op.protected.slowProc.Quiescent s.2.ps) ls) (hs : op.protected.slowProc.Quiescent s.2.ps) (hd : Time.act (.inl (.inr .dispose)) ∉ ls)
    (hv : ∀ c ∈ q.calls s.1.1, c.1.isTerminal = false) (ha : Apart d (q.now s.1.1) (valuesAt (q.calls s.1.1)))
    {i : Nat} {v w : α} {t u : Nat} (h1 : ((behind q d op).calls s)[i]? = some (.next v, t)) (h2 : ((behind q d op).calls s)[i + 1]? = some (.next w, u)) : v ≠ w := by
  rw [C190_behind hq hc hr hp hs hd hv ha, List.getElem?_map] at h1 h2
  obtain ⟨⟨v', t'⟩, g1, g2⟩ := Option.map_eq_some_iff.mp h1
  obtain ⟨⟨w', u'⟩, g3, g4⟩ := Option.map_eq_some_iff.mp h2
  cases g2; cases g4
  exact changesAt_apart g1 g3

/-- C190: with `distinct_until_changed` before, every value that is sent with it behind is sent as well, at the same time or earlier: a value that is repeated does not start the time anew. -/
theorem C190_earlier [DecidableEq α] (hq : q.Lawful) (hg : ∀ ls s, LTS.run q.step q.init ls = some s → Grammar ((q.calls s).map (·.1)))
    (hc : op.Computes (Spec.distinct fun a b => a == b)) {ls s} (hr : LTS.run (behind q d op).step (behind q d op).init ls = some s)
    (hp : (behind q d op).Prompt (fun s => op.protected.slowProc.Quiescent s.2.ps) ls) (hs : op.protected.slowProc.Quiescent s.2.ps) (hd : Time.act (.inl (.inr .dispose)) ∉ ls)
    {ls' s'} (hr' : LTS.run (DebounceMoves.before q op d).step (DebounceMoves.before q op d).init ls' = some s')
    (hp' : (DebounceMoves.before q op d).Prompt (fun s => op.direct.slowProc.Quiescent s.1.2.ps) ls') (hs' : op.direct.slowProc.Quiescent s'.1.2.ps) (hd' : Time.act (.inr .dispose) ∉ ls')
    (hv : ∀ c ∈ q.calls s.1.1, c.1.isTerminal = false) (ha : Apart d (q.now s.1.1) (valuesAt (q.calls s.1.1)))
    (hsame : q.calls s'.1.1 = q.calls s.1.1) (hnow : q.now s'.1.1 = q.now s.1.1) {v : α} {u : Nat} (h : (.next v, u) ∈ (behind q d op).calls s) :
    ∃ u' ≤ u, (.next v, u') ∈ (DebounceMoves.before q op d).calls s' := by
  have l1 := Clocked.through_lawful hq (Debounce.stage_lawful (α := α) true d)
  have r0 := (Clocked.clocks hq (Debounce.stage_lawful true d) (Clocked.operate_source l1 hr).1).1
  rw [C190_behind hq hc hr hp hs hd hv ha] at h
  obtain ⟨⟨v', u'⟩, g1, g2⟩ := List.mem_map.mp h
  cases g2
  obtain ⟨t, k1, k2⟩ := quiet_changes (Nested.inTime_values (hq.inTime r0).1) ((changesAt_sublist _ _).subset g1)
  refine ⟨t, k1, ?_⟩
  rw [C190_before hq hg hc hr' hp' hs' hd' (by rw [hsame]; exact hv) ?_, hsame, hnow]
  · exact List.mem_map.mpr ⟨_, k2, rfl⟩
  · rw [hsame, hnow]
    exact ⟨ha.1.sublist (changesAt_sublist _ _), fun c hc => ha.2 c ((changesAt_sublist _ _).subset hc)⟩

section Examples
open Debounces (driven)
open DebounceMoves (demoBehind demoBefore demoTimers)

abbrev demoDistinct : Operator Nat Nat := distinctUntilChanged fun a b => .ok (a == b)
abbrev worksBehind : List demoDistinct.protected.compileSlow.SlowLab := [.inl (), .inr (.inl ()), .inr (.inr (.inl ())), .inr (.inr (.inr ()))]
abbrev worksBefore : List demoDistinct.direct.compileSlow.SlowLab := [.inl (), .inr (.inl ()), .inr (.inr ())]
/-- 1 is sent at 0 and at 1, 2 at 6, 1 at 7 -/
abbrev demoTyped : List (Option Nat) := [some 1, none, some 1, none, none, none, none, none, some 2, none, some 1] ++ List.replicate 5 none
/-- `pipe(subject, debounce(2), distinct_until_changed)` and `pipe(subject, distinct_until_changed, debounce(2))` -/
def runBehind := driven (demoBehind demoDistinct) (.inl ∘ .inl) (demoTimers.map (.inl ∘ .inr) ++ worksBehind.map .inr) 200 demoTyped (demoBehind demoDistinct).init
def runBefore := driven (demoBefore demoDistinct) (.inl ∘ .inl) (demoTimers.map .inr ++ worksBefore.map (.inl ∘ .inr)) 200 demoTyped (demoBefore demoDistinct).init

set_option synthInstance.maxSize 2000 in
/-- C190: the order matters. The repeated 1 starts the time anew only if `debounce` sees it; and if `distinct_until_changed` stands before `debounce`, the same value can be sent twice in a row, as it was
the 2 between them that was dropped. -/
theorem C190_order :
    (LTS.run (demoBehind demoDistinct).step (demoBehind demoDistinct).init runBehind).map (fun s => ((demoBehind demoDistinct).calls s, s.1.1)) =
      some ([(.next 1, 3)], 12, [(.next 1, 0), (.next 1, 1), (.next 2, 6), (.next 1, 7)]) ∧
    (LTS.run (demoBefore demoDistinct).step (demoBefore demoDistinct).init runBefore).map (fun s => ((demoBefore demoDistinct).calls s, s.1.1)) =
      some ([(.next 1, 2), (.next 1, 9)], 12, [(.next 1, 0), (.next 1, 1), (.next 2, 6), (.next 1, 7)]) := by decide +kernel

set_option synthInstance.maxSize 2000 in
/-- The hypotheses of `C190_earlier`, and with them those of `C190_behind`, `C190_before` and `C190_no_repeat`, are met. -/
example : ∃ s s', LTS.run (demoBehind demoDistinct).step (demoBehind demoDistinct).init runBehind = some s ∧
    LTS.run (demoBefore demoDistinct).step (demoBefore demoDistinct).init runBefore = some s' ∧ ∃ u' ≤ 3, (.next 1, u') ∈ (demoBefore demoDistinct).calls s' := by
  have h1 : (LTS.run (demoBehind demoDistinct).step (demoBehind demoDistinct).init runBehind).map
      (fun s => ((demoBehind demoDistinct).calls s, s.1.1, DebounceMoves.idleBehind demoDistinct worksBehind s.2.ps)) =
    some ([(.next 1, 3)], (12, [(.next 1, 0), (.next 1, 1), (.next 2, 6), (.next 1, 7)]), true) := by decide +kernel
  have h2 : (LTS.run (demoBefore demoDistinct).step (demoBefore demoDistinct).init runBefore).map (fun s => (s.1.1, DebounceMoves.idleBefore demoDistinct worksBefore s.1.2.ps)) =
    some ((12, [(.next 1, 0), (.next 1, 1), (.next 2, 6), (.next 1, 7)]), true) := by decide +kernel
  obtain ⟨s, g1, g2⟩ := Option.map_eq_some_iff.mp h1
  obtain ⟨s', g3, g4⟩ := Option.map_eq_some_iff.mp h2
  simp only [Prod.mk.injEq] at g2 g4
  have w1 : ∀ w, w ∈ worksBehind := fun
    | .inl () => .head _
    | .inr (.inl ()) => .tail _ (.head _)
    | .inr (.inr (.inl ())) => .tail _ (.tail _ (.head _))
    | .inr (.inr (.inr ())) => .tail _ (.tail _ (.tail _ (.head _)))
  have w2 : ∀ w, w ∈ worksBefore := fun
    | .inl () => .head _
    | .inr (.inl ()) => .tail _ (.head _)
    | .inr (.inr ()) => .tail _ (.tail _ (.head _))
  refine ⟨s, s', g1, g3, ?_⟩
  refine C190_earlier (Clocked.typed_lawful 0) (Clocked.typed_grammar 0) (C50_distinct fun a b => a == b) g1
    (Clocked.Prompt.of_rests (q := demoBehind demoDistinct) (idle := fun s => DebounceMoves.idleBehind demoDistinct worksBehind s.2.ps) (fun _ => DebounceMoves.quiescent_behind w1 _) (by decide +kernel))
    (DebounceMoves.quiescent_behind w1 _ g2.2.2) ?_ g3
    (Clocked.Prompt.of_rests (q := demoBefore demoDistinct) (idle := fun s => DebounceMoves.idleBefore demoDistinct worksBefore s.1.2.ps) (fun _ => DebounceMoves.quiescent_before w2 _) (by decide +kernel))
    (DebounceMoves.quiescent_before w2 _ g4.2) ?_ ?_ ?_ ?_ ?_ (v := 1) (u := 3) ?_
  · have : runBehind.all (fun | .act (.inl (.inr .dispose)) => false | _ => true) = true := by decide +kernel
    exact fun h => by simpa using List.all_eq_true.mp this _ h
  · have : runBefore.all (fun | .act (.inr .dispose) => false | _ => true) = true := by decide +kernel
    exact fun h => by simpa using List.all_eq_true.mp this _ h
  · rw [show (Clocked.typed 0 : Clocked _ Nat Nat).calls s.1.1 = s.1.1.2 from rfl, g2.2.1]; decide
  · rw [show (Clocked.typed 0 : Clocked _ Nat Nat).calls s.1.1 = s.1.1.2 from rfl, show (Clocked.typed 0 : Clocked _ Nat Nat).now s.1.1 = s.1.1.1 from rfl, g2.2.1]
    simp [Apart, valuesAt]
  · rw [show (Clocked.typed 0 : Clocked _ Nat Nat).calls s'.1.1 = s'.1.1.2 from rfl, g4.1, show (Clocked.typed 0 : Clocked _ Nat Nat).calls s.1.1 = s.1.1.2 from rfl, g2.2.1]
  · rw [show (Clocked.typed 0 : Clocked _ Nat Nat).now s'.1.1 = s'.1.1.1 from rfl, g4.1, show (Clocked.typed 0 : Clocked _ Nat Nat).now s.1.1 = s.1.1.1 from rfl, g2.2.1]
  · rw [g2.1]; simp

end Examples
end DebounceDistinct
end Aio
