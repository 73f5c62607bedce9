import Verif.Props.C184_DebounceMoves
import Verif.Props.C45_52_Filtering
/-!
# C192: `take` behind `debounce` and before it
-/

namespace Aio
open Spec Spec.Timed Spec.SearchBox
variable {S L α : Type} {q : Clocked S L α} {d n : Nat} {op : Operator α α}

namespace DebounceTake
open DebounceMoves (behind)
open Spec.Debounce (seen timedValues)

/-- The first `n` values, and the completion together with the last of them. -/
def first : Nat → List (α × Nat) → List (Notif α × Nat)
  | _, [] => []
  | 0, _ :: _ => []
  | n + 1, c :: cs => (.next c.1, c.2) :: if n = 0 then [(.completed, c.2)] else first n cs

private theorem first_late : ∀ {n : Nat} {cs : List (α × Nat)} {t : Nat}, (∀ c ∈ cs, t ≤ c.2) → ∀ x ∈ first n cs, t ≤ x.2
  | _, [], _, _, _, hx => by simp [first] at hx
  | 0, _ :: _, _, _, _, hx => by simp [first] at hx
  | n + 1, c :: cs, t, h, x, hx => by
    have hc := h c (List.mem_cons_self ..)
    rw [first] at hx
    rcases List.mem_cons.mp hx with rfl | hx
    · exact hc
    · split at hx
      · rw [List.mem_singleton.mp hx]; exact hc
      · exact first_late (fun c hc => h c (List.mem_cons_of_mem _ hc)) x hx

private theorem first_inTime : ∀ {n : Nat} {cs : List (α × Nat)}, InTime cs → InTime (first n cs)
  | _, [], _ => by rw [first]; exact .nil
  | 0, _ :: _, _ => by rw [first]; exact .nil
  | n + 1, c :: cs, h => by
    have h' := List.pairwise_cons.mp h
    rw [first]
    refine List.pairwise_cons.mpr ⟨fun x hx => ?_, ?_⟩
    · split at hx
      · rw [List.mem_singleton.mp hx]; exact Nat.le_refl _
      · exact first_late h'.1 x hx
    · split
      · exact List.pairwise_singleton ..
      · exact first_inTime h'.2

private theorem upto_late {ι : Type} {t : Nat} {cs : List (ι × Nat)} (h : ∀ c ∈ cs, t < c.2) : upto t cs = [] := by
  rw [upto, List.filter_eq_nil_iff.mpr]
  · rfl
  · intro c hc; have := h c hc; simp; omega

private theorem take_none (hn : 0 < n) : (Spec.take (n : Int) (⟨[], .running⟩ : Story α)).events = [] := by
  simp only [Spec.take, Story.events, List.take_nil, List.map_nil, List.length_nil]
  rw [if_neg (by omega)]; rfl

private theorem first_upto (t : Nat) : ∀ {n : Nat} {cs : List (α × Nat)}, 0 < n → InTime cs → upto t (first n cs) = (Spec.take n ⟨upto t cs, .running⟩).events
  | n, [], h, _ => by rw [first]; exact (take_none h).symm
  | n + 1, c :: cs, _, h => by
    have h' := List.pairwise_cons.mp h
    rw [first, upto_cons, upto_cons]
    dsimp only
    by_cases ht : c.2 ≤ t
    · rw [if_pos ht, if_pos ht]
      by_cases hn : n = 0
      · subst hn
        simp only [Spec.take, Story.events]
        rw [if_pos trivial, if_pos ⟨by omega, by rw [List.length_cons]; omega⟩, upto_cons, if_pos ht]
        rfl
      · rw [if_neg hn, first_upto t (by omega) h'.2]
        have e : (0 < ((n + 1 : Nat) : Int) ∧ ((n + 1 : Nat) : Int) ≤ ((c.1 :: upto t cs).length : Nat)) ↔ (0 < (n : Int) ∧ (n : Int) ≤ ((upto t cs).length : Nat)) := by
          rw [List.length_cons]; omega
        simp only [Spec.take, Story.events, Int.toNat_natCast, List.take_succ_cons, List.map_cons, List.cons_append, e]
    · have l1 : upto t cs = [] := upto_late fun x hx => by have := h'.1 x hx; omega
      rw [if_neg ht, if_neg ht, l1]
      have l2 : upto t (if n = 0 then [((.completed : Notif α), c.2)] else first n cs) = [] := by
        split
        · exact upto_late fun x hx => by rw [List.mem_singleton.mp hx]; dsimp only; omega
        · exact upto_late fun x hx => by have := first_late h'.1 x hx; omega
      rw [l2]
      exact (take_none (by omega)).symm

private theorem taken {P W : Type} (hq : q.Lawful) {p : Proc P W (Notif α) (Notif α)} {dom : List (Notif α) → Prop} (hG : Delivers p dom (Spec.take n)) (hn : 0 < n)
    (hd : ∀ ls s, LTS.run q.step q.init ls = some s → dom ((q.calls s).map (·.1))) {ls s}
    (hr : LTS.run (q.operate p).step (q.operate p).init ls = some s) (hp : (q.operate p).Prompt (fun s => p.Quiescent s.2.ps) ls)
    (hqu : p.Quiescent s.2.ps) (hv : OnlyValues (q.calls s.1)) : s.2.sent = first n (valuesAt (q.calls s.1)) := by
  obtain ⟨h1, -, h2⟩ := C109_operator hq hG (take_none hn) hd hr hp
  have hi := Nested.inTime_values (hq.inTime (Clocked.operate_source hq hr).1).1
  refine Spec.Timed.ext h1 (first_inTime hi) fun t => ?_
  have := h2 hqu t
  rw [hv.eq, upto_map, story_nexts] at this
  rw [first_upto t hn hi]
  exact this

/-- C192: `pipe(source, debounce(d), take(n))`: the first `n` of the values that nothing follows within `d`, and the completion at the time of the last of them. -/
theorem C192_behind (hq : q.Lawful) (hc : op.Computes (Spec.take n)) (hn : 0 < n) {ls s} (hr : LTS.run (behind q d op).step (behind q d op).init ls = some s)
    (hp : (behind q d op).Prompt (fun s => op.protected.slowProc.Quiescent s.2.ps) ls) (hs : op.protected.slowProc.Quiescent s.2.ps) (hd : Time.act (.inl (.inr .dispose)) ∉ ls)
    (hv : ∀ c ∈ q.calls s.1.1, c.1.isTerminal = false) (ha : Apart d (q.now s.1.1) (valuesAt (q.calls s.1.1))) :
    (behind q d op).calls s = first n (quiet d (q.now s.1.1) (valuesAt (q.calls s.1.1))) := by
  have l1 := Clocked.through_lawful hq (Debounce.stage_lawful (α := α) true d)
  have r1 := (Clocked.operate_source l1 hr).1
  have hd' : Time.act (.inr .dispose) ∉ Clocked.sources ls := by
    intro h
    obtain ⟨x, hx, hxe⟩ := List.mem_filterMap.mp h
    split at hxe <;> cases hxe
    exact hd hx
  have e1 := C119_debounce hq r1 hd' hv ha
  have o1 : OnlyValues s.1.2.posted := by rw [e1]; exact onlyValues_map _
  have e2 := taken l1 hc.guarded.slow hn (fun _ _ _ => trivial) hr hp hs o1
  have e3 : (q.through (Debounce.stage true d)).calls s.1 = s.1.2.posted := rfl
  rw [e3, e1, valuesAt_map] at e2
  exact e2

private theorem first_get : ∀ {n : Nat} {cs : List (α × Nat)} {k : Nat} {v : α} {t : Nat}, (first n cs)[k]? = some (.next v, t) → k < n ∧ cs[k]? = some (v, t)
  | _, [], _, _, _, h => by simp [first] at h
  | 0, _ :: _, _, _, _, h => by simp [first] at h
  | n + 1, c :: cs, 0, v, t, h => by
    rw [first] at h
    cases h
    exact ⟨by omega, rfl⟩
  | n + 1, c :: cs, k + 1, v, t, h => by
    rw [first, List.getElem?_cons_succ] at h
    split at h
    · cases k <;> simp at h
    · have := first_get h
      exact ⟨by omega, by rw [List.getElem?_cons_succ]; exact this.2⟩

private theorem first_end : ∀ {n : Nat} {cs : List (α × Nat)} {c : α × Nat}, cs[n]? = some c → (first (n + 1) cs)[n + 1]? = some (.completed, c.2)
  | _, [], _, h => by simp at h
  | 0, c :: cs, _, h => by cases h; rfl
  | n + 1, c :: cs, x, h => by
    rw [List.getElem?_cons_succ] at h
    rw [first, if_neg (by omega), List.getElem?_cons_succ]
    exact first_end h

/-- C192: `pipe(source, take(n), debounce(d))` never sends the `n`-th value: the completion comes with it and is not held back. And it sends nothing after the `n`-th value: one of the values before is
sent only if `d` had passed by then. -/
theorem C192_before (hq : q.Lawful) (hg : ∀ ls s, LTS.run q.step q.init ls = some s → Grammar ((q.calls s).map (·.1)))
    (hc : op.Computes (Spec.take n)) (hn : 0 < n) (h0 : 0 < d) {ls s} (hr : LTS.run (DebounceMoves.before q op d).step (DebounceMoves.before q op d).init ls = some s)
    (hp : (DebounceMoves.before q op d).Prompt (fun s => op.direct.slowProc.Quiescent s.1.2.ps) ls) (hs : op.direct.slowProc.Quiescent s.1.2.ps)
    (hv : ∀ c ∈ q.calls s.1.1, c.1.isTerminal = false) {v : α} {u : Nat} (h : (v, u) ∈ timedValues (seen ((DebounceMoves.before q op d).calls s))) :
    ∃ k t, k + 1 < n ∧ (valuesAt (q.calls s.1.1))[k]? = some (v, t) ∧ u = t + d ∧ ∀ c, (valuesAt (q.calls s.1.1))[n - 1]? = some c → u ≤ c.2 := by
  have l1 := Clocked.operate_lawful hq op.direct.slowProc
  have r1 := (Clocked.clocks l1 (Debounce.stage_lawful true d) hr).1
  have p1 := Clocked.Prompt.before (rest := fun s => op.direct.slowProc.Quiescent s.2.ps) l1 (Debounce.stage_lawful true d) hr hp
  have e1 : s.1.2.sent = first n (valuesAt (q.calls s.1.1)) := taken hq hc.direct.slow hn hg r1 p1 hs hv
  obtain ⟨ks, ⟨-, g1, g2⟩, g3, -⟩ := Debounce.C108_exact l1 d hr
  rw [show (q.operate op.direct.slowProc).calls s.1 = s.1.2.sent from rfl, e1] at g2 g3
  obtain ⟨p, hp⟩ := List.mem_iff_getElem?.mp h
  have hlt : p < ks.length := by rw [g1]; exact (List.getElem?_eq_some_iff.mp hp).1
  have hk : ks[p]? = some ks[p] := List.getElem?_eq_getElem hlt
  obtain ⟨t, f1, -, f2⟩ := g2 p _ v u hk hp
  have f3 := g3 p _ v u t hk hp f1
  obtain ⟨j1, j2⟩ := first_get f1
  obtain ⟨m, rfl⟩ : ∃ m, n = m + 1 := ⟨n - 1, by omega⟩
  have late : ∀ c, (valuesAt (q.calls s.1.1))[m]? = some c → t + d ≤ c.2 := fun c hc => f2 _ _ _ (first_end hc) (.inr rfl)
  refine ⟨ks[p], t, ?_, j2, f3, fun c hc => by rw [f3]; exact late c hc⟩
  by_cases hm : ks[p] = m
  · rw [hm] at j2
    have := late _ j2
    dsimp only at this
    omega
  · omega

section Examples
open DebounceMoves (demoBehind demoBefore demoBehindRun demoBeforeRun)

abbrev demoTwo : Operator Nat Nat := takeOp 2

/-- `pipe(subject, debounce(2), take(2))` and `pipe(subject, take(2), debounce(2))`; 2 is sent at 0, 3 at 1, 4 at 6 -/
abbrev worksBehind : List demoTwo.protected.compileSlow.SlowLab := [.inl (), .inr (.inl ()), .inr (.inr ())]
abbrev worksBefore : List demoTwo.direct.compileSlow.SlowLab := [.inl (), .inr ()]
abbrev runBehind := demoBehindRun demoTwo worksBehind
abbrev runBefore := demoBeforeRun demoTwo worksBefore
set_option synthInstance.maxSize 2000 in
/-- C192: with `take(2)` behind, the two values after which there is a pause are sent; with `take(2)` before, none: the 3 follows the 2, and the completion comes with the 3. -/
theorem C192_order :
    (LTS.run (demoBehind demoTwo).step (demoBehind demoTwo).init runBehind).map (fun s => ((demoBehind demoTwo).calls s, s.1.1)) =
      some ([(.next 3, 3), (.next 4, 8), (.completed, 8)], 12, [(.next 2, 0), (.next 3, 1), (.next 4, 6)]) ∧
    (LTS.run (demoBefore demoTwo).step (demoBefore demoTwo).init runBefore).map (fun s => (seen ((demoBefore demoTwo).calls s), s.1.1)) =
      some ([(.completed, 1)], 12, [(.next 2, 0), (.next 3, 1), (.next 4, 6)]) := by decide +kernel

abbrev demoThree : Operator Nat Nat := takeOp 3
abbrev worksThree : List demoThree.direct.compileSlow.SlowLab := [.inl (), .inr ()]
abbrev runThree := demoBeforeRun demoThree worksThree

set_option synthInstance.maxSize 2000 in
/-- The hypotheses of `C192_behind` are met. -/
example : ∃ s, LTS.run (demoBehind demoTwo).step (demoBehind demoTwo).init runBehind = some s ∧
    (demoBehind demoTwo).calls s = first 2 (quiet 2 12 [(2, 0), (3, 1), (4, 6)]) := by
  have h1 : (LTS.run (demoBehind demoTwo).step (demoBehind demoTwo).init runBehind).map (fun s => (s.1.1, DebounceMoves.idleBehind demoTwo worksBehind s.2.ps)) =
    some ((12, [(.next 2, 0), (.next 3, 1), (.next 4, 6)]), true) := by decide +kernel
  obtain ⟨s, g1, g2⟩ := Option.map_eq_some_iff.mp h1
  simp only [Prod.mk.injEq] at g2
  have w1 : ∀ w, w ∈ worksBehind := fun
    | .inl () => .head _
    | .inr (.inl ()) => .tail _ (.head _)
    | .inr (.inr ()) => .tail _ (.tail _ (.head _))
  refine ⟨s, g1, ?_⟩
  have e1 : (Clocked.typed 0 : Clocked _ Nat Nat).calls s.1.1 = [(.next 2, 0), (.next 3, 1), (.next 4, 6)] := by rw [show (Clocked.typed 0 : Clocked _ Nat Nat).calls s.1.1 = s.1.1.2 from rfl, g2.1]
  have e2 : (Clocked.typed 0 : Clocked _ Nat Nat).now s.1.1 = 12 := by rw [show (Clocked.typed 0 : Clocked _ Nat Nat).now s.1.1 = s.1.1.1 from rfl, g2.1]
  have := C192_behind (n := 2) (op := demoTwo) (Clocked.typed_lawful 0) ((take_acts 2).computes (take_calm 2)) (by decide) g1
    (Clocked.Prompt.of_rests (q := demoBehind demoTwo) (idle := fun s => DebounceMoves.idleBehind demoTwo worksBehind s.2.ps) (fun _ => DebounceMoves.quiescent_behind w1 _) (by decide +kernel))
    (DebounceMoves.quiescent_behind w1 _ g2.2) ?_ (by rw [e1]; decide) (by rw [e1, e2]; simp [Apart, valuesAt])
  · rw [e1, e2] at this; exact this
  · have : runBehind.all (fun | .act (.inl (.inr .dispose)) => false | _ => true) = true := by decide +kernel
    exact fun h => by simpa using List.all_eq_true.mp this _ h

set_option synthInstance.maxSize 2000 in
/-- The hypotheses of `C192_before` are met: with `take(3)` before `debounce(2)`, 3 is sent at 3, and 4 is not sent. -/
example : ∃ s, LTS.run (demoBefore demoThree).step (demoBefore demoThree).init runThree = some s ∧ seen ((demoBefore demoThree).calls s) = [(.next 3, 3), (.completed, 6)] ∧
    ∃ k t, k + 1 < 3 ∧ [(2, 0), (3, 1), (4, 6)][k]? = some (3, t) ∧ 3 = t + 2 ∧ ∀ c, [(2, 0), (3, 1), (4, 6)][3 - 1]? = some c → 3 ≤ c.2 := by
  have h1 : (LTS.run (demoBefore demoThree).step (demoBefore demoThree).init runThree).map
      (fun s => (seen ((demoBefore demoThree).calls s), s.1.1, DebounceMoves.idleBefore demoThree worksThree s.1.2.ps)) =
    some ([(.next 3, 3), (.completed, 6)], (12, [(.next 2, 0), (.next 3, 1), (.next 4, 6)]), true) := by decide +kernel
  obtain ⟨s, g1, g2⟩ := Option.map_eq_some_iff.mp h1
  simp only [Prod.mk.injEq] at g2
  have w1 : ∀ w, w ∈ worksThree := fun
    | .inl () => .head _
    | .inr () => .tail _ (.head _)
  refine ⟨s, g1, g2.1, ?_⟩
  have e1 : (Clocked.typed 0 : Clocked _ Nat Nat).calls s.1.1 = [(.next 2, 0), (.next 3, 1), (.next 4, 6)] := by rw [show (Clocked.typed 0 : Clocked _ Nat Nat).calls s.1.1 = s.1.1.2 from rfl, g2.2.1]
  have := C192_before (n := 3) (op := demoThree) (Clocked.typed_lawful 0) (Clocked.typed_grammar 0) ((take_acts 3).computes (take_calm 3)) (by decide) (by decide) g1
    (Clocked.Prompt.of_rests (q := demoBefore demoThree) (idle := fun s => DebounceMoves.idleBefore demoThree worksThree s.1.2.ps) (fun _ => DebounceMoves.quiescent_before w1 _) (by decide +kernel))
    (DebounceMoves.quiescent_before w1 _ g2.2.2) (by rw [e1]; decide) (v := 3) (u := 3) (by rw [g2.1]; simp [timedValues])
  rw [e1] at this
  exact this

end Examples
end DebounceTake
end Aio
