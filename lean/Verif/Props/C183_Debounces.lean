import Verif.Props.C119_SearchBox
import Verif.Spec.Pauses
/-!
# C183: two `debounce`s in a row
-/

namespace Aio
open Spec Spec.Timed Spec.SearchBox Spec.Pauses
variable {S L α : Type} {q : Clocked S L α} {a b : Nat}

namespace Debounces

theorem mem_quiet {d now : Nat} {c : α × Nat} : ∀ {l : List (α × Nat)}, c ∈ quiet d now l → ∃ c' ∈ l, c = (c'.1, c'.2 + d)
  | [], h => nomatch h
  | (v, t) :: rest, h => by
    rw [quiet] at h
    split at h
    · rcases List.mem_cons.mp h with h | h
      · exact ⟨(v, t), List.mem_cons_self .., h⟩
      · obtain ⟨c', h1, h2⟩ := mem_quiet h
        exact ⟨c', List.mem_cons_of_mem _ h1, h2⟩
    · obtain ⟨c', h1, h2⟩ := mem_quiet h
      exact ⟨c', List.mem_cons_of_mem _ h1, h2⟩

private theorem apart_quiet {now : Nat} : ∀ {l : List (α × Nat)}, l.Pairwise (fun x y => x.2 + b ≠ y.2) → (∀ c ∈ l, c.2 + a + b ≠ now) → Apart b now (quiet a now l)
  | [], _, _ => ⟨List.Pairwise.nil, fun _ h => nomatch h⟩
  | (v, t) :: rest, h1, h2 => by
    have ih := apart_quiet (List.pairwise_cons.mp h1).2 fun c hc => h2 c (List.mem_cons_of_mem _ hc)
    rw [quiet]
    split
    · refine ⟨List.pairwise_cons.mpr ⟨fun c hc => ?_, ih.1⟩, fun c hc => ?_⟩
      · obtain ⟨c', h3, rfl⟩ := mem_quiet hc
        have := (List.pairwise_cons.mp h1).1 c' h3
        dsimp only at this ⊢
        omega
      · rcases List.mem_cons.mp hc with rfl | hc
        · exact h2 (v, t) (List.mem_cons_self ..)
        · exact ih.2 c hc
    · exact ih

private theorem below {now : Nat} : ∀ l : List (α × Nat), (quiet b now (quiet a now l)).Sublist (pauses a (a + b) now l)
  | [] => List.Sublist.refl _
  | (v, t) :: rest => by
    rw [quiet, pauses]
    by_cases h : ∀ c ∈ rest, t + a < c.2
    · by_cases h2 : t + (a + b) < now
      · rw [if_pos (c := t + a < now ∧ _) ⟨by omega, h⟩, if_pos (c := t + (a + b) < now ∧ _) ⟨h2, h⟩, quiet]
        split
        · rw [Nat.add_assoc]; exact (below rest).cons_cons _
        · exact (below rest).cons _
      · rw [if_neg (c := t + (a + b) < now ∧ _) (fun h => h2 h.1)]
        split
        · rw [quiet, if_neg (fun h => h2 (by omega))]; exact below rest
        · exact below rest
    · rw [if_neg (c := t + a < now ∧ _) (fun h' => h h'.2), if_neg (c := t + (a + b) < now ∧ _) (fun h' => h h'.2)]; exact below rest

private theorem above {now : Nat} : ∀ l : List (α × Nat), (pauses (max a b) (a + b) now l).Sublist (quiet b now (quiet a now l))
  | [] => List.Sublist.refl _
  | (v, t) :: rest => by
    rw [quiet, pauses]
    by_cases h : t + (a + b) < now ∧ ∀ c ∈ rest, t + max a b < c.2
    · have h1 : t + a + b < now ∧ ∀ c ∈ quiet a now rest, t + a + b < c.2 := by
        refine ⟨by omega, fun c hc => ?_⟩
        obtain ⟨c', h3, rfl⟩ := mem_quiet hc
        have := h.2 c' h3
        dsimp only
        omega
      rw [if_pos h, if_pos (c := t + a < now ∧ _) ⟨by omega, fun c hc => by have := h.2 c hc; omega⟩, quiet, if_pos h1, Nat.add_assoc]
      exact (above rest).cons_cons _
    · rw [if_neg h]
      split
      · rw [quiet]
        split
        · exact (above rest).cons _
        · exact above rest
      · exact above rest

/-- The pipeline `pipe(source, debounce(a), debounce(b))`. -/
abbrev twice (q : Clocked S L α) (a b : Nat) := (q.through (Debounce.stage true a)).through (Debounce.stage true b)

/-- `pipe(source, debounce(a), debounce(b))`: what the second one makes of what the first one makes of the source's values. -/
private theorem twice_eq (hq : q.Lawful) {ls s} (hr : LTS.run (twice q a b).step (twice q a b).init ls = some s)
    (hd : Time.act (.inr .dispose) ∉ ls) (hd' : Time.act (.inl (.inr .dispose)) ∉ ls) (hv : ∀ c ∈ q.calls s.1.1, c.1.isTerminal = false)
    (ha : Apart a (q.now s.1.1) (valuesAt (q.calls s.1.1))) (hb : (valuesAt (q.calls s.1.1)).Pairwise fun x y => x.2 + b ≠ y.2)
    (hab : ∀ c ∈ valuesAt (q.calls s.1.1), c.2 + a + b ≠ q.now s.1.1) :
    (twice q a b).calls s = (quiet b (q.now s.1.1) (quiet a (q.now s.1.1) (valuesAt (q.calls s.1.1)))).map fun c => (.next c.1, c.2) := by
  have hl := Clocked.through_lawful hq (Debounce.stage_lawful (α := α) true a)
  have hs := (Clocked.clocks hl (Debounce.stage_lawful (α := α) true b) hr).1
  have hmem : Time.act (.inr .dispose) ∉ Clocked.sources ls := by
    intro h
    obtain ⟨x, hx, hxe⟩ := List.mem_filterMap.mp h
    split at hxe <;> cases hxe
    exact hd' hx
  have h1 : (q.through (Debounce.stage true a)).calls s.1 = _ := C119_debounce hq hs hmem hv ha
  have hvals : valuesAt ((q.through (Debounce.stage true a)).calls s.1) = quiet a (q.now s.1.1) (valuesAt (q.calls s.1.1)) := by
    rw [h1, valuesAt, List.filterMap_map]
    exact List.filterMap_some
  have h2 := C119_debounce hl hr hd (fun c hc => by
    rw [h1] at hc
    obtain ⟨x, -, rfl⟩ := List.mem_map.mp hc
    rfl) (by rw [hvals]; exact apart_quiet hb hab)
  rw [hvals] at h2
  exact h2

section
variable (hq : q.Lawful) {ls} {s} (hr : LTS.run (twice q a b).step (twice q a b).init ls = some s)
  (hd : Time.act (.inr .dispose) ∉ ls) (hd' : Time.act (.inl (.inr .dispose)) ∉ ls) (hv : ∀ c ∈ q.calls s.1.1, c.1.isTerminal = false)
  (ha : Apart a (q.now s.1.1) (valuesAt (q.calls s.1.1))) (hb : (valuesAt (q.calls s.1.1)).Pairwise fun x y => x.2 + b ≠ y.2)
  (hab : ∀ c ∈ valuesAt (q.calls s.1.1), c.2 + a + b ≠ q.now s.1.1)
include hq hr hd hd' hv ha hb hab

/-- C183: behind `debounce(a)`, `debounce(b)` sends every value that nothing follows within the longer of the two times, `a + b` after the source sent it. -/
theorem C183_at_least : ((pauses (max a b) (a + b) (q.now s.1.1) (valuesAt (q.calls s.1.1))).map fun c => (Notif.next c.1, c.2)).Sublist ((twice q a b).calls s) := by
  rw [twice_eq hq hr hd hd' hv ha hb hab]
  exact (above _).map _

/-- C183: and no value that something follows within `a`, and nothing at any other time than `a + b` after the source sent it. -/
theorem C183_at_most : ((twice q a b).calls s).Sublist ((pauses a (a + b) (q.now s.1.1) (valuesAt (q.calls s.1.1))).map fun c => (Notif.next c.1, c.2)) := by
  rw [twice_eq hq hr hd hd' hv ha hb hab]
  exact (below _).map _

/-- C183: so if the first time is not the shorter one, the second `debounce` drops nothing: it only sends everything `b` later. -/
theorem C183_longer_first (hle : b ≤ a) :
    (twice q a b).calls s = (pauses a (a + b) (q.now s.1.1) (valuesAt (q.calls s.1.1))).map fun c => (Notif.next c.1, c.2) := by
  have h1 := C183_at_least hq hr hd hd' hv ha hb hab
  rw [Nat.max_eq_left hle] at h1
  exact ((C183_at_most hq hr hd hd' hv ha hb hab).eq_of_length_le h1.length_le)

end

/-! ## cases -/

section Examples

/-- A schedule for what other code does: `some v` calls `asend(v)` on the subject, `none` lets a unit of time pass; in between every task runs until all wait
(at most `n` steps). -/
def driven (q : Clocked S L α) (sends : α → L) (steps : List L) : Nat → List (Option α) → S → List (Time L)
  | 0, _, _ => []
  | n + 1, xs, s =>
    match steps.findSome? fun l => (q.act s l).map fun u => (l, u) with
    | some (l, u) => .act l :: driven q sends steps n xs u
    | none =>
      match xs with
      | [] => []
      | x :: xs =>
        let l : Time L := match x with | some v => .act (sends v) | none => .pass 1
        match q.step s l with
        | some u => l :: driven q sends steps n xs u
        | none => []

/-- The values 0, 1, 2, ... are sent to the subject, each `gap` after the one before. -/
def demoTypes : List Nat → Nat → List (Option Nat)
  | [], _ => []
  | g :: gs, v => List.replicate g none ++ some v :: demoTypes gs (v + 1)
abbrev demoTwice (a b : Nat) := twice (Clocked.typed 0 : Clocked _ Nat Nat) a b
abbrev demoSteps : List (Debounce.Label Nat) := .receive :: (List.range 12).flatMap fun k => [.start k, .wake k]
def demoSchedule (a b : Nat) (gaps : List Nat) : List (Time ((Nat ⊕ Debounce.Label Nat) ⊕ Debounce.Label Nat)) :=
  driven (demoTwice a b) (.inl ∘ .inl) (demoSteps.map (.inl ∘ .inr) ++ demoSteps.map .inr) 200 (demoTypes gaps 0 ++ List.replicate 20 none) (demoTwice a b).init

/-- C183: the order matters. The subject sends 0 at 0 and a burst of other values from 5 on: behind `debounce(2)`, `debounce(6)` sends 0, although 1 follows it within
6; `pipe(subject, debounce(6), debounce(2))` does not. -/
theorem C183_order_matters :
    (LTS.run (demoTwice 2 6).step (demoTwice 2 6).init (demoSchedule 2 6 [0, 5, 1, 1, 1, 1, 1, 1, 1])).map (fun s => ((demoTwice 2 6).calls s, s.1.1.2.take 2)) =
      some ([(.next 0, 8), (.next 8, 20)], [(.next 0, 0), (.next 1, 5)]) ∧
    (LTS.run (demoTwice 6 2).step (demoTwice 6 2).init (demoSchedule 6 2 [0, 5, 1, 1, 1, 1, 1, 1, 1])).map (fun s => ((demoTwice 6 2).calls s, s.1.1.2.take 2)) =
      some ([(.next 8, 20)], [(.next 0, 0), (.next 1, 5)]) := by decide +kernel

/-- Values at 0, 5, 6 and 13 behind `debounce(4)` and `debounce(2)`: all but the one at 5 are sent, 6 later, as `C183_longer_first` says. -/
example : ∃ s, LTS.run (demoTwice 4 2).step (demoTwice 4 2).init (demoSchedule 4 2 [0, 5, 1, 7]) = some s ∧
    (demoTwice 4 2).calls s = (pauses 4 6 33 (valuesAt s.1.1.2)).map (fun c => (Notif.next c.1, c.2)) ∧ (demoTwice 4 2).calls s = [(.next 0, 6), (.next 2, 12), (.next 3, 19)] := by
  have hr : (LTS.run (demoTwice 4 2).step (demoTwice 4 2).init (demoSchedule 4 2 [0, 5, 1, 7])).map (fun s => (s.1.1, (demoTwice 4 2).calls s)) =
    some ((33, [(.next 0, 0), (.next 1, 5), (.next 2, 6), (.next 3, 13)]), [(.next 0, 6), (.next 2, 12), (.next 3, 19)]) := by decide +kernel
  obtain ⟨s, h1, h2⟩ := Option.map_eq_some_iff.mp hr
  have h3 : s.1.1 = (33, [(.next 0, 0), (.next 1, 5), (.next 2, 6), (.next 3, 13)]) := congrArg Prod.fst h2
  refine ⟨s, h1, ?_, congrArg Prod.snd h2⟩
  have := C183_longer_first (q := Clocked.typed 0) (a := 4) (b := 2) (Clocked.typed_lawful 0) h1 (by decide +kernel) (by decide +kernel)
    (by rw [show (Clocked.typed 0 : Clocked _ Nat Nat).calls s.1.1 = s.1.1.2 from rfl, h3]; decide)
    (by rw [show (Clocked.typed 0 : Clocked _ Nat Nat).calls s.1.1 = s.1.1.2 from rfl, show (Clocked.typed 0 : Clocked _ Nat Nat).now s.1.1 = s.1.1.1 from rfl, h3]; simp [Apart, valuesAt])
    (by rw [show (Clocked.typed 0 : Clocked _ Nat Nat).calls s.1.1 = s.1.1.2 from rfl, h3]; simp [valuesAt])
    (by rw [show (Clocked.typed 0 : Clocked _ Nat Nat).calls s.1.1 = s.1.1.2 from rfl, show (Clocked.typed 0 : Clocked _ Nat Nat).now s.1.1 = s.1.1.1 from rfl, h3]; simp [valuesAt])
    (by decide)
  rw [show (Clocked.typed 0 : Clocked _ Nat Nat).calls s.1.1 = s.1.1.2 from rfl, show (Clocked.typed 0 : Clocked _ Nat Nat).now s.1.1 = s.1.1.1 from rfl] at this
  rw [this, h3]

end Examples

end Debounces
end Aio
