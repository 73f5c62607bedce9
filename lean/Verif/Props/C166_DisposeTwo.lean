import Verif.Props.C93_DetachTwo
/-!
# C166: disposing the subscription of an operator with two sources
-/

namespace Aio.DetachTwo
open Detach (others unsubscribe)
variable {α β γ : Type} {guard kill : Bool} {regs : Registers}

private theorem unsub_gone {k : Nat} {u a : Prop} {sub : Subject.State α} (h : Half (some k) u a sub) :
    0 ∉ (unsubscribe guard sub k).observers :=
  not_mem_of_half (half_unsubscribe (u' := True) (a' := True) h (.inl trivial)) trivial

private theorem dispose_gone {a : List (Label α β γ)} {side : Side} {s : State α β γ}
    (hr : LTS.run (step guard kill regs) init (a ++ [.dispose side]) = some s) :
    (side = .source → s.num1.isSome = true ∧ 0 ∉ s.left.observers) ∧ (side = .other → s.num2.isSome = true ∧ 0 ∉ s.right.observers) := by
  obtain ⟨s1, h1, h2⟩ := LTS.run_append.mp hr
  obtain ⟨s2, h3, h4⟩ := LTS.run_cons.mp h2
  simp only [LTS.run, Option.some.injEq] at h4
  subst h4
  have hi1 := inv_run h1
  simp only [step] at h3
  split at h3
  · rename_i hn
    simp only [Option.some.injEq] at h3
    subst h3
    simp only [Bool.and_eq_true, Option.isSome_iff_exists] at hn
    obtain ⟨⟨k1, hk1⟩, ⟨k2, hk2⟩⟩ := hn
    refine ⟨?_, ?_⟩
    · rintro rfl
      have hl := hi1.left
      rw [hk1] at hl
      have : s1.drop guard Side.source.number = { s1 with left := unsubscribe guard s1.left k1 } := drop_zero hk1
      rw [this]
      exact ⟨by simp [hk1], unsub_gone hl⟩
    · rintro rfl
      have hl := hi1.right
      rw [hk2] at hl
      have : s1.drop guard Side.other.number = { s1 with right := unsubscribe guard s1.right k2 } := drop_one hk2
      rw [this]
      exact ⟨by simp [hk2], unsub_gone hl⟩
  · cases h3

/-- From the moment in which the user's disposable has disposed the subscription to `side` no call that is made of that subject reaches the
operator's observer, whatever else happens, however the auto-detach agent behaves, and whether the subscription passed through
`auto_detach` or not. -/
theorem C166_side {a : List (Label α β γ)} {side : Side} {s : State α β γ}
    (hr : LTS.run (step guard kill regs) init (a ++ [.dispose side]) = some s) :
    (side = .source → LetGoSource guard kill regs s) ∧ (side = .other → LetGoOther guard kill regs s) :=
  ⟨fun h => letGo_source (inv_run hr) ((dispose_gone hr).1 h).1 ((dispose_gone hr).1 h).2,
    fun h => letGo_other (inv_run hr) ((dispose_gone hr).2 h).1 ((dispose_gone hr).2 h).2⟩

/-- When the composite disposable has disposed both, in any order and whatever happened in between and since, neither subject has the
operator's observers in its list, and neither calls them for a call that is made later. -/
theorem C166_both {ls : List (Label α β γ)} {s : State α β γ} (hr : LTS.run (step guard kill regs) init ls = some s)
    (h1 : .dispose .source ∈ ls) (h2 : .dispose .other ∈ ls) :
    0 ∉ s.left.observers ∧ 0 ∉ s.right.observers ∧ LetGoSource guard kill regs s ∧ LetGoOther guard kill regs s := by
  have hi := inv_run hr
  have hl : s.num1.isSome = true ∧ 0 ∉ s.left.observers := by
    obtain ⟨a, b, rfl⟩ := List.append_of_mem h1
    rw [show a ++ Label.dispose Side.source :: b = (a ++ [.dispose .source]) ++ b by simp] at hr
    obtain ⟨s1, h3, h4⟩ := LTS.run_append.mp hr
    obtain ⟨g1, g2⟩ := (dispose_gone h3).1 rfl
    have := LTS.inv (step := step guard kill regs) (fun t => t.num1.isSome = true ∧ Detach.Off s1.left.calls.length t.left)
      ⟨g1, Detach.off_now g2 (inv_run h3).made1⟩
      (fun t l t' ht hs => ⟨by rw [(num_step hs).1 ht.1]; exact ht.1, (off_step hs).1 ht⟩) h4
    exact ⟨this.1, this.2.obs⟩
  have hr' : s.num2.isSome = true ∧ 0 ∉ s.right.observers := by
    obtain ⟨a, b, rfl⟩ := List.append_of_mem h2
    rw [show a ++ Label.dispose Side.other :: b = (a ++ [.dispose .other]) ++ b by simp] at hr
    obtain ⟨s1, h3, h4⟩ := LTS.run_append.mp hr
    obtain ⟨g1, g2⟩ := (dispose_gone h3).2 rfl
    have := LTS.inv (step := step guard kill regs) (fun t => t.num2.isSome = true ∧ Detach.Off s1.right.calls.length t.right)
      ⟨g1, Detach.off_now g2 (inv_run h3).made2⟩
      (fun t l t' ht hs => ⟨by rw [(num_step hs).2 ht.1]; exact ht.1, (off_step hs).2 ht⟩) h4
    exact ⟨this.1, this.2.obs⟩
  exact ⟨hl.2, hr'.2, letGo_source hi hl.1 hl.2, letGo_other hi hr'.1 hr'.2⟩

/-- Nobody else is affected: a disposal takes nothing but the operator's observer out of the lists, in which the others stay in their order,
it ends no call, and it tells nobody anything. Disposing one side leaves the other subject alone. -/
theorem C166_others {s s' : State α β γ} {side : Side} (h : step guard kill regs s (.dispose side) = some s')
    {ls : List (Label α β γ)} (hr : LTS.run (step guard kill regs) init ls = some s) :
    s'.left.observers.filter (· ≠ 0) = s.left.observers.filter (· ≠ 0) ∧ s'.right.observers.filter (· ≠ 0) = s.right.observers.filter (· ≠ 0) ∧
    s'.left.calls = s.left.calls ∧ s'.right.calls = s.right.calls ∧ s'.left.log = s.left.log ∧ s'.right.log = s.right.log ∧
    s'.safe = s.safe ∧ (side = .source → s'.right = s.right) ∧ (side = .other → s'.left = s.left) := by
  have hi := inv_run hr
  have hf : ∀ xs : List Nat, (xs.erase 0).filter (· ≠ 0) = xs.filter (· ≠ 0) := by
    intro xs
    induction xs with
    | nil => rfl
    | cons x xs ih =>
      by_cases hx : x = 0
      · subst hx; simp
      · rw [List.erase_cons_tail (by simpa using hx)]
        simp only [List.filter_cons]
        rw [ih]
  have key : ∀ {δ : Type} {k : Nat} {u a : Prop} {sub : Subject.State δ}, Half (some k) u a sub →
      (unsubscribe guard sub k).observers.filter (· ≠ 0) = sub.observers.filter (· ≠ 0) ∧
      (unsubscribe guard sub k).calls = sub.calls ∧ (unsubscribe guard sub k).log = sub.log := by
    rintro δ k u a sub ⟨g, g1, -⟩
    have := g1.own k rfl
    unfold unsubscribe
    simp only [Subject.step, this]
    split
    · exact ⟨rfl, rfl, rfl⟩
    · exact ⟨hf _, rfl, rfl⟩
  simp only [step] at h
  split at h
  · rename_i hn
    simp only [Option.some.injEq] at h
    subst h
    simp only [Bool.and_eq_true, Option.isSome_iff_exists] at hn
    obtain ⟨⟨k1, hk1⟩, ⟨k2, hk2⟩⟩ := hn
    cases side with
    | source =>
      have hl := hi.left
      rw [hk1] at hl
      have : s.drop guard Side.source.number = { s with left := unsubscribe guard s.left k1 } := drop_zero hk1
      rw [this]
      obtain ⟨e1, e2, e3⟩ := key hl
      exact ⟨e1, rfl, e2, rfl, e3, rfl, rfl, fun _ => rfl, by simp⟩
    | other =>
      have hl := hi.right
      rw [hk2] at hl
      have : s.drop guard Side.other.number = { s with right := unsubscribe guard s.right k2 } := drop_one hk2
      rw [this]
      obtain ⟨e1, e2, e3⟩ := key hl
      exact ⟨rfl, e1, rfl, e2, rfl, e3, rfl, by simp, fun _ => rfl⟩
  · cases h

/-- A case: both subjects have a second subscriber; both subscriptions of the operator are disposed; what is sent then reaches the second
subscriber only. -/
example : ((LTS.run (step true false takeUntilRegisters) (init : State Nat Nat Nat)
    [.left (.subscribe 5), .subscribe .source, .subscribe .other, .right (.subscribe 6), .left (.call (.next 1)), .left (.ret 0), .left (.ret 0),
     .dispose .source, .dispose .other, .left (.call (.next 2)), .left (.ret 1), .right (.call (.next 3)), .right (.ret 0)]).map
      fun s => (s.left.log, s.right.log)) = some ([(0, 5, .next 1), (0, 0, .next 1), (1, 5, .next 2)], [(0, 6, .next 3)]) := by
  rfl

/-- A call that is under way is not stopped: the subscription is disposed while the first subscriber handles the value, and the operator's
observer is told nevertheless (the subject goes through a copy of its list). That is why C166 speaks of later calls. -/
example : ((LTS.run (step true false bothRegister) (init : State Nat Nat Nat)
    [.left (.subscribe 5), .subscribe .source, .subscribe .other, .left (.call (.next 1)), .dispose .source, .dispose .other, .left (.ret 0)]).map
      fun s => s.left.log) = some [(0, 5, .next 1), (0, 0, .next 1)] := by
  rfl

end Aio.DetachTwo
