import Verif.Model.SharedAwait
import Verif.Props.C20_26_Create
/-!
# C82: every subscriber of an of_async gets the result
-/

namespace Aio.SharedAwait
variable {α : Type}
open Spec

/-- How the workflow ended in a schedule, a cancellation included. -/
def ended : List (Label α) → List (Except Err α)
  | [] => []
  | .outcome r :: ls => r :: ended ls
  | .cancel _ :: ls => .error .cancelled :: ended ls
  | _ :: ls => ended ls

theorem ended_append (a b : List (Label α)) : ended (a ++ b) = ended a ++ ended b := by
  induction a with
  | nil => rfl
  | cons l a ih => cases l <;> simp [ended, ih]

theorem get_set {β : Type} {l : List β} {i j : Nat} {x y : β} (h : (l.set i x)[j]? = some y) :
    (i = j ∧ y = x) ∨ (i ≠ j ∧ l[j]? = some y) := by
  rw [List.getElem?_set] at h
  split at h
  · split at h
    · cases h; exact .inl ⟨‹_›, rfl⟩
    · cases h
  · exact .inr ⟨‹_›, h⟩

theorem get_push {β : Type} {l : List β} {j : Nat} {x y : β} (h : (l ++ [x])[j]? = some y) :
    l[j]? = some y ∨ y = x := by
  rcases Nat.lt_or_ge j l.length with hj | hj
  · rw [List.getElem?_append_left hj] at h; exact .inl h
  · rw [List.getElem?_append_right hj] at h
    rw [List.getElem?_singleton] at h
    split at h
    · cases h; exact .inr rfl
    · cases h

/-- What holds of every run of a future. -/
structure FutInv (ls : List (Label α)) (s : State α) : Prop where
  kind : s.kind = .future
  result : s.result.toList = ended ls
  subs : ∀ (i : Nat) r, s.subs[i]? = some (.got r) → s.result = some r

theorem fut_step {ls : List (Label α)} {s s' : State α} {l : Label α} (h : FutInv ls s) (hs : step s l = some s') :
    FutInv (ls ++ [l]) s' := by
  obtain ⟨hk, hres, hsub⟩ := h
  cases l with
  | subscribe =>
    cases hs
    refine ⟨by first | exact hk | rfl, by rw [ended_append]; simpa [ended] using hres, fun i r hi => ?_⟩
    rcases get_push hi with hi | hi
    · exact hsub i r hi
    · cases hi
  | start i =>
    simp only [step, hk] at hs
    split at hs
    · split at hs
      · next r hr =>
        cases hs
        refine ⟨by first | exact hk | rfl, by rw [ended_append]; simpa [ended] using hres, fun j r' hj => ?_⟩
        rcases get_set hj with ⟨-, hj⟩ | ⟨-, hj⟩
        · cases hj; exact hr
        · exact hsub j r' hj
      · next hr =>
        cases hs
        refine ⟨by first | exact hk | rfl, by rw [ended_append]; simpa [ended] using hres, fun j r' hj => ?_⟩
        rcases get_set hj with ⟨-, hj⟩ | ⟨-, hj⟩
        · cases hj
        · exact hsub j r' hj
    · cases hs
  | outcome r =>
    simp only [step, hk] at hs
    split at hs
    · cases hs
    · next hr =>
      cases hs
      refine ⟨by first | exact hk | rfl, by rw [ended_append, ← hres, hr]; rfl, fun j r' hj => ?_⟩
      have := hsub j r' hj
      rw [hr] at this; cases this
  | resume i =>
    simp only [step] at hs
    split at hs
    · next r _ hr =>
      cases hs
      refine ⟨by first | exact hk | rfl, by rw [ended_append]; simpa [ended] using hres, fun j r' hj => ?_⟩
      rcases get_set hj with ⟨-, hj⟩ | ⟨-, hj⟩
      · cases hj; exact hr
      · exact hsub j r' hj
    · cases hs
  | cancel i =>
    simp only [step] at hs
    split at hs
    · next _ hr =>
      cases hs
      refine ⟨by first | exact hk | rfl, by rw [ended_append, ← hres, hr]; rfl, fun j r' hj => ?_⟩
      have := hsub j r' hj
      rw [hr] at this; cases this
    · cases hs

/-- C82 for a future or a task: the workflow ends once, and every subscription whose worker got past the await delivers
just that outcome. Missing: coroutine objects (`C82_violated`), disposals (`C82_violated_dispose`). -/
theorem C82_future_partial {ls : List (Label α)} {s : State α} (hr : LTS.run step (init .future) ls = some s)
    {i : Nat} (hi : s.posts i ≠ []) : ∃ r, ended ls = [r] ∧ cut (s.posts i) = asyncResult r := by
  have h : FutInv ls s := LTS.inv_hist (step := step) FutInv ⟨rfl, rfl, fun i r h => by simp [init] at h⟩
    (fun _ _ _ _ => fut_step) hr
  unfold State.posts at hi ⊢
  split at hi
  · next r hg =>
    refine ⟨r, ?_, ?_⟩
    · rw [← h.result, h.subs i r hg]; rfl
    · exact after_cut r false
  · exact absurd rfl hi

/-- C82 for a future or a task: a worker that waits can go on as soon as the workflow has ended, and one that begins later
gets the outcome at once. -/
theorem C82_future_progress {s : State α} (hk : s.kind = .future) {r : Except Err α} (hres : s.result = some r) {i : Nat} :
    (∀ s', s.subs[i]? = some .awaiting → step s (.resume i) = some s' → s'.subs[i]? = some (.got r)) ∧
    (s.subs[i]? = some .awaiting → ∃ s', step s (.resume i) = some s') ∧
    (s.subs[i]? = some .fresh → ∃ s', step s (.start i) = some s' ∧ s'.subs[i]? = some (.got r)) := by
  refine ⟨fun s' hi hs => ?_, fun hi => ⟨_, by simp only [step, hi, hres]; rfl⟩, fun hi => ⟨_, by simp only [step, hi, hk, hres]; rfl, ?_⟩⟩
  · simp only [step, hi, hres] at hs
    cases hs
    have := (List.getElem?_eq_some_iff.mp hi).1
    simp [List.getElem?_set, this]
  · have := (List.getElem?_eq_some_iff.mp hi).1
    simp [List.getElem?_set, this]

/-- A coroutine object: at most one subscription is past the first await without a `RuntimeError`. -/
structure CoroInv (s : State α) : Prop where
  kind : s.kind = .coroutine
  fresh : s.awaited = false → s.result = none ∧ ∀ (i : Nat) x, s.subs[i]? = some x → x = .fresh
  one : ∀ (i j : Nat) x y, i ≠ j → s.subs[i]? = some x → s.subs[j]? = some y →
    (x = .fresh ∨ x = .got (.error .runtimeError)) ∨ (y = .fresh ∨ y = .got (.error .runtimeError))

theorem coro_step {s s' : State α} {l : Label α} (h : CoroInv s) (hs : step s l = some s') : CoroInv s' := by
  obtain ⟨hk, hf, h1⟩ := h
  cases l with
  | subscribe =>
    cases hs
    refine ⟨by first | exact hk | rfl, fun ha => ⟨(hf ha).1, fun i x hx => ?_⟩, fun i j x y hij hx hy => ?_⟩
    · rcases get_push hx with hx | hx
      · exact (hf ha).2 i x hx
      · exact hx
    · rcases get_push hx with hx | hx
      · rcases get_push hy with hy | hy
        · exact h1 i j x y hij hx hy
        · exact .inr (.inl hy)
      · exact .inl (.inl hx)
  | start i =>
    simp only [step, hk] at hs
    split at hs
    · next hi =>
      split at hs
      · next ha =>
        cases hs
        refine ⟨by first | exact hk | rfl, fun ha' => ?_, fun a b x y hab hx hy => ?_⟩
        · simp only at ha'; rw [ha] at ha'; cases ha'
        · rcases get_set hx with ⟨-, hx⟩ | ⟨-, hx⟩
          · exact .inl (.inr hx)
          · rcases get_set hy with ⟨-, hy⟩ | ⟨-, hy⟩
            · exact .inr (.inr hy)
            · exact h1 a b x y hab hx hy
      · next ha =>
        cases hs
        have ha : s.awaited = false := by simpa using ha
        refine ⟨by first | exact hk | rfl, nofun, fun a b x y hab hx hy => ?_⟩
        rcases get_set hx with ⟨rfl, -⟩ | ⟨-, hx⟩
        · rcases get_set hy with ⟨rfl, -⟩ | ⟨-, hy⟩
          · exact absurd rfl hab
          · exact .inr (.inl ((hf ha).2 b y hy))
        · exact .inl (.inl ((hf ha).2 a x hx))
    · cases hs
  | outcome r =>
    simp only [step, hk] at hs
    split at hs
    · cases hs
    · split at hs
      · next hany =>
        cases hs
        refine ⟨by first | exact hk | rfl, fun ha => ?_, h1⟩
        exfalso
        obtain ⟨x, hx, hx'⟩ := List.any_eq_true.mp hany
        obtain ⟨i, hi⟩ := List.getElem?_of_mem hx
        rw [(hf ha).2 i x hi] at hx'; cases hx'
      · cases hs
  | resume i =>
    simp only [step] at hs
    split at hs
    · next r hi hr =>
      cases hs
      refine ⟨by first | exact hk | rfl, fun ha => ?_, fun a b x y hab hx hy => ?_⟩
      · have := (hf ha).1; rw [hr] at this; cases this
      · rcases get_set hx with ⟨rfl, -⟩ | ⟨-, hx⟩
        · rcases get_set hy with ⟨rfl, -⟩ | ⟨-, hy⟩
          · exact absurd rfl hab
          · have := h1 i b .awaiting y hab hi hy
            exact .inr (by simpa using this)
        · rcases get_set hy with ⟨rfl, -⟩ | ⟨-, hy⟩
          · have := h1 a i x .awaiting hab hx hi
            exact .inl (by simpa using this)
          · exact h1 a b x y hab hx hy
    · cases hs
  | cancel i =>
    simp only [step] at hs
    split at hs
    · next hi hr =>
      cases hs
      refine ⟨by first | exact hk | rfl, fun ha => ?_, h1⟩
      have := (hf ha).2 i _ hi; cases this
    · cases hs

/-- C82 is false, always, for a coroutine object, the usual argument of `of_async`: of any two subscriptions that
delivered something, one delivered a `RuntimeError`, whatever the workflow returned. -/
theorem C82_violated {ls : List (Label α)} {s : State α} (hr : LTS.run step (init .coroutine) ls = some s)
    {i j : Nat} (hij : i ≠ j) (hi : s.posts i ≠ []) (hj : s.posts j ≠ []) :
    cut (s.posts i) = [.error .runtimeError] ∨ cut (s.posts j) = [.error .runtimeError] := by
  have h : CoroInv s := LTS.inv (step := step) CoroInv
    ⟨rfl, fun _ => ⟨rfl, fun i x h => by simp [init] at h⟩, fun i j x y _ h => by simp [init] at h⟩
    (fun _ _ _ => coro_step) hr
  unfold State.posts at hi hj ⊢
  split at hi
  · next r hgi =>
    split at hj
    · next r' hgj =>
      rcases h.one i j _ _ hij hgi hgj with (hx | hx) | (hx | hx) <;> cases hx
      · exact .inl rfl
      · exact .inr rfl
    · exact absurd rfl hj
  · exact absurd rfl hi

-- two subscriptions of `of_async(coro())`: the result, and a RuntimeError
example : (LTS.run step (init .coroutine) [.subscribe, .subscribe, .start 0, .start 1, .outcome (.ok 42), .resume 0]).map
    (fun s : State Nat => (cut (s.posts 0), cut (s.posts 1))) =
      some ([.next 42, .completed], [.error .runtimeError]) := by decide
-- the same with a task
example : (LTS.run step (init .future) [.subscribe, .subscribe, .start 0, .outcome (.ok 42), .start 1, .resume 0]).map
    (fun s : State Nat => (cut (s.posts 0), cut (s.posts 1))) =
      some ([.next 42, .completed], [.next 42, .completed]) := by decide

/-- C82 is false for a future or task too, after a disposal: if one subscription is disposed while it waits, all others
that wait are told "completed", and never get the value. -/
theorem C82_violated_dispose {s s1 : State α} {i : Nat} (h : step s (.cancel i) = some s1)
    {ls : List (Label α)} {s2 : State α} (hr : LTS.run step s1 ls = some s2) {j : Nat}
    (hj : s.subs[j]? = some .awaiting) : cut (s2.posts j) = [] ∨ cut (s2.posts j) = [.completed] := by
  have h0 : s1.result = some (.error .cancelled) ∧ s1.subs[j]? = some .awaiting := by
    simp only [step] at h
    split at h
    · cases h; exact ⟨rfl, hj⟩
    · cases h
  have key := LTS.inv (step := step) (fun s : State α => s.result = some (.error .cancelled) ∧
      (s.subs[j]? = some .awaiting ∨ s.subs[j]? = some (.got (.error .cancelled)))) (s0 := s1) ⟨h0.1, .inl h0.2⟩
    (by
      rintro s l s' ⟨h1, h2⟩ hs
      have hlt : j < s.subs.length := by
        rcases h2 with h2 | h2 <;> exact (List.getElem?_eq_some_iff.mp h2).1
      cases l with
      | subscribe =>
        cases hs
        refine ⟨h1, ?_⟩
        simp only [List.getElem?_append_left hlt]
        exact h2
      | start i =>
        simp only [step] at hs
        split at hs
        · next hi =>
          have hij : i ≠ j := by rintro rfl; rcases h2 with h2 | h2 <;> rw [hi] at h2 <;> cases h2
          split at hs
          · split at hs <;> (cases hs; exact ⟨h1, by simpa [List.getElem?_set, hij] using h2⟩)
          · split at hs <;> (cases hs; exact ⟨h1, by simpa [List.getElem?_set, hij] using h2⟩)
        · cases hs
      | outcome r => simp only [step, h1] at hs; cases hs
      | resume i =>
        simp only [step] at hs
        split at hs
        · next r hi hr =>
          cases hs
          refine ⟨h1, ?_⟩
          by_cases hij : i = j
          · subst hij
            rw [h1] at hr; cases hr
            exact .inr (by simp [List.getElem?_set, hlt])
          · simpa [List.getElem?_set, hij] using h2
        · cases hs
      | cancel i =>
        simp only [step, h1] at hs
        split at hs
        · next hr => cases hr
        · cases hs) hr
  unfold State.posts
  rcases key.2 with h2 | h2 <;> rw [h2]
  · exact .inl rfl
  · exact .inr rfl

example : (LTS.run step (init .future) [.subscribe, .subscribe, .start 0, .start 1, .cancel 0, .resume 1]).map
    (fun s : State Nat => cut (s.posts 1)) = some [.completed] := by decide

end Aio.SharedAwait
