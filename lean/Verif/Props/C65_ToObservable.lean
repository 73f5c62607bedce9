import Verif.Model.ToObservable
/-!
# C65, C73: to_observable
-/

namespace Aio.ToObservable
variable {α : Type}

/-- The events of the source. -/
def events (ls : List (Label α)) : List (Notif α) := ls.filterMap fun | .event n => some n | _ => none

theorem events_snoc (ls : List (Label α)) (l : Label α) : events (ls ++ [l]) =
    events ls ++ (match l with | .event n => [n] | _ => []) := by
  rw [events, List.filterMap_append]; cases l <;> rfl

structure Inv (ls : List (Label α)) (s : State α) : Prop where
  forwarded : s.forwarded = events ls
  sub : s.subscription = true ↔ s.start = .done
  subscribed : s.start = .done ↔ .subscribed ∈ ls
  tasks : s.inTasks = true ↔ s.start ≠ .done ∧ s.notified = false
  errors : s.keyErrors = if s.start = .done ∧ s.notified = true then 1 else 0
  notified : s.notified = true ↔ .doneCallback ∈ ls
  ended : s.notified = true → s.start = .done ∨ ∃ e, s.start = .failed e
  disposals : s.disposing + s.disposals ≤ 1 ∧ (s.isDisposed = false → s.disposing + s.disposals = 0)
  isDisposed : s.isDisposed = true ↔ .dispose ∈ ls
  /-- the first `dispose` came after the subscription was there -/
  late : s.disposing + s.disposals = 1 ↔ ∃ a b, ls = a ++ .dispose :: b ∧ .dispose ∉ a ∧ .subscribed ∈ a

theorem split_snoc {ls : List (Label α)} {l : Label α} (hl : l ≠ .dispose ∨ .dispose ∈ ls) :
    (∃ a b, ls ++ [l] = a ++ .dispose :: b ∧ .dispose ∉ a ∧ .subscribed ∈ a) ↔
    ∃ a b, ls = a ++ .dispose :: b ∧ .dispose ∉ a ∧ .subscribed ∈ a := by
  constructor
  · rintro ⟨a, b, h, h1, h2⟩
    rcases List.eq_nil_or_concat b with rfl | ⟨b', x, rfl⟩
    · have := List.append_inj_right' h rfl
      have h3 := List.append_inj_left' h rfl
      subst h3
      simp only [List.cons.injEq, and_true] at this
      rcases hl with hl | hl
      · exact absurd this hl
      · exact absurd hl h1
    · rw [List.concat_eq_append, ← List.cons_append, ← List.append_assoc] at h
      exact ⟨a, b', List.append_inj_left' h rfl, h1, h2⟩
  · rintro ⟨a, b, rfl, h1, h2⟩
    exact ⟨a, b ++ [l], by simp, h1, h2⟩

theorem split_last {ls : List (Label α)} (hl : .dispose ∉ ls) :
    (∃ a b, ls ++ [.dispose] = a ++ .dispose :: b ∧ .dispose ∉ a ∧ .subscribed ∈ a) ↔ .subscribed ∈ ls := by
  constructor
  · rintro ⟨a, b, h, h1, h2⟩
    rcases List.eq_nil_or_concat b with rfl | ⟨b', x, rfl⟩
    · rw [List.append_inj_left' h rfl]; exact h2
    · rw [List.concat_eq_append, ← List.cons_append, ← List.append_assoc] at h
      have := List.append_inj_left' h rfl
      exact absurd (by rw [this]; simp) hl
  · intro h; exact ⟨ls, [], rfl, hl, h⟩

theorem inv_init : Inv [] (init : State α) := by
  refine ⟨rfl, by simp [init], by simp [init], by simp [init], by simp [init], by simp [init], by simp [init],
    by simp [init], by simp [init], ?_⟩
  constructor
  · intro h; simp [init] at h
  · rintro ⟨a, b, h, _⟩; cases a <;> cases h

theorem inv_step (ls : List (Label α)) (s : State α) (l : Label α) (s' : State α)
    (h : Inv ls s) (hs : step s l = some s') : Inv (ls ++ [l]) s' := by
  obtain ⟨h1, h2, h3, h4, h5, h6, he, h7, h8, h9⟩ := h
  cases l with
  | start =>
    simp only [step] at hs
    split at hs <;> cases hs
    rename_i hk
    rw [hk] at h2 h3 h4 h5 he
    exact ⟨by simpa [events_snoc] using h1, by simpa using h2, by simpa using h3, by simpa using h4, by simpa using h5,
      by simpa using h6, by simpa using he, h7, by simpa using h8, by rw [split_snoc (.inl (by simp))]; exact h9⟩
  | event n =>
    simp only [step] at hs
    split at hs <;> cases hs
    exact ⟨by simp [events_snoc, h1], h2, by simpa using h3, h4, h5,
      by simpa using h6, he, h7, by simpa using h8, by rw [split_snoc (.inl (by simp))]; exact h9⟩
  | subscribed =>
    simp only [step] at hs
    split at hs <;> cases hs
    rename_i hk
    have hn : s.notified = false := by rw [hk] at he; simpa using he
    exact ⟨by simpa [events_snoc] using h1, by simp, by simp, by simp, by simp [hn, h5, hk],
      by simpa using h6, by simp, h7, by simpa using h8, by rw [split_snoc (.inl (by simp))]; exact h9⟩
  | subscribeRaises e =>
    simp only [step] at hs
    split at hs <;> cases hs
    rename_i hk
    have hn : s.notified = false := by rw [hk] at he; simpa using he
    rw [hk] at h2 h3 h4 h5
    exact ⟨by simpa [events_snoc] using h1, by simpa using h2, by simpa using h3, by simpa using h4, by simpa using h5,
      by simpa using h6, by simp, h7, by simpa using h8, by rw [split_snoc (.inl (by simp))]; exact h9⟩
  | doneCallback =>
    simp only [step] at hs
    split at hs
    · rename_i hk hn
      cases hs
      rw [hn] at h4 h5
      rw [hk] at h4 h5
      have ht : s.inTasks = false := by simpa using h4
      simp only [State.discard, ht, Bool.false_eq_true, if_false]
      exact ⟨by simpa [events_snoc] using h1, h2, by simpa using h3, by simp [hk], by simp [hk, h5],
        by simp, fun _ => .inl hk, h7, by simpa using h8, by rw [split_snoc (.inl (by simp))]; exact h9⟩
    · rename_i e hk hn
      cases hs
      rw [hn] at h4 h5
      rw [hk] at h4 h5
      have ht : s.inTasks = true := by simpa using h4
      simp only [State.discard, ht, if_true]
      exact ⟨by simpa [events_snoc] using h1, h2, by simpa using h3, by simp [hk], by simp [hk, h5],
        by simp, fun _ => .inr ⟨e, hk⟩, h7, by simpa using h8, by rw [split_snoc (.inl (by simp))]; exact h9⟩
    · cases hs
  | dispose =>
    simp only [step] at hs
    split at hs
    · rename_i hd
      cases hs
      exact ⟨by simpa [events_snoc] using h1, h2, by simpa using h3, h4, h5,
        by simpa using h6, he, h7, by simpa using hd, by rw [split_snoc (.inr (h8.mp hd))]; exact h9⟩
    · rename_i hd
      have hd0 : s.isDisposed = false := by simpa using hd
      have hz := h7.2 hd0
      have hnot : Label.dispose ∉ ls := fun hh => hd (h8.mpr hh)
      split at hs
      · rename_i hsub
        cases hs
        refine ⟨by simpa [events_snoc] using h1, h2, by simpa using h3, h4, h5,
          by simpa using h6, he, ⟨by dsimp only; omega, by simp⟩, by simp, ?_⟩
        rw [split_last hnot, ← h3, ← h2]
        dsimp only
        constructor
        · intro _; exact hsub
        · intro _; omega
      · rename_i hsub
        cases hs
        refine ⟨by simpa [events_snoc] using h1, h2, by simpa using h3, h4, h5,
          by simpa using h6, he, ⟨h7.1, by simp⟩, by simp, ?_⟩
        rw [split_last hnot, ← h3, ← h2]
        dsimp only
        constructor
        · intro _; omega
        · intro hh; exact absurd hh hsub
  | disposeTask =>
    simp only [step] at hs
    split at hs
    · rename_i hp
      cases hs
      have hsum : s.disposing - 1 + (s.disposals + 1) = s.disposing + s.disposals := by omega
      refine ⟨by simpa [events_snoc] using h1, h2, by simpa using h3, h4, h5,
        by simpa using h6, he, ⟨by dsimp only; omega, fun hd => by have := h7.2 hd; omega⟩, by simpa using h8, ?_⟩
      rw [split_snoc (.inl (by simp)), ← h9]
      dsimp only; rw [hsum]
    · cases hs

theorem inv_run {ls : List (Label α)} {s : State α} (h : LTS.run step init ls = some s) : Inv ls s :=
  LTS.inv_hist Inv (s0 := init) inv_init inv_step h

/-- A subscription with two values, disposed after it has been made. -/
def demo : List (Label Nat) :=
  [.start, .event (.next 1), .subscribed, .doneCallback, .event (.next 2), .dispose, .disposeTask]

example : (LTS.run step init demo).map (fun s => (s.forwarded, s.disposals)) = some ([.next 1, .next 2], 1) := by decide

/-- C65, first part: every event of the source is forwarded, in order, once. -/
theorem C65_forwards_partial {ls : List (Label α)} {s : State α} (hr : LTS.run step init ls = some s) :
    s.forwarded = events ls := (inv_run hr).forwarded

/-- C65, second part: the source's subscription is disposed at most once, and, once the tasks have run, exactly if the
disposable was disposed for the first time after the subscription had been made. -/
theorem C65_disposes_partial {ls : List (Label α)} {s : State α} (hr : LTS.run step init ls = some s) :
    s.disposals ≤ 1 ∧ (s.disposing = 0 →
      (s.disposals = 1 ↔ ∃ a b, ls = a ++ .dispose :: b ∧ .dispose ∉ a ∧ .subscribed ∈ a)) := by
  have h := inv_run hr
  refine ⟨by have := h.disposals.1; omega, fun hz => ?_⟩
  rw [← h.late, hz, Nat.zero_add]

/-- C65, second part, is false: if the disposable is disposed before the task has subscribed, the subscription is never
disposed, whatever happens later and however often `dispose` is called; and the source goes on being forwarded. -/
theorem C65_violated_early_dispose {a b : List (Label α)} {s : State α} (ha : .subscribed ∉ a)
    (hr : LTS.run step init (a ++ .dispose :: b) = some s) : s.disposals = 0 ∧ s.disposing = 0 := by
  have h := inv_run hr
  have hz : ¬ (s.disposing + s.disposals = 1) := by
    rw [h.late]
    rintro ⟨a', b', he, h1, h2⟩
    rcases (Nat.lt_or_ge a.length a'.length).symm with hl | hl
    · have : a' <+: a := List.prefix_of_prefix_length_le ⟨_, he.symm⟩ ⟨_, rfl⟩ hl
      exact ha (this.subset h2)
    · have : a ++ [.dispose] <+: a' :=
        List.prefix_of_prefix_length_le (l₃ := a ++ .dispose :: b) ⟨b, by simp⟩ ⟨_, he.symm⟩ (by simp; omega)
      exact h1 (this.subset (by simp))
  have := h.disposals.1
  omega

example : (LTS.run step init [.dispose, .start, .subscribed, .event (.next 1), .dispose, .event (.next (2 : Nat))]).map
    (fun s => (s.forwarded, s.disposals, s.disposing)) = some ([.next 1, .next 2], 0, 0) := by decide

/-- C73 is false, always: after every successful subscription a callback of the event loop raises a KeyError. -/
theorem C73_violated {ls : List (Label α)} {s : State α} (hr : LTS.run step init ls = some s)
    (hs : .subscribed ∈ ls) (hd : .doneCallback ∈ ls) : s.keyErrors = 1 := by
  have h := inv_run hr
  rw [h.errors, if_pos ⟨h.subscribed.mpr hs, h.notified.mpr hd⟩]

/-- C73, what holds: no such error when subscribing fails, and never more than one. -/
theorem C73_partial {ls : List (Label α)} {s : State α} (hr : LTS.run step init ls = some s) :
    s.keyErrors ≤ 1 ∧ (.subscribed ∉ ls → s.keyErrors = 0) := by
  have h := inv_run hr
  constructor
  · rw [h.errors]; split <;> omega
  · intro hn; rw [h.errors, if_neg]; exact fun hh => hn (h.subscribed.mp hh.1)

/-- The task that runs `start()` is in `tasks` (so that it is not garbage collected) as long as it runs. -/
theorem C73_task_kept_partial {ls : List (Label α)} {s : State α} (hr : LTS.run step init ls = some s)
    (hk : s.start = .created ∨ s.start = .subscribing) : s.inTasks = true := by
  have h := inv_run hr
  rw [h.tasks]
  refine ⟨by rcases hk with hk | hk <;> rw [hk] <;> simp, ?_⟩
  cases hn : s.notified with
  | false => rfl
  | true =>
    rcases h.ended hn with h1 | ⟨e, h1⟩ <;> rcases hk with hk | hk <;> rw [hk] at h1 <;> cases h1

example : (LTS.run step init demo).map (fun s => s.keyErrors) = some 1 := by decide

end Aio.ToObservable
