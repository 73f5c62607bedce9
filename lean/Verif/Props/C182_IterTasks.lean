import Verif.Base.LTS
import Verif.Model.IterTasks
import Verif.Spec.Held

/-!
# C182: from_async_iterable holds on to its tasks until they are over, and no longer

The first half holds. The second is false: a task is only taken out of the set after it has completed
its observer. The tasks of disposed subscriptions, of observers that raised and of iterables that
raised stay in the set as long as the observable exists.
-/

namespace Aio.IterTasks
open OfAsyncIterable (PC)
variable {α : Type}

/-- The task of subscription `i` was started. -/
def Started (s : State α) (i : Nat) : Prop := ∃ w, s.subs[i]? = some w

/-- The task of subscription `i` has ended. -/
def Over (s : State α) (i : Nat) : Prop := ∃ w, s.subs[i]? = some w ∧ w.pc = .dead

/-- The observer of subscription `i` was completed: `aclose` was called and has returned. -/
def Done (s : State α) (i : Nat) : Prop :=
  ∃ w, s.subs[i]? = some w ∧ Safe.Event.finish .completed ∈ w.log

private theorem log_step {w w' : OfAsyncIterable.State α} {l : OfAsyncIterable.Label α}
    (h : OfAsyncIterable.step w l = some w') :
    (l = .ret ∧ w.pc = .closing ∧ w'.pc = .dead ∧ Safe.Event.finish .completed ∈ w'.log) ∨
    (¬ (l = .ret ∧ w.pc = .closing) ∧
      (Safe.Event.finish .completed ∈ w'.log ↔ Safe.Event.finish .completed ∈ w.log)) := by
  obtain ⟨pc, c, log⟩ := w
  cases l <;> cases pc <;> simp only [OfAsyncIterable.step] at h
  all_goals (try split at h)
  all_goals first
    | (cases h; done)
    | (obtain rfl := Option.some.inj h; simp)

private theorem dead_step {w w' : OfAsyncIterable.State α} {l : OfAsyncIterable.Label α}
    (h : OfAsyncIterable.step w l = some w') (hd : w.pc = .dead) : w'.pc = .dead ∧ w'.log = w.log := by
  obtain ⟨pc, c, log⟩ := w
  subst hd
  cases l <;> simp only [OfAsyncIterable.step] at h
  all_goals (try split at h)
  all_goals first
    | (cases h; done)
    | (obtain rfl := Option.some.inj h; simp)

private structure Inv (s : State α) : Prop where
  held : ∀ i, i ∈ s.tasks ↔ Started s i ∧ ¬ Done s i
  dead : ∀ i, Done s i → Over s i
  nomiss : s.missing = []
  nodup : s.tasks.Nodup

private theorem inv_step {s s' : State α} {l : Label α} (h : Inv s) (hs : step s l = some s') :
    Inv s' := by
  cases l with
  | subscribe =>
    obtain rfl := Option.some.inj hs
    have hget : ∀ i, (s.subs ++ [OfAsyncIterable.init])[i]? =
        if i = s.subs.length then some OfAsyncIterable.init else s.subs[i]? := by
      intro i
      split
      · next h => subst h; simp
      · next h =>
        by_cases hi : i < s.subs.length
        · rw [List.getElem?_append_left hi]
        · rw [List.getElem?_eq_none (by simp; omega), List.getElem?_eq_none (by omega)]
    have hlen : ¬ Started s s.subs.length := by
      rintro ⟨w, hw⟩; simp at hw
    refine ⟨fun i => ?_, fun i hd => ?_, h.nomiss, ?_⟩
    · simp only [List.mem_append, List.mem_singleton, Started, Done, hget]
      by_cases hi : i = s.subs.length
      · simp [hi, OfAsyncIterable.init]
      · simp only [hi, or_false, if_false]; exact h.held i
    · obtain ⟨w, hw, hm⟩ := hd
      simp only [hget] at hw
      split at hw
      · obtain rfl := Option.some.inj hw; simp [OfAsyncIterable.init] at hm
      · next hi =>
        obtain ⟨w', h1, h2⟩ := h.dead i ⟨w, hw, hm⟩
        exact ⟨w', by simp only [hget, hi, if_false]; exact h1, h2⟩
    · refine List.nodup_append.mpr ⟨h.nodup, by simp, ?_⟩
      intro a ha b hb hab
      simp only [List.mem_singleton] at hb
      subst hb; subst hab
      exact hlen ((h.held _).mp ha).1
  | «at» i l =>
    simp only [step] at hs
    split at hs
    · exact absurd hs (by simp)
    next w hw =>
    split at hs
    · exact absurd hs (by simp)
    next w' hw' =>
    have hlt : i < s.subs.length := by
      rcases Nat.lt_or_ge i s.subs.length with h | h
      · exact h
      · rw [List.getElem?_eq_none h] at hw; exact absurd hw (by simp)
    have hget : ∀ j, (s.subs.set i w')[j]? = if j = i then some w' else s.subs[j]? := by
      intro j
      rw [List.getElem?_set]
      by_cases hj : i = j
      · subst hj; simp [hlt]
      · simp [hj, Ne.symm hj]
    rcases log_step hw' with ⟨hl, hpc, hdead, hm⟩ | ⟨hne, hlog⟩
    · subst hl
      simp only [hpc] at hs
      have hin : i ∈ s.tasks := by
        refine (h.held i).mpr ⟨⟨w, hw⟩, fun hd => ?_⟩
        obtain ⟨w2, h1, h2⟩ := h.dead i hd
        rw [hw] at h1
        obtain rfl := Option.some.inj h1
        rw [hpc] at h2
        exact absurd h2 (by simp)
      simp only [remove, hin, if_true, Option.some.injEq] at hs
      subst hs
      refine ⟨fun j => ?_, fun j hd => ?_, h.nomiss, h.nodup.filter _⟩
      · simp only [List.mem_filter, Started, Done, hget]
        by_cases hj : j = i
        · simp [hj, hm]
        · simp only [hj, if_false, bne_iff_ne, ne_eq, not_false_eq_true, and_true]; exact h.held j
      · by_cases hj : j = i
        · exact ⟨w', by simp only [hget, hj, if_true], hdead⟩
        · obtain ⟨v, hv, hvm⟩ := hd
          simp only [hget, hj, if_false] at hv
          obtain ⟨w2, h1, h2⟩ := h.dead j ⟨v, hv, hvm⟩
          exact ⟨w2, by simp only [hget, hj, if_false]; exact h1, h2⟩
    · have hs' : s' = { s with subs := s.subs.set i w' } := by
        split at hs
        · next h1 => exact absurd ⟨rfl, h1⟩ hne
        · exact (Option.some.inj hs).symm
      subst hs'
      refine ⟨fun j => ?_, fun j hd => ?_, h.nomiss, h.nodup⟩
      · rw [h.held j]
        simp only [Started, Done, hget]
        by_cases hj : j = i
        · subst hj; simp [hw, hlog]
        · simp only [hj, if_false]
      · obtain ⟨v, hv, hvm⟩ := hd
        by_cases hj : j = i
        · subst hj
          simp only [hget, if_true, Option.some.injEq] at hv
          subst hv
          obtain ⟨w2, h1, h2⟩ := h.dead j ⟨w, hw, hlog.mp hvm⟩
          rw [hw] at h1
          obtain rfl := Option.some.inj h1
          exact ⟨w', by simp [hget], (dead_step hw' h2).1⟩
        · simp only [hget, hj, if_false] at hv
          obtain ⟨w2, h1, h2⟩ := h.dead j ⟨v, hv, hvm⟩
          exact ⟨w2, by simp only [hget, hj, if_false]; exact h1, h2⟩

private theorem inv_run {ls : List (Label α)} {s : State α} (h : LTS.run step init ls = some s) :
    Inv s := by
  refine LTS.inv (step := step) Inv (s0 := init) ⟨?_, ?_, rfl, by simp [init]⟩
    (fun s l s' => inv_step) h
  · intro i; simp [init, Started]
  · rintro i ⟨w, hw, _⟩; simp [init] at hw

/-- At every moment the set holds exactly the tasks of the subscriptions whose observer was not
completed. -/
theorem C182_held {ls : List (Label α)} {s : State α} (h : LTS.run step init ls = some s) (i : Nat) :
    i ∈ s.tasks ↔ Started s i ∧ ¬ Done s i :=
  (inv_run h).held i

/-- Every task that still runs is in the set. -/
theorem C182_safe {ls : List (Label α)} {s : State α} (h : LTS.run step init ls = some s) :
    Spec.Held.Safe (Started s) (Over s) s.tasks :=
  fun i h1 h2 => ((inv_run h).held i).mpr ⟨h1, fun hd => h2 ((inv_run h).dead i hd)⟩

/-- `tasks.remove(task)` never raises `KeyError`: none has been raised, and a worker that waits for
`aclose` finds its task in the set when that returns, since it is there all the time. -/
theorem C182_no_key_error {ls : List (Label α)} {s : State α}
    (h : LTS.run step init ls = some s) :
    s.missing = [] ∧ ∀ i w, s.subs[i]? = some w → w.pc = .closing → i ∈ s.tasks := by
  refine ⟨(inv_run h).nomiss, fun i w hw hpc => C182_safe h i ⟨w, hw⟩ ?_⟩
  rintro ⟨v, hv, hd⟩
  rw [hw] at hv
  obtain rfl := Option.some.inj hv
  rw [hpc] at hd
  exact absurd hd (by simp)

/-- The full statement is `Spec.Held.Clean (Over s) s.tasks`. It holds as long as every subscription
that is over has completed its observer; the rest is false (`C182_clean_violated`). -/
theorem C182_clean_partial {ls : List (Label α)} {s : State α}
    (h : LTS.run step init ls = some s) (hall : ∀ i, Over s i → Done s i) :
    Spec.Held.Clean (Over s) s.tasks :=
  fun i hi ho => (((inv_run h).held i).mp hi).2 (hall i ho)

private theorem stuck {i : Nat} {w : OfAsyncIterable.State α} {ls : List (Label α)} :
    ∀ {s s' : State α}, LTS.run step s ls = some s' → s.subs[i]? = some w → w.pc = .dead →
      ∃ w', s'.subs[i]? = some w' ∧ w'.pc = .dead ∧ w'.log = w.log := by
  intro s s' h hw hd
  have := LTS.inv (step := step)
    (fun s : State α => ∃ w', s.subs[i]? = some w' ∧ w'.pc = .dead ∧ w'.log = w.log)
    (s0 := s) ⟨w, hw, hd, rfl⟩ ?_ h
  · exact this
  · rintro t l t' ⟨v, hv, hvd, hvl⟩ hst
    cases l with
    | subscribe =>
      obtain rfl := Option.some.inj hst
      refine ⟨v, ?_, hvd, hvl⟩
      have hi : i < t.subs.length := by
        rcases Nat.lt_or_ge i t.subs.length with h | h
        · exact h
        · rw [List.getElem?_eq_none h] at hv; exact absurd hv (by simp)
      simp only [List.getElem?_append_left hi]; exact hv
    | «at» j l =>
      simp only [step] at hst
      split at hst
      · exact absurd hst (by simp)
      next u hu =>
      split at hst
      · exact absurd hst (by simp)
      next u' hu' =>
      have hsubs : t'.subs = t.subs.set j u' := by
        split at hst
        · obtain rfl := Option.some.inj hst
          simp only [remove]; split <;> rfl
        · obtain rfl := Option.some.inj hst; rfl
      rw [hsubs, List.getElem?_set]
      by_cases hj : j = i
      · subst hj
        rw [hv] at hu
        obtain rfl := Option.some.inj hu
        have hlt : j < t.subs.length := by
          rcases Nat.lt_or_ge j t.subs.length with h | h
          · exact h
          · rw [List.getElem?_eq_none h] at hv; exact absurd hv (by simp)
        obtain ⟨h1, h2⟩ := dead_step hu' hvd
        exact ⟨u', by simp [hlt], h1, h2.trans hvl⟩
      · exact ⟨v, by simp [hj, hv], hvd, hvl⟩

/-- A task that ended without having completed its observer is never taken out of the set, whatever
happens afterwards. -/
theorem C182_forever_violated {ls ms : List (Label α)} {s s' : State α} {i : Nat}
    (h : LTS.run step init ls = some s) (ho : Over s i) (hd : ¬ Done s i)
    (h' : LTS.run step s ms = some s') : Over s' i ∧ i ∈ s'.tasks := by
  obtain ⟨w, hw, hpc⟩ := ho
  obtain ⟨w', hw', hpc', hlog⟩ := stuck h' hw hpc
  refine ⟨⟨w', hw', hpc'⟩, (C182_held (LTS.run_append.mpr ⟨s, h, h'⟩) i).mpr ⟨⟨w', hw'⟩, ?_⟩⟩
  rintro ⟨v, hv, hm⟩
  rw [hw'] at hv
  obtain rfl := Option.some.inj hv
  exact hd ⟨w, hw, hlog ▸ hm⟩

/-- A subscriber that subscribes, is sent `v`, and then disposes; subscription
number `i`. -/
def visit (v : α) (i : Nat) : List (Label α) :=
  [.subscribe, .at i .start, .at i (.item v), .at i .ret, .at i .dispose, .at i .cancelled]

/-- `n` visits, one after the other. -/
def visits (v : α) : Nat → List (Label α)
  | 0 => []
  | n + 1 => visits v n ++ visit v n

/-- The worker of a subscription that came and went. -/
private def gone (v : α) : OfAsyncIterable.State α :=
  ⟨.dead, false, [.start (.next v), .finish (.next v)]⟩

private theorem visits_run (v : α) : ∀ n,
    LTS.run step (init : State α) (visits v n) =
      some ⟨List.replicate n (gone v), List.range n, []⟩
  | 0 => rfl
  | n + 1 => by
    refine LTS.run_append.mpr ⟨_, visits_run v n, ?_⟩
    simp [visit, LTS.run, step, OfAsyncIterable.step, OfAsyncIterable.init, gone, List.range_succ,
      List.replicate_succ']

/-- Subscribing and disposing `n` times leaves `n` ended tasks in the set, for every `n`: the
observable grows without bound although nobody is subscribed. -/
theorem C182_clean_violated (v : α) (n : Nat) : ∃ s : State α,
    LTS.run step init (visits v n) = some s ∧ s.subs.length = n ∧ (∀ i < n, Over s i) ∧
      s.tasks = List.range n := by
  refine ⟨_, visits_run v n, by simp, fun i hi => ⟨gone v, by simp [hi], rfl⟩, rfl⟩

/-- Two subscriptions: the first runs to its end and is released, the second still runs and is held. -/
example : ∃ s : State Nat,
    LTS.run step init [.subscribe, .subscribe, .at 0 .start, .at 1 .start, .at 0 (.item 7),
      .at 0 .ret, .at 0 .stop, .at 1 (.item 7), .at 0 .ret] = some s ∧ s.tasks = [1] ∧
      Over s 0 ∧ Done s 0 ∧ ¬ Over s 1 := by
  refine ⟨_, rfl, rfl, ⟨_, rfl, rfl⟩, ⟨_, rfl, by simp⟩, ?_⟩
  rintro ⟨w, hw, hpc⟩
  obtain rfl := Option.some.inj hw
  exact absurd hpc (by simp)

/-- The same without a disposal: the observer raises, is told, and the task stays in the set. So it
does if the iterable raises. -/
example : ∃ s : State Nat,
    LTS.run step init [.subscribe, .subscribe, .at 0 .start, .at 1 .start, .at 0 (.item 7),
      .at 0 (.raise (.user 1)), .at 0 .ret, .at 1 (.fails (.user 2))] = some s ∧ s.tasks = [0, 1] ∧
      Over s 0 ∧ Over s 1 :=
  ⟨_, rfl, rfl, ⟨_, rfl, rfl⟩, ⟨_, rfl, rfl⟩⟩

end Aio.IterTasks
