import Verif.Props.C20_26_Create
/-!
# C84: disposing a subscription ends the tasks it started
-/

namespace Aio.Safe
variable {α : Type}

/-- C84 is false of every `safe_observer`: its worker task (started without a cancellation token, observers.py:188) ends
only after a terminal notification or an exception. Disposing the subscription posts nothing, so the task waits for
ever. -/
theorem C84_violated {ls : List (Label α)} {s : State α} (h : run init ls = some s) (hn : NoRaise ls)
    (ht : ∀ n ∈ posted ls, n.isTerminal = false) : s.pc ≠ .halted := by
  obtain ⟨vs, c, t, hp, hl, hsh⟩ := inv_run h
  have hq : Quiet s := quiet_run hn ⟨by simp [init], by simp [init]⟩ h
  intro hh
  have hterm : ∀ n, c = [n] → n.isTerminal = false := fun n hc => ht n (by rw [hp, hc]; simp)
  obtain ⟨inbox, pc, log⟩ := s
  obtain ⟨hq1, hq2⟩ := hq
  simp only at hl hsh hq1 hq2 hh hp
  subst hh
  cases hsh
  case cancelled v => exact hq1 (.next v) .cancelled (by rw [hl]; simp)
  case rethrown v e he => exact hq1 (.next v) e (by rw [hl]; simp)
  case rethrownRaised v e e' he => exact hq1 (.next v) e (by rw [hl]; simp)
  case disposeRaised n e hn' => rw [hterm n rfl] at hn'; cases hn'
  case terminated n hn' => rw [hterm n rfl] at hn'; cases hn'
  case terminatedRaised n e hn' => rw [hterm n rfl] at hn'; cases hn'

/-- C84, what holds: when the source has sent a terminal notification and the worker has nothing left to do, its task has
ended. -/
theorem C84_ended_partial {ls : List (Label α)} {s : State α} (h : run init ls = some s) (hd : Drained s)
    {n : Notif α} (hp : n ∈ posted ls) (hn : n.isTerminal = true) : s.pc = .halted := by
  obtain ⟨vs, c, t, hp', hl, hsh⟩ := inv_run h
  rcases hd with hd | ⟨hd, hi⟩
  · exact hd
  · rw [hd] at hsh
    cases hsh
    rw [hp', hi] at hp
    simp at hp
    obtain ⟨v, -, rfl⟩ := hp
    cases hn

end Aio.Safe

namespace Aio
variable {S L α : Type}
open Producer

/-- C84 is false of every source that delivers through a safe observer: in every schedule, disposals included, in which
the source posts no terminal notification and nothing raises. -/
theorem C84_violated_source (p : Producer S L α) {ls : List (Label L)} {s : State S α}
    (hr : LTS.run p.next p.start ls = some s) (hn : NoRaise ls) (ht : ∀ n ∈ s.posts, n.isTerminal = false) :
    s.safe.pc ≠ .halted := by
  obtain ⟨ls', h1, h2, h3⟩ := p.safe_run hr
  exact Safe.C84_violated h1 (h3 hn) (by rw [h2]; exact ht)

/-- C84, an example: a subscription of `from_iterable` that is disposed before its worker begins. The source's task ends
without a word; the safe observer's task waits, and nothing can happen any more. -/
theorem C84_violated_of_seq : ∃ s, LTS.run (ofSeq true [1, 2, 3] none).next (ofSeq true [1, 2, 3] none).start
      [.dispose, .own ()] = some s ∧ s.safe.pc = .waiting ∧
    ∀ l, (l ≠ .dispose) → (ofSeq true [1, 2, 3] none).next s l = none := by
  refine ⟨_, rfl, rfl, ?_⟩
  intro l hl
  cases l with
  | own l => rfl
  | dispose => exact absurd rfl hl
  | receive => rfl
  | ret => rfl
  | raise e => rfl

end Aio
