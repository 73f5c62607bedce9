import Verif.Props.C138_HostedLoop
/-!
# C139: what is left when an `async for` has ended

`async for x in to_async_iterable(source): ...` to its end, with a source behind `safe_observer`: one would expect that nothing of the library is left running. But
`await self._push` (observers.py:74) raises `StopAsyncIteration`, or the error, so 75-81 are not executed: `_pull` is never set, the call of `aclose` or `athrow` that has brought the end
waits for it (56) forever, and with it the worker of `safe_observer`.
-/

namespace Aio.Loop
open Spec Spec.Timed Spec.Queue
open Iterator.One (Fits Shape)
open VirtualTime (Heap)
variable {S L T α β γ σ : Type} {o : Handler σ α β} {s0 : σ} {m : Nat → β → Option Nat} {gone : Nat}

/-- The worker waits in a call, for a consumer that has left. -/
def Stuck (s : State α β σ) : Prop := (∃ k, s.pc = .calling k) ∧ (∃ n, Fits s.it .idle (.offered n)) ∧ s.body = .over

theorem stuck_step {s s' : State α β σ} {l : Label α} (hs : Stuck s) (h : step o m gone s l = some s') : Stuck s' ∧ s'.sent = s.sent := by
  obtain ⟨⟨k, hk⟩, ⟨n, hf⟩, hb⟩ := hs
  cases l with
  | event n' => cases h; exact ⟨⟨⟨k, hk⟩, ⟨n, hf⟩, hb⟩, rfl⟩
  | tick d =>
    simp only [step] at h
    split at h <;> cases h
    exact ⟨⟨⟨k, hk⟩, ⟨n, hf⟩, hb⟩, rfl⟩
  | receive => simp only [step, hk] at h; cases h
  | go => simp only [step, hk] at h; cases h
  | wake => simp only [step, hk] at h; cases h
  | back =>
    simp only [step, hk] at h
    split at h
    next hr => exact (not_returned hf hr).elim
    next => cases h
  | subscribed =>
    simp only [step, Option.map_eq_some_iff] at h
    obtain ⟨it, h, _⟩ := h
    cases ((Iterator.One.come_offered hf).2 it h).1
  | run =>
    simp only [step, Option.map_eq_some_iff] at h
    obtain ⟨it, h, _⟩ := h
    cases (Iterator.One.run_offered hf h).1
  | anext => simp only [step, hb] at h; cases h

theorem absorb_end {s : State α β σ} {n : Notif β} {it : Iterator.State β} (hp : ¬ s.pc.Elsewhere) (hf : Fits it .idle (.after n))
    (ht : it.taken = s.it.taken ++ [Iterator.Took.of n]) (ho : ¬ ∃ c ∈ s.sent, c.1.isTerminal = true) (h : ∃ c ∈ (absorb m s it).sent, c.1.isTerminal = true) : Stuck (absorb m s it) := by
  have hk : ∃ k, s.pc = .calling k := by
    cases hpc : s.pc with
    | calling k => exact ⟨k, rfl⟩
    | _ => rw [hpc] at hp; exact (hp trivial).elim
  cases n with
  | next v =>
    exfalso
    apply ho
    obtain ⟨c, hc, hn⟩ := h
    simp only [absorb, ht, Iterator.Took.of, List.drop_left, List.mem_append, List.mem_singleton] at hc
    rcases hc with hc | rfl
    · exact ⟨c, hc, hn⟩
    · cases hn
  | error e =>
    have ha : absorb m s it = { s with it, body := .over, sent := s.sent ++ [(.error e, s.now)] } := by simp [absorb, ht, Iterator.Took.of]
    rw [ha]
    exact ⟨hk, ⟨_, hf⟩, rfl⟩
  | completed =>
    have ha : absorb m s it = { s with it, body := .over, sent := s.sent ++ [(.completed, s.now)] } := by simp [absorb, ht, Iterator.Took.of]
    rw [ha]
    exact ⟨hk, ⟨_, hf⟩, rfl⟩

theorem stuck {t0 : Nat} {ls : List (Label α)} {s : State α β σ} (hr : LTS.run (step o m gone) ((stage o s0 m gone).init t0) ls = some s)
    (he : ∃ c ∈ s.sent, c.1.isTerminal = true) : Stuck s := by
  have key : (∃ cs, Inv o s0 m gone t0 cs s) ∧ ((∃ c ∈ s.sent, c.1.isTerminal = true) → Stuck s) := by
    refine LTS.inv (step := step o m gone) (s0 := (stage o s0 m gone).init t0)
      (I := fun s => (∃ cs, Inv o s0 m gone t0 cs s) ∧ ((∃ c ∈ s.sent, c.1.isTerminal = true) → Stuck s)) ?_ ?_ hr
    · exact ⟨⟨_, (inv_run (ls := []) rfl).1⟩, fun ⟨c, hc, _⟩ => by cases hc⟩
    · intro s l s' ⟨⟨cs, hi⟩, ih⟩ h
      refine ⟨⟨_, (inv_step hi h).1⟩, fun he => ?_⟩
      by_cases ho : ∃ c ∈ s.sent, c.1.isTerminal = true
      · exact (stuck_step (ih ho) h).1
      obtain ⟨sh, r, t, free, rest, fits, -, -, asks, idle, -, -, called, -⟩ := hi
      have same : s'.sent = s.sent → Stuck s' := fun e => absurd (e ▸ he) ho
      have elsewhere : ∀ n, sh = .offered n → ¬ s.pc.Elsewhere := fun n e hp => by have := called hp; rw [e] at this; exact this
      cases l with
      | event n' => cases h; exact same rfl
      | tick d =>
        simp only [step] at h
        split at h <;> cases h
        exact same rfl
      | receive =>
        simp only [step] at h
        split at h <;> cases h
        exact same rfl
      | go =>
        simp only [step] at h
        split at h
        · cases h; exact same rfl
        · cases h; exact same rfl
        · cases h; exact same rfl
        · cases h; exact same rfl
        · simp only [Option.map_eq_some_iff] at h
          obtain ⟨it, -, rfl⟩ := h
          exact same rfl
        · cases h
      | wake =>
        simp only [step] at h
        split at h
        · split at h <;> cases h
          exact same rfl
        · cases h
      | back =>
        simp only [step] at h
        split at h
        · split at h <;> cases h
          exact same rfl
        · cases h
      | subscribed =>
        simp only [step, Option.map_eq_some_iff] at h
        obtain ⟨it, h, rfl⟩ := h
        cases sh with
        | free => exact same (by rw [absorb_nothing ((Iterator.One.come_free fits).2 it h).2.2])
        | offered n =>
          obtain ⟨-, ht, hf⟩ := (Iterator.One.come_offered fits).2 it h
          exact absorb_end (elsewhere n rfl) hf ht ho he
        | taken =>
          obtain ⟨calls, hd, u, n, ha, e⟩ := fits
          rw [e] at h
          simp only [Iterator.step, Iterator.isTurn] at h
          cases hc : s.it.consumer with
          | subscribing =>
            by_cases hb : s.body = .asking
            · rcases asks hb with ⟨_, h⟩ | h
              · exact h.elim
              · rw [hc] at h; cases h
            · have := idle hb; rw [hc] at this; cases this
          | _ => rw [hc] at h; simp at h
      | run =>
        simp only [step, Option.map_eq_some_iff] at h
        obtain ⟨it, h, rfl⟩ := h
        cases sh with
        | free => exact (Iterator.One.run_free fits it h).elim
        | offered n =>
          obtain ⟨-, ht, hf⟩ := Iterator.One.run_offered fits h
          exact absorb_end (elsewhere n rfl) hf ht ho he
        | taken => exact same (by rw [absorb_nothing (Iterator.One.run_taken fits h).2])
      | anext =>
        simp only [step] at h
        split at h
        next d hb =>
          split at h
          next hd =>
            simp only [Option.map_eq_some_iff] at h
            obtain ⟨it, h, rfl⟩ := h
            have hc : s.it.consumer = .idle := idle (by rw [hb]; nofun)
            cases sh with
            | free => exact same (by rw [absorb_nothing (s := { s with body := .asking }) ((Iterator.One.come_free fits).1 it h).2])
            | offered n =>
              obtain ⟨-, ht, hf⟩ := (Iterator.One.come_offered fits).1 it (by rw [hc]; nofun) h
              exact absorb_end (s := { s with body := .asking }) (elsewhere n rfl) hf ht ho he
            | taken => exact same (by rw [absorb_nothing (s := { s with body := .asking }) ((Iterator.One.come_taken fits (by rw [hc]; nofun) (by rw [hc]; nofun)).1 it h).2.2])
          next => cases h
        next => cases h
  exact key.2 he

/-- C139 is violated, in every run: when the loop has ended because the source has, the worker waits in the call that has told it, and nothing that is scheduled would let it go on; so also at
every later time. -/
theorem C139_violated_worker_left [DecidableEq T] {h : Heap} (K : h.Laws) {q : Clocked S L α} {H : Host S L T} (hH : H.Lawful q) {ops : Ops α β} {hops ls x}
    (hr : LTS.run (Hosted.step h hops (q.through (stage (ops.handler Handler.iterator) () m gone)) (H.through host)) Hosted.init ls = some x)
    {s : S × State α β Unit} (hm : x.sub = some s) (he : ∃ c ∈ s.2.sent, c.1.isTerminal = true) :
    (∃ k, s.2.pc = .calling k) ∧ host.need s.2 .worker = .nothing := by
  obtain ⟨_, ks, h1, _, _⟩ := Hosted.C117_schedule K (Host.through_lawful hH stage_lawful host_lawful) hr hm
  obtain ⟨-, ms, h1, -⟩ := Clocked.split hH.clock stage_reads h1
  obtain ⟨⟨k, hk⟩, ⟨n, hf⟩, hb⟩ := stuck h1 he
  refine ⟨⟨k, hk⟩, ?_⟩
  have hr : returned s.2.it ≠ true := fun hr => (not_returned hf hr).elim
  obtain ⟨calls, hd, t, ha, hit⟩ := hf
  have hn : next s.2.it = none := by rw [hit]; rfl
  simp only [host, hn, reduceCtorEq, if_false, hk]
  rw [if_neg hr]

/-- C139, the part that holds: the task of the loop itself is done, and the worker that is left has no timer and no callback: it does not hold up the clock or keep the event loop busy. -/
theorem C139_consumer_partial [DecidableEq T] {h : Heap} (K : h.Laws) {q : Clocked S L α} {H : Host S L T} (hH : H.Lawful q) {ops : Ops α β} {hops ls x}
    (hr : LTS.run (Hosted.step h hops (q.through (stage (ops.handler Handler.iterator) () m gone)) (H.through host)) Hosted.init ls = some x)
    {s : S × State α β Unit} (hm : x.sub = some s) (he : ∃ c ∈ s.2.sent, c.1.isTerminal = true) : ∀ n, host.need s.2 n = .nothing := by
  intro n
  cases n with
  | worker => exact (C139_violated_worker_left K hH hr hm he).2
  | consumer =>
    obtain ⟨_, ks, h1, _, _⟩ := Hosted.C117_schedule K (Host.through_lawful hH stage_lawful host_lawful) hr hm
    obtain ⟨-, ms, h1, -⟩ := Clocked.split hH.clock stage_reads h1
    obtain ⟨-, ⟨n, calls, hd, t, ha, hit⟩, hb⟩ := stuck h1 he
    have hn : next s.2.it = none := by rw [hit]; rfl
    have hc : s.2.it.consumer = .idle := by rw [hit]
    simp [host, hn, hc, hb]

/-! ## nobody takes what comes after a `break` -/

/-- How many calls of the iterator a coroutine makes. -/
def _root_.Aio.Co.count {A : Type} : Co β A → Nat
  | .done _ | .raise _ => 0
  | .wait _ k => k.count
  | .call _ k => k.count + 1

/-- What the worker has taken from the mailbox and the loop has not got yet. -/
def held (s : State α β σ) : Nat :=
  match s.pc with
  | .waiting _ | .halted => 0
  | .running k | .asleep _ k => k.count
  | .calling k => k.count + if s.it.push.isSome then 1 else 0

structure Counted (n : Nat) (s : State α β σ) : Prop where
  all : n ≤ s.inbox.length + s.sent.length + held s
  one : held s ≤ 1
  last : ∀ k, s.pc = .calling k → k.count = 0

theorem push_free {it : Iterator.State β} {c : Iterator.Consumer} (h : Fits it c .free) : it.push = none := by obtain ⟨_, _, _, _, rfl⟩ := h; rfl
theorem push_taken {it : Iterator.State β} {c : Iterator.Consumer} (h : Fits it c .taken) : it.push = none := by obtain ⟨_, _, _, _, _, rfl⟩ := h; rfl
theorem push_offered {it : Iterator.State β} {c : Iterator.Consumer} {n : Notif β} (h : Fits it c (.offered n)) : it.push = some n := by obtain ⟨_, _, _, _, rfl⟩ := h; rfl

/-- The consumer has come and taken what was offered, if anything. -/
theorem counted_absorb {n : Nat} {s : State α β σ} {it : Iterator.State β} (hc : Counted n s) (hk : ∃ k, s.pc = .calling k)
    (h : it.taken = s.it.taken ∧ it.push = s.it.push ∨ ∃ v, it.taken = s.it.taken ++ [Iterator.Took.of v]) : Counted n (absorb m s it) := by
  obtain ⟨k, hk⟩ := hk
  obtain ⟨h1, h2, h3⟩ := hc
  have hpc := (absorb_keeps (m := m) s it).2
  have hit := (absorb_keeps (m := m) s it).1
  have hin : (absorb m s it).inbox = s.inbox := by unfold absorb; split <;> rfl
  have hone : held (absorb m s it) ≤ 1 := by
    simp only [held, hpc, hk, h3 k hk]
    split <;> omega
  refine ⟨?_, hone, fun k' h => h3 k' (hpc.symm.trans h)⟩
  rw [hin]
  rcases h with ⟨ht, hp⟩ | ⟨v, ht⟩
  · rw [absorb_nothing ht]
    simp only [held, hk] at h1 ⊢
    rw [hp]
    exact h1
  · have hlen : (absorb m s it).sent.length = s.sent.length + 1 := by
      unfold absorb
      rw [ht]
      cases v <;> simp [Iterator.Took.of]
    rw [hlen]
    have : held s ≤ 1 := h2
    omega

theorem counted_step {t0 : Nat} {cs : List (Notif α × Nat)} (hw : ∀ u n, (Work.body o gone u n).count = 1) {n : Nat} {s s' : State α β σ} {l : Label α} (hi : Inv o s0 m gone t0 cs s)
    (hc : Counted n s) (h : step o m gone s l = some s') : Counted (n + (arrivals s.now [l]).length) s' := by
  obtain ⟨sh, r, t, free, rest, fits, -, -, asks, idle, -, -, called, -⟩ := hi
  have calling : ∀ sh', sh = sh' → ¬ Free sh' → ∃ k, s.pc = .calling k := by
    intro sh' e hf
    cases hp : s.pc with
    | calling k => exact ⟨k, rfl⟩
    | _ => exact (hf (e ▸ called (by rw [hp]; trivial))).elim
  obtain ⟨h1, h2, h3⟩ := hc
  cases l with
  | event x =>
    cases h
    refine ⟨?_, h2, h3⟩
    simp only [arrivals, List.length_append, List.length_singleton]
    simp only [held] at h1 ⊢
    omega
  | tick d =>
    simp only [step] at h
    split at h <;> cases h
    exact ⟨h1, h2, h3⟩
  | receive =>
    simp only [step] at h
    split at h
    next u x q hp hq =>
      cases h
      simp only [held, hp, hq, List.length_cons] at h1
      exact ⟨by simp only [held, hw, arrivals, List.length_nil]; omega, by simp [held, hw], nofun⟩
    next => cases h
  | go =>
    simp only [step] at h
    split at h
    next u hp => cases h; simp only [held, hp, Co.count] at h1; exact ⟨h1, Nat.zero_le _, nofun⟩
    next hp => cases h; simp only [held, hp, Co.count] at h1; exact ⟨h1, Nat.zero_le _, nofun⟩
    next e hp => cases h; simp only [held, hp, Co.count] at h1; exact ⟨h1, Nat.zero_le _, nofun⟩
    next d k hp => cases h; simp only [held, hp, Co.count] at h1 h2; exact ⟨h1, h2, nofun⟩
    next x k hp =>
      simp only [Option.map_eq_some_iff] at h
      obtain ⟨it, hit, rfl⟩ := h
      have hf := called (by rw [hp]; trivial)
      cases sh with
      | free =>
        obtain ⟨it', e, g, -⟩ := Iterator.One.call_free fits x
        rw [hit] at e
        cases e
        simp only [held, hp, Co.count] at h1 h2
        refine ⟨?_, ?_, fun k' hk' => ?_⟩
        · simp only [held, push_offered g, Option.isSome_some, if_true]; exact h1
        · simp only [held, push_offered g, Option.isSome_some, if_true]; exact h2
        · cases hk'; omega
      | _ => exact hf.elim
    next => cases h
  | wake =>
    simp only [step] at h
    split at h
    next d k hp =>
      split at h <;> cases h
      simp only [held, hp] at h1 h2
      exact ⟨h1, h2, nofun⟩
    next => cases h
  | back =>
    simp only [step] at h
    split at h
    next k hp =>
      split at h
      next hr =>
        cases h
        have hf := not_returned fits hr
        cases sh with
        | free =>
          simp only [held, hp, push_free fits] at h1 h2
          exact ⟨h1, h2, nofun⟩
        | _ => exact hf.elim
      next => cases h
    next => cases h
  | subscribed =>
    simp only [step, Option.map_eq_some_iff] at h
    obtain ⟨it, h, rfl⟩ := h
    cases sh with
    | free =>
      obtain ⟨-, g, ht⟩ := (Iterator.One.come_free fits).2 it h
      rw [absorb_nothing ht]
      refine ⟨?_, ?_, h3⟩
      · simp only [held, push_free fits] at h1; simp only [held, push_free g]; exact h1
      · simp only [held, push_free fits] at h2; simp only [held, push_free g]; exact h2
    | offered x =>
      obtain ⟨-, ht, hf⟩ := (Iterator.One.come_offered fits).2 it h
      exact counted_absorb ⟨h1, h2, h3⟩ (calling _ rfl id) (.inr ⟨x, ht⟩)
    | taken =>
      obtain ⟨calls, hd, u, x, ha, e⟩ := fits
      rw [e] at h
      simp only [Iterator.step, Iterator.isTurn] at h
      cases hc : s.it.consumer with
      | subscribing =>
        by_cases hb : s.body = .asking
        · rcases asks hb with ⟨_, h⟩ | h
          · exact h.elim
          · rw [hc] at h; cases h
        · have := idle hb; rw [hc] at this; cases this
      | _ => rw [hc] at h; simp at h
  | run =>
    simp only [step, Option.map_eq_some_iff] at h
    obtain ⟨it, h, rfl⟩ := h
    cases sh with
    | free => exact (Iterator.One.run_free fits it h).elim
    | offered x =>
      obtain ⟨-, ht, hf⟩ := Iterator.One.run_offered fits h
      exact counted_absorb ⟨h1, h2, h3⟩ (calling _ rfl id) (.inr ⟨x, ht⟩)
    | taken =>
      obtain ⟨g, ht⟩ := Iterator.One.run_taken fits h
      exact counted_absorb ⟨h1, h2, h3⟩ (calling _ rfl id) (.inl ⟨ht, (push_free g).trans (push_taken fits).symm⟩)
  | anext =>
    simp only [step] at h
    split at h
    next d hb =>
      split at h
      next hd =>
        simp only [Option.map_eq_some_iff] at h
        obtain ⟨it, h, rfl⟩ := h
        have hc : s.it.consumer = .idle := idle (by rw [hb]; nofun)
        cases sh with
        | free =>
          obtain ⟨hcc, ht⟩ := (Iterator.One.come_free fits).1 it h
          have g : it.push = none := by rcases hcc with ⟨_, g⟩ | ⟨_, g⟩ <;> exact push_free g
          rw [absorb_nothing (s := { s with body := .asking }) ht]
          refine ⟨?_, ?_, h3⟩
          · simp only [held, push_free fits] at h1; simp only [held, g]; exact h1
          · simp only [held, push_free fits] at h2; simp only [held, g]; exact h2
        | offered x =>
          obtain ⟨-, ht, hf⟩ := (Iterator.One.come_offered fits).1 it (by rw [hc]; nofun) h
          exact counted_absorb (s := { s with body := .asking }) ⟨h1, h2, h3⟩ (calling _ rfl id) (.inr ⟨x, ht⟩)
        | taken =>
          obtain ⟨-, g, ht⟩ := (Iterator.One.come_taken fits (by rw [hc]; nofun) (by rw [hc]; nofun)).1 it h
          exact counted_absorb (s := { s with body := .asking }) ⟨h1, h2, h3⟩ (calling _ rfl id) (.inl ⟨ht, (push_taken g).trans (push_taken fits).symm⟩)
      next => cases h
    next => cases h

theorem counted {t0 : Nat} (hw : ∀ u n, (Work.body o gone u n).count = 1) {ls : List (Label α)} {s : State α β σ}
    (hr : LTS.run (step o m gone) ((stage o s0 m gone).init t0) ls = some s) : Counted (arrivals t0 ls).length s := by
  refine (LTS.inv_hist (step := step o m gone) (s0 := (stage o s0 m gone).init t0)
    (fun ls s => (Inv o s0 m gone t0 (arrivals t0 ls) s ∧ s.now = t0 + clock ls) ∧ Counted (arrivals t0 ls).length s) ?_ ?_ hr).2
  · exact ⟨inv_run (ls := []) rfl, Nat.zero_le _, Nat.zero_le _, nofun⟩
  · intro ls s l s' ⟨⟨hi, hn⟩, hc⟩ h
    obtain ⟨g1, g2⟩ := inv_step hi h
    have := counted_step hw hi hc h
    rw [arrivals_append, clock_append, ← hn]
    refine ⟨⟨g1, by omega⟩, ?_⟩
    rwa [List.length_append]

theorem loop_until {w : α → Nat × Except Err (Option β)} {n : Nat} (hm : ∀ y, m n y = none) : ∀ (cs : List (Notif α × Nat)) (i free r : Nat), i ≤ n →
    (loop w m gone i free r cs).length ≤ n - i + 1
  | [], _, _, _, _ => Nat.zero_le _
  | (.error e, a) :: cs, i, free, r, _ => by simp [loop]
  | (.completed, a) :: cs, i, free, r, _ => by simp [loop]
  | (.next v, a) :: cs, i, free, r, hi => by
    rw [loop]
    split
    · split <;> simp
    · exact loop_until hm cs _ _ _ hi
    next y _ =>
      by_cases he : i = n
      · subst he; simp [hm]
      · rw [List.length_cons]
        cases m i y with
        | none => simp
        | some d => have := loop_until (w := w) hm cs (i + 1) (max (max a free + (w v).1) r) (max (max a free + (w v).1) r + d) (by omega); dsimp only; omega

/-- C139 is violated by a `break`, too: if the loop over a source behind `safe_observer` is left in its body for value number `n` at the latest, then of all calls of the source all but `n + 2` are in the
mailbox, and stay there. -/
theorem C139_violated_mailbox [DecidableEq T] {h : Heap} (K : h.Laws) {q : Clocked S L α} {H : Host S L T} (hH : H.Lawful q) {m : Nat → α → Option Nat} {n : Nat} (hb : ∀ y, m n y = none) {hops ls x}
    (hr : LTS.run (Hosted.step h hops (q.through (stage (Ops.nil.handler Handler.iterator) () m gone)) (H.through host)) Hosted.init ls = some x)
    {s : S × State α α Unit} (hm : x.sub = some s) : (q.calls s.1).length ≤ s.2.inbox.length + (n + 2) := by
  obtain ⟨⟨r, h2⟩, -⟩ := C138_exact K hH hr hm
  obtain ⟨_, ks, h1, _, _⟩ := Hosted.C117_schedule K (Host.through_lawful hH stage_lawful host_lawful) hr hm
  obtain ⟨-, ms, h1, h3, -⟩ := Clocked.split hH.clock stage_reads h1
  have hc := counted (fun u n => by cases n <;> rfl) h1
  have hl := loop_until (w := (Ops.nil : Ops α α).work) (gone := gone) hb (q.calls s.1) 0 0 (q.now q.init) (Nat.zero_le _)
  rw [← h2, List.length_append] at hl
  rw [← h3]
  have := hc.all
  have := hc.one
  omega

end Aio.Loop

namespace Aio.Interval
open VirtualTime (Heap)
variable {h : Heap} {t0 : Nat} {seconds period : Int} {gone : Nat}

/-- C139: in particular nobody stops an interval: after `async for k in pipe(interval(s, p), skip(0)): break` all its later values, except the next one, are put into the mailbox. -/
theorem C139_violated_interval (K : h.Laws) (hp : period ≠ 0) {hops ls x}
    (hr : LTS.run (Hosted.step h hops ((clocked true t0 seconds period).through (Loop.stage (Ops.nil.handler Handler.iterator) () (fun _ _ => none) gone)) (host.through Loop.host)) Hosted.init ls = some x)
    {s : State × Loop.State Nat Nat Unit} (hm : x.sub = some s) {k : Nat} (hk : (due t0 seconds period k : Int) < x.vt.time) : k < s.2.inbox.length + 2 := by
  have hlen := Loop.C139_violated_mailbox K host_lawful (n := 0) (fun _ => rfl) hr hm
  obtain ⟨hn, ks, h1, _, h3⟩ := Hosted.C117_schedule K (Host.through_lawful host_lawful Loop.stage_lawful Loop.host_lawful) hr hm
  have hn : (s.1.now : Int) = x.vt.time := hn
  obtain ⟨n, h4, h5⟩ := clocked_exact hp (Clocked.clocks (clocked_lawful true t0 seconds period) Loop.stage_lawful h1).1
  have hkn : k < n := by
    refine h5 ?_ ?_ k (by omega)
    · intro hx
      obtain ⟨x, hx, he⟩ := List.mem_filterMap.mp hx
      split at he <;> cases he
      exact (through_own h3).1 hx
    · intro e hx
      obtain ⟨x, hx, he⟩ := List.mem_filterMap.mp hx
      split at he <;> cases he
      exact (through_own h3).2 e hx
  rw [h4] at hlen
  simp only [List.length_map, List.length_range] at hlen
  omega

end Aio.Interval

namespace Aio.Loop

/-! ## Examples -/

section Examples

/-- The loop of C138 has ended at time 16; at time 30 the worker is still in the call. -/
example : (Hosted.play (fun _ => 0) hostedDemo hostedHost Hosted.init hostedCalls).map (fun x => (x.vt.time, x.sub.map fun s =>
    (s.2.sent.any fun c => c.1.isTerminal, host.need s.2 .worker, match s.2.pc with | .calling _ => true | _ => false))) = some (30, some (true, .nothing, true)) := by decide +kernel

/-- `async for k in pipe(interval(1, 2), skip(0)): break`: at time 17 the values 2 to 7 are in the mailbox. -/
abbrev breakDemo := (Interval.clocked true 0 1 2).through (stage ((Ops.nil : Ops Nat Nat).handler Handler.iterator) () (fun _ _ => none) 0)

set_option synthInstance.maxSize 1000 in
set_option synthInstance.maxHeartbeats 100000 in
example : (Hosted.play (fun _ => 0) breakDemo (Interval.host.through (host (α := Nat) (β := Nat) (σ := Unit))) Hosted.init ([some .subscribe] ++ List.replicate 100 none)).map
    (fun x => (x.vt.time, x.sub.map fun (s : Interval.State × State Nat Nat Unit) => (s.2.sent, s.2.inbox))) = some (17, some ([(.next 0, 1)], [.next 2, .next 3, .next 4, .next 5, .next 6, .next 7])) := by decide +kernel

end Examples
end Aio.Loop
