import Verif.Lemmas.DelayPrompt
/-!
# C57, C58, C59, C77: delay

C57 and C58 hold when the wall clock and the loop clock run alike. C59 is false: the cancellation
token belongs to the operator application, so disposing one subscription stops them all and every
later one. C77 (the same on `VirtualTimeEventLoop`) is false: the due times come from the wall clock,
which does not move with the virtual time.
-/

namespace Aio.Delay
variable {α : Type}
open Aio.Spec.Delay

/-! ## C57 -/

/-- Whatever the schedule, the disposals, the clocks and the observers do, an observer sees its
source's notifications in order, none twice and none skipped. -/
theorem C57_order (seconds : Nat) (ls : List (Label α)) (s : State α) (h : LTS.run (step seconds) init ls = some s)
    (i : Nat) (b : Sub α) (hb : s.subs[i]? = some b) : InOrder (arrivals i ls) b.delivered := by
  obtain ⟨hs, _, he⟩ := conserved h i b hb
  exact ⟨hs ++ b.queue.map Prod.fst, by rw [← List.append_assoc]; exact he⟩

/-- None is delivered before its arrival time + `seconds`. -/
theorem C57_never_early (seconds : Nat) (ls : List (Label α)) (s : State α) (h : LTS.run (step seconds) init ls = some s)
    (hy : Synchronous ls) (i : Nat) (b : Sub α) (hb : s.subs[i]? = some b) :
    NeverEarly seconds (arrivals i ls) b.delivered := by
  obtain ⟨D, hs, _, he, hd⟩ := timed h hy i b hb
  intro k a d ha hd'
  obtain ⟨x, hx, _, hle⟩ := hd.get hd'
  have h1 : (shifted seconds (arrivals i ls))[k]? = some (a.1, a.2 + seconds) := by
    simp [shifted, ha]
  have h2 : (D ++ hs ++ b.queue)[k]? = some x := by rw [List.append_assoc]; exact prefix_get hx
  rw [he, h1] at h2
  cases h2; exact hle

/-- As long as no subscription is disposed and the observer does not raise, every notification that
has arrived can still be delivered: from every state the worker gets to the end of its mailbox, by
its own steps and the passing of time, and has then delivered everything. -/
theorem C57_each_once (seconds : Nat) (ls : List (Label α)) (s : State α) (h : LTS.run (step seconds) init ls = some s)
    (hu : Undisposed ls) (i : Nat) (b : Sub α) (hb : s.subs[i]? = some b) (hr : Unraised i ls) :
    ∃ (ls' : List (Label α)) (s' : State α) (b' : Sub α), (∀ l ∈ ls', l.isWork i = true) ∧ LTS.run (step seconds) s ls' = some s' ∧
      s'.subs[i]? = some b' ∧ b'.delivered.map Prod.fst = (arrivals i ls).map Prod.fst := by
  obtain ⟨ls', s', b', h1, h2, h3, h4, h5⟩ := drain (seconds := seconds) hb ((cancelled_iff h).mpr hu) (live_of h hu i b hb hr)
  refine ⟨ls', s', b', h1, h2, h3, ?_⟩
  obtain ⟨hs, hh, he⟩ := conserved (LTS.run_append.mpr ⟨s, h, h2⟩) i b' h3
  rw [h4] at hh; change hs = [] at hh; subst hh
  rw [h5] at he
  have hq : ∀ (ls' : List (Label α)) (t : Nat), (∀ l ∈ ls', l.isWork i = true) → arrivalsFrom i t ls' = [] := by
    intro ls'
    induction ls' with
    | nil => intros; rfl
    | cons l ls' ih =>
      intro t hl
      have := hl l (by simp)
      cases l <;> simp only [Label.isWork, reduceCtorEq] at this <;>
        simp only [arrivalsFrom] <;> exact ih _ fun l h => hl l (by simp [h])
  have : arrivals i (ls ++ ls') = arrivals i ls := by
    simp only [arrivals, arrivalsFrom_append, hq ls' _ h1, List.append_nil]
  rw [this] at he
  simpa using he

/-- A worker that waits on an empty mailbox has delivered everything. -/
theorem C57_quiescent (seconds : Nat) (ls : List (Label α)) (s : State α) (h : LTS.run (step seconds) init ls = some s)
    (i : Nat) (b : Sub α) (hb : s.subs[i]? = some b) (hw : b.worker = .receiving) (hq : b.queue = []) :
    b.delivered.map Prod.fst = (arrivals i ls).map Prod.fst := by
  obtain ⟨hs, hh, he⟩ := conserved h i b hb
  rw [hw] at hh; change hs = [] at hh; subst hh
  rw [hq] at he; simpa using he

/-- Three events, a slow observer: the second is late, the order stays. -/
example : ∃ s : State Nat, LTS.run (step 2) init
    [.subscribe, .start 0, .event 0 (.next 7), .receive 0, .tick 1 1, .event 0 (.next 8), .tick 1 1, .wake 0, .event 0 .completed,
      .tick 5 5, .ret 0, .receive 0, .ret 0, .receive 0] = some s ∧
    s.subs.map Sub.delivered = [[(.next 7, 2), (.next 8, 7), (.completed, 7)]] := ⟨_, rfl, rfl⟩

/-! ## C58 -/

/-- On a prompt loop what an observer has seen is the start of the source's stream, shifted by exactly
`seconds`. -/
theorem C58_exact (seconds : Nat) (ls : List (Label α)) (s : State α) (h : LTS.run (promptStep seconds) init ls = some s)
    (i : Nat) (b : Sub α) (hb : s.subs[i]? = some b) : b.delivered <+: shifted seconds (arrivals i ls) := by
  obtain ⟨hs, _, he, _⟩ := onTime h i b hb
  exact ⟨hs ++ b.queue, by rw [← List.append_assoc]; exact he⟩

/-- Everything that was due before the present time has been delivered (no disposal, no exception). -/
theorem C58_none_overdue (seconds : Nat) (ls : List (Label α)) (s : State α) (h : LTS.run (promptStep seconds) init ls = some s)
    (hu : Undisposed ls) (i : Nat) (b : Sub α) (hb : s.subs[i]? = some b) (hr : Unraised i ls) :
    b.delivered = (shifted seconds (arrivals i ls)).take b.delivered.length ∧
    ∀ (k : Nat) a, (arrivals i ls)[k]? = some a → a.2 + seconds < clock ls → b.delivered[k]? = some (a.1, a.2 + seconds) := by
  obtain ⟨hs, _, he, hd⟩ := onTime h i b hb
  have hl := live_of (prompt_run h) hu i b hb hr
  refine ⟨by rw [← he]; simp, ?_⟩
  intro k a ha hlt
  have hm : (shifted seconds (arrivals i ls))[k]? = some (a.1, a.2 + seconds) := by rw [shifted, List.getElem?_map, ha]; rfl
  rw [← he, List.append_assoc] at hm
  rcases Nat.lt_or_ge k b.delivered.length with hk | hk
  · rwa [List.getElem?_append_left hk] at hm
  · rw [List.getElem?_append_right hk] at hm
    have := hd hl _ (List.mem_of_getElem? hm); rw [run_clock (prompt_run h)] at this; dsimp only at this; omega

/-- Three events at times 0, 1 and 1 arrive at 2, 3 and 3. -/
example : ∃ s : State Nat, LTS.run (promptStep 2) init
    [.subscribe, .start 0, .event 0 (.next 7), .receive 0, .tick 1 1, .event 0 (.next 8), .event 0 .completed, .tick 1 1, .wake 0,
      .ret 0, .receive 0, .tick 1 1, .wake 0, .ret 0, .receive 0, .ret 0, .tick 1 1] = some s ∧
    s.subs.map Sub.delivered = [[(.next 7, 2), (.next 8, 3), (.completed, 3)]] := ⟨_, rfl, rfl⟩

-- the observer of one subscription raises, later the operator is disposed; time goes on, up to then for the other one too
example : ∃ s : State Nat, LTS.run (promptStep 1) init
    [.subscribe, .subscribe, .start 0, .start 1, .event 0 (.next 7), .event 1 (.next 8), .receive 1, .receive 0, .tick 1 1,
      .wake 1, .raise 1, .wake 0, .ret 0, .tick 1 1, .event 0 (.next 9), .receive 0, .tick 1 1, .wake 0, .dispose 0, .ret 0,
      .tick 1 1] = some s ∧
    s.subs.map Sub.delivered = [[(.next 7, 1), (.next 9, 3)], [(.next 8, 1)]] ∧ s.loop = 4 := ⟨_, rfl, rfl, rfl⟩

/-! ## C59 -/

/-- Without any disposal the subscriptions do not interfere: what subscription `i` does is what it
does when all the steps of the others are left out. Missing for C59: the case with a disposal, which
is false, see `C59_violated`. -/
theorem C59_isolated_partial (seconds : Nat) (ls : List (Label α)) (s : State α) (i : Nat)
    (h : LTS.run (step seconds) init ls = some s) (hu : Undisposed ls) :
    ∃ s1, LTS.run (step seconds) init (ls.filter (Label.keeps i)) = some s1 ∧ s1.subs[i]? = s.subs[i]? := by
  obtain ⟨s1, h1, _, _, _, _, h6⟩ := isolated i h hu
  exact ⟨s1, h1, h6⟩

example : ∃ s : State Nat, LTS.run (step 1) init
    [.subscribe, .subscribe, .start 0, .start 1, .event 0 (.next 7), .event 1 (.next 8), .receive 1, .receive 0, .tick 1 1, .wake 1, .raise 1, .wake 0] = some s ∧
    s.subs.map Sub.delivered = [[(.next 7, 1)], [(.next 8, 1)]] := ⟨_, rfl, rfl⟩

/-- C59 is false: once any subscription has been disposed, every subscription makes at most one more
call on its observer, whatever its source still sends and however the schedule goes on. -/
theorem C59_violated_others (seconds : Nat) (ls ls' : List (Label α)) (s s' : State α)
    (h : LTS.run (step seconds) init ls = some s) (hd : ∃ k : Nat, Label.dispose k ∈ ls)
    (h' : LTS.run (step seconds) s ls' = some s') (i : Nat) (b b' : Sub α) (hb : s.subs[i]? = some b) (hb' : s'.subs[i]? = some b') :
    b'.delivered.length ≤ b.delivered.length + 1 := by
  have hc : s.cancelled = true := by
    cases hc : s.cancelled with
    | true => rfl
    | false => obtain ⟨k, hk⟩ := hd; exact absurd hk ((cancelled_iff h).mp hc k)
  have h1 := (run_cancelled hc h').2.2.1 i b b' hb hb'
  have h2 := more_le b.worker
  omega

/-- A later subscription delivers nothing at all. -/
theorem C59_violated_later (seconds : Nat) (ls ls' : List (Label α)) (s s' : State α)
    (h : LTS.run (step seconds) init ls = some s) (hd : ∃ k : Nat, Label.dispose k ∈ ls)
    (h' : LTS.run (step seconds) s ls' = some s') (i : Nat) (b' : Sub α) (hi : s.subs.length ≤ i) (hb' : s'.subs[i]? = some b') :
    b'.delivered = [] := by
  have hc : s.cancelled = true := by
    cases hc : s.cancelled with
    | true => rfl
    | false => obtain ⟨k, hk⟩ := hd; exact absurd hk ((cancelled_iff h).mp hc k)
  have h1 := (run_cancelled hc h').2.2.2 i b' hi hb'
  exact List.eq_nil_of_length_eq_zero (by omega)

/-- The witness: subscription 1 is not disposed, its observer never raises, its source has sent it two
values - and the second one is never delivered. -/
theorem C59_violated : ∃ (ls : List (Label Nat)) (s : State Nat), LTS.run (step 1) init ls = some s ∧
    Label.dispose 1 ∉ ls ∧ Label.raise 1 ∉ ls ∧ (arrivals 1 ls).length = 2 ∧
    ∀ (ls' : List (Label Nat)) (s' : State Nat) (b : Sub Nat), LTS.run (step 1) s ls' = some s' → s'.subs[1]? = some b → b.delivered.length ≤ 1 := by
  refine ⟨[.subscribe, .subscribe, .start 0, .start 1, .event 1 (.next 1), .event 1 (.next 2), .dispose 0],
    ⟨0, 0, true, [⟨[], .receiving, [], 1⟩, ⟨[(.next 1, 1), (.next 2, 1)], .receiving, [], 0⟩]⟩, rfl, by decide, by decide, rfl, ?_⟩
  intro ls' s' b h hb
  have h1 := (run_cancelled rfl h).2.2.1 1 _ b rfl hb
  simp [Worker.more] at h1
  omega

/-! ## C77 -/

/-- The wall clock stands still (as on `VirtualTimeEventLoop`, where a test runs in no time). -/
def Frozen (ls : List (Label α)) : Prop := ∀ dw dl : Nat, Label.tick dw dl ∈ ls → dw = 0

theorem frozen_wall {seconds : Nat} {ls : List (Label α)} {s : State α} (h : LTS.run (step seconds) init ls = some s)
    (hf : Frozen ls) : s.wall = 0 := by
  refine LTS.inv_hist (fun ls (s : State α) => Frozen ls → s.wall = 0) (s0 := init) (fun _ => rfl) ?_ h hf
  intro ls s l s' hi hs hf
  have := hi fun x y hm => hf x y (by simp [hm])
  rcases step_cases hs with ⟨rfl, rfl⟩ | ⟨dw, dl, rfl, rfl⟩ | ⟨i, b, b', ht, _, _, rfl⟩
  · simpa using this
  · have := hf dw dl (by simp); simp only; omega
  · simpa using this

/-- The spacing of the deliveries. -/
structure Spaced (seconds loop : Nat) (b : Sub α) : Prop where
  due : ∀ p ∈ b.queue, p.2 = seconds
  times : ∀ (k : Nat) (d : Notif α × Nat), b.delivered[k]? = some d → (k + 1) * seconds ≤ d.2
  now : b.delivered.length * seconds ≤ loop
  wake : ∀ n w, b.worker = .sleeping n w → (b.delivered.length + 1) * seconds ≤ w

theorem Spaced.call {seconds loop : Nat} {b : Sub α} (hs : Spaced seconds loop b) {n : Notif α}
    (h : (b.delivered.length + 1) * seconds ≤ loop) : Spaced seconds loop (b.call loop n) := by
  refine ⟨hs.due, ?_, ?_, ?_⟩
  · intro k d hd
    rcases get_push.mp hd with hd | ⟨rfl, rfl⟩
    · exact hs.times k d hd
    · exact h
  · simpa [Sub.call] using h
  · intro n w hw; simp [Sub.call] at hw

theorem spaced {seconds : Nat} {ls : List (Label α)} {s : State α} (h : LTS.run (step seconds) init ls = some s)
    (hf : Frozen ls) : ∀ (i : Nat) (b : Sub α), s.subs[i]? = some b → Spaced seconds s.loop b := by
  intro i b hb
  refine sub_inv (seconds := seconds) (fun ls i s b => Frozen ls → Spaced seconds s.loop b) ?_ ?_ ?_ h i b hb hf
  · intro ls i s _ _ _; exact ⟨by simp, by simp, by simp, by simp⟩
  · intro ls i s b l s' _ hs _ _ hI hf
    have hS := hI fun x y hm => hf x y (by simp [hm])
    rcases step_cases hs with ⟨rfl, rfl⟩ | ⟨dw, dl, rfl, rfl⟩ | ⟨i, b, b', ht, _, _, rfl⟩
    · exact hS
    · exact ⟨hS.due, hS.times, Nat.le_trans hS.now (Nat.le_add_right _ _), hS.wake⟩
    · exact hS
  · intro ls i s b l b' hrun _ ht hst hI hf
    have hf' : Frozen ls := fun x y hm => hf x y (by simp [hm])
    have hS := hI hf'
    have hwall := frozen_wall hrun hf'
    cases l <;> simp only [Label.target, Option.some.injEq, reduceCtorEq] at ht
    case event j n =>
      simp [subStep] at hst; subst hst
      refine ⟨?_, hS.times, hS.now, hS.wake⟩
      intro p hp
      rcases List.mem_append.mp hp with hp | hp
      · exact hS.due p hp
      · simp at hp; subst hp; simp [hwall]
    case start =>
      cases hw : b.worker <;> simp only [subStep, hw, reduceCtorEq, Option.some.injEq] at hst
      subst hst
      refine ⟨hS.due, hS.times, hS.now, ?_⟩
      intro n w h; cases hc : s.cancelled <;> simp [loopHead, hc] at h
    case receive =>
      cases hw : b.worker <;> cases hq : b.queue <;> simp only [subStep, hw, hq, reduceCtorEq, Option.some.injEq] at hst
      rename_i p q
      obtain ⟨n, due⟩ := p
      have hdue : due = seconds := hS.due (n, due) (by simp [hq])
      have hS' : Spaced seconds s.loop { b with queue := q } :=
        ⟨fun p hp => hS.due p (by simp [hq, hp]), hS.times, hS.now, hS.wake⟩
      have hnow := hS.now
      simp only [Sub.handle] at hst
      split at hst <;> subst hst
      · refine ⟨hS'.due, hS.times, hS.now, ?_⟩
        intro n' w h; simp at h
        have : (b.delivered.length + 1) * seconds = b.delivered.length * seconds + seconds := Nat.succ_mul _ _
        simp only; omega
      · rename_i hle
        have hz : seconds = 0 := by omega
        exact hS'.call (by simp [hz])
    case wake =>
      cases hw : b.worker <;> simp only [subStep, hw, reduceCtorEq, Option.ite_none_right_eq_some, Option.some.injEq] at hst
      rename_i n w
      obtain ⟨hle, rfl⟩ := hst
      exact hS.call (Nat.le_trans (hS.wake n w hw) hle)
    case ret =>
      cases hw : b.worker <;> simp only [subStep, hw, reduceCtorEq, Option.some.injEq] at hst
      subst hst
      refine ⟨hS.due, hS.times, hS.now, ?_⟩
      intro n w h; cases hc : s.cancelled <;> simp [loopHead, hc] at h
    case raise =>
      cases hw : b.worker <;> simp only [subStep, hw, reduceCtorEq, Option.some.injEq] at hst
      subst hst
      exact ⟨hS.due, hS.times, hS.now, by simp⟩
    case dispose => simp [subStep] at hst; subst hst; exact ⟨hS.due, hS.times, hS.now, hS.wake⟩
    case kill =>
      simp only [subStep, Option.ite_none_right_eq_some, Option.some.injEq] at hst
      obtain ⟨_, rfl⟩ := hst
      exact ⟨hS.due, hS.times, hS.now, by simp⟩

/-- C77 is false: in virtual time the delays add up. The `k`-th notification comes no earlier than
`(k + 1) * seconds`, even if all of them arrived at time 0 and whatever the schedule. -/
theorem C77_violated_all (seconds : Nat) (ls : List (Label α)) (s : State α) (h : LTS.run (step seconds) init ls = some s)
    (hf : Frozen ls) (i : Nat) (b : Sub α) (hb : s.subs[i]? = some b) (k : Nat) (d : Notif α × Nat)
    (hd : b.delivered[k]? = some d) : (k + 1) * seconds ≤ d.2 :=
  (spaced h hf i b hb).times k d hd

/-- Two values at the times 0 and 1 with a delay of 2 arrive at 2 and 4 of the virtual time, although
the loop never leaves anything ready undone. -/
theorem C77_violated : ∃ (ls : List (Label Nat)) (s : State Nat), LTS.run (step 2) init ls = some s ∧ Frozen ls ∧
    arrivals 0 ls = [(.next 7, 0), (.next 8, 1)] ∧ s.subs.map Sub.delivered = [[(.next 7, 2), (.next 8, 4)]] := by
  refine ⟨[.subscribe, .start 0, .event 0 (.next 7), .receive 0, .tick 0 1, .event 0 (.next 8), .tick 0 1, .wake 0, .ret 0, .receive 0,
    .tick 0 1, .tick 0 1, .wake 0], _, rfl, ?_, rfl, rfl⟩
  intro dw dl h; simp at h
  rcases h with ⟨rfl, _⟩ | ⟨rfl, _⟩ | ⟨rfl, _⟩ | ⟨rfl, _⟩ <;> rfl

/-- What remains of C77: order and completeness do not depend on the clocks, and a single notification
is not early. Missing: the exact shift for more than one notification (false, see above). -/
theorem C77_first_not_early_partial (seconds : Nat) (ls : List (Label α)) (s : State α) (h : LTS.run (step seconds) init ls = some s)
    (hf : Frozen ls) (i : Nat) (b : Sub α) (hb : s.subs[i]? = some b) :
    InOrder (arrivals i ls) b.delivered ∧ ∀ d ∈ b.delivered, seconds ≤ d.2 := by
  refine ⟨C57_order seconds ls s h i b hb, ?_⟩
  intro d hd
  obtain ⟨k, hk, hd⟩ := List.getElem_of_mem hd
  have := (spaced h hf i b hb).times k d (by rw [List.getElem?_eq_getElem hk, hd])
  have : (k + 1) * seconds = k * seconds + seconds := Nat.succ_mul _ _
  omega

end Aio.Delay
