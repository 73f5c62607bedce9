import Verif.Lemmas.DetachSingle
import Verif.Props.C12_14_Single
import Verif.Props.C92_Detach
/-!
# C162: closing an `AsyncSingleSubject` whose consumer has had enough

A producer sends to an `AsyncSingleSubject`, and closes it at the end; the consumer has subscribed to
`pipe(subject, take(n))`, or to another operator with `auto_detach`. When the stream of the consumer has ended, or the
consumer has disposed the subscription, the producer should still be able to call `asend` and `aclose`, which then do
nothing or raise.
-/

namespace Aio.DetachSingle
open Detach (mine front Way way_agent)
open Spec (story values Story)
open Single (Disposed)
variable {α β : Type} {w : Wrap α β} {kill : Bool}

/-! ## vocabulary -/

/-- The operator's observer has been told this. -/
def heard (s : State w) : List (Notif α) := mine s.sub.log

/-- After this nothing happens in the program any more. -/
def Hangs (kill : Bool) (s : State w) (l : Label α) : Prop := ∃ s', step kill s l = some s' ∧ ∀ l', step kill s' l' = none

/-- `asend` raises; `aclose` and `athrow`, and any caller that goes on from waiting for the observer, bring the event loop to a
stop. -/
structure Forsaken (kill : Bool) (s : State w) : Prop where
  asend : ∀ v, ∃ s', step kill s (.subject (.call (.next v))) = some s' ∧ s'.sub.calls = s.sub.calls ++ [.raised .objectDisposed]
  ending : ∀ n : Notif α, n.isTerminal = true → Hangs kill s (.subject (.call n))
  waiting : s.sub.ready ≠ [] → Hangs kill s (.subject .wake)

/-- The producer can go on: whatever it calls, the event loop goes on, and the call is not refused. -/
def Welcome (kill : Bool) (s : State w) : Prop :=
  ∀ n : Notif α, ∃ s' x, step kill s (.subject (.call n)) = some s' ∧ s'.stuck = false ∧ s'.sub.calls = s.sub.calls ++ [x] ∧
    x ≠ .raised .objectDisposed

/-! ## lemmas -/

theorem moved_sub (s : State w) (sub : Single.State α) : (s.moved sub).sub = sub := by rw [moved_eq]

theorem forsaken {ls : List (Label α)} {s : State w} (hr : LTS.run (step kill) (init w) ls = some s) (hst : s.stuck = false)
    (hs : .subscribe ∈ ls) (hc : ∀ c, .subject (.cancel c) ∉ ls)
    (hd : .dispose ∈ ls ∨ .subject .dispose ∈ ls ∨ s.agent.disposed ≠ []) : Forsaken kill s := by
  have hi := inv_run hr
  obtain ⟨sls, b1, b2⟩ := hi.subject
  have hdis := b2.mpr hd
  have hw : s.sub.wait = .done := by
    have h1 := hi.woken (hi.told.mpr hs)
    have h2 := hi.kept hc
    cases h : s.sub.wait <;> simp_all
  have hang : ∀ (l : Single.Label α) (t : Single.State α), others l = true → Single.step s.sub l = some t →
      t.calls.any Single.Call.isSpinning = true → Hangs kill s (.subject l) := by
    intro l t ho h1 h2
    refine ⟨s.moved t, by simp [step, hst, move, ho, h1], fun l' => ?_⟩
    have : (s.moved t).stuck = true := by
      show (s.moved t).sub.calls.any Single.Call.isSpinning = true
      rw [moved_sub, h2]
    simp [step, this]
  refine ⟨?_, ?_, ?_⟩
  · intro v
    have hq : s.sub.calls.any Single.Call.isSpinning = false := hst
    have h : Single.step s.sub (.call (.next v)) = some (s.sub.begin (.next v)) := by simp [Single.step, hq]
    refine ⟨s.moved (s.sub.begin (.next v)), by simp [step, hst, move, others, h], ?_⟩
    rw [moved_sub]
    exact (Single.C14_asend_partial b1 hdis h).1
  · intro n hn
    obtain ⟨t, h1, h2, h3⟩ := Single.C14_violated b1 hdis hw hn hst
    exact hang _ t rfl h1 (by rw [h2]; simp [Single.Call.isSpinning])
  · intro hr'
    have hsi := Single.inv_run b1
    have ho := hsi.gone ((Single.disposed_iff b1).mpr hdis)
    cases hrd : s.sub.ready with
    | nil => exact absurd hrd hr'
    | cons c rd =>
      obtain ⟨n, hc⟩ := (hsi.ready c).mp (by rw [hrd]; simp)
      have hq : s.sub.calls.any Single.Call.isSpinning = false := hst
      refine hang .wake { s.sub with ready := rd, calls := s.sub.calls.set c .spinning } rfl ?_ ?_
      · simp [Single.step, hq, hrd, hc, Single.State.attempt, ho, hw]
      · have hlt := (List.getElem?_eq_some_iff.mp hc).1
        rw [List.any_eq_true]
        exact ⟨.spinning, List.mem_set hlt _, rfl⟩

/-- While the agent has disposed nothing and nobody else has, the producer is welcome. -/
theorem welcome {ls : List (Label α)} {s : State w} (hr : LTS.run (step kill) (init w) ls = some s)
    (h1 : .dispose ∉ ls) (h2 : .subject .dispose ∉ ls) (h3 : s.agent.disposed = []) : s.stuck = false ∧ Welcome kill s := by
  have hi := inv_run hr
  obtain ⟨sls, b1, b2⟩ := hi.subject
  have hnd : ¬ Disposed sls := by rw [b2]; simp [h1, h2, h3]
  have calm := Single.calm_run b1 hnd
  have hdis : s.sub.isDisposed = false := by
    cases h : s.sub.isDisposed with
    | false => rfl
    | true => exact absurd ((Single.disposed_iff b1).mp h) hnd
  have hst : s.stuck = false := calm.quiet
  refine ⟨hst, fun n => ?_⟩
  obtain ⟨x, lg, ho, he⟩ := Single.begin_outcome s.sub n
  have hq : s.sub.calls.any Single.Call.isSpinning = false := hst
  have h : Single.step s.sub (.call n) = some (s.sub.begin n) := by simp [Single.step, hq]
  refine ⟨s.moved (s.sub.begin n), x, by simp [step, hst, move, others, h], ?_, ?_, ?_⟩
  · show (s.moved _).sub.calls.any Single.Call.isSpinning = false
    rw [moved_sub, he]
    have hx : x.isSpinning = false := by
      cases ho with
      | spin h1 h2 => exact absurd h1 (calm.wait h2)
      | _ => rfl
    simp [List.any_append, hq, hx]
  · rw [moved_sub, he]
  · rintro rfl
    cases ho with
    | disposed h => rw [hdis] at h; cases h

/-- What was posted ends only if the safe worker may dispose. -/
theorem running_undisposed {p : List (Notif β)} {s : Safe.State β} (hi : Safe.Inv p s) (hf : (story p).fin = .running) :
    .disposeStart ∉ s.log := by
  obtain ⟨vs, c, t, rfl, hl, hsh⟩ := hi
  obtain ⟨inbox, pc, log⟩ := s
  simp only at hl hsh hf ⊢
  subst hl
  have hb : ∀ n : Notif β, n.isTerminal = true → (story (vs.map .next ++ [n] ++ inbox)).fin ≠ .running := by
    intro n hn
    rw [List.append_assoc, Spec.story_map_next_append]
    cases n <;> simp [Notif.isTerminal, Spec.story] at hn ⊢
  cases hsh <;> simp [Safe.blocks] <;> exact absurd hf (hb _ ‹_›)

theorem posts_eq {G : Story α → Story β} (hG : Front w G) {ls : List (Label α)} {s : State w} (hi : Inv kill ls s) :
    story s.posts = G (story (heard s)) := by
  have hp : (front w).fn (heard s) = s.posts := by
    have := hi.front
    simp only [Agent.fn, heard]
    exact congrArg Prod.snd this
  rw [← hp]; exact hG.story (heard s)

theorem way_step {ls : List (Label α)} {s s' : State w} {l : Label α} (hi : Inv false ls s)
    (hn : s.subscribed = true) (hw : Way 0 s.agent) (h : step false s l = some s') : s'.subscribed = true ∧ Way 0 s'.agent := by
  obtain ⟨hst, h⟩ := step_move h
  cases l with
  | subject l =>
    simp only [move] at h
    split at h
    · simp only [Option.map_eq_some_iff] at h; obtain ⟨t, -, rfl⟩ := h; rw [moved_eq]; exact ⟨hn, hw⟩
    · cases h
  | subscribe => simp [move, hn] at h
  | dispose => simp only [move, hn, if_true, Option.some.injEq] at h; subst h; exact ⟨rfl, hw⟩
  | receive =>
    simp only [move, Option.map_eq_some_iff] at h
    obtain ⟨t, ht, rfl⟩ := h
    refine ⟨hn, ?_⟩
    rcases Detach.safe_receive hi.safe ht with ⟨v, hp, -⟩ | ⟨n, hp, -, hno⟩
    · simpa [Detach.cancelled, hp] using hw
    · have hc : s.agent.cancelled = false := by
        cases hx : s.agent.cancelled with
        | false => rfl
        | true => exact absurd (hi.canc.mp hx) hno
      rcases hw with ⟨-, h2, h3⟩ | ⟨h1, -⟩ | ⟨h1, -⟩ | ⟨h1, -⟩
      · exact .inr (.inl (by simp [Detach.cancelled, hp, AutoDetach.step, h2, h3]))
      all_goals rw [hc] at h1; cases h1
  | ret => simp only [move, Option.map_eq_some_iff] at h; obtain ⟨t, -, rfl⟩ := h; exact ⟨hn, hw⟩
  | raise e => simp only [move, Option.map_eq_some_iff] at h; obtain ⟨t, -, rfl⟩ := h; exact ⟨hn, hw⟩
  | agentStart =>
    simp only [move, Option.map_eq_some_iff] at h; obtain ⟨t, h1, rfl⟩ := h; exact ⟨hn, way_agent hw h1 (by simp)⟩
  | agentReceive =>
    simp only [move, Option.map_eq_some_iff] at h; obtain ⟨t, h1, rfl⟩ := h; exact ⟨hn, way_agent hw h1 (by simp)⟩
  | agentRet =>
    simp only [move, Option.map_eq_some_iff] at h; obtain ⟨t, h1, rfl⟩ := h; exact ⟨hn, way_agent hw h1 (by simp)⟩

/-! ## the claims -/

/-- C162 is false: the consumer's stream has ended by itself, nobody has disposed anything. `G` is the operator as a
function of streams. If the agent survives the cancellation of its token and at some time (after `a`) had taken the
registration out of its mailbox, then: when the operator's stream has ended and the workers have nothing left to do, the
producer's next `asend` raises, and its `aclose()` or `athrow()` brings the event loop to a stop for ever. (Callers that were
cancelled while they waited for the subscription are left out: then `aclose` raises CancelledError.) -/
theorem C162_violated {G : Story α → Story β} (hG : Front w G) {a b : List (Label α)} {s1 s : State w}
    (h1 : LTS.run (step false) (init w) a = some s1) (hs : .subscribe ∈ a)
    (hw : ∃ ds, s1.agent.pc = .waiting ds) (hq : s1.agent.inbox = [])
    (h2 : LTS.run (step false) s1 b = some s) (hn : ∀ e, .raise e ∉ a ++ b) (hc : ∀ c, .subject (.cancel c) ∉ a ++ b)
    (hst : s.stuck = false) (hd : Safe.Drained s.safe) (ha : AutoDetach.Drained false s.agent)
    (hend : (G (story (heard s))).fin ≠ .running) : Forsaken false s := by
  have hr := LTS.run_append.mpr ⟨s1, h1, h2⟩
  have hi1 := inv_run h1
  have hi := inv_run hr
  have hk := hi1.told.mpr hs
  obtain ⟨ds, hds⟩ := hw
  have hway : Way 0 s1.agent := by
    obtain ⟨als, a1, a2, a3, a4, a5⟩ := hi1.agent
    have hc : s1.agent.cancelled = false := by
      cases hx : s1.agent.cancelled with
      | false => rfl
      | true => have := Detach.auto_cancel_pending a1 hx ds hds; rw [hq] at this; simp at this
    obtain ⟨-, -, hx⟩ := AutoDetach.reach_before a1 (by rw [a4, hc]; simp)
    rcases hx with ⟨hf, -⟩ | ⟨ds', q, hp, hreg, hin⟩
    · rw [hf] at hds; cases hds
    · rw [hq] at hin
      have hq' : q = [] := by cases q with
        | nil => rfl
        | cons x q => simp at hin
      rw [a2, State.regs, hk, hq'] at hreg
      simp at hreg
      exact .inl ⟨hc, by rw [hp, ← hreg], hq⟩
  have hall : s.subscribed = true ∧ Way 0 s.agent := by
    refine (LTS.inv_from (step := step false)
      (fun ls (s : State w) => Inv false ls s ∧ s.subscribed = true ∧ Way 0 s.agent) ?_ (pre := a) ⟨hi1, hk, hway⟩ h2).2
    rintro ls t l t' ⟨i1, i2, i3⟩ ht
    exact ⟨inv_step i1 ht, way_step i1 i2 i3 ht⟩
  have hcan : s.agent.cancelled = true :=
    hi.canc.mpr (Detach.safe_disposed hi.safe (hi.quiet hn) hd (by rw [posts_eq hG hi]; exact hend))
  have hdis : 0 ∈ s.agent.disposed := by
    obtain ⟨-, d2, d3⟩ := ha
    rcases hall.2 with ⟨h, -⟩ | ⟨-, hp, hin⟩ | ⟨-, hp, -⟩ | ⟨-, -, h⟩
    · rw [hcan] at h; cases h
    · simp [AutoDetach.step, hp, hin] at d2
    · simp [AutoDetach.step, hp] at d3
    · exact h
  exact forsaken hr hst (by simp [hs]) hc (.inr (.inr (List.ne_nil_of_mem hdis)))

/-- C162 is false also when the consumer has disposed the subscription, whatever becomes of the agent. -/
theorem C162_violated_disposed {ls : List (Label α)} {s : State w} (hr : LTS.run (step kill) (init w) ls = some s)
    (hst : s.stuck = false) (hd : .dispose ∈ ls) (hs : .subscribe ∈ ls) (hc : ∀ c, .subject (.cancel c) ∉ ls) : Forsaken kill s :=
  forsaken hr hst hs hc (.inl hd)

/-- For `take(n)`: after n values. -/
theorem C162_violated_take (n : Nat) (h0 : 0 < n) {a b : List (Label α)} {s1 s : State (takeW (α := α) n)}
    (h1 : LTS.run (step false) (init (takeW (α := α) n)) a = some s1) (hs : .subscribe ∈ a)
    (hw : ∃ ds, s1.agent.pc = .waiting ds) (hq : s1.agent.inbox = [])
    (h2 : LTS.run (step false) s1 b = some s) (hn : ∀ e, .raise e ∉ a ++ b) (hc : ∀ c, .subject (.cancel c) ∉ a ++ b)
    (hst : s.stuck = false) (hd : Safe.Drained s.safe) (ha : AutoDetach.Drained false s.agent)
    (hv : n ≤ (values (heard s)).length) : Forsaken false s := by
  refine C162_violated (take_front n) h1 hs hw hq h2 hn hc hst hd ha ?_
  have hv' : (n : Int) ≤ ((story (heard s)).vals.length : Int) := by simp only [values] at hv; omega
  simp [Spec.take, h0, hv']

/-- C162, the part that holds: as long as nobody has disposed the subscription or the subject, and the agent is killed with
its token or the consumer's stream has not ended, no caller hangs, and the producer's next call is not refused.
Missing: streams that have ended although the agent survives, and disposed subscriptions; both are refuted above. -/
theorem C162_partial {G : Story α → Story β} (hG : Front w G) {ls : List (Label α)} {s : State w}
    (hr : LTS.run (step kill) (init w) ls = some s) (h1 : .dispose ∉ ls) (h2 : .subject .dispose ∉ ls)
    (hk : kill = true ∨ (G (story (heard s))).fin = .running) : s.stuck = false ∧ Welcome kill s := by
  have hi := inv_run hr
  refine welcome hr h1 h2 ?_
  obtain ⟨als, a1, a2, a3, a4, a5⟩ := hi.agent
  cases kill with
  | true => exact AutoDetach.C06_killed_agent_disposes_nothing als _ a1
  | false =>
    rcases hk with hk | hk
    · cases hk
    · have hc : .cancel ∉ als := by
        rw [a4, hi.canc]
        exact running_undisposed hi.safe (by rw [posts_eq hG hi]; exact hk)
      exact (AutoDetach.reach_before a1 hc).2.1

/-! ## non-vacuity -/

/-- The producer sends two values before anybody has subscribed, the consumer subscribes to `take(1)`, and the agent is
quick. -/
def takenA : List (Label Nat) := [.subject (.call (.next 7)), .subject (.call (.next 8)), .subscribe, .agentStart, .agentReceive]
def takenB : List (Label Nat) :=
  [.subject .wake, .subject (.ret 0), .subject .wake, .subject (.ret 1), .receive, .ret, .receive, .agentReceive, .agentRet, .ret, .ret]

/-- What an example shows. -/
def State.show {w : Wrap α β} (s : State w) : List (Notif β) × Bool × Bool := (s.received, s.sub.isDisposed, s.stuck)

-- the hypotheses of `C162_violated_take` are met
example : (LTS.run (step false) (init (takeW (α := Nat) 1)) takenA).map (fun s => (s.agent.pc, s.agent.inbox)) =
    some (.waiting [0], []) := by decide
example : (LTS.run (step false) (init (takeW (α := Nat) 1)) (takenA ++ takenB)).map
    (fun s => (s.safe.pc == .halted, s.agent.pc, values (heard s))) = some (true, .dead, [7, 8]) := by decide
example : (LTS.run (step false) (init (takeW (α := Nat) 1)) (takenA ++ takenB)).map State.show =
    some ([.next 7, .completed], true, false) := by decide
-- the producer closes: stuck
example : (LTS.run (step false) (init (takeW (α := Nat) 1)) (takenA ++ takenB ++ [.subject (.call .completed)])).map State.show =
    some ([.next 7, .completed], true, true) := by decide
example : (LTS.run (step false) (init (takeW (α := Nat) 1)) (takenA ++ takenB ++ [.subject (.call .completed), .subscribe])).map State.show =
    none := by decide
-- with an agent that is killed the producer may close
example : (LTS.run (step true) (init (takeW (α := Nat) 1))
    (takenA ++ [.subject .wake, .subject (.ret 0), .receive, .ret, .receive, .ret, .ret, .subject .wake, .subject (.ret 1),
      .subject (.call .completed)])).map State.show = some ([.next 7, .completed], false, false) := by decide
-- the consumer disposes while a call is on its way: it hangs as it goes on
example : (LTS.run (step true) (init (takeW (α := Nat) 1)) (takenA ++ [.dispose, .subject .wake])).map State.show =
    some ([], true, true) := by decide

end Aio.DetachSingle
