import Verif.Lemmas.Detach
import Verif.Lemmas.Fronts
/-!
# C92: when a stream has ended, its source no longer holds the subscription

`take(n)` over a subject completes after n values although the subject goes on: then (and whenever an operator with
`auto_detach` has delivered the end of the stream) the subject should drop the operator's observer. The theorems are about
the whole of one subscription: subject, operator, safe observer and the agent of `auto_detach_observer`.
-/

namespace Aio.Detach
open Spec (story values End Story)
variable {α β : Type} {w : Wrap α β} {guard kill : Bool}

/-! ## vocabulary -/

/-- Calls of the subject that are made from now on do not reach the operator's observer, whatever happens. -/
def LetGo (guard kill : Bool) (s : State w) : Prop :=
  ∀ ls s', LTS.run (step guard kill) s ls = some s' → ∀ x ∈ s'.sub.log, x.2.1 = 0 → x.1 < s.sub.calls.length

/-- The next call of the subject, whatever it is, still can reach the operator's observer. -/
def Held (guard kill : Bool) (s : State w) : Prop :=
  ∀ n, ∃ ls s', LTS.run (step guard kill) s (.subject (.call n) :: ls) = some s' ∧ (s.sub.calls.length, 0, n) ∈ s'.sub.log

/-- The subject accepts calls. -/
def Live (s : State w) : Prop := s.sub.isDisposed = false ∧ s.sub.isStopped = false

/-- What the subject has told the operator's observer. -/
def heard (s : State w) : List (Notif α) := mine s.sub.log

/-! ## lemmas -/

theorem moved_sub (s : State w) (sub : Subject.State α) : (s.moved sub).sub = sub := by rw [moved_eq]
theorem moved_num (s : State w) (sub : Subject.State α) : (s.moved sub).num = s.num := by rw [moved_eq]
theorem moved_agent (s : State w) (sub : Subject.State α) : (s.moved sub).agent = s.agent := by rw [moved_eq]

/-- What the subject does on its own, the whole does as well. -/
theorem lift_run {cs : List (Subject.Label α)} (hc : ∀ l ∈ cs, ∀ num, others num l = true) : ∀ {s : State w} {t : Subject.State α},
    LTS.run (Subject.step guard) s.sub cs = some t → ∃ s' : State w,
      LTS.run (step guard kill) s (cs.map .subject) = some s' ∧ s'.sub = t := by
  induction cs with
  | nil => intro s t h; simp only [LTS.run, Option.some.injEq] at h; exact ⟨s, rfl, h⟩
  | cons l cs ih =>
    intro s t h
    obtain ⟨t1, h1, h2⟩ := LTS.run_cons.mp h
    obtain ⟨s', h3, h4⟩ := ih (fun l hl => hc l (by simp [hl])) (s := s.moved t1) (by rw [moved_sub]; exact h2)
    exact ⟨s', LTS.run_cons.mpr ⟨s.moved t1, by simp [step, hc l (by simp) s.num, h1], h3⟩, h4⟩

theorem held_of_mem {s : State w} (hl : Live s) (h : 0 ∈ s.sub.observers) : Held guard kill s := by
  intro n
  obtain ⟨cs, t, hcs, hr, ht⟩ := calls_reach (guard := guard) n hl.1 hl.2 h
  obtain ⟨s', h1, h2⟩ := lift_run (kill := kill) (s := s) (cs := .call n :: cs) (by
    intro l hl num
    rcases List.mem_cons.mp hl with rfl | hl
    · rfl
    · obtain ⟨c, rfl⟩ := hcs l hl; rfl) hr
  exact ⟨cs.map .subject, s', h1, by rw [h2]; exact ht⟩

/-- Observer 0 is out of the subject's list for calls from `N` on. -/
def Out (N : Nat) (s : State w) : Prop := s.num.isSome = true ∧ Off N s.sub

theorem out_agent {N : Nat} {s : State w} {t : AutoDetach.State} {al : AutoDetach.Label} (hi : Out N s)
    (h : AutoDetach.step kill s.agent al = some t) : Out N (s.detached guard t) := by
  refine ⟨hi.1, ?_⟩
  rcases AutoDetach.step_disposed h with hd | ⟨d, hd⟩
  · simpa [State.detached, hd] using hi.2
  · simpa [State.detached, hd] using off_unsubscribe hi.2

theorem out_step {N : Nat} {s s' : State w} {l : Label α} (hi : Out N s) (h : step guard kill s l = some s') : Out N s' := by
  cases l with
  | subject l =>
    simp only [step] at h
    split at h
    next ho =>
      simp only [Option.map_eq_some_iff] at h
      obtain ⟨sub, h1, rfl⟩ := h
      exact ⟨by rw [moved_num]; exact hi.1, by rw [moved_sub]; exact off_others hi.2 ho h1⟩
    next => cases h
  | subscribe => simp [step, hi.1] at h
  | dispose =>
    simp only [step] at h
    split at h
    next k hk =>
      simp only [Option.some.injEq] at h
      subst h
      exact ⟨hi.1, off_unsubscribe hi.2⟩
    next => cases h
  | receive => simp only [step, Option.map_eq_some_iff] at h; obtain ⟨t, -, rfl⟩ := h; exact hi
  | ret => simp only [step, Option.map_eq_some_iff] at h; obtain ⟨t, -, rfl⟩ := h; exact hi
  | raise e => simp only [step, Option.map_eq_some_iff] at h; obtain ⟨t, -, rfl⟩ := h; exact hi
  | agentStart => simp only [step, Option.map_eq_some_iff] at h; obtain ⟨t, h1, rfl⟩ := h; exact out_agent hi h1
  | agentReceive => simp only [step, Option.map_eq_some_iff] at h; obtain ⟨t, h1, rfl⟩ := h; exact out_agent hi h1
  | agentRet => simp only [step, Option.map_eq_some_iff] at h; obtain ⟨t, h1, rfl⟩ := h; exact out_agent hi h1

theorem made_run {ls : List (Label α)} {s : State w} (hr : LTS.run (step guard kill) (init w) ls = some s) : Made s.sub := by
  refine LTS.inv (step := step guard kill) (fun s => Made s.sub)
    (by simp [init, Subject.init, Made]) (fun s l s' hi h => ?_) hr
  have hag : ∀ (al : AutoDetach.Label) (t : AutoDetach.State), AutoDetach.step kill s.agent al = some t →
      Made (s.detached guard t).sub := by
    intro al t h
    rcases AutoDetach.step_disposed h with hd | ⟨d, hd⟩
    · simpa [State.detached, hd] using hi
    · simpa [State.detached, hd] using made_unsubscribe hi
  cases l with
  | subject l =>
    simp only [step] at h
    split at h
    next =>
      simp only [Option.map_eq_some_iff] at h
      obtain ⟨sub, h1, rfl⟩ := h
      rw [moved_sub]
      exact made_step hi h1
    next => cases h
  | subscribe =>
    simp only [step] at h
    split at h
    · cases h
    · split at h
      next sub t h1 h2 => simp only [Option.some.injEq] at h; subst h; exact made_step hi h1
      next => cases h
  | dispose =>
    simp only [step] at h
    split at h
    next k hk => simp only [Option.some.injEq] at h; subst h; exact made_unsubscribe hi
    next => cases h
  | receive => simp only [step, Option.map_eq_some_iff] at h; obtain ⟨t, -, rfl⟩ := h; exact hi
  | ret => simp only [step, Option.map_eq_some_iff] at h; obtain ⟨t, -, rfl⟩ := h; exact hi
  | raise e => simp only [step, Option.map_eq_some_iff] at h; obtain ⟨t, -, rfl⟩ := h; exact hi
  | agentStart => simp only [step, Option.map_eq_some_iff] at h; obtain ⟨t, h1, rfl⟩ := h; exact hag _ t h1
  | agentReceive => simp only [step, Option.map_eq_some_iff] at h; obtain ⟨t, h1, rfl⟩ := h; exact hag _ t h1
  | agentRet => simp only [step, Option.map_eq_some_iff] at h; obtain ⟨t, h1, rfl⟩ := h; exact hag _ t h1

theorem letGo_of_not_mem {ls : List (Label α)} {s : State w} (hr : LTS.run (step guard kill) (init w) ls = some s)
    (hn : s.num.isSome = true) (h : 0 ∉ s.sub.observers) : LetGo guard kill s := by
  intro ls' s' hr'
  exact (LTS.inv (Out s.sub.calls.length) ⟨hn, off_now h (made_run hr)⟩ (fun _ _ _ => out_step) hr').2.log

theorem mem_of_undisposed {ls : List (Label α)} {s : State w} (hi : Inv guard kill ls s) (hs : .subscribe ∈ ls)
    (hd : .dispose ∉ ls) (ha : s.agent.disposed = []) : 0 ∈ s.sub.observers := by
  obtain ⟨g, g1, g2, -⟩ := hi.subject
  have hg : g = false := by
    cases g with
    | false => rfl
    | true =>
      rcases g2 rfl with h | h
      · exact absurd h hd
      · exact absurd ha h
  have := g1.count
  rw [hi.told.mpr hs, hg] at this
  exact List.count_pos_iff.mp (by rw [this]; simp)

/-! ## C92 -/

/-- C92 is false if cancelling a token also cancels the agent that was started with it: the subject holds the observer of
a subscription that the user has not disposed for ever, whatever the subscriber has been told, and goes on calling it. -/
theorem C92_violated {ls : List (Label α)} {s : State w} (hr : LTS.run (step guard true) (init w) ls = some s)
    (hs : .subscribe ∈ ls) (hd : .dispose ∉ ls) (hl : Live s) : Held guard true s := by
  have hi := inv_run hr
  obtain ⟨als, h, -⟩ := hi.agent
  exact held_of_mem hl (mem_of_undisposed hi hs hd (AutoDetach.C06_killed_agent_disposes_nothing als _ h))

theorem agent_run {s s' : State w} {ls : List (Label α)} (hr : LTS.run (step guard kill) s ls = some s') :
    ∃ als, AutoDetach.run kill s.agent als = some s'.agent := by
  have key : ∀ {s s' : State w} {l : Label α}, step guard kill s l = some s' →
      ∃ als, AutoDetach.run kill s.agent als = some s'.agent := by
    intro s s' l h
    have one : ∀ {a : AutoDetach.State} (al : AutoDetach.Label), AutoDetach.step kill s.agent al = some a →
        ∃ als, AutoDetach.run kill s.agent als = some a := fun al h => ⟨[al], by simp [AutoDetach.run, h]⟩
    cases l with
    | subject l =>
      simp only [step] at h
      split at h
      · simp only [Option.map_eq_some_iff] at h; obtain ⟨t, -, rfl⟩ := h; rw [moved_agent]; exact ⟨[], rfl⟩
      · cases h
    | subscribe =>
      simp only [step] at h
      split at h
      · cases h
      · split at h
        next h2 => simp only [Option.some.injEq] at h; subst h; exact one _ h2
        next => cases h
    | dispose =>
      simp only [step] at h
      split at h
      · simp only [Option.some.injEq] at h; subst h; exact ⟨[], rfl⟩
      · cases h
    | receive =>
      simp only [step, Option.map_eq_some_iff] at h
      obtain ⟨t, -, rfl⟩ := h
      dsimp only [cancelled]
      split
      · exact one .cancel rfl
      · exact ⟨[], rfl⟩
    | ret => simp only [step, Option.map_eq_some_iff] at h; obtain ⟨t, -, rfl⟩ := h; exact ⟨[], rfl⟩
    | raise e => simp only [step, Option.map_eq_some_iff] at h; obtain ⟨t, -, rfl⟩ := h; exact ⟨[], rfl⟩
    | agentStart => simp only [step, Option.map_eq_some_iff] at h; obtain ⟨t, h1, rfl⟩ := h; exact one _ h1
    | agentReceive => simp only [step, Option.map_eq_some_iff] at h; obtain ⟨t, h1, rfl⟩ := h; exact one _ h1
    | agentRet => simp only [step, Option.map_eq_some_iff] at h; obtain ⟨t, h1, rfl⟩ := h; exact one _ h1
  induction ls generalizing s with
  | nil => simp only [LTS.run, Option.some.injEq] at hr; subst hr; exact ⟨[], rfl⟩
  | cons l ls ih =>
    obtain ⟨s1, h1, h2⟩ := LTS.run_cons.mp hr
    obtain ⟨a, ha⟩ := key h1
    obtain ⟨b, hb⟩ := ih h2
    exact ⟨a ++ b, by rw [AutoDetach.run_append, ha]; exact hb⟩

/-- The safe worker is about to take up a terminal notification. -/
def Ending (s : State w) : Prop := s.safe.pc = .waiting ∧ ∃ n q, s.safe.inbox = n :: q ∧ n.isTerminal = true

theorem ending_cancels {ls : List (Label α)} {s s' : State w} (hi : Inv guard kill ls s) (he : Ending s)
    (h : step guard kill s .receive = some s') :
    s.agent.cancelled = false ∧ AutoDetach.step kill s.agent .cancel = some s'.agent := by
  obtain ⟨h1, n, q, h2, h3⟩ := he
  simp only [step, Option.map_eq_some_iff] at h
  obtain ⟨t, ht, rfl⟩ := h
  rcases safe_receive hi.safe ht with ⟨v, hp, -⟩ | ⟨m, hp, -, hno⟩
  · exfalso
    cases n <;> simp [Safe.step, h1, h2, Notif.isTerminal] at ht h3 <;> subst ht <;> simp at hp
  · refine ⟨?_, by simp [cancelled, hp, AutoDetach.step]⟩
    cases hx : s.agent.cancelled with
    | false => rfl
    | true => exact absurd (hi.canc.mp hx) hno

/-- C92 is false also if the agent survives, for a stream that ends before the agent has taken the registration of the
subscription out of its mailbox. -/
theorem C92_violated_pending {a b : List (Label α)} {s1 s : State w}
    (h1 : LTS.run (step guard false) (init w) a = some s1) (he : Ending s1)
    (hp : s1.agent.pc = .fresh ∨ s1.agent.inbox ≠ [])
    (h2 : LTS.run (step guard false) s1 (.receive :: b) = some s)
    (hs : .subscribe ∈ a ++ .receive :: b) (hd : .dispose ∉ a ++ .receive :: b) (hl : Live s) : Held guard false s := by
  have hi := inv_run h1
  obtain ⟨s2, h3, h4⟩ := LTS.run_cons.mp h2
  obtain ⟨hc, hcan⟩ := ending_cancels hi he h3
  obtain ⟨als, h5⟩ := agent_run h4
  obtain ⟨als0, a1, a2, a3, a4, a5⟩ := hi.agent
  have hdis : s.agent.disposed = [] := AutoDetach.C06_pending_disposes_nothing als0 als s1.agent s.agent a1
    (by rw [a4, hc]; simp) hp (by simp only [AutoDetach.run, hcan, Option.bind_some]; exact h5)
  exact held_of_mem hl (mem_of_undisposed (inv_run (LTS.run_append.mpr ⟨s1, h1, h2⟩)) hs hd hdis)

/-- The agent's way from having taken the registration of `k` to its end. -/
def Way (k : Nat) (a : AutoDetach.State) : Prop :=
  (a.cancelled = false ∧ a.pc = .waiting [k] ∧ a.inbox = []) ∨
  (a.cancelled = true ∧ a.pc = .waiting [k] ∧ a.inbox = [.dispose]) ∨
  (a.cancelled = true ∧ a.pc = .disposing k [] ∧ k ∈ a.disposed) ∨
  (a.cancelled = true ∧ a.pc = .dead ∧ k ∈ a.disposed)

theorem way_agent {k : Nat} {a t : AutoDetach.State} {al : AutoDetach.Label} (hw : Way k a)
    (h : AutoDetach.step false a al = some t) (hal : al = .start ∨ al = .receive ∨ al = .ret) : Way k t := by
  obtain ⟨inbox, pc, c, ds⟩ := a
  rcases hw with ⟨h1, h2, h3⟩ | ⟨h1, h2, h3⟩ | ⟨h1, h2, h3⟩ | ⟨h1, h2, h3⟩ <;> simp only at h1 h2 h3 <;> subst h1 h2 <;>
    rcases hal with rfl | rfl | rfl <;> simp [AutoDetach.step, *] at h
  · subst h; exact .inr (.inr (.inl ⟨rfl, rfl, by simp [AutoDetach.disposeLoop]⟩))
  · subst h; exact .inr (.inr (.inr ⟨rfl, rfl, h3⟩))

theorem way_step {ls : List (Label α)} {s s' : State w} {l : Label α} {k : Nat} (hi : Inv guard false ls s)
    (hn : s.num = some k) (hw : Way k s.agent) (h : step guard false s l = some s') :
    s'.num = some k ∧ Way k s'.agent := by
  cases l with
  | subject l =>
    simp only [step] at h
    split at h
    · simp only [Option.map_eq_some_iff] at h; obtain ⟨t, -, rfl⟩ := h; rw [moved_agent, moved_num]; exact ⟨hn, hw⟩
    · cases h
  | subscribe => simp [step, hn] at h
  | dispose => simp only [step, hn, Option.some.injEq] at h; subst h; exact ⟨rfl, hw⟩
  | receive =>
    simp only [step, Option.map_eq_some_iff] at h
    obtain ⟨t, ht, rfl⟩ := h
    refine ⟨hn, ?_⟩
    rcases safe_receive hi.safe ht with ⟨v, hp, -⟩ | ⟨n, hp, -, hno⟩
    · simpa [cancelled, hp] using hw
    · have hc : s.agent.cancelled = false := by
        cases hx : s.agent.cancelled with
        | false => rfl
        | true => exact absurd (hi.canc.mp hx) hno
      rcases hw with ⟨-, h2, h3⟩ | ⟨h1, -⟩ | ⟨h1, -⟩ | ⟨h1, -⟩
      · exact .inr (.inl (by simp [cancelled, hp, AutoDetach.step, h2, h3]))
      all_goals rw [hc] at h1; cases h1
  | ret => simp only [step, Option.map_eq_some_iff] at h; obtain ⟨t, -, rfl⟩ := h; exact ⟨hn, hw⟩
  | raise e => simp only [step, Option.map_eq_some_iff] at h; obtain ⟨t, -, rfl⟩ := h; exact ⟨hn, hw⟩
  | agentStart =>
    simp only [step, Option.map_eq_some_iff] at h; obtain ⟨t, h1, rfl⟩ := h; exact ⟨hn, way_agent hw h1 (by simp)⟩
  | agentReceive =>
    simp only [step, Option.map_eq_some_iff] at h; obtain ⟨t, h1, rfl⟩ := h; exact ⟨hn, way_agent hw h1 (by simp)⟩
  | agentRet =>
    simp only [step, Option.map_eq_some_iff] at h; obtain ⟨t, h1, rfl⟩ := h; exact ⟨hn, way_agent hw h1 (by simp)⟩

/-- C92, the part that holds. `G` is the operator as a function of streams. If the agent survives the cancellation of its
token and at some time (after `a`) had taken the registration out of its mailbox, then: when the operator's stream has
ended and the workers have nothing left to do, the subject has let go of the operator's observer.
Missing: agents that are killed, and streams that end earlier; both are refuted above. -/
theorem C92_partial {G : Story α → Story β} (hG : Front w G) {a b : List (Label α)} {s1 s : State w}
    (h1 : LTS.run (step guard false) (init w) a = some s1) (hs : .subscribe ∈ a)
    (hw : ∃ ds, s1.agent.pc = .waiting ds) (hq : s1.agent.inbox = [])
    (h2 : LTS.run (step guard false) s1 b = some s) (hn : ∀ e, .raise e ∉ a ++ b)
    (hd : Safe.Drained s.safe) (ha : AutoDetach.Drained false s.agent)
    (hend : (G (story (heard s))).fin ≠ .running) : LetGo guard false s := by
  have hr := LTS.run_append.mpr ⟨s1, h1, h2⟩
  have hi1 := inv_run h1
  have hi := inv_run hr
  obtain ⟨k, hk⟩ := Option.isSome_iff_exists.mp (hi1.told.mpr hs)
  obtain ⟨ds, hds⟩ := hw
  -- the agent had just the one registration
  have hway : Way k s1.agent := by
    obtain ⟨als, a1, a2, a3, a4, a5⟩ := hi1.agent
    have hc : s1.agent.cancelled = false := by
      cases hx : s1.agent.cancelled with
      | false => rfl
      | true => have := auto_cancel_pending a1 hx ds hds; rw [hq] at this; simp at this
    obtain ⟨-, -, hx⟩ := AutoDetach.reach_before a1 (by rw [a4, hc]; simp)
    rcases hx with ⟨hf, -⟩ | ⟨ds', q, hp, hreg, hin⟩
    · rw [hf] at hds; cases hds
    · rw [hq] at hin
      have hq' : q = [] := by cases q with
        | nil => rfl
        | cons x q => simp at hin
      rw [a2, hk, hq'] at hreg
      simp at hreg
      exact .inl ⟨hc, by rw [hp, ← hreg], hq⟩
  have hall : s.num = some k ∧ Way k s.agent := by
    refine (LTS.inv_from (step := step guard false)
      (fun ls s => Inv guard false ls s ∧ s.num = some k ∧ Way k s.agent) ?_ (pre := a) ⟨hi1, hk, hway⟩ h2).2
    rintro ls t l t' ⟨i1, i2, i3⟩ ht
    exact ⟨inv_step i1 ht, way_step i1 i2 i3 ht⟩
  have hcan : s.agent.cancelled = true := by
    refine hi.canc.mpr (safe_disposed hi.safe (hi.quiet hn) hd ?_)
    have hst := hG.story (heard s)
    have hp : (front w).fn (heard s) = s.posts := by
      have := hi.front
      simp only [Agent.fn, heard]
      exact congrArg Prod.snd this
    have hp' : story s.posts = G (story (heard s)) := by rw [← hp]; exact hst
    rw [hp']; exact hend
  have hdis : k ∈ s.agent.disposed := by
    obtain ⟨-, d2, d3⟩ := ha
    rcases hall.2 with ⟨h, -⟩ | ⟨-, hp, hin⟩ | ⟨-, hp, -⟩ | ⟨-, -, h⟩
    · rw [hcan] at h; cases h
    · simp [AutoDetach.step, hp, hin] at d2
    · simp [AutoDetach.step, hp] at d3
    · exact h
  obtain ⟨g, g1, -, g3⟩ := hi.subject
  have hg := g3 (List.ne_nil_of_mem hdis)
  refine letGo_of_not_mem hr (by simp [hall.1]) ?_
  have := g1.count
  rw [hg] at this
  exact List.count_eq_zero.mp (by simpa using this)

/-- C92 for `take(n)`: when it has had n values. -/
theorem C92_take_partial (n : Nat) (h0 : 0 < n) {a b : List (Label α)} {s1 s : State (takeW (α := α) n)}
    (h1 : LTS.run (step guard false) (init (takeW (α := α) n)) a = some s1) (hs : .subscribe ∈ a)
    (hw : ∃ ds, s1.agent.pc = .waiting ds) (hq : s1.agent.inbox = [])
    (h2 : LTS.run (step guard false) s1 b = some s) (hn : ∀ e, .raise e ∉ a ++ b)
    (hd : Safe.Drained s.safe) (ha : AutoDetach.Drained false s.agent)
    (hv : n ≤ (values (heard s)).length) : LetGo guard false s := by
  refine C92_partial (take_front n) h1 hs hw hq h2 hn hd ha ?_
  have hv' : (n : Int) ≤ ((story (heard s)).vals.length : Int) := by simp only [values] at hv; omega
  simp [Spec.take, h0, hv']

/-! ## non-vacuity -/

/-- What an example shows: does the subject still have the observer, and what has the subscriber been told? -/
def State.show {w : Wrap α β} (s : State w) : Bool × List (Notif β) := (s.sub.observers.contains 0, s.received)

/-- `take(1)`: subscribe, one value (which the operator makes into the value and the completion), and the workers run. -/
def killedRun : List (Label Nat) :=
  [.subscribe, .agentStart, .subject (.call (.next 7)), .subject (.ret 0), .receive, .ret, .receive, .ret]
def takenA : List (Label Nat) := [.subscribe, .agentStart, .agentReceive]
def takenB : List (Label Nat) :=
  [.subject (.call (.next 7)), .subject (.ret 0), .receive, .ret, .receive, .agentReceive, .agentRet, .ret, .ret]

-- killed: the subscriber has had its completion, and the subject still has the observer; the next call reaches it
example : (LTS.run (step true true) (init (takeW (α := Nat) 1)) killedRun).map State.show =
    some (true, [.next 7, .completed]) := by decide
example : (LTS.run (step true true) (init (takeW (α := Nat) 1)) (killedRun ++ [.subject (.call (.next 8))])).map
    (fun s => s.sub.log) = some [(0, 0, .next 7), (1, 0, .next 8)] := by decide
-- survives, but the completion was taken up with the registration still in the mailbox
example : (LTS.run (step true false) (init (takeW (α := Nat) 1))
    (killedRun ++ [.agentReceive])).map State.show = some (true, [.next 7, .completed]) := by decide
example : (LTS.run (step true false) (init (takeW (α := Nat) 1)) (killedRun.take 6)).map
    (fun s => (s.safe.pc == .waiting, s.safe.inbox, s.agent.inbox)) = some (true, [.completed], [.disposable 0]) := by decide
-- survives, and the agent was quick: let go
example : (LTS.run (step true false) (init (takeW (α := Nat) 1)) (takenA ++ takenB)).map State.show =
    some (false, [.next 7, .completed]) := by decide
-- the hypotheses of `C92_take_partial` are met
example : (LTS.run (step true false) (init (takeW (α := Nat) 1)) takenA).map (fun s => (s.agent.pc, s.agent.inbox)) =
    some (.waiting [0], []) := by decide
example : (LTS.run (step true false) (init (takeW (α := Nat) 1)) (takenA ++ takenB)).map
    (fun s => (s.safe.pc == .halted, s.agent.pc, values (heard s))) = some (true, .dead, [7]) := by decide

end Aio.Detach
