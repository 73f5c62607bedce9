import Verif.Lemmas.DetachTwo
/-!
# C93: when the stream of an operator with two sources has ended, neither source holds the subscription

`take_until(other)`, `combine_latest(other)`, `with_latest_from(other)` over two subjects, whatever the operator posts.
-/

namespace Aio.DetachTwo
open Detach (others unsubscribe calls_reach Off off_others off_unsubscribe off_now)
variable {α β γ : Type} {guard kill : Bool} {regs : Registers}

/-! ## vocabulary -/

/-- Calls of the source that are made from now on do not reach the operator's observer, whatever happens. -/
def LetGoSource (guard kill : Bool) (regs : Registers) (s : State α β γ) : Prop :=
  ∀ ls s', LTS.run (step guard kill regs) s ls = some s' → ∀ x ∈ s'.left.log, x.2.1 = 0 → x.1 < s.left.calls.length

/-- The same for the other source. -/
def LetGoOther (guard kill : Bool) (regs : Registers) (s : State α β γ) : Prop :=
  ∀ ls s', LTS.run (step guard kill regs) s ls = some s' → ∀ x ∈ s'.right.log, x.2.1 = 0 → x.1 < s.right.calls.length

/-- The next call of the source still can reach the operator's observer. -/
def HeldSource (guard kill : Bool) (regs : Registers) (s : State α β γ) : Prop :=
  ∀ n, ∃ ls s', LTS.run (step guard kill regs) s (.left (.call n) :: ls) = some s' ∧ (s.left.calls.length, 0, n) ∈ s'.left.log

/-- The same for the other source. -/
def HeldOther (guard kill : Bool) (regs : Registers) (s : State α β γ) : Prop :=
  ∀ n, ∃ ls s', LTS.run (step guard kill regs) s (.right (.call n) :: ls) = some s' ∧ (s.right.calls.length, 0, n) ∈ s'.right.log

/-- The subject accepts calls. -/
def Live (s : Subject.State α) : Prop := s.isDisposed = false ∧ s.isStopped = false

/-- The subscriber has been told the end of the stream. -/
def Told (s : State α β γ) : Prop := ∃ n ∈ Safe.calls s.safe.log, n.isTerminal = true

/-! ## lemmas -/

theorem lift_left {cs : List (Subject.Label α)} (hc : ∀ l ∈ cs, ∀ num, others num l = true) : ∀ {s : State α β γ} {t : Subject.State α},
    LTS.run (Subject.step guard) s.left cs = some t → ∃ s' : State α β γ,
      LTS.run (step guard kill regs) s (cs.map .left) = some s' ∧ s'.left = t := by
  induction cs with
  | nil => intro s t h; simp only [LTS.run, Option.some.injEq] at h; exact ⟨s, rfl, h⟩
  | cons l cs ih =>
    intro s t h
    obtain ⟨t1, h1, h2⟩ := LTS.run_cons.mp h
    obtain ⟨s', h3, h4⟩ := ih (fun l hl => hc l (by simp [hl])) (s := { s with left := t1 }) h2
    exact ⟨s', LTS.run_cons.mpr ⟨{ s with left := t1 }, by simp [step, hc l (by simp) s.num1, h1], h3⟩, h4⟩

theorem lift_right {cs : List (Subject.Label β)} (hc : ∀ l ∈ cs, ∀ num, others num l = true) : ∀ {s : State α β γ} {t : Subject.State β},
    LTS.run (Subject.step guard) s.right cs = some t → ∃ s' : State α β γ,
      LTS.run (step guard kill regs) s (cs.map .right) = some s' ∧ s'.right = t := by
  induction cs with
  | nil => intro s t h; simp only [LTS.run, Option.some.injEq] at h; exact ⟨s, rfl, h⟩
  | cons l cs ih =>
    intro s t h
    obtain ⟨t1, h1, h2⟩ := LTS.run_cons.mp h
    obtain ⟨s', h3, h4⟩ := ih (fun l hl => hc l (by simp [hl])) (s := { s with right := t1 }) h2
    exact ⟨s', LTS.run_cons.mpr ⟨{ s with right := t1 }, by simp [step, hc l (by simp) s.num2, h1], h3⟩, h4⟩

theorem call_rets {δ : Type} {n : Notif δ} {cs : List (Subject.Label δ)} (hcs : ∀ l ∈ cs, ∃ c, l = .ret c) :
    ∀ l ∈ Subject.Label.call n :: cs, ∀ num, others num l = true := by
  intro l hl num
  rcases List.mem_cons.mp hl with rfl | hl
  · rfl
  · obtain ⟨c, rfl⟩ := hcs l hl; rfl

theorem held_source {s : State α β γ} (hl : Live s.left) (h : 0 ∈ s.left.observers) : HeldSource guard kill regs s := by
  intro n
  obtain ⟨cs, t, hcs, hr, ht⟩ := calls_reach (guard := guard) n hl.1 hl.2 h
  obtain ⟨s', h1, h2⟩ := lift_left (kill := kill) (regs := regs) (s := s) (call_rets hcs) hr
  exact ⟨cs.map .left, s', h1, by rw [h2]; exact ht⟩

theorem held_other {s : State α β γ} (hl : Live s.right) (h : 0 ∈ s.right.observers) : HeldOther guard kill regs s := by
  intro n
  obtain ⟨cs, t, hcs, hr, ht⟩ := calls_reach (guard := guard) n hl.1 hl.2 h
  obtain ⟨s', h1, h2⟩ := lift_right (kill := kill) (regs := regs) (s := s) (call_rets hcs) hr
  exact ⟨cs.map .right, s', h1, by rw [h2]; exact ht⟩

theorem mem_of_half {num : Option Nat} {u a : Prop} {sub : Subject.State α} (h : Half num u a sub) (hn : num.isSome = true)
    (hu : ¬ u) (ha : ¬ a) : 0 ∈ sub.observers := by
  obtain ⟨g, g1, g2, -⟩ := h
  have hg : g = false := by
    cases g with
    | false => rfl
    | true =>
      rcases g2 rfl with h | h
      · exact absurd h hu
      · exact absurd h ha
  have := g1.count
  rw [hn, hg] at this
  exact List.count_pos_iff.mp (by rw [this]; simp)

theorem not_mem_of_half {num : Option Nat} {u a : Prop} {sub : Subject.State α} (h : Half num u a sub) (ha : a) :
    0 ∉ sub.observers := by
  obtain ⟨g, g1, -, g3⟩ := h
  have := g1.count
  rw [g3 ha] at this
  exact List.count_eq_zero.mp (by simpa using this)

/-- Steps change the numbers of the subscriptions only by subscribing. -/
theorem num_step {s s' : State α β γ} {l : Label α β γ} (h : step guard kill regs s l = some s') :
    (s.num1.isSome = true → s'.num1 = s.num1) ∧ (s.num2.isSome = true → s'.num2 = s.num2) := by
  have hag : ∀ {t : AutoDetach.State} {al}, AutoDetach.step kill s.agent al = some t →
      (s.detached guard t).num1 = s.num1 ∧ (s.detached guard t).num2 = s.num2 := by
    intro t al h
    rcases AutoDetach.step_disposed h with hd | ⟨d, hd⟩
    · rw [detached_same hd]; exact ⟨rfl, rfl⟩
    · rw [detached_one hd]; exact ⟨(drop_agent _ d).2.2.1, (drop_agent _ d).2.2.2⟩
  cases l with
  | left l =>
    simp only [step] at h
    split at h
    · simp only [Option.map_eq_some_iff] at h; obtain ⟨t, -, rfl⟩ := h; exact ⟨fun _ => rfl, fun _ => rfl⟩
    · cases h
  | right l =>
    simp only [step] at h
    split at h
    · simp only [Option.map_eq_some_iff] at h; obtain ⟨t, -, rfl⟩ := h; exact ⟨fun _ => rfl, fun _ => rfl⟩
    · cases h
  | subscribe side =>
    cases side <;> simp only [step] at h <;> split at h
    · cases h
    · next hn =>
      simp only [Bool.or_eq_true, not_or, Bool.not_eq_true] at hn
      simp only [Option.map_eq_some_iff] at h; obtain ⟨t, -, rfl⟩ := h; exact ⟨by simp [hn.1], fun _ => rfl⟩
    · cases h
    · next hn =>
      simp only [Bool.or_eq_true, not_or, Bool.not_eq_true] at hn
      simp only [Option.map_eq_some_iff] at h; obtain ⟨t, -, rfl⟩ := h; exact ⟨fun _ => rfl, by simp [hn.1]⟩
  | dispose side =>
    simp only [step] at h
    split at h
    · simp only [Option.some.injEq] at h; subst h
      exact ⟨fun _ => (drop_agent _ _).2.2.1, fun _ => (drop_agent _ _).2.2.2⟩
    · cases h
  | post n => simp only [step, Option.map_eq_some_iff] at h; obtain ⟨t, -, rfl⟩ := h; exact ⟨fun _ => rfl, fun _ => rfl⟩
  | receive => simp only [step, Option.map_eq_some_iff] at h; obtain ⟨t, -, rfl⟩ := h; exact ⟨fun _ => rfl, fun _ => rfl⟩
  | ret => simp only [step, Option.map_eq_some_iff] at h; obtain ⟨t, -, rfl⟩ := h; exact ⟨fun _ => rfl, fun _ => rfl⟩
  | raise e => simp only [step, Option.map_eq_some_iff] at h; obtain ⟨t, -, rfl⟩ := h; exact ⟨fun _ => rfl, fun _ => rfl⟩
  | agentStart =>
    simp only [step, Option.map_eq_some_iff] at h; obtain ⟨t, h1, rfl⟩ := h; exact ⟨fun _ => (hag h1).1, fun _ => (hag h1).2⟩
  | agentReceive =>
    simp only [step, Option.map_eq_some_iff] at h; obtain ⟨t, h1, rfl⟩ := h; exact ⟨fun _ => (hag h1).1, fun _ => (hag h1).2⟩
  | agentRet =>
    simp only [step, Option.map_eq_some_iff] at h; obtain ⟨t, h1, rfl⟩ := h; exact ⟨fun _ => (hag h1).1, fun _ => (hag h1).2⟩

theorem off_drop {N : Nat} {s : State α β γ} {d : Nat} :
    (Off N s.left → Off N (s.drop guard d).left) ∧ (Off N s.right → Off N (s.drop guard d).right) := by
  unfold State.drop
  split
  · exact ⟨off_unsubscribe, id⟩
  · exact ⟨id, off_unsubscribe⟩
  · exact ⟨id, id⟩

theorem off_step {N : Nat} {s s' : State α β γ} {l : Label α β γ} (h : step guard kill regs s l = some s') :
    (s.num1.isSome = true ∧ Off N s.left → Off N s'.left) ∧ (s.num2.isSome = true ∧ Off N s.right → Off N s'.right) := by
  have hag : ∀ {t : AutoDetach.State} {al}, AutoDetach.step kill s.agent al = some t →
      (Off N s.left → Off N (s.detached guard t).left) ∧ (Off N s.right → Off N (s.detached guard t).right) := by
    intro t al h
    rcases AutoDetach.step_disposed h with hd | ⟨d, hd⟩
    · rw [detached_same hd]; exact ⟨id, id⟩
    · rw [detached_one hd]; exact off_drop (s := { s with agent := t })
  cases l with
  | left l =>
    simp only [step] at h
    split at h
    next ho =>
      simp only [Option.map_eq_some_iff] at h; obtain ⟨t, h1, rfl⟩ := h
      exact ⟨fun hi => off_others hi.2 ho h1, fun hi => hi.2⟩
    next => cases h
  | right l =>
    simp only [step] at h
    split at h
    next ho =>
      simp only [Option.map_eq_some_iff] at h; obtain ⟨t, h1, rfl⟩ := h
      exact ⟨fun hi => hi.2, fun hi => off_others hi.2 ho h1⟩
    next => cases h
  | subscribe side =>
    cases side <;> simp only [step] at h <;> split at h
    · cases h
    · next hn =>
      simp only [Bool.or_eq_true, not_or, Bool.not_eq_true] at hn
      simp only [Option.map_eq_some_iff] at h; obtain ⟨t, -, rfl⟩ := h; exact ⟨by simp [hn.1], fun hi => hi.2⟩
    · cases h
    · next hn =>
      simp only [Bool.or_eq_true, not_or, Bool.not_eq_true] at hn
      simp only [Option.map_eq_some_iff] at h; obtain ⟨t, -, rfl⟩ := h; exact ⟨fun hi => hi.2, by simp [hn.1]⟩
  | dispose side =>
    simp only [step] at h
    split at h
    · simp only [Option.some.injEq] at h; subst h
      exact ⟨fun hi => off_drop.1 hi.2, fun hi => off_drop.2 hi.2⟩
    · cases h
  | post n => simp only [step, Option.map_eq_some_iff] at h; obtain ⟨t, -, rfl⟩ := h; exact ⟨fun hi => hi.2, fun hi => hi.2⟩
  | receive => simp only [step, Option.map_eq_some_iff] at h; obtain ⟨t, -, rfl⟩ := h; exact ⟨fun hi => hi.2, fun hi => hi.2⟩
  | ret => simp only [step, Option.map_eq_some_iff] at h; obtain ⟨t, -, rfl⟩ := h; exact ⟨fun hi => hi.2, fun hi => hi.2⟩
  | raise e => simp only [step, Option.map_eq_some_iff] at h; obtain ⟨t, -, rfl⟩ := h; exact ⟨fun hi => hi.2, fun hi => hi.2⟩
  | agentStart =>
    simp only [step, Option.map_eq_some_iff] at h; obtain ⟨t, h1, rfl⟩ := h
    exact ⟨fun hi => (hag h1).1 hi.2, fun hi => (hag h1).2 hi.2⟩
  | agentReceive =>
    simp only [step, Option.map_eq_some_iff] at h; obtain ⟨t, h1, rfl⟩ := h
    exact ⟨fun hi => (hag h1).1 hi.2, fun hi => (hag h1).2 hi.2⟩
  | agentRet =>
    simp only [step, Option.map_eq_some_iff] at h; obtain ⟨t, h1, rfl⟩ := h
    exact ⟨fun hi => (hag h1).1 hi.2, fun hi => (hag h1).2 hi.2⟩

theorem letGo_source {ls : List (Label α β γ)} {s : State α β γ} (hi : Inv guard kill regs ls s) (hn : s.num1.isSome = true)
    (h : 0 ∉ s.left.observers) : LetGoSource guard kill regs s := by
  intro ls' s' hr'
  refine (LTS.inv (step := step guard kill regs) (fun t => t.num1.isSome = true ∧ Off s.left.calls.length t.left)
    ⟨hn, off_now h hi.made1⟩ ?_ hr').2.log
  intro t l t' ht hs
  exact ⟨by rw [(num_step hs).1 ht.1]; exact ht.1, (off_step hs).1 ht⟩

theorem letGo_other {ls : List (Label α β γ)} {s : State α β γ} (hi : Inv guard kill regs ls s) (hn : s.num2.isSome = true)
    (h : 0 ∉ s.right.observers) : LetGoOther guard kill regs s := by
  intro ls' s' hr'
  refine (LTS.inv (step := step guard kill regs) (fun t => t.num2.isSome = true ∧ Off s.right.calls.length t.right)
    ⟨hn, off_now h hi.made2⟩ ?_ hr').2.log
  intro t l t' ht hs
  exact ⟨by rw [(num_step hs).2 ht.1]; exact ht.1, (off_step hs).2 ht⟩

/-- An observer that never raises was told the end: the worker has disposed. -/
theorem told_disposed {p : List (Notif γ)} {s : Safe.State γ} (hi : Safe.Inv p s) (hq : Safe.Quiet s) {n : Notif γ}
    (hn : n ∈ Safe.calls s.log) (ht : n.isTerminal = true) : .disposeStart ∈ s.log := by
  obtain ⟨vs, c, t, rfl, hl, hsh⟩ := hi
  obtain ⟨inbox, pc, log⟩ := s
  obtain ⟨q1, q2⟩ := hq
  simp only at hl hsh q1 q2 hn ⊢
  subst hl
  have hno : n ∉ Safe.calls (Safe.blocks vs) := by
    rw [Safe.calls_blocks]
    intro hm
    obtain ⟨v, -, rfl⟩ := List.mem_map.mp hm
    simp [Notif.isTerminal] at ht
  rw [Safe.calls_append, List.mem_append] at hn
  have hn' := hn.resolve_left hno
  clear hn hno
  cases hsh <;> simp [Safe.calls] at q1 q2 hn' ⊢
  all_goals first
    | (subst hn'; simp [Notif.isTerminal] at ht; done)
    | exact absurd rfl ((q1 _ _).2 rfl)
    | exact absurd rfl ((q1 _ _).2.1 rfl)

/-! ## C93 -/

/-- C93 is false for `take_until`: as long as the user does not dispose the subscription, `other` holds it and goes on
calling it, whatever has happened, in particular after the end of the stream. Its subscription does not pass through
`auto_detach`. -/
theorem C93_take_until_violated {ls : List (Label α β γ)} {s : State α β γ}
    (hr : LTS.run (step guard kill takeUntilRegisters) init ls = some s)
    (hs : .subscribe .other ∈ ls) (hd : .dispose .other ∉ ls) (hl : Live s.right) : HeldOther guard kill takeUntilRegisters s := by
  have hi := inv_run hr
  refine held_other hl (mem_of_half hi.right (hi.told2.mpr hs) hd fun hm => ?_)
  obtain ⟨r, r1, r2⟩ := hi.regs
  have := r1 1 (r2.2.1 1 hm)
  simp [Registered, takeUntilRegisters] at this

/-- C93 is false for all of them if cancelling a token also cancels the agent that was started with it. -/
theorem C93_violated_killed {ls : List (Label α β γ)} {s : State α β γ}
    (hr : LTS.run (step guard true regs) init ls = some s) :
    (.subscribe .source ∈ ls → .dispose .source ∉ ls → Live s.left → HeldSource guard true regs s) ∧
    (.subscribe .other ∈ ls → .dispose .other ∉ ls → Live s.right → HeldOther guard true regs s) := by
  have hi := inv_run hr
  obtain ⟨als, h, -⟩ := hi.agent
  have hno : s.agent.disposed = [] := AutoDetach.C06_killed_agent_disposes_nothing als _ h
  exact ⟨fun hs hd hl => held_source hl (mem_of_half hi.left (hi.told1.mpr hs) hd (by simp [hno])),
    fun hs hd hl => held_other hl (mem_of_half hi.right (hi.told2.mpr hs) hd (by simp [hno]))⟩

theorem agent_step {s s' : State α β γ} {l : Label α β γ} (h : step guard kill regs s l = some s') :
    ∃ als, AutoDetach.run kill s.agent als = some s'.agent := by
  have one : ∀ {a : AutoDetach.State} (al : AutoDetach.Label), AutoDetach.step kill s.agent al = some a →
      ∃ als, AutoDetach.run kill s.agent als = some a := fun al h => ⟨[al], by simp [AutoDetach.run, h]⟩
  have hag : ∀ {t : AutoDetach.State} (al), AutoDetach.step kill s.agent al = some t →
      ∃ als, AutoDetach.run kill s.agent als = some (s.detached guard t).agent := by
    intro t al h
    have : (s.detached guard t).agent = t := by
      rcases AutoDetach.step_disposed h with hd | ⟨d, hd⟩
      · rw [detached_same hd]
      · rw [detached_one hd]; exact (drop_agent _ d).1
    rw [this]; exact one al h
  have hreg : ∀ side, ∃ als, AutoDetach.run kill s.agent als = some (register kill regs side s.agent) := by
    intro side
    unfold register
    split
    · exact one (.register side.number) rfl
    · exact ⟨[], rfl⟩
  cases l with
  | left l =>
    simp only [step] at h
    split at h
    · simp only [Option.map_eq_some_iff] at h; obtain ⟨t, -, rfl⟩ := h; exact ⟨[], rfl⟩
    · cases h
  | right l =>
    simp only [step] at h
    split at h
    · simp only [Option.map_eq_some_iff] at h; obtain ⟨t, -, rfl⟩ := h; exact ⟨[], rfl⟩
    · cases h
  | subscribe side =>
    cases side <;> simp only [step] at h <;> split at h
    · cases h
    · simp only [Option.map_eq_some_iff] at h; obtain ⟨t, -, rfl⟩ := h; exact hreg _
    · cases h
    · simp only [Option.map_eq_some_iff] at h; obtain ⟨t, -, rfl⟩ := h; exact hreg _
  | dispose side =>
    simp only [step] at h
    split at h
    · simp only [Option.some.injEq] at h; subst h; exact ⟨[], by rw [(drop_agent s side.number).1]; rfl⟩
    · cases h
  | post n => simp only [step, Option.map_eq_some_iff] at h; obtain ⟨t, -, rfl⟩ := h; exact ⟨[], rfl⟩
  | receive =>
    simp only [step, Option.map_eq_some_iff] at h
    obtain ⟨t, -, rfl⟩ := h
    dsimp only [Detach.cancelled]
    split
    · exact one .cancel rfl
    · exact ⟨[], rfl⟩
  | ret => simp only [step, Option.map_eq_some_iff] at h; obtain ⟨t, -, rfl⟩ := h; exact ⟨[], rfl⟩
  | raise e => simp only [step, Option.map_eq_some_iff] at h; obtain ⟨t, -, rfl⟩ := h; exact ⟨[], rfl⟩
  | agentStart => simp only [step, Option.map_eq_some_iff] at h; obtain ⟨t, h1, rfl⟩ := h; exact hag _ h1
  | agentReceive => simp only [step, Option.map_eq_some_iff] at h; obtain ⟨t, h1, rfl⟩ := h; exact hag _ h1
  | agentRet => simp only [step, Option.map_eq_some_iff] at h; obtain ⟨t, h1, rfl⟩ := h; exact hag _ h1

theorem agent_run {ls : List (Label α β γ)} : ∀ {s s' : State α β γ}, LTS.run (step guard kill regs) s ls = some s' →
    ∃ als, AutoDetach.run kill s.agent als = some s'.agent := by
  induction ls with
  | nil => intro s s' hr; simp only [LTS.run, Option.some.injEq] at hr; subst hr; exact ⟨[], rfl⟩
  | cons l ls ih =>
    intro s s' hr
    obtain ⟨s1, h1, h2⟩ := LTS.run_cons.mp hr
    obtain ⟨a, ha⟩ := agent_step h1
    obtain ⟨b, hb⟩ := ih h2
    exact ⟨a ++ b, by rw [AutoDetach.run_append, ha]; exact hb⟩

/-- The safe worker is about to take up a terminal notification. -/
def Ending (s : State α β γ) : Prop := s.safe.pc = .waiting ∧ ∃ n q, s.safe.inbox = n :: q ∧ n.isTerminal = true

/-- C93 is false for all of them also if the agent survives, for a stream that ends before the agent has taken both
registrations out of its mailbox: then neither source ever lets go. -/
theorem C93_violated_pending {a b : List (Label α β γ)} {s1 s : State α β γ}
    (h1 : LTS.run (step guard false regs) init a = some s1) (he : Ending s1)
    (hp : s1.agent.pc = .fresh ∨ s1.agent.inbox ≠ [])
    (h2 : LTS.run (step guard false regs) s1 (.receive :: b) = some s) :
    (.subscribe .source ∈ a ++ .receive :: b → .dispose .source ∉ a ++ .receive :: b → Live s.left →
      HeldSource guard false regs s) ∧
    (.subscribe .other ∈ a ++ .receive :: b → .dispose .other ∉ a ++ .receive :: b → Live s.right →
      HeldOther guard false regs s) := by
  have hi1 := inv_run h1
  have hi := inv_run (LTS.run_append.mpr ⟨s1, h1, h2⟩)
  obtain ⟨s2, h3, h4⟩ := LTS.run_cons.mp h2
  obtain ⟨hc, hcan⟩ : s1.agent.cancelled = false ∧ AutoDetach.step false s1.agent .cancel = some s2.agent := by
    obtain ⟨e1, n, q, e2, e3⟩ := he
    simp only [step, Option.map_eq_some_iff] at h3
    obtain ⟨t, ht, rfl⟩ := h3
    obtain ⟨p, hp⟩ := hi1.safe
    rcases Detach.safe_receive hp ht with ⟨v, hpc, -⟩ | ⟨m, hpc, -, hno⟩
    · exfalso
      cases n <;> simp [Safe.step, e1, e2, Notif.isTerminal] at ht e3 <;> subst ht <;> simp at hpc
    · refine ⟨?_, by simp [Detach.cancelled, hpc, AutoDetach.step]⟩
      cases hx : s1.agent.cancelled with
      | false => rfl
      | true => exact absurd (hi1.canc.mp hx) hno
  obtain ⟨als, h5⟩ := agent_run h4
  obtain ⟨als0, a1, a2, a4⟩ := hi1.agent
  have hno : s.agent.disposed = [] := AutoDetach.C06_pending_disposes_nothing als0 als s1.agent s.agent a1
    (by rw [a4, hc]; simp) hp (by simp only [AutoDetach.run, hcan, Option.bind_some]; exact h5)
  exact ⟨fun hs hd hl => held_source hl (mem_of_half hi.left (hi.told1.mpr hs) hd (by simp [hno])),
    fun hs hd hl => held_other hl (mem_of_half hi.right (hi.told2.mpr hs) hd (by simp [hno]))⟩

/-- The agent's way from having taken the registrations `rs` to its end. -/
def Way (rs : List Nat) (a : AutoDetach.State) : Prop :=
  (a.cancelled = false ∧ a.pc = .waiting rs ∧ a.inbox = []) ∨
  (a.cancelled = true ∧ a.pc = .waiting rs ∧ a.inbox = [.dispose]) ∨
  (a.cancelled = true ∧ ∃ c todo, a.pc = .disposing c todo ∧ ∀ x ∈ rs, x ∈ a.disposed ∨ x ∈ todo) ∨
  (a.cancelled = true ∧ a.pc = .dead ∧ ∀ x ∈ rs, x ∈ a.disposed)

theorem way_loop {rs ds : List Nat} {a : AutoDetach.State} (hc : a.cancelled = true) (h : ∀ x ∈ rs, x ∈ a.disposed ∨ x ∈ ds) :
    Way rs (AutoDetach.disposeLoop a ds) := by
  cases ds with
  | nil => exact .inr (.inr (.inr ⟨hc, rfl, fun x hx => (h x hx).resolve_right (by simp)⟩))
  | cons d ds =>
    refine .inr (.inr (.inl ⟨hc, d, ds, rfl, fun x hx => ?_⟩))
    rcases h x hx with h | h
    · exact .inl (by simp [AutoDetach.disposeLoop, h])
    · rcases List.mem_cons.mp h with rfl | h
      · exact .inl (by simp [AutoDetach.disposeLoop])
      · exact .inr h

theorem way_agent {rs : List Nat} {a t : AutoDetach.State} {al : AutoDetach.Label} (hw : Way rs a)
    (h : AutoDetach.step false a al = some t) (hal : al = .start ∨ al = .receive ∨ al = .ret) : Way rs t := by
  rcases hw with ⟨h1, h2, h3⟩ | ⟨h1, h2, h3⟩ | ⟨h1, c, todo, h2, h3⟩ | ⟨h1, h2, h3⟩ <;>
    rcases hal with rfl | rfl | rfl <;> simp [AutoDetach.step, h2, h3] at h
  · subst h; exact way_loop h1 fun x hx => .inr hx
  · subst h; exact way_loop h1 h3

theorem way_step {ls : List (Label α β γ)} {s s' : State α β γ} {l : Label α β γ} {rs : List Nat} (hi : Inv guard false regs ls s)
    (hn : s.num1.isSome = true ∧ s.num2.isSome = true) (hw : Way rs s.agent) (h : step guard false regs s l = some s') :
    Way rs s'.agent := by
  have hag : ∀ {t : AutoDetach.State} {al}, AutoDetach.step false s.agent al = some t → (s.detached guard t).agent = t := by
    intro t al h
    rcases AutoDetach.step_disposed h with hd | ⟨d, hd⟩
    · rw [detached_same hd]
    · rw [detached_one hd]; exact (drop_agent _ d).1
  cases l with
  | left l =>
    simp only [step] at h
    split at h
    · simp only [Option.map_eq_some_iff] at h; obtain ⟨t, -, rfl⟩ := h; exact hw
    · cases h
  | right l =>
    simp only [step] at h
    split at h
    · simp only [Option.map_eq_some_iff] at h; obtain ⟨t, -, rfl⟩ := h; exact hw
    · cases h
  | subscribe side => cases side <;> simp [step, hn] at h
  | dispose side =>
    simp only [step, hn, Bool.and_self, if_true, Option.some.injEq] at h
    subst h
    rw [(drop_agent s side.number).1]; exact hw
  | post n => simp only [step, Option.map_eq_some_iff] at h; obtain ⟨t, -, rfl⟩ := h; exact hw
  | receive =>
    simp only [step, Option.map_eq_some_iff] at h
    obtain ⟨t, ht, rfl⟩ := h
    obtain ⟨p, hp⟩ := hi.safe
    rcases Detach.safe_receive hp ht with ⟨v, hpc, -⟩ | ⟨n, hpc, -, hno⟩
    · simpa [Detach.cancelled, hpc] using hw
    · have hc : s.agent.cancelled = false := by
        cases hx : s.agent.cancelled with
        | false => rfl
        | true => exact absurd (hi.canc.mp hx) hno
      rcases hw with ⟨-, h2, h3⟩ | ⟨h1, -⟩ | ⟨h1, -⟩ | ⟨h1, -⟩
      · exact .inr (.inl (by simp [Detach.cancelled, hpc, AutoDetach.step, h2, h3]))
      all_goals rw [hc] at h1; cases h1
  | ret => simp only [step, Option.map_eq_some_iff] at h; obtain ⟨t, -, rfl⟩ := h; exact hw
  | raise e => simp only [step, Option.map_eq_some_iff] at h; obtain ⟨t, -, rfl⟩ := h; exact hw
  | agentStart =>
    simp only [step, Option.map_eq_some_iff] at h; obtain ⟨t, h1, rfl⟩ := h
    rw [hag h1]; exact way_agent hw h1 (by simp)
  | agentReceive =>
    simp only [step, Option.map_eq_some_iff] at h; obtain ⟨t, h1, rfl⟩ := h
    rw [hag h1]; exact way_agent hw h1 (by simp)
  | agentRet =>
    simp only [step, Option.map_eq_some_iff] at h; obtain ⟨t, h1, rfl⟩ := h
    rw [hag h1]; exact way_agent hw h1 (by simp)

/-- C93, the part that holds. If the agent survives the cancellation of its token, and at some time (after `a`) both
subscriptions were there and the agent had taken the registrations out of its mailbox, then: when an observer that does not
raise has been told the end and the agent has nothing left to do, the sources whose subscriptions pass through `auto_detach`
have let go of the operator's observers.
Missing: agents that are killed, streams that end earlier, and the `other` of `take_until`; all refuted above. -/
theorem C93_partial {a b : List (Label α β γ)} {s1 s : State α β γ}
    (h1 : LTS.run (step guard false regs) init a = some s1) (hs1 : .subscribe .source ∈ a) (hs2 : .subscribe .other ∈ a)
    (hw : ∃ ds, s1.agent.pc = .waiting ds) (hq : s1.agent.inbox = [])
    (h2 : LTS.run (step guard false regs) s1 b = some s) (hn : ∀ e, .raise e ∉ a ++ b)
    (ht : Told s) (ha : AutoDetach.Drained false s.agent) :
    (regs .source = true → LetGoSource guard false regs s) ∧ (regs .other = true → LetGoOther guard false regs s) := by
  have hi1 := inv_run h1
  have hi := inv_run (LTS.run_append.mpr ⟨s1, h1, h2⟩)
  have hnum := And.intro (hi1.told1.mpr hs1) (hi1.told2.mpr hs2)
  obtain ⟨ds, hds⟩ := hw
  obtain ⟨hway, hrs⟩ : Way ds s1.agent ∧ ∀ d, Registered regs s1 d → d ∈ ds := by
    obtain ⟨als, a1, a2, a4⟩ := hi1.agent
    have hc : s1.agent.cancelled = false := by
      cases hx : s1.agent.cancelled with
      | false => rfl
      | true => have := Detach.auto_cancel_pending a1 hx ds hds; rw [hq] at this; simp at this
    obtain ⟨-, -, hx⟩ := AutoDetach.reach_before a1 (by rw [a4, hc]; simp)
    rcases hx with ⟨hf, -⟩ | ⟨ds', q, hp, hreg, hin⟩
    · rw [hf] at hds; cases hds
    · rw [hq] at hin
      have hq' : q = [] := by cases q with
        | nil => rfl
        | cons x q => simp at hin
      rw [hds] at hp
      cases hp
      refine ⟨.inl ⟨hc, hds, hq⟩, fun d hd => ?_⟩
      have := (a2 d).mpr hd
      rw [hreg, hq'] at this
      simpa using this
  have hall : (s.num1.isSome = true ∧ s.num2.isSome = true) ∧ Way ds s.agent := by
    refine (LTS.inv_from (step := step guard false regs)
      (fun ls s => Inv guard false regs ls s ∧ (s.num1.isSome = true ∧ s.num2.isSome = true) ∧ Way ds s.agent) ?_ (pre := a)
      ⟨hi1, hnum, hway⟩ h2).2
    rintro ls t l t' ⟨i1, i2, i3⟩ hst
    refine ⟨inv_step i1 hst, ⟨?_, ?_⟩, way_step i1 i2 i3 hst⟩
    · rw [(num_step hst).1 i2.1]; exact i2.1
    · rw [(num_step hst).2 i2.2]; exact i2.2
  have hcan : s.agent.cancelled = true := by
    obtain ⟨p, hp⟩ := hi.safe
    obtain ⟨n, hm, htm⟩ := ht
    exact hi.canc.mpr (told_disposed hp (hi.quiet hn) hm htm)
  have hdis : ∀ x ∈ ds, x ∈ s.agent.disposed := by
    obtain ⟨-, d2, d3⟩ := ha
    rcases hall.2 with ⟨h, -⟩ | ⟨-, hp, hin⟩ | ⟨-, c, todo, hp, -⟩ | ⟨-, -, h⟩
    · rw [hcan] at h; cases h
    · simp [AutoDetach.step, hp, hin] at d2
    · simp [AutoDetach.step, hp] at d3
    · exact h
  exact ⟨fun hr => letGo_source hi hall.1.1 (not_mem_of_half hi.left (hdis 0 (hrs 0 (.inl ⟨rfl, hr, hnum.1⟩)))),
    fun hr => letGo_other hi hall.1.2 (not_mem_of_half hi.right (hdis 1 (hrs 1 (.inr ⟨rfl, hr, hnum.2⟩))))⟩

/-! ## non-vacuity -/

/-- What an example shows: do the subjects still have the observers, and what has the subscriber been told? -/
def State.show (s : State α β γ) : Bool × Bool × List (Notif γ) :=
  (s.left.observers.contains 0, s.right.observers.contains 0, Safe.calls s.safe.log)

def untilA : List (Label Nat Nat Nat) := [.subscribe .other, .subscribe .source, .agentStart, .agentReceive]
/-- `take_until`: `other` sends, the completion is posted and delivered, the agent disposes. -/
def untilB : List (Label Nat Nat Nat) :=
  [.right (.call (.next 1)), .right (.ret 0), .post .completed, .receive, .agentReceive, .agentRet, .ret, .ret]
def bothA : List (Label Nat Nat Nat) := [.subscribe .source, .subscribe .other, .agentStart, .agentReceive, .agentReceive]
def bothB : List (Label Nat Nat Nat) :=
  [.left (.call .completed), .left (.ret 0), .post .completed, .receive, .agentReceive, .agentRet, .agentRet, .ret, .ret]

-- `take_until` has ended: the source has let go, `other` has not, and its next call arrives
example : (LTS.run (step true false takeUntilRegisters) init (untilA ++ untilB)).map State.show =
    some (false, true, [.completed]) := by decide
example : (LTS.run (step true false takeUntilRegisters) init (untilA ++ untilB ++ [.right (.call (.next 2))])).map
    (fun s => s.right.log) = some [(0, 0, .next 1), (1, 0, .next 2)] := by decide
-- `combine_latest` has ended and the agent was quick: both have let go
example : (LTS.run (step true false bothRegister) init (bothA ++ bothB)).map State.show =
    some (false, false, [.completed]) := by decide
example : (LTS.run (step true false bothRegister) init bothA).map (fun s => (s.agent.pc, s.agent.inbox)) =
    some (.waiting [0, 1], []) := by decide
-- killed: neither has
example : (LTS.run (step true true bothRegister) init
    (bothA ++ [.left (.call .completed), .left (.ret 0), .post .completed, .receive, .ret, .ret])).map State.show =
    some (true, true, [.completed]) := by decide

-- survives, but the end is taken up with the second registration in the mailbox: neither has
example : (LTS.run (step true false bothRegister) (init : State Nat Nat Nat)
    [.subscribe .source, .agentStart, .agentReceive, .subscribe .other, .post .completed, .receive, .agentReceive, .ret, .ret]).map
    State.show = some (true, true, [.completed]) := by decide

end Aio.DetachTwo
