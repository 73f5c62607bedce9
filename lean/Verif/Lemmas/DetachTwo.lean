import Verif.Model.DetachTwo
import Verif.Lemmas.Detach
/-!
# Lemmas about a subscription with two sources and `auto_detach`
-/

namespace Aio.DetachTwo
open Detach (others unsubscribe cancelled Knows knows_others knows_unsubscribe Made made_step made_unsubscribe Off off_others
  off_unsubscribe off_now)
variable {α β γ : Type} {guard kill : Bool} {regs : Registers}

/-- One of the sources: its subscription `num`, whether the user / the agent has disposed it. -/
def Half (num : Option Nat) (user agent : Prop) (sub : Subject.State α) : Prop :=
  ∃ g, Knows num g sub ∧ (g = true → user ∨ agent) ∧ (agent → g = true)

theorem half_mono {num : Option Nat} {u u' a a' : Prop} {sub : Subject.State α} (h : Half num u a sub) (hu : u → u')
    (ha : a ↔ a') : Half num u' a' sub := by
  obtain ⟨g, g1, g2, g3⟩ := h
  exact ⟨g, g1, fun hg => (g2 hg).imp hu ha.mp, fun h => g3 (ha.mpr h)⟩

theorem half_others {num : Option Nat} {u a : Prop} {sub sub' : Subject.State α} {l : Subject.Label α} (h : Half num u a sub)
    (ho : others num l = true) (hs : Subject.step guard sub l = some sub') : Half num u a sub' := by
  obtain ⟨g, g1, g2⟩ := h
  exact ⟨g, knows_others g1 ho hs, g2⟩

theorem half_unsubscribe {k : Nat} {u u' a a' : Prop} {sub : Subject.State α} (h : Half (some k) u a sub) (hu : u' ∨ a') :
    Half (some k) u' a' (unsubscribe guard sub k) := by
  obtain ⟨g, g1, g2⟩ := h
  exact ⟨true, knows_unsubscribe g1, fun _ => hu, fun _ => rfl⟩

theorem half_subscribe {u a : Prop} {sub : Subject.State α} (h : Half none u a sub) (hd : sub.isDisposed = false) (ha : ¬ a) :
    ∃ t, Subject.step guard sub (.subscribe 0) = some t ∧ Half (some sub.subs.length) u a t := by
  obtain ⟨g, g1, g2⟩ := h
  refine ⟨{ sub with observers := sub.observers ++ [0], subs := sub.subs ++ [some (0, false)] },
    by simp [Subject.step, hd], false, ⟨?_, ?_, ?_⟩, by simp, fun h => absurd h ha⟩
  · intro k hk
    simp only [Option.some.injEq] at hk
    subst hk
    simp
  · intro k b hk
    dsimp only at hk
    rw [List.getElem?_append] at hk
    split at hk
    · have := g1.only k b hk; cases this
    · next hlt =>
      rw [List.getElem?_singleton] at hk
      split at hk <;> simp at hk
      next he => simp only [Option.some.injEq]; omega
  · have := g1.count
    simp only [Option.isSome_none, Bool.false_and, Bool.false_eq_true, if_false] at this
    simp [this]

/-- What was registered with the agent so far. -/
def Registered (regs : Registers) (s : State α β γ) (d : Nat) : Prop :=
  (d = 0 ∧ regs .source = true ∧ s.num1.isSome = true) ∨ (d = 1 ∧ regs .other = true ∧ s.num2.isSome = true)

structure Inv (guard kill : Bool) (regs : Registers) (ls : List (Label α β γ)) (s : State α β γ) : Prop where
  safe : ∃ p, Safe.Inv p s.safe
  quiet : (∀ e, .raise e ∉ ls) → Safe.Quiet s.safe
  canc : s.agent.cancelled = true ↔ .disposeStart ∈ s.safe.log
  agent : ∃ als, AutoDetach.run kill AutoDetach.init als = some s.agent ∧
    (∀ d, d ∈ AutoDetach.registered als ↔ Registered regs s d) ∧ (.cancel ∈ als ↔ s.agent.cancelled = true)
  regs : ∃ r, (∀ d ∈ r, Registered regs s d) ∧ AutoDetach.Knows r s.agent
  left : Half s.num1 (.dispose .source ∈ ls) (0 ∈ s.agent.disposed) s.left
  right : Half s.num2 (.dispose .other ∈ ls) (1 ∈ s.agent.disposed) s.right
  told1 : s.num1.isSome = true ↔ .subscribe .source ∈ ls
  told2 : s.num2.isSome = true ↔ .subscribe .other ∈ ls
  made1 : Made s.left
  made2 : Made s.right

theorem drop_agent (s : State α β γ) (d : Nat) : (s.drop guard d).agent = s.agent ∧ (s.drop guard d).safe = s.safe ∧
    (s.drop guard d).num1 = s.num1 ∧ (s.drop guard d).num2 = s.num2 := by
  unfold State.drop
  split <;> simp

theorem drop_zero {s : State α β γ} {k : Nat} (h : s.num1 = some k) :
    s.drop guard 0 = { s with left := unsubscribe guard s.left k } := by
  simp [State.drop, h]

theorem drop_one {s : State α β γ} {k : Nat} (h : s.num2 = some k) :
    s.drop guard 1 = { s with right := unsubscribe guard s.right k } := by
  simp [State.drop, h]

theorem detached_same {s : State α β γ} {t : AutoDetach.State} (h : t.disposed = s.agent.disposed) :
    s.detached guard t = { s with agent := t } := by simp [State.detached, h]

theorem detached_one {s : State α β γ} {t : AutoDetach.State} {d : Nat} (h : t.disposed = s.agent.disposed ++ [d]) :
    s.detached guard t = State.drop guard { s with agent := t } d := by simp [State.detached, h]

/-- Steps of the agent's own. -/
theorem inv_agent {ls : List (Label α β γ)} {s : State α β γ} {t : AutoDetach.State} {l : Label α β γ} {al : AutoDetach.Label}
    (hi : Inv guard kill regs ls s) (h : AutoDetach.step kill s.agent al = some t)
    (hal : al = .start ∨ al = .receive ∨ al = .ret) (hl : l = .agentStart ∨ l = .agentReceive ∨ l = .agentRet) :
    Inv guard kill regs (ls ++ [l]) (s.detached guard t) := by
  have hreg : AutoDetach.registered [al] = [] := by rcases hal with rfl | rfl | rfl <;> rfl
  have hnc : al ≠ .cancel := by rcases hal with rfl | rfl | rfl <;> simp
  have hc := Detach.auto_cancelled hnc h
  have hm : ∀ side, (.dispose side ∈ ls ++ [l] ↔ .dispose side ∈ ls) ∧ (.subscribe side ∈ ls ++ [l] ↔ .subscribe side ∈ ls) := by
    intro side; rcases hl with rfl | rfl | rfl <;> simp
  have hag : ∃ als, AutoDetach.run kill AutoDetach.init als = some t ∧
      (∀ d, d ∈ AutoDetach.registered als ↔ Registered regs s d) ∧ (.cancel ∈ als ↔ t.cancelled = true) := by
    obtain ⟨als, a1, a2, a4⟩ := hi.agent
    refine ⟨als ++ [al], Detach.auto_snoc a1 h, ?_, ?_⟩
    · intro d; rw [Detach.registered_append, hreg]; simpa using a2 d
    · rw [hc]; simp [a4, Ne.symm hnc]
  have hkn : ∃ r, (∀ d ∈ r, Registered regs s d) ∧ AutoDetach.Knows r t := by
    obtain ⟨r, r1, r2⟩ := hi.regs
    exact ⟨r, r1, AutoDetach.knows_step r2 (by rintro d rfl; rcases hal with h | h | h <;> cases h) h⟩
  rcases AutoDetach.step_disposed h with hd | ⟨d, hd⟩
  · rw [detached_same hd]
    exact ⟨hi.safe, fun hq => hi.quiet fun e he => hq e (by simp [he]), by dsimp only; rw [hc]; exact hi.canc, hag, hkn, half_mono hi.left (by simp [hm]) (by simp [hd]),
      half_mono hi.right (by simp [hm]) (by simp [hd]), by rw [(hm _).2]; exact hi.told1, by rw [(hm _).2]; exact hi.told2,
      hi.made1, hi.made2⟩
  · rw [detached_one hd]
    obtain ⟨r, r1, r2⟩ := hkn
    have hdr := r1 d (r2.2.1 d (by simp [hd]))
    rcases hdr with ⟨rfl, -, hn⟩ | ⟨rfl, -, hn⟩
    · obtain ⟨k, hk⟩ := Option.isSome_iff_exists.mp hn
      rw [drop_zero (k := k) (s := { s with agent := t }) hk]
      refine ⟨hi.safe, fun hq => hi.quiet fun e he => hq e (by simp [he]), by dsimp only; rw [hc]; exact hi.canc, hag, ⟨r, r1, r2⟩, ?_, half_mono hi.right (by simp [hm]) (by simp [hd]),
        by rw [(hm _).2]; exact hi.told1, by rw [(hm _).2]; exact hi.told2, made_unsubscribe hi.made1, hi.made2⟩
      have h1 := hi.left
      dsimp only
      rw [hk] at h1 ⊢
      exact half_unsubscribe h1 (.inr (by simp [hd]))
    · obtain ⟨k, hk⟩ := Option.isSome_iff_exists.mp hn
      rw [drop_one (k := k) (s := { s with agent := t }) hk]
      refine ⟨hi.safe, fun hq => hi.quiet fun e he => hq e (by simp [he]), by dsimp only; rw [hc]; exact hi.canc, hag, ⟨r, r1, r2⟩, half_mono hi.left (by simp [hm]) (by simp [hd]), ?_,
        by rw [(hm _).2]; exact hi.told1, by rw [(hm _).2]; exact hi.told2, hi.made1, made_unsubscribe hi.made2⟩
      have h1 := hi.right
      dsimp only
      rw [hk] at h1 ⊢
      exact half_unsubscribe h1 (.inr (by simp [hd]))

theorem register_props {side : Side} {a : AutoDetach.State} :
    (register kill regs side a).cancelled = a.cancelled ∧ (register kill regs side a).disposed = a.disposed := by
  unfold register
  split <;> simp [AutoDetach.step]

theorem register_agent {side : Side} {a : AutoDetach.State} {P : Nat → Prop}
    (h : ∃ als, AutoDetach.run kill AutoDetach.init als = some a ∧ (∀ d, d ∈ AutoDetach.registered als ↔ P d) ∧
      (.cancel ∈ als ↔ a.cancelled = true)) :
    ∃ als, AutoDetach.run kill AutoDetach.init als = some (register kill regs side a) ∧
      (∀ d, d ∈ AutoDetach.registered als ↔ P d ∨ (d = side.number ∧ regs side = true)) ∧
      (.cancel ∈ als ↔ (register kill regs side a).cancelled = true) := by
  obtain ⟨als, a1, a2, a4⟩ := h
  rw [register_props.1]
  unfold register
  split
  next hr =>
    refine ⟨als ++ [.register side.number], Detach.auto_snoc a1 rfl, ?_, by simpa using a4⟩
    intro d
    rw [Detach.registered_append]
    simp [AutoDetach.registered, a2, hr]
  next hr => exact ⟨als, a1, by intro d; simp [a2, hr], a4⟩

theorem register_knows {side : Side} {a : AutoDetach.State} {P : Nat → Prop}
    (h : ∃ r, (∀ d ∈ r, P d) ∧ AutoDetach.Knows r a) :
    ∃ r, (∀ d ∈ r, P d ∨ (d = side.number ∧ regs side = true)) ∧ AutoDetach.Knows r (register kill regs side a) := by
  obtain ⟨r, r1, r2⟩ := h
  unfold register
  split
  next hr =>
    refine ⟨r ++ [side.number], ?_, ?_⟩
    · intro d hd
      simp only [List.mem_append, List.mem_singleton] at hd
      rcases hd with hd | hd
      · exact .inl (r1 d hd)
      · exact .inr ⟨hd, hr⟩
    · refine AutoDetach.knows_step (k := kill) (l := .register side.number) (a := a)
        (AutoDetach.knows_mono r2 (fun d hd => by simp [hd])) ?_ rfl
      intro d hd
      cases hd
      simp
  next hr => exact ⟨r, fun d hd => .inl (r1 d hd), r2⟩

theorem not_disposed {ls : List (Label α β γ)} {s : State α β γ} (hi : Inv guard kill regs ls s) :
    (s.num1 = none → 0 ∉ s.agent.disposed) ∧ (s.num2 = none → 1 ∉ s.agent.disposed) := by
  obtain ⟨r, r1, r2⟩ := hi.regs
  constructor <;> intro hn hm <;> have := r1 _ (r2.2.1 _ hm) <;> simp [Registered, hn] at this

theorem inv_step {ls : List (Label α β γ)} {s s' : State α β γ} {l : Label α β γ} (hi : Inv guard kill regs ls s)
    (h : step guard kill regs s l = some s') : Inv guard kill regs (ls ++ [l]) s' := by
  have hL : ∀ {l}, Half s.num1 (.dispose .source ∈ ls ++ [l]) (0 ∈ s.agent.disposed) s.left :=
    half_mono hi.left (by intro h; simp [h]) Iff.rfl
  have hR : ∀ {l}, Half s.num2 (.dispose .other ∈ ls ++ [l]) (1 ∈ s.agent.disposed) s.right :=
    half_mono hi.right (by intro h; simp [h]) Iff.rfl
  cases l with
  | left l =>
    simp only [step] at h
    split at h
    next ho =>
      simp only [Option.map_eq_some_iff] at h
      obtain ⟨sub, h1, rfl⟩ := h
      exact ⟨hi.safe, fun hq => hi.quiet fun e he => hq e (by simp [he]), hi.canc, hi.agent, hi.regs, half_others hL ho h1, hR, by simpa using hi.told1, by simpa using hi.told2,
        made_step hi.made1 h1, hi.made2⟩
    next => cases h
  | right l =>
    simp only [step] at h
    split at h
    next ho =>
      simp only [Option.map_eq_some_iff] at h
      obtain ⟨sub, h1, rfl⟩ := h
      exact ⟨hi.safe, fun hq => hi.quiet fun e he => hq e (by simp [he]), hi.canc, hi.agent, hi.regs, hL, half_others hR ho h1, by simpa using hi.told1, by simpa using hi.told2,
        hi.made1, made_step hi.made2 h1⟩
    next => cases h
  | subscribe side =>
    cases side with
    | source =>
      simp only [step] at h
      split at h
      next => cases h
      next hn =>
        simp only [Bool.or_eq_true, not_or, Bool.not_eq_true, Option.isSome_eq_false_iff, Option.isNone_iff_eq_none] at hn
        obtain ⟨hn, hd⟩ := hn
        simp only [Option.map_eq_some_iff] at h
        obtain ⟨t, h1, rfl⟩ := h
        have hst : ∀ d, (Registered regs s d ∨ (d = Side.source.number ∧ regs .source = true)) ↔
            Registered regs { s with left := t, num1 := some s.left.subs.length, agent := register kill regs .source s.agent } d := by
          intro d; simp only [Registered, hn, Side.number, Option.isSome_some, Option.isSome_none]; grind
        refine ⟨hi.safe, fun hq => hi.quiet fun e he => hq e (by simp [he]), by dsimp only; rw [register_props.1]; exact hi.canc, ?_, ?_, ?_, ?_, by simp, ?_, made_step hi.made1 h1, hi.made2⟩
        · obtain ⟨als, a1, a2, a3⟩ := register_agent (regs := regs) (side := .source) hi.agent
          exact ⟨als, a1, fun d => (a2 d).trans (hst d), a3⟩
        · obtain ⟨r, r1, r2⟩ := register_knows (kill := kill) (regs := regs) (side := .source) hi.regs
          exact ⟨r, fun d hd => (hst d).mp (r1 d hd), r2⟩
        · have h3 := hL (l := .subscribe .source)
          rw [hn] at h3
          obtain ⟨t', h4, h5⟩ := half_subscribe (guard := guard) h3 hd ((not_disposed hi).1 hn)
          rw [h1] at h4
          cases h4
          dsimp only
          rw [register_props.2]
          exact h5
        · dsimp only; rw [register_props.2]; exact hR
        · simpa using hi.told2
    | other =>
      simp only [step] at h
      split at h
      next => cases h
      next hn =>
        simp only [Bool.or_eq_true, not_or, Bool.not_eq_true, Option.isSome_eq_false_iff, Option.isNone_iff_eq_none] at hn
        obtain ⟨hn, hd⟩ := hn
        simp only [Option.map_eq_some_iff] at h
        obtain ⟨t, h1, rfl⟩ := h
        have hst : ∀ d, (Registered regs s d ∨ (d = Side.other.number ∧ regs .other = true)) ↔
            Registered regs { s with right := t, num2 := some s.right.subs.length, agent := register kill regs .other s.agent } d := by
          intro d; simp only [Registered, hn, Side.number, Option.isSome_some, Option.isSome_none]; grind
        refine ⟨hi.safe, fun hq => hi.quiet fun e he => hq e (by simp [he]), by dsimp only; rw [register_props.1]; exact hi.canc, ?_, ?_, ?_, ?_, ?_, by simp, hi.made1, made_step hi.made2 h1⟩
        · obtain ⟨als, a1, a2, a3⟩ := register_agent (regs := regs) (side := .other) hi.agent
          exact ⟨als, a1, fun d => (a2 d).trans (hst d), a3⟩
        · obtain ⟨r, r1, r2⟩ := register_knows (kill := kill) (regs := regs) (side := .other) hi.regs
          exact ⟨r, fun d hd => (hst d).mp (r1 d hd), r2⟩
        · dsimp only; rw [register_props.2]; exact hL
        · have h3 := hR (l := .subscribe .other)
          rw [hn] at h3
          obtain ⟨t', h4, h5⟩ := half_subscribe (guard := guard) h3 hd ((not_disposed hi).2 hn)
          rw [h1] at h4
          cases h4
          dsimp only
          rw [register_props.2]
          exact h5
        · simpa using hi.told1
  | dispose side =>
    simp only [step] at h
    split at h
    next hn =>
      simp only [Bool.and_eq_true] at hn
      simp only [Option.some.injEq] at h
      subst h
      cases side with
      | source =>
        obtain ⟨k, hk⟩ := Option.isSome_iff_exists.mp hn.1
        rw [Side.number, drop_zero hk]
        refine ⟨hi.safe, fun hq => hi.quiet fun e he => hq e (by simp [he]), hi.canc, hi.agent, hi.regs, ?_, hR, by simpa using hi.told1, by simpa using hi.told2,
          made_unsubscribe hi.made1, hi.made2⟩
        have h1 := hi.left
        dsimp only
        rw [hk] at h1 ⊢
        exact half_unsubscribe h1 (.inl (by simp))
      | other =>
        obtain ⟨k, hk⟩ := Option.isSome_iff_exists.mp hn.2
        rw [Side.number, drop_one hk]
        refine ⟨hi.safe, fun hq => hi.quiet fun e he => hq e (by simp [he]), hi.canc, hi.agent, hi.regs, hL, ?_, by simpa using hi.told1, by simpa using hi.told2,
          hi.made1, made_unsubscribe hi.made2⟩
        have h1 := hi.right
        dsimp only
        rw [hk] at h1 ⊢
        exact half_unsubscribe h1 (.inl (by simp))
    next => cases h
  | post n =>
    simp only [step, Option.map_eq_some_iff] at h
    obtain ⟨t, h1, rfl⟩ := h
    obtain ⟨p, hp⟩ := hi.safe
    have hlog := Detach.safe_no_dispose (by simp) h1
    exact ⟨⟨_, Safe.inv_step hp h1⟩, fun hq => Safe.quiet_step (by simp) (hi.quiet fun e he => hq e (by simp [he])) h1, by dsimp only; rw [hlog]; exact hi.canc, hi.agent, hi.regs, hL, hR,
      by simpa using hi.told1, by simpa using hi.told2, hi.made1, hi.made2⟩
  | ret =>
    simp only [step, Option.map_eq_some_iff] at h
    obtain ⟨t, h1, rfl⟩ := h
    obtain ⟨p, hp⟩ := hi.safe
    have hlog := Detach.safe_no_dispose (by simp) h1
    exact ⟨⟨_, Safe.inv_step hp h1⟩, fun hq => Safe.quiet_step (by simp) (hi.quiet fun e he => hq e (by simp [he])) h1, by dsimp only; rw [hlog]; exact hi.canc, hi.agent, hi.regs, hL, hR,
      by simpa using hi.told1, by simpa using hi.told2, hi.made1, hi.made2⟩
  | raise e =>
    simp only [step, Option.map_eq_some_iff] at h
    obtain ⟨t, h1, rfl⟩ := h
    obtain ⟨p, hp⟩ := hi.safe
    have hlog := Detach.safe_no_dispose (by simp) h1
    exact ⟨⟨_, Safe.inv_step hp h1⟩, fun hq => absurd (by simp) (hq e), by dsimp only; rw [hlog]; exact hi.canc, hi.agent, hi.regs, hL, hR,
      by simpa using hi.told1, by simpa using hi.told2, hi.made1, hi.made2⟩
  | receive =>
    simp only [step, Option.map_eq_some_iff] at h
    obtain ⟨t, h1, rfl⟩ := h
    obtain ⟨p, hp⟩ := hi.safe
    rcases Detach.safe_receive hp h1 with ⟨v, hpc, hlog⟩ | ⟨n, hpc, hlog, hno⟩
    · have hcan : cancelled kill t s.agent = s.agent := by simp [cancelled, hpc]
      rw [hcan]
      exact ⟨⟨_, Safe.inv_step hp h1⟩, fun hq => Safe.quiet_step (by simp) (hi.quiet fun e he => hq e (by simp [he])) h1, by dsimp only; rw [hlog, hi.canc]; simp, hi.agent, hi.regs, hL, hR,
        by simpa using hi.told1, by simpa using hi.told2, hi.made1, hi.made2⟩
    · obtain ⟨a, ha⟩ : ∃ a, AutoDetach.step kill s.agent .cancel = some a := ⟨_, rfl⟩
      have hcan : cancelled kill t s.agent = a := by simp only [cancelled, hpc, ha, Option.getD_some]
      have hac : a.cancelled = true := by
        simp only [AutoDetach.step, Option.some.injEq] at ha; subst ha; rfl
      have had : a.disposed = s.agent.disposed := by
        simp only [AutoDetach.step, Option.some.injEq] at ha; subst ha; rfl
      rw [hcan]
      refine ⟨⟨_, Safe.inv_step hp h1⟩, fun hq => Safe.quiet_step (by simp) (hi.quiet fun e he => hq e (by simp [he])) h1, by dsimp only; rw [hlog, hac]; simp, ?_, ?_, by dsimp only; rw [had]; exact hL,
        by dsimp only; rw [had]; exact hR, by simpa using hi.told1, by simpa using hi.told2, hi.made1, hi.made2⟩
      · obtain ⟨als, a1, a2, a4⟩ := hi.agent
        refine ⟨als ++ [.cancel], Detach.auto_snoc a1 ha, ?_, by simp [hac]⟩
        intro d
        show _ ↔ Registered regs s d
        rw [Detach.registered_append]; simpa [AutoDetach.registered] using a2 d
      · obtain ⟨r, r1, r2⟩ := hi.regs
        exact ⟨r, r1, AutoDetach.knows_step r2 (by simp) ha⟩
  | agentStart =>
    simp only [step, Option.map_eq_some_iff] at h
    obtain ⟨t, h1, rfl⟩ := h
    exact inv_agent hi h1 (by simp) (by simp)
  | agentReceive =>
    simp only [step, Option.map_eq_some_iff] at h
    obtain ⟨t, h1, rfl⟩ := h
    exact inv_agent hi h1 (by simp) (by simp)
  | agentRet =>
    simp only [step, Option.map_eq_some_iff] at h
    obtain ⟨t, h1, rfl⟩ := h
    exact inv_agent hi h1 (by simp) (by simp)

theorem inv_run {ls : List (Label α β γ)} {s : State α β γ} (hr : LTS.run (step guard kill regs) init ls = some s) :
    Inv guard kill regs ls s := by
  refine LTS.inv_hist (Inv guard kill regs) ?_ (fun _ _ _ _ => inv_step) hr
  have hh : ∀ (δ : Type) (u a : Prop), ¬ a → Half none u a (Subject.init : Subject.State δ) := fun δ u a ha =>
    ⟨false, ⟨by simp, by simp [Subject.init], by simp [Subject.init]⟩, by simp, fun h => absurd h ha⟩
  exact ⟨⟨[], Safe.inv_init⟩, fun _ => ⟨by simp [init, Safe.init], by simp [init, Safe.init]⟩, by simp [init, Safe.init, AutoDetach.init],
    ⟨[], rfl, by simp [AutoDetach.registered, Registered, init], by simp [init, AutoDetach.init]⟩,
    ⟨[], by simp, by simp [init, AutoDetach.init], by simp [init, AutoDetach.init], by simp [init, AutoDetach.init], by simp [init, AutoDetach.init]⟩,
    hh _ _ _ (by simp [init, AutoDetach.init]), hh _ _ _ (by simp [init, AutoDetach.init]), by simp [init], by simp [init],
    by simp [init, Subject.init, Made], by simp [init, Subject.init, Made]⟩

end Aio.DetachTwo
