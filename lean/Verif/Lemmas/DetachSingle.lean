import Verif.Model.DetachSingle
import Verif.Lemmas.Detach
import Verif.Lemmas.Single
/-!
# Lemmas about an operator with `auto_detach` over an `AsyncSingleSubject`
-/

namespace Aio.DetachSingle
open Detach (mine front mine_append safe_inv_posts safe_receive safe_no_dispose safe_quiet registered_append auto_snoc auto_cancelled)
open Single (Subscribed Disposed)
variable {α β : Type} {w : Wrap α β} {kill : Bool}

theorem feed_all (ns : List (Notif α)) : ∀ s : State w, ns.foldl State.feed s =
    { s with front := ((front w).run s.front ns).1, posts := s.posts ++ ((front w).run s.front ns).2,
             safe := { s.safe with inbox := s.safe.inbox ++ ((front w).run s.front ns).2 } } := by
  induction ns with
  | nil => intro s; simp [Agent.run]
  | cons n ns ih =>
    intro s
    rw [List.foldl_cons, ih, Agent.run_cons]
    simp [State.feed, Agent.ofObserver]

theorem moved_eq (s : State w) (sub : Single.State α) : s.moved sub =
    let r := (front w).run s.front (mine (sub.log.drop s.sub.log.length))
    { s with sub := sub, front := r.1, posts := s.posts ++ r.2, safe := { s.safe with inbox := s.safe.inbox ++ r.2 } } := by
  rw [State.moved, feed_all]

theorem log_grows {s s' : Single.State α} {l : Single.Label α} (h : Single.step s l = some s') : ∃ d, s'.log = s.log ++ d := by
  obtain ⟨-, h⟩ := Single.step_cases h
  rcases h with ⟨n, x, lg, rfl, ho, rfl⟩ | ⟨c, rd, n, x, lg, rfl, hr, hc, ho, rfl⟩ | ⟨c, n, rfl, hc, rfl⟩ |
    ⟨c, n, e, rfl, hc, rfl⟩ | ⟨c, n, rfl, hc, rfl⟩ | ⟨c, n, rfl, hc, rfl⟩ | ⟨o, rfl, hd, rfl⟩ |
    ⟨o, rfl, hd, hw, rfl⟩ | ⟨o, rfl, hd, hw, rfl⟩ | ⟨rfl, rfl⟩
  · exact ⟨lg, rfl⟩
  · exact ⟨lg, rfl⟩
  all_goals exact ⟨[], by simp⟩

theorem wait_step {s s' : Single.State α} {l : Single.Label α} (h : Single.step s l = some s') :
    (s.wait ≠ .pending → s'.wait ≠ .pending) ∧ ((∀ c, l ≠ .cancel c) → s.wait ≠ .cancelled → s'.wait ≠ .cancelled) := by
  obtain ⟨-, h⟩ := Single.step_cases h
  rcases h with ⟨n, x, lg, rfl, ho, rfl⟩ | ⟨c, rd, n, x, lg, rfl, hr, hc, ho, rfl⟩ | ⟨c, n, rfl, hc, rfl⟩ |
    ⟨c, n, e, rfl, hc, rfl⟩ | ⟨c, n, rfl, hc, rfl⟩ | ⟨c, n, rfl, hc, rfl⟩ | ⟨o, rfl, hd, rfl⟩ |
    ⟨o, rfl, hd, hw, rfl⟩ | ⟨o, rfl, hd, hw, rfl⟩ | ⟨rfl, rfl⟩ <;> simp

theorem step_move {s s' : State w} {l : Label α} (h : step kill s l = some s') : s.stuck = false ∧ move kill s l = some s' := by
  rw [step] at h
  split at h
  · cases h
  · next hs => exact ⟨by simpa using hs, h⟩

theorem dispose_eq {sub : Single.State α} (h : sub.calls.any Single.Call.isSpinning = false) :
    Single.step sub .dispose = some (disposeSubject sub) ∧ disposeSubject sub = { sub with observer := none, isDisposed := true } := by
  simp [disposeSubject, Single.step, h]

/-- Those whose registration the agent is told. -/
def State.regs (s : State w) : List Nat := if s.subscribed then [0] else []

/-! ## the invariant -/

structure Inv (kill : Bool) (ls : List (Label α)) (s : State w) : Prop where
  front : (front w).run (w.init, ()) (mine s.sub.log) = (s.front, s.posts)
  safe : Safe.Inv s.posts s.safe
  quiet : (∀ e, .raise e ∉ ls) → Safe.Quiet s.safe
  canc : s.agent.cancelled = true ↔ .disposeStart ∈ s.safe.log
  agent : ∃ als, AutoDetach.run kill AutoDetach.init als = some s.agent ∧ AutoDetach.registered als = s.regs ∧
    .raise ∉ als ∧ (.cancel ∈ als ↔ s.agent.cancelled = true) ∧ als.count .cancel ≤ 1
  regs : AutoDetach.Knows s.regs s.agent
  subject : ∃ sls, LTS.run Single.step Single.init sls = some s.sub ∧
    (Disposed sls ↔ .dispose ∈ ls ∨ .subject .dispose ∈ ls ∨ s.agent.disposed ≠ [])
  told : s.subscribed = true ↔ .subscribe ∈ ls
  woken : s.subscribed = true → s.sub.wait ≠ .pending
  kept : (∀ c, .subject (.cancel c) ∉ ls) → s.sub.wait ≠ .cancelled

theorem disposed_snoc (sls : List (Single.Label α)) (l : Single.Label α) : Disposed (sls ++ [l]) ↔ Disposed sls ∨ l = .dispose := by
  simp [Disposed, eq_comm]

/-- Steps of the agent's own. -/
theorem inv_agent {ls : List (Label α)} {s : State w} {t : AutoDetach.State} {l : Label α} {al : AutoDetach.Label}
    (hi : Inv kill ls s) (hst : s.stuck = false) (h : AutoDetach.step kill s.agent al = some t)
    (hal : al = .start ∨ al = .receive ∨ al = .ret) (hl : l = .agentStart ∨ l = .agentReceive ∨ l = .agentRet) :
    Inv kill (ls ++ [l]) (s.detached t) := by
  have hreg : AutoDetach.registered [al] = [] := by rcases hal with rfl | rfl | rfl <;> rfl
  have hnc : al ≠ .cancel := by rcases hal with rfl | rfl | rfl <;> simp
  have hnr : al ≠ .raise := by rcases hal with rfl | rfl | rfl <;> simp
  have hc := auto_cancelled hnc h
  have hk : AutoDetach.Knows s.regs t := AutoDetach.knows_step hi.regs
    (by rintro d rfl; rcases hal with h | h | h <;> cases h) h
  have hsub : (s.detached t).sub = s.sub ∧ t.disposed = s.agent.disposed ∨
      (s.detached t).sub = { s.sub with observer := none, isDisposed := true } ∧ t.disposed ≠ [] ∧
        Single.step s.sub .dispose = some (s.detached t).sub := by
    rcases AutoDetach.step_disposed h with hd | ⟨d, hd⟩
    · left; simp [State.detached, hd]
    · right
      obtain ⟨e1, e2⟩ := dispose_eq hst
      have : (s.detached t).sub = disposeSubject s.sub := by simp [State.detached, hd]
      exact ⟨by rw [this, e2], by simp [hd], by rw [this, e1]⟩
  have hlog : (s.detached t).sub.log = s.sub.log := by rcases hsub with ⟨e, -⟩ | ⟨e, -⟩ <;> rw [e]
  have hwait : (s.detached t).sub.wait = s.sub.wait := by rcases hsub with ⟨e, -⟩ | ⟨e, -⟩ <;> rw [e]
  have hm : ∀ x : Label α, x ≠ .agentStart → x ≠ .agentReceive → x ≠ .agentRet → (x ∈ ls ++ [l] ↔ x ∈ ls) := by
    intro x h1 h2 h3
    rcases hl with rfl | rfl | rfl <;> simp [h1, h2, h3]
  refine ⟨?_, hi.safe, fun hq => hi.quiet fun e he => hq e (by simp [he]), ?_, ?_, hk, ?_, ?_, ?_, ?_⟩
  · rw [hlog]; exact hi.front
  · show t.cancelled = true ↔ _
    rw [hc]; exact hi.canc
  · obtain ⟨als, a1, a2, a3, a4, a5⟩ := hi.agent
    refine ⟨als ++ [al], auto_snoc a1 h, ?_, ?_, ?_, ?_⟩
    · rw [registered_append, a2, hreg, List.append_nil]; rfl
    · simp [a3, Ne.symm hnr]
    · show _ ↔ t.cancelled = true
      rw [hc]; simp [a4, Ne.symm hnc]
    · rw [List.count_append]; simp [hnc]; exact a5
  · rw [hm _ (by simp) (by simp) (by simp), hm _ (by simp) (by simp) (by simp)]
    obtain ⟨sls, b1, b2⟩ := hi.subject
    rcases hsub with ⟨e, hd⟩ | ⟨-, hd, e⟩
    · refine ⟨sls, by rw [e]; exact b1, ?_⟩
      show _ ↔ _ ∨ _ ∨ t.disposed ≠ []
      rw [hd]; exact b2
    · refine ⟨sls ++ [.dispose], LTS.run_append.mpr ⟨_, b1, LTS.run_cons.mpr ⟨_, e, rfl⟩⟩, ?_⟩
      show _ ↔ _ ∨ _ ∨ t.disposed ≠ []
      rw [disposed_snoc]; simp [hd]
  · rw [hm _ (by simp) (by simp) (by simp)]; exact hi.told
  · intro hs; rw [hwait]; exact hi.woken hs
  · intro hcn; rw [hwait]; exact hi.kept fun c hx => hcn c (by simp [hx])

theorem inv_step {ls : List (Label α)} {s s' : State w} {l : Label α} (hi : Inv kill ls s)
    (h : step kill s l = some s') : Inv kill (ls ++ [l]) s' := by
  obtain ⟨hst, h⟩ := step_move h
  have hsubj : (∀ d : Label α, d = l → d ≠ .dispose ∧ d ≠ .subject .dispose) → ∃ sls, LTS.run Single.step Single.init sls = some s.sub ∧
      (Disposed sls ↔ .dispose ∈ ls ++ [l] ∨ .subject .dispose ∈ ls ++ [l] ∨ s.agent.disposed ≠ []) := by
    intro hd
    obtain ⟨sls, b1, b2⟩ := hi.subject
    refine ⟨sls, b1, ?_⟩
    obtain ⟨h1, h2⟩ := hd l rfl
    simp [b2, Ne.symm h1, Ne.symm h2]
  have hkept : (∀ c, .subject (.cancel c) ∉ ls ++ [l]) → s.sub.wait ≠ .cancelled := fun hc => hi.kept fun c hx => hc c (by simp [hx])
  cases l with
  | subject l =>
    simp only [move] at h
    split at h
    next ho =>
      simp only [Option.map_eq_some_iff] at h
      obtain ⟨sub, h1, rfl⟩ := h
      obtain ⟨d, hd⟩ := log_grows h1
      obtain ⟨w1, w2⟩ := wait_step h1
      rw [moved_eq]
      refine ⟨?_, safe_inv_posts hi.safe _, fun hq => ?_, hi.canc, hi.agent, hi.regs, ?_, ?_, fun hs => w1 (hi.woken hs), ?_⟩
      · show (Detach.front w).run (w.init, ()) (mine sub.log) = _
        rw [hd, mine_append, Agent.run_append, hi.front]
        simp
      · exact hi.quiet fun e he => hq e (by simp [he])
      · obtain ⟨sls, b1, b2⟩ := hi.subject
        refine ⟨sls ++ [l], LTS.run_append.mpr ⟨_, b1, LTS.run_cons.mpr ⟨_, h1, rfl⟩⟩, ?_⟩
        rw [disposed_snoc, b2]
        simp [eq_comm]
        constructor
        · rintro ((h | h | h) | h) <;> simp [h]
        · rintro (h | (h | h) | h) <;> simp [h]
      · simpa using hi.told
      · intro hc
        refine w2 ?_ (hkept hc)
        rintro c rfl
        exact hc c (by simp)
    next => cases h
  | subscribe =>
    simp only [move] at h
    split at h
    next => cases h
    next hn =>
      simp only [Bool.or_eq_true, not_or, Bool.not_eq_true] at hn
      obtain ⟨hn, hd⟩ := hn
      split at h
      next sub t h1 h2 =>
        simp only [Option.some.injEq] at h
        subst h
        obtain ⟨w1, w2⟩ := wait_step h1
        have hw : sub.wait ≠ .pending ∧ sub.log = s.sub.log := by
          rw [Single.step, if_neg (by simpa [State.stuck] using hst)] at h1
          simp only [hd, Bool.false_eq_true, if_false] at h1
          split at h1 <;> simp only [Option.some.injEq] at h1 <;> subst h1
          · simp
          next hw => exact ⟨hw, rfl⟩
        simp only [AutoDetach.step, Option.some.injEq] at h2
        refine ⟨?_, hi.safe, fun hq => hi.quiet fun e he => hq e (by simp [he]), ?_, ?_, ?_, ?_, by simp, fun _ => hw.1, ?_⟩
        · dsimp only; rw [hw.2]; exact hi.front
        · rw [← h2]; exact hi.canc
        · obtain ⟨als, a1, a2, a3, a4, a5⟩ := hi.agent
          refine ⟨als ++ [.register 0], auto_snoc a1 (by simp [AutoDetach.step, ← h2]), ?_, by simp [a3], by simpa [← h2] using a4, ?_⟩
          · rw [registered_append, a2]; simp [AutoDetach.registered, State.regs, hn]
          · rw [List.count_append]; simpa using a5
        · refine AutoDetach.knows_step (k := kill) (l := .register 0) (a := s.agent)
            (AutoDetach.knows_mono hi.regs (by simp [State.regs, hn])) ?_ (by simp [AutoDetach.step, ← h2])
          intro d hd
          cases hd
          simp [State.regs]
        · obtain ⟨sls, b1, b2⟩ := hi.subject
          refine ⟨sls ++ [.subscribe 0], LTS.run_append.mpr ⟨_, b1, LTS.run_cons.mpr ⟨_, h1, rfl⟩⟩, ?_⟩
          rw [disposed_snoc, b2, ← h2]
          simp
        · intro hc
          exact w2 (by simp) (hkept hc)
      next => cases h
  | dispose =>
    simp only [move] at h
    split at h
    next hs =>
      simp only [Option.some.injEq] at h
      subst h
      obtain ⟨e1, e2⟩ := dispose_eq hst
      refine ⟨?_, hi.safe, fun hq => hi.quiet fun e he => hq e (by simp [he]), hi.canc, hi.agent, hi.regs, ?_, ?_, ?_, ?_⟩
      · dsimp only; rw [e2]; exact hi.front
      · obtain ⟨sls, b1, b2⟩ := hi.subject
        refine ⟨sls ++ [.dispose], LTS.run_append.mpr ⟨_, b1, LTS.run_cons.mpr ⟨_, e1, rfl⟩⟩, ?_⟩
        rw [disposed_snoc]; simp
      · simpa using hi.told
      · intro _; dsimp only; rw [e2]; exact hi.woken hs
      · intro hc; dsimp only; rw [e2]; exact hkept hc
    next => cases h
  | receive =>
    simp only [move, Option.map_eq_some_iff] at h
    obtain ⟨t, h1, rfl⟩ := h
    have hs := Safe.inv_step hi.safe h1
    simp only [Safe.posted, List.append_nil] at hs
    have hq : (∀ e, .raise e ∉ ls ++ [Label.receive (α := α)]) → Safe.Quiet t := fun hq =>
      safe_quiet (by simp) (hi.quiet fun e he => hq e (by simp [he])) h1
    have hcase := safe_receive hi.safe h1
    rcases hcase with ⟨v, hpc, hlog⟩ | ⟨n, hpc, hlog, hno⟩
    · have hcan : Detach.cancelled kill t s.agent = s.agent := by simp [Detach.cancelled, hpc]
      rw [hcan]
      refine ⟨hi.front, hs, hq, ?_, hi.agent, hi.regs, hsubj (by simp), by simpa using hi.told, hi.woken, hkept⟩
      dsimp only; rw [hlog, hi.canc]; simp
    · obtain ⟨a, ha⟩ : ∃ a, AutoDetach.step kill s.agent .cancel = some a := ⟨_, rfl⟩
      have hcan : Detach.cancelled kill t s.agent = a := by simp only [Detach.cancelled, hpc, ha, Option.getD_some]
      have hnc : s.agent.cancelled = false := by
        cases hx : s.agent.cancelled with
        | false => rfl
        | true => exact absurd (hi.canc.mp hx) hno
      have hac : a.cancelled = true := by
        simp only [AutoDetach.step, Option.some.injEq] at ha; subst ha; rfl
      have had : a.disposed = s.agent.disposed := by
        simp only [AutoDetach.step, Option.some.injEq] at ha; subst ha; rfl
      rw [hcan]
      refine ⟨hi.front, hs, hq, ?_, ?_, AutoDetach.knows_step hi.regs (by simp) ha, ?_, by simpa using hi.told, hi.woken, hkept⟩
      · dsimp only; rw [hlog, hac]; simp
      · obtain ⟨als, a1, a2, a3, a4, a5⟩ := hi.agent
        have hnm : .cancel ∉ als := by rw [a4, hnc]; simp
        refine ⟨als ++ [.cancel], auto_snoc a1 ha, ?_, by simp [a3], by simp [hac], ?_⟩
        · rw [registered_append, a2]; simp [AutoDetach.registered, State.regs]
        · rw [List.count_append, List.count_eq_zero.mpr hnm]; simp
      · obtain ⟨sls, b1, b2⟩ := hsubj (by simp)
        exact ⟨sls, b1, by rw [b2, ← had]⟩
  | ret =>
    simp only [move, Option.map_eq_some_iff] at h
    obtain ⟨t, h1, rfl⟩ := h
    have hs := Safe.inv_step hi.safe h1
    simp only [Safe.posted, List.append_nil] at hs
    have hlog := safe_no_dispose (by simp) h1
    refine ⟨hi.front, hs, fun hq => safe_quiet (by simp) (hi.quiet fun e he => hq e (by simp [he])) h1, ?_, hi.agent, hi.regs,
      hsubj (by simp), by simpa using hi.told, hi.woken, hkept⟩
    dsimp only; rw [hlog]; exact hi.canc
  | raise e =>
    simp only [move, Option.map_eq_some_iff] at h
    obtain ⟨t, h1, rfl⟩ := h
    have hs := Safe.inv_step hi.safe h1
    simp only [Safe.posted, List.append_nil] at hs
    have hlog := safe_no_dispose (by simp) h1
    refine ⟨hi.front, hs, fun hq => absurd (by simp) (hq e), ?_, hi.agent, hi.regs,
      hsubj (by simp), by simpa using hi.told, hi.woken, hkept⟩
    dsimp only; rw [hlog]; exact hi.canc
  | agentStart =>
    simp only [move, Option.map_eq_some_iff] at h
    obtain ⟨t, h1, rfl⟩ := h
    exact inv_agent hi hst h1 (by simp) (by simp)
  | agentReceive =>
    simp only [move, Option.map_eq_some_iff] at h
    obtain ⟨t, h1, rfl⟩ := h
    exact inv_agent hi hst h1 (by simp) (by simp)
  | agentRet =>
    simp only [move, Option.map_eq_some_iff] at h
    obtain ⟨t, h1, rfl⟩ := h
    exact inv_agent hi hst h1 (by simp) (by simp)

theorem inv_run {ls : List (Label α)} {s : State w} (hr : LTS.run (step kill) (init w) ls = some s) : Inv kill ls s := by
  refine LTS.inv_hist (step := step kill) (Inv kill) ?_ (fun _ _ _ _ => inv_step) hr
  exact ⟨rfl, Safe.inv_init, fun _ => ⟨by simp [init, Safe.init], by simp [init, Safe.init]⟩, by simp [init, Safe.init, AutoDetach.init],
    ⟨[], rfl, rfl, by simp, by simp [init, AutoDetach.init], by simp⟩,
    ⟨by simp [init, AutoDetach.init], by simp [init, AutoDetach.init], by simp [init, AutoDetach.init], by simp [init, AutoDetach.init]⟩,
    ⟨[], rfl, by simp [Disposed, init, AutoDetach.init]⟩, by simp [init], by simp [init], by simp [init, Single.init]⟩

end Aio.DetachSingle
