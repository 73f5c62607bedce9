import Verif.Model.Subscribing
import Verif.Props.C93_DetachTwo
/-!
# C104: a `subscribe_async` that raises leaves nothing subscribed
-/

namespace Aio.Subscribing
open DetachTwo (Side Registers takeUntilRegisters bothRegister Live)
open Detach (Off others)
variable {α β γ : Type} {guard kill : Bool} {regs : Registers} {order : Order}

/-! ## vocabulary -/

/-- The next call of the source still can reach the operator's observer. -/
def HeldSource (guard kill : Bool) (regs : Registers) (order : Order) (s : State α β γ) : Prop :=
  ∀ n, ∃ ls s', LTS.run (step guard kill regs order) s (.world (.left (.call n)) :: ls) = some s' ∧
    (s.base.left.calls.length, 0, n) ∈ s'.base.left.log

/-- The same for the other source. -/
def HeldOther (guard kill : Bool) (regs : Registers) (order : Order) (s : State α β γ) : Prop :=
  ∀ n, ∃ ls s', LTS.run (step guard kill regs order) s (.world (.right (.call n)) :: ls) = some s' ∧
    (s.base.right.calls.length, 0, n) ∈ s'.base.right.log

/-- Neither source has called the operator's observer, nor ever will. -/
def Untouched (guard kill : Bool) (regs : Registers) (order : Order) (s : State α β γ) : Prop :=
  ∀ ls s', LTS.run (step guard kill regs order) s ls = some s' →
    (∀ x ∈ s'.base.left.log, x.2.1 ≠ 0) ∧ ∀ x ∈ s'.base.right.log, x.2.1 ≠ 0

/-! ## the run of `DetachTwo` inside -/

theorem step_world {s s' : State α β γ} {l : DetachTwo.Label α β γ} (h : step guard kill regs order s (.world l) = some s') :
    DetachTwo.step guard kill regs s.base l = some s'.base ∧ s'.pc = s.pc ∧ (∀ side, l ≠ .subscribe side) ∧
    ∀ side, l = .dispose side → s.pc = .returned := by
  cases l with
  | subscribe side => cases h
  | dispose side =>
    simp only [step] at h
    split at h
    · next hp =>
      simp only [Option.map_eq_some_iff] at h
      obtain ⟨b, hb, rfl⟩ := h
      exact ⟨hb, rfl, fun _ => by simp, fun _ _ => hp⟩
    · cases h
  | left | right | post | receive | ret | raise | agentStart | agentReceive | agentRet =>
    simp only [step, Option.map_eq_some_iff] at h
    obtain ⟨b, hb, rfl⟩ := h
    exact ⟨hb, rfl, fun _ => by simp, fun _ h => by simp at h⟩

theorem step_subscribe {s s' : State α β γ} (h : step guard kill regs order s .subscribe = some s') :
    (s.pc = .first ∧ s'.pc = .second ∧ DetachTwo.step guard kill regs s.base (.subscribe order.1) = some s'.base) ∨
    (s.pc = .second ∧ s'.pc = .returned ∧ DetachTwo.step guard kill regs s.base (.subscribe order.2) = some s'.base) := by
  simp only [step] at h
  split at h
  · next hp => simp only [Option.map_eq_some_iff] at h; obtain ⟨b, hb, rfl⟩ := h; exact .inl ⟨hp, rfl, hb⟩
  · next hp => simp only [Option.map_eq_some_iff] at h; obtain ⟨b, hb, rfl⟩ := h; exact .inr ⟨hp, rfl, hb⟩
  · cases h

theorem step_raise {s s' : State α β γ} (h : step guard kill regs order s .raise = some s') :
    s'.base = s.base ∧ ((s.pc = .first ∧ s'.pc = .raised order.1 ∧ refuses s.base order.1 = true) ∨
      (s.pc = .second ∧ s'.pc = .raised order.2 ∧ refuses s.base order.2 = true)) := by
  simp only [step] at h
  split at h
  · next hp =>
    split at h
    · next hr => cases h; exact ⟨rfl, .inl ⟨hp, rfl, hr⟩⟩
    · cases h
  · next hp =>
    split at h
    · next hr => cases h; exact ⟨rfl, .inr ⟨hp, rfl, hr⟩⟩
    · cases h
  · cases h

/-- Histories: what is known of the run of `DetachTwo` and of the order of events. -/
structure Inv (guard kill : Bool) (regs : Registers) (order : Order) (bs : List (DetachTwo.Label α β γ)) (s : State α β γ) : Prop where
  run : LTS.run (DetachTwo.step guard kill regs) DetachTwo.init bs = some s.base
  dispose : ∀ side, .dispose side ∈ bs → s.pc = .returned
  subs : ∀ side, .subscribe side ∈ bs ↔
    (side = order.1 ∧ (s.pc = .second ∨ s.pc = .returned ∨ s.pc = .raised order.2)) ∨ (side = order.2 ∧ s.pc = .returned)

theorem inv_run (ho : order.1 ≠ order.2) {ls : List (Label α β γ)} {s : State α β γ} (hr : LTS.run (step guard kill regs order) init ls = some s) :
    ∃ bs, Inv guard kill regs order bs s := by
  refine LTS.inv (step := step guard kill regs order) (fun s => ∃ bs, Inv guard kill regs order bs s) ⟨[], rfl, by simp, by simp [init]⟩ ?_ hr
  rintro s l s' ⟨bs, h1, h2, h3⟩ h
  have snoc : ∀ {l : DetachTwo.Label α β γ} {b}, DetachTwo.step guard kill regs s.base l = some b →
      LTS.run (DetachTwo.step guard kill regs) DetachTwo.init (bs ++ [l]) = some b :=
    fun h => LTS.run_append.mpr ⟨_, h1, LTS.run_cons.mpr ⟨_, h, rfl⟩⟩
  cases l with
  | world l =>
    obtain ⟨g1, g2, g3, g4⟩ := step_world h
    refine ⟨bs ++ [l], snoc g1, fun side hm => ?_, fun side => ?_⟩
    · rw [g2]
      rcases List.mem_append.mp hm with hm | hm
      · exact h2 side hm
      · exact g4 side (List.mem_singleton.mp hm).symm
    · rw [g2, ← h3 side, List.mem_append, List.mem_singleton]
      exact ⟨fun h => h.resolve_right fun h => g3 side h.symm, .inl⟩
  | subscribe =>
    rcases step_subscribe h with ⟨g1, g2, g3⟩ | ⟨g1, g2, g3⟩
    · refine ⟨bs ++ [.subscribe order.1], snoc g3, fun side hm => ?_, fun side => ?_⟩
      · have := h2 side (by simpa using hm); rw [g1] at this; cases this
      · rw [List.mem_append, h3 side, g1, g2]; simp
    · refine ⟨bs ++ [.subscribe order.2], snoc g3, fun side hm => ?_, fun side => ?_⟩
      · have := h2 side (by simpa using hm); rw [g1] at this; cases this
      · rw [List.mem_append, h3 side, g1, g2]; simp
  | raise =>
    obtain ⟨g0, ⟨g1, g2, -⟩ | ⟨g1, g2, -⟩⟩ := step_raise h
    · refine ⟨bs, by rw [g0]; exact h1, fun side hm => ?_, fun side => ?_⟩
      · have := h2 side hm; rw [g1] at this; cases this
      · rw [h3 side, g1, g2]; simp [ho]
    · refine ⟨bs, by rw [g0]; exact h1, fun side hm => ?_, fun side => ?_⟩
      · have := h2 side hm; rw [g1] at this; cases this
      · rw [h3 side, g1, g2]; simp

/-! ## C104 is false -/

private theorem lift {cs : List (DetachTwo.Label α β γ)} (hc : ∀ l ∈ cs, (∀ side, l ≠ .subscribe side) ∧ ∀ side, l ≠ .dispose side) :
    ∀ {s : State α β γ} {b}, LTS.run (DetachTwo.step guard kill regs) s.base cs = some b →
      LTS.run (step guard kill regs order) s (cs.map .world) = some { s with base := b } := by
  induction cs with
  | nil => intro s b h; cases h; rfl
  | cons l cs ih =>
    intro s b h
    obtain ⟨t, h1, h2⟩ := LTS.run_cons.mp h
    refine LTS.run_cons.mpr ⟨{ s with base := t }, ?_, ih (fun l hl => hc l (by simp [hl])) h2⟩
    have h3 := hc l (by simp)
    cases l with
    | subscribe side => exact absurd rfl (h3.1 side)
    | dispose side => exact absurd rfl (h3.2 side)
    | left | right | post | receive | ret | raise | agentStart | agentReceive | agentRet => simp only [step, h1, Option.map_some]

theorem heldSource_of {s : State α β γ} (hl : Live s.base.left) (h : 0 ∈ s.base.left.observers) : HeldSource guard kill regs order s := by
  intro n
  obtain ⟨cs, t, hcs, hr, ht⟩ := Detach.calls_reach (guard := guard) n hl.1 hl.2 h
  obtain ⟨s', h1, h2⟩ := DetachTwo.lift_left (kill := kill) (regs := regs) (s := s.base) (DetachTwo.call_rets hcs) hr
  refine ⟨cs.map fun l => .world (.left l), { s with base := s' }, ?_, by dsimp only; rw [h2]; exact ht⟩
  have := lift (order := order) (s := s) (by simp) h1
  simpa [List.map_map, Function.comp_def] using this

theorem heldOther_of {s : State α β γ} (hl : Live s.base.right) (h : 0 ∈ s.base.right.observers) : HeldOther guard kill regs order s := by
  intro n
  obtain ⟨cs, t, hcs, hr, ht⟩ := Detach.calls_reach (guard := guard) n hl.1 hl.2 h
  obtain ⟨s', h1, h2⟩ := DetachTwo.lift_right (kill := kill) (regs := regs) (s := s.base) (DetachTwo.call_rets hcs) hr
  refine ⟨cs.map fun l => .world (.right l), { s with base := s' }, ?_, by dsimp only; rw [h2]; exact ht⟩
  have := lift (order := order) (s := s) (by simp) h1
  simpa [List.map_map, Function.comp_def] using this

private theorem nothing_disposed {bs : List (DetachTwo.Label α β γ)} {s : DetachTwo.State α β γ}
    (hr : LTS.run (DetachTwo.step guard kill regs) DetachTwo.init bs = some s) (hno : .disposeStart ∉ s.safe.log) : s.agent.disposed = [] := by
  have hi := DetachTwo.inv_run hr
  obtain ⟨als, h1, -, h3⟩ := hi.agent
  cases kill with
  | true => exact AutoDetach.C06_killed_agent_disposes_nothing als _ h1
  | false => exact (AutoDetach.reach_before h1 fun h => hno (hi.canc.mp (h3.mp h))).2.1

/-- C104 is false for `combine_latest` and `with_latest_from`: when the subscription to `other` has raised, the source still holds
the operator's observer and goes on calling it, and nobody has a disposable to stop it; so it is at least until the stream
itself has ended. -/
theorem C104_combine_violated {ls : List (Label α β γ)} {s : State α β γ}
    (hr : LTS.run (step guard kill bothRegister combineOrder) init ls = some s) (hp : s.pc = .raised .other) (hl : Live s.base.left)
    (hno : .disposeStart ∉ s.base.safe.log) : HeldSource guard kill bothRegister combineOrder s := by
  obtain ⟨bs, h1, h2, h3⟩ := inv_run (by decide) hr
  have hi := DetachTwo.inv_run h1
  have hs : .subscribe .source ∈ bs := (h3 .source).mpr (.inl ⟨rfl, .inr (.inr hp)⟩)
  refine heldSource_of hl (DetachTwo.mem_of_half hi.left (hi.told1.mpr hs) (fun hd => ?_) ?_)
  · have := h2 _ hd; rw [hp] at this; cases this
  · simp [nothing_disposed h1 hno]

/-- C104 is false for `take_until`: when the subscription to the source has raised, `other` holds the operator's observer for
ever, also when the stream has ended. -/
theorem C104_take_until_violated {ls : List (Label α β γ)} {s : State α β γ}
    (hr : LTS.run (step guard kill takeUntilRegisters takeUntilOrder) init ls = some s) (hp : s.pc = .raised .source) (hl : Live s.base.right) :
    HeldOther guard kill takeUntilRegisters takeUntilOrder s := by
  obtain ⟨bs, h1, h2, h3⟩ := inv_run (by decide) hr
  have hi := DetachTwo.inv_run h1
  have hs : .subscribe .other ∈ bs := (h3 .other).mpr (.inl ⟨rfl, .inr (.inr hp)⟩)
  refine heldOther_of hl (DetachTwo.mem_of_half hi.right (hi.told2.mpr hs) (fun hd => ?_) fun hm => ?_)
  · have := h2 _ hd; rw [hp] at this; cases this
  · obtain ⟨r, r1, r2⟩ := hi.regs
    have := r1 1 (r2.2.1 1 hm)
    simp [DetachTwo.Registered, takeUntilRegisters] at this

/-- Once it has raised it stays so: no later event gives the user a disposable. -/
theorem C104_no_disposable {s s' : State α β γ} {ls : List (Label α β γ)} {side : Side} (hp : s.pc = .raised side)
    (hr : LTS.run (step guard kill regs order) s ls = some s') : s'.pc = .raised side ∧ ∀ side', .world (.dispose side') ∉ ls := by
  refine LTS.inv_hist (step := step guard kill regs order) (fun ls s' => s'.pc = .raised side ∧ ∀ side', .world (.dispose side') ∉ ls) (s0 := s)
    ⟨hp, by simp⟩ ?_ hr
  rintro ls s l s' ⟨ih1, ih2⟩ h
  cases l with
  | world l =>
    obtain ⟨-, g2, -, g4⟩ := step_world h
    refine ⟨g2.trans ih1, fun side' hm => ?_⟩
    rcases List.mem_append.mp hm with hm | hm
    · exact ih2 side' hm
    · have hl : l = .dispose side' := by simpa using (List.mem_singleton.mp hm).symm
      have := g4 side' hl
      rw [ih1] at this; cases this
  | subscribe => rcases step_subscribe h with ⟨g1, -⟩ | ⟨g1, -⟩ <;> (rw [ih1] at g1; cases g1)
  | raise => obtain ⟨-, ⟨g1, -⟩ | ⟨g1, -⟩⟩ := step_raise h <;> (rw [ih1] at g1; cases g1)

/-! ## what holds -/

private theorem off_drop {N : Nat} {s : DetachTwo.State α β γ} {d : Nat} :
    Off N s.left ∧ Off N s.right → Off N (s.drop guard d).left ∧ Off N (s.drop guard d).right :=
  fun h => ⟨DetachTwo.off_drop.1 h.1, DetachTwo.off_drop.2 h.2⟩

private theorem off_step {N : Nat} {s s' : DetachTwo.State α β γ} {l : DetachTwo.Label α β γ} (hl : ∀ side, l ≠ .subscribe side)
    (h : DetachTwo.step guard kill regs s l = some s') (hi : Off N s.left ∧ Off N s.right) : Off N s'.left ∧ Off N s'.right := by
  have hag : ∀ {t : AutoDetach.State} {al}, AutoDetach.step kill s.agent al = some t →
      Off N (s.detached guard t).left ∧ Off N (s.detached guard t).right := by
    intro t al h
    rcases AutoDetach.step_disposed h with hd | ⟨d, hd⟩
    · rw [DetachTwo.detached_same hd]; exact hi
    · rw [DetachTwo.detached_one hd]; exact off_drop (s := { s with agent := t }) hi
  cases l with
  | subscribe side => exact absurd rfl (hl side)
  | left l =>
    simp only [DetachTwo.step] at h
    split at h
    · next ho => simp only [Option.map_eq_some_iff] at h; obtain ⟨t, h1, rfl⟩ := h; exact ⟨Detach.off_others hi.1 ho h1, hi.2⟩
    · cases h
  | right l =>
    simp only [DetachTwo.step] at h
    split at h
    · next ho => simp only [Option.map_eq_some_iff] at h; obtain ⟨t, h1, rfl⟩ := h; exact ⟨hi.1, Detach.off_others hi.2 ho h1⟩
    · cases h
  | dispose side =>
    simp only [DetachTwo.step] at h
    split at h
    · simp only [Option.some.injEq] at h; subst h; exact off_drop hi
    · cases h
  | post n => simp only [DetachTwo.step, Option.map_eq_some_iff] at h; obtain ⟨t, -, rfl⟩ := h; exact hi
  | receive => simp only [DetachTwo.step, Option.map_eq_some_iff] at h; obtain ⟨t, -, rfl⟩ := h; exact hi
  | ret => simp only [DetachTwo.step, Option.map_eq_some_iff] at h; obtain ⟨t, -, rfl⟩ := h; exact hi
  | raise e => simp only [DetachTwo.step, Option.map_eq_some_iff] at h; obtain ⟨t, -, rfl⟩ := h; exact hi
  | agentStart => simp only [DetachTwo.step, Option.map_eq_some_iff] at h; obtain ⟨t, h1, rfl⟩ := h; exact hag h1
  | agentReceive => simp only [DetachTwo.step, Option.map_eq_some_iff] at h; obtain ⟨t, h1, rfl⟩ := h; exact hag h1
  | agentRet => simp only [DetachTwo.step, Option.map_eq_some_iff] at h; obtain ⟨t, h1, rfl⟩ := h; exact hag h1

/-- C104, the part that holds: if already the first of the two subscriptions raises, neither source ever calls the operator's
observer. Missing: the second subscription raises (refuted above). -/
theorem C104_partial (ho : order.1 ≠ order.2) {ls : List (Label α β γ)} {s : State α β γ}
    (hr : LTS.run (step guard kill regs order) init ls = some s) (hp : s.pc = .raised order.1) : Untouched guard kill regs order s := by
  intro ls' s' hr'
  have hi : (s'.pc = .first ∨ s'.pc = .raised order.1 → Off 0 s'.base.left ∧ Off 0 s'.base.right) := by
    refine LTS.inv (step := step guard kill regs order) (fun s' : State α β γ => s'.pc = .first ∨ s'.pc = .raised order.1 → Off 0 s'.base.left ∧ Off 0 s'.base.right)
      (s0 := init) ?_ ?_ (LTS.run_append.mpr ⟨s, hr, hr'⟩)
    · intro _
      have : ∀ δ : Type, Off 0 (Subject.init : Subject.State δ) := fun δ => by
        constructor <;> simp [Subject.init]
      exact ⟨this _, this _⟩
    · intro s l s' ih h hp
      cases l with
      | world l =>
        obtain ⟨g1, g2, g3, -⟩ := step_world h
        exact off_step g3 g1 (ih (g2 ▸ hp))
      | subscribe => rcases step_subscribe h with ⟨-, g2, -⟩ | ⟨-, g2, -⟩ <;> (rw [g2] at hp; rcases hp with hp | hp <;> cases hp)
      | raise =>
        obtain ⟨g0, ⟨g1, -⟩ | ⟨-, g2, -⟩⟩ := step_raise h
        · rw [g0]; exact ih (.inl g1)
        · rw [g2] at hp
          rcases hp with hp | hp
          · cases hp
          · injection hp with hp; exact absurd hp.symm ho
  have hoff := hi (.inr (C104_no_disposable hp hr').1)
  exact ⟨fun x hx h0 => absurd (hoff.1.log x hx h0) (Nat.not_lt_zero _), fun x hx h0 => absurd (hoff.2.log x hx h0) (Nat.not_lt_zero _)⟩

/-! ## examples -/

/-- `combine_latest` with an `other` that was disposed: the source calls the observer when `subscribe_async` has raised. -/
example : (LTS.run (step true false bothRegister combineOrder) (init : State Nat Nat Nat)
    [.world (.right .dispose), .subscribe, .raise, .world (.left (.call (.next 1)))]).map
      (fun s => (s.pc, s.base.left.log)) = some (.raised .other, [(0, 0, .next 1)]) := by decide
example : (LTS.run (step true false takeUntilRegisters takeUntilOrder) (init : State Nat Nat Nat)
    [.world (.left .dispose), .subscribe, .raise, .world (.right (.call (.next 1)))]).map (fun s => (s.pc, s.base.right.log)) =
      some (.raised .source, [(0, 0, .next 1)]) := by decide
example : (LTS.run (step true false bothRegister combineOrder) (init : State Nat Nat Nat)
    [.world (.left .dispose), .raise, .world (.right (.call (.next 1)))]).map (fun s => s.pc) = some (.raised .source) := by decide

end Aio.Subscribing
