import Verif.Model.Safe
import Verif.Lemmas.Stream
import Verif.Lemmas.Proc
/-! Invariant of the `safe_observer` worker. -/
namespace Aio.Safe
open Aio.Spec
variable {α : Type}

def blocks (vs : List α) : List (Event α) :=
  vs.flatMap fun v => [.start (.next v), .finish (.next v)]

@[simp] theorem blocks_nil : blocks ([] : List α) = [] := rfl
theorem blocks_snoc (vs : List α) (v : α) :
    blocks (vs ++ [v]) = blocks vs ++ [.start (.next v), .finish (.next v)] := by
  simp [blocks]

theorem calls_append (a b : List (Event α)) : calls (a ++ b) = calls a ++ calls b := by
  induction a with
  | nil => rfl
  | cons e a ih => cases e <;> simp [calls, ih]

@[simp] theorem calls_blocks (vs : List α) : calls (blocks vs) = vs.map .next := by
  induction vs with
  | nil => rfl
  | cons v vs ih => simpa [blocks, calls] using ih

theorem posted_append (a b : List (Label α)) : posted (a ++ b) = posted a ++ posted b := by
  induction a with
  | nil => rfl
  | cons e a ih => cases e <;> simp [posted, ih]

inductive Shape : PC α → List (Notif α) → List (Event α) → Prop
  | waiting : Shape .waiting [] []
  | sending (v) : Shape (.sending v) [.next v] [.start (.next v)]
  | rethrowing (v e) : e ≠ .cancelled →
      Shape (.rethrowing e) [.next v] [.start (.next v), .raised (.next v) e, .start (.error e)]
  | disposing (n) : n.isTerminal → Shape (.disposing n) [n] [.disposeStart]
  | terminating (n) : n.isTerminal →
      Shape (.terminating n) [n] [.disposeStart, .disposeDone, .start n]
  | cancelled (v) : Shape .halted [.next v] [.start (.next v), .raised (.next v) .cancelled]
  | rethrown (v e) : e ≠ .cancelled →
      Shape .halted [.next v]
        [.start (.next v), .raised (.next v) e, .start (.error e), .finish (.error e)]
  | rethrownRaised (v e e') : e ≠ .cancelled →
      Shape .halted [.next v]
        [.start (.next v), .raised (.next v) e, .start (.error e), .raised (.error e) e']
  | disposeRaised (n e) : n.isTerminal → Shape .halted [n] [.disposeStart, .disposeRaised e]
  | terminated (n) : n.isTerminal →
      Shape .halted [n] [.disposeStart, .disposeDone, .start n, .finish n]
  | terminatedRaised (n e) : n.isTerminal →
      Shape .halted [n] [.disposeStart, .disposeDone, .start n, .raised n e]

def Inv (p : List (Notif α)) (s : State α) : Prop :=
  ∃ vs c t, p = vs.map .next ++ c ++ s.inbox ∧ s.log = blocks vs ++ t ∧ Shape s.pc c t

theorem inv_init : Inv [] (init : State α) := ⟨[], [], [], rfl, rfl, .waiting⟩

theorem inv_step {p : List (Notif α)} {s s' : State α} {l : Label α}
    (h : Inv p s) (hs : step s l = some s') : Inv (p ++ posted [l]) s' := by
  obtain ⟨vs, c, t, rfl, hl, hsh⟩ := h
  obtain ⟨inbox, pc, log⟩ := s
  subst hl
  cases l with
  | post n =>
    simp only [step, Option.some.injEq] at hs
    subst hs
    exact ⟨vs, c, t, by simp [posted], rfl, hsh⟩
  | receive =>
    cases hsh <;> simp only [step] at hs <;> try (simp at hs; done)
    match inbox, hs with
    | .next v :: q, hs =>
      simp only [Option.some.injEq] at hs; subst hs
      exact ⟨vs, [.next v], _, by simp [posted], by simp, .sending v⟩
    | .error e :: q, hs =>
      simp only [Option.some.injEq] at hs; subst hs
      exact ⟨vs, [.error e], _, by simp [posted], by simp, .disposing _ rfl⟩
    | .completed :: q, hs =>
      simp only [Option.some.injEq] at hs; subst hs
      exact ⟨vs, [.completed], _, by simp [posted], by simp, .disposing _ rfl⟩
  | ret =>
    cases hsh <;> simp only [step, Option.some.injEq, reduceCtorEq] at hs <;> subst hs
    case sending v =>
      exact ⟨vs ++ [v], [], [], by simp [posted], by simp [blocks_snoc], .waiting⟩
    case rethrowing v e he =>
      exact ⟨vs, [.next v], _, by simp [posted], by simp, .rethrown v e he⟩
    case disposing n hn =>
      exact ⟨vs, [n], _, by simp [posted], by simp, .terminating n hn⟩
    case terminating n hn =>
      exact ⟨vs, [n], _, by simp [posted], by simp, .terminated n hn⟩
  | raise e =>
    cases hsh <;> simp only [step, Option.some.injEq, reduceCtorEq] at hs
    case sending v =>
      split at hs <;> simp only [Option.some.injEq] at hs <;> subst hs
      · rename_i he; subst he
        exact ⟨vs, [.next v], _, by simp [posted], by simp, .cancelled v⟩
      · rename_i he
        exact ⟨vs, [.next v], _, by simp [posted], by simp, .rethrowing v e he⟩
    case rethrowing v e' he =>
      subst hs
      exact ⟨vs, [.next v], _, by simp [posted], by simp, .rethrownRaised v e' e he⟩
    case disposing n hn =>
      subst hs
      exact ⟨vs, [n], _, by simp [posted], by simp, .disposeRaised n e hn⟩
    case terminating n hn =>
      subst hs
      exact ⟨vs, [n], _, by simp [posted], by simp, .terminatedRaised n e hn⟩

theorem inv_run_from {ls : List (Label α)} : ∀ {p : List (Notif α)} {s s' : State α},
    Inv p s → run s ls = some s' → Inv (p ++ posted ls) s' := by
  induction ls with
  | nil => intro p s s' h hr; simp only [run, Option.some.injEq] at hr; subst hr; simpa [posted] using h
  | cons l ls ih =>
    intro p s s' h hr
    simp only [run, Option.bind_eq_some_iff] at hr
    obtain ⟨s1, h1, h2⟩ := hr
    have := ih (inv_step h h1) h2
    rwa [List.append_assoc, ← posted_append] at this

theorem inv_run {ls : List (Label α)} {s : State α} (hr : run init ls = some s) :
    Inv (posted ls) s := by
  simpa using inv_run_from inv_init hr

/-- No event of a raise without a raising label. -/
def Quiet (s : State α) : Prop :=
  (∀ n e, Event.raised n e ∉ s.log) ∧ (∀ e, Event.disposeRaised e ∉ s.log)

theorem quiet_step {s s' : State α} {l : Label α} (hl : ∀ e, l ≠ .raise e)
    (h : Quiet s) (hs : step s l = some s') : Quiet s' := by
  obtain ⟨h1, h2⟩ := h
  cases l with
  | raise e => exact absurd rfl (hl e)
  | post n => simp only [step, Option.some.injEq] at hs; subst hs; exact ⟨h1, h2⟩
  | receive =>
    simp only [step] at hs
    split at hs <;> simp only [Option.some.injEq, reduceCtorEq] at hs
    all_goals subst hs; constructor <;> simp_all
  | ret =>
    simp only [step] at hs
    split at hs <;> simp only [Option.some.injEq, reduceCtorEq] at hs
    all_goals subst hs; constructor <;> simp_all

theorem quiet_run {ls : List (Label α)} : ∀ {s s' : State α}, NoRaise ls → Quiet s →
    run s ls = some s' → Quiet s' := by
  induction ls with
  | nil => intro s s' _ h hr; simp only [run, Option.some.injEq] at hr; exact hr ▸ h
  | cons l ls ih =>
    intro s s' hn h hr
    simp only [run, Option.bind_eq_some_iff] at hr
    obtain ⟨s1, h1, h2⟩ := hr
    exact ih (fun e he => hn e (List.mem_cons_of_mem _ he))
      (quiet_step (fun e he => hn e (he ▸ List.mem_cons_self)) h h1) h2

end Aio.Safe
