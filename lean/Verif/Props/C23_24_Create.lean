import Verif.Model.Create
import Verif.Lemmas.Safe
import Verif.Props.C01_05_Safe
/-!
# C23, C24: from_async_iterable and defer
-/

namespace Aio.OfAsyncIterable
open Spec
open Safe (calls blocks calls_append calls_blocks blocks_snoc)
variable {α : Type}

/-! ## C23 -/

/-- What the log looks like in terms of the values yielded so far. -/
inductive Shape : PC α → List α → List (Safe.Event α) → Prop
  | fresh : Shape .fresh [] []
  | pulling (vs) : Shape .pulling vs (blocks vs)
  | sending (vs v) : Shape (.sending v) (vs ++ [v]) (blocks vs ++ [.start (.next v)])
  | rethrowing (vs v e) : e ≠ .cancelled → Shape (.rethrowing e) (vs ++ [v])
      (blocks vs ++ [.start (.next v), .raised (.next v) e, .start (.error e)])
  | closing (vs) : Shape .closing vs (blocks vs ++ [.start .completed])
  | deadPulling (vs) : Shape .dead vs (blocks vs)
  | deadSending (vs v) : Shape .dead (vs ++ [v])
      (blocks vs ++ [.start (.next v), .raised (.next v) .cancelled])
  | deadRethrown (vs v e x) : e ≠ .cancelled → (x = .finish (.error e) ∨ ∃ e', x = .raised (.error e) e') →
      Shape .dead (vs ++ [v])
      (blocks vs ++ [.start (.next v), .raised (.next v) e, .start (.error e), x])
  | deadClosed (vs x) : (x = .finish .completed ∨ ∃ e', x = .raised .completed e') →
      Shape .dead vs (blocks vs ++ [.start .completed, x])

theorem items_append (a b : List (Label α)) : items (a ++ b) = items a ++ items b := by
  induction a with
  | nil => rfl
  | cons l a ih => cases l <;> simp [items, ih]

theorem shape_run {ls : List (Label α)} {s : State α} (hr : LTS.run step init ls = some s) :
    Shape s.pc (items ls) s.log := by
  refine LTS.inv_hist (fun ls s => Shape s.pc (items ls) s.log) .fresh ?_ hr
  rintro ls ⟨pc, c, log⟩ l s' hi hs
  simp only at hi
  rw [items_append]
  generalize items ls = vs at hi
  cases l
  case dispose => simp [step] at hs; subst hs; simpa [items] using hi
  all_goals
    cases hi <;> simp only [step] at hs <;> try (simp at hs; done)
  case start =>
    split at hs <;> (simp at hs; subst hs)
    · exact .deadPulling []
    · exact .pulling []
  case item.pulling v => simp at hs; subst hs; exact .sending vs v
  case stop.pulling => simp at hs; subst hs; simpa [items] using Shape.closing vs
  case fails.pulling => simp at hs; subst hs; simpa [items] using Shape.deadPulling vs
  case ret.sending vs v =>
    simp at hs; subst hs
    have := Shape.pulling (vs ++ [v])
    rw [blocks_snoc] at this
    simpa [items] using this
  case ret.rethrowing vs v e he =>
    simp at hs; subst hs
    simpa [items] using Shape.deadRethrown vs v e _ he (.inl rfl)
  case ret.closing => simp at hs; subst hs; simpa [items] using Shape.deadClosed vs _ (.inl rfl)
  case raise.sending vs v =>
    split at hs <;> (simp at hs; subst hs)
    · rename_i h; subst h; simpa [items] using Shape.deadSending vs v
    · rename_i e h; simpa [items] using Shape.rethrowing vs v e h
  case raise.rethrowing vs v e he =>
    simp at hs; subst hs
    simpa [items] using Shape.deadRethrown vs v e _ he (.inr ⟨_, rfl⟩)
  case raise.closing => simp at hs; subst hs; simpa [items] using Shape.deadClosed vs _ (.inr ⟨_, rfl⟩)
  case cancelled.pulling =>
    split at hs
    · simp at hs; subst hs; simpa [items] using Shape.deadPulling vs
    · simp at hs
  case cancelled.sending vs v =>
    split at hs
    · simp at hs; subst hs; simpa [items] using Shape.deadSending vs v
    · simp at hs
  case cancelled.rethrowing vs v e he =>
    split at hs
    · simp at hs; subst hs; simpa [items] using Shape.deadRethrown vs v e _ he (.inr ⟨_, rfl⟩)
    · simp at hs
  case cancelled.closing =>
    split at hs
    · simp at hs; subst hs; simpa [items] using Shape.deadClosed vs _ (.inr ⟨_, rfl⟩)
    · simp at hs
  all_goals (split at hs <;> simp at hs)

/-- C23 is false for an iterable that raises: the observer is never told. -/
theorem C23_violated_raising : ∃ (ls : _) (s : State Nat), LTS.run step init ls = some s ∧
    .fails (.user 3) ∈ ls ∧ s.pc = .dead ∧ calls s.log = [.next 1] :=
  ⟨[.start, .item 1, .ret, .fails (.user 3)], _, rfl, by decide, rfl, by decide⟩

/-- C23, the part that holds. Missing: delivery of the iterable's own exception
(`C23_violated_raising`). At any time, whatever the observer does and whenever the subscription is
disposed, the observer has received an initial part of: the values the iterable yielded, in order,
then either completion or the exception that the observer raised on the last of them. -/
theorem C23_in_order_partial {ls : List (Label α)} {s : State α} (hr : LTS.run step init ls = some s) :
    calls s.log = (items ls).map .next ∨
    calls s.log = (items ls).map .next ++ [.completed] ∨
    ∃ e v, .raised (.next v) e ∈ s.log ∧ calls s.log = (items ls).map .next ++ [.error e] := by
  have h := shape_run hr
  obtain ⟨pc, c, log⟩ := s
  simp only at h ⊢
  generalize items ls = vs at h
  cases h
  case fresh => left; rfl
  case pulling => left; simp
  case deadPulling => left; simp
  case sending vs v => left; simp [calls_append, calls]
  case deadSending vs v => left; simp [calls_append, calls]
  case rethrowing vs v e he =>
    right; right; exact ⟨e, v, by simp, by simp [calls_append, calls]⟩
  case deadRethrown vs v e x he hx =>
    right; right
    refine ⟨e, v, by simp, ?_⟩
    rcases hx with rfl | ⟨e', rfl⟩ <;> simp [calls_append, calls]
  case closing => right; left; simp [calls_append, calls]
  case deadClosed x hx =>
    right; left
    rcases hx with rfl | ⟨e', rfl⟩ <;> simp [calls_append, calls]

/-- C23. If the iterable was exhausted, everything it yielded and completion were delivered. -/
theorem C23_completes {ls : List (Label α)} {s : State α} (hr : LTS.run step init (ls ++ [.stop]) = some s) :
    calls s.log = (items ls).map .next ++ [.completed] := by
  obtain ⟨s1, h1, h2⟩ := LTS.run_append.mp hr
  have h := shape_run h1
  obtain ⟨pc, c, log⟩ := s1
  obtain ⟨s2, h3, h4⟩ := LTS.run_cons.mp h2
  simp [LTS.run] at h4; subst h4
  simp only at h
  generalize items ls = vs at h
  cases h <;> simp only [step] at h3 <;> try (simp at h3; done)
  simp at h3; subst h3
  simp [calls_append, calls]

/-- C23. If the observer raises `e` from `asend`, its next and last call is `athrow(e)`: nothing is
called after it. -/
theorem C23_observer_raises {ls : List (Label α)} {s : State α} (hr : LTS.run step init ls = some s)
    (v : α) (e : Err) (he : e ≠ .cancelled) (h : .raised (.next v) e ∈ s.log) :
    ∃ pre, calls s.log = pre ++ [.next v, .error e] := by
  have hs := shape_run hr
  obtain ⟨pc, c, log⟩ := s
  simp only at h hs ⊢
  generalize items ls = vs at hs
  have hb : ∀ vs : List α, Safe.Event.raised (.next v) e ∉ blocks vs := by
    intro vs; simp [blocks]
  cases hs
  case rethrowing vs v' e' _ =>
    simp [hb] at h; obtain ⟨rfl, rfl⟩ := h
    exact ⟨vs.map .next, by simp [calls_append, calls]⟩
  case deadRethrown vs v' e' x _ hx =>
    rcases hx with rfl | ⟨e'', rfl⟩ <;>
    · simp [hb] at h; obtain ⟨rfl, rfl⟩ := h
      exact ⟨vs.map .next, by simp [calls_append, calls]⟩
  case deadSending vs v' => simp [hb] at h; exact absurd h.2 he
  case deadClosed x hx => rcases hx with rfl | ⟨e'', rfl⟩ <;> simp [hb] at h
  all_goals simp [hb] at h

/-- C23. Once the cancellation of the task has taken effect nothing is delivered any more. -/
theorem C23_nothing_after_dead {ls : List (Label α)} {s s' : State α} (hd : s.pc = .dead)
    (hr : LTS.run step s ls = some s') : s'.log = s.log := by
  have := LTS.inv (step := step) (fun t : State α => t.pc = .dead ∧ t.log = s.log) ⟨hd, rfl⟩ ?_ hr
  · exact this.2
  · rintro ⟨pc, c, log⟩ l s' ⟨h1, h2⟩ hs
    simp only at h1; subst h1
    cases l <;> simp [step] at hs <;> subst hs
    exact ⟨rfl, h2⟩

/-- C23. Disposed before the task has begun: nothing is delivered, whatever happens. -/
theorem C23_dispose_early {ls : List (Label α)} {s : State α} (hr : LTS.run step init (.dispose :: ls) = some s) : s.log = [] := by
  obtain ⟨s1, h1, h2⟩ := LTS.run_cons.mp hr
  simp only [step, Option.some.injEq] at h1
  subst h1
  refine (LTS.inv (fun t : State α => t.log = [] ∧ ((t.pc = .fresh ∧ t.cancelling = true) ∨ t.pc = .dead)) ⟨rfl, .inl ⟨rfl, rfl⟩⟩ ?_ h2).1
  rintro ⟨pc, c, log⟩ l s' ⟨h1, h2⟩ hs
  simp only at h1 h2
  subst h1
  rcases h2 with ⟨rfl, rfl⟩ | rfl
  · cases l <;> simp [step] at hs <;> subst hs <;> simp
  · cases l <;> simp [step] at hs <;> subst hs <;> simp

/-- C23. Disposed later: asyncio can throw the cancellation at whatever the task is waiting for, and if nobody catches
it there the task is over: no further call is ever made. -/
theorem C23_dispose_stops {s s1 : State α} (h1 : step s .dispose = some s1) (hf : s.pc ≠ .fresh) (hd : s.pc ≠ .dead) :
    ∃ s2, step s1 .cancelled = some s2 ∧ calls s2.log = calls s.log ∧
      ∀ ls s3, LTS.run step s2 ls = some s3 → calls s3.log = calls s.log := by
  obtain ⟨pc, c, log⟩ := s
  simp only [step, Option.some.injEq] at h1
  subst h1
  have fin : ∀ s2 : State α, s2.pc = .dead → calls s2.log = calls log → ∀ ls s3, LTS.run step s2 ls = some s3 → calls s3.log = calls log := by
    intro s2 hd hl ls s3 hr
    rw [C23_nothing_after_dead hd hr, hl]
  cases pc with
  | fresh => exact absurd rfl hf
  | dead => exact absurd rfl hd
  | pulling => exact ⟨_, rfl, rfl, fin _ rfl rfl⟩
  | sending v => exact ⟨_, rfl, by simp [calls_append, calls], fin _ rfl (by simp [calls_append, calls])⟩
  | rethrowing v => exact ⟨_, rfl, by simp [calls_append, calls], fin _ rfl (by simp [calls_append, calls])⟩
  | closing => exact ⟨_, rfl, by simp [calls_append, calls], fin _ rfl (by simp [calls_append, calls])⟩

example : ∃ s, LTS.run step init [.start, .item 1, .ret, .item 2, .dispose, .cancelled] = some s ∧
    calls s.log = [.next 1, .next 2] ∧ s.pc = .dead := ⟨_, rfl, by decide, rfl⟩

example : ∃ s, LTS.run step init [.start, .item 1, .ret, .item 2, .raise (.user 4), .ret] = some s ∧
    calls s.log = [.next 1, .next 2, .error (.user 4)] := ⟨_, rfl, by decide⟩

end Aio.OfAsyncIterable

namespace Aio.Defer

/-! ## C24 -/

/-- What is recorded: the factory is called for the k-th time; observer `κ` is subscribed to `ω`. -/
inductive Event (ω κ : Type) where
  | called (k : Nat)
  | subscribed (o : ω) (aobv : κ)
  deriving DecidableEq, Repr

variable {ω κ : Type}

/-- A factory whose k-th call returns or raises `f k`. The state counts the calls. -/
def factory (f : Nat → Except Err ω) : Py Nat (Event ω κ) ω := fun k => ⟨f k, k + 1, [.called k]⟩

/-- The subscriptions of several observers, one after the other. -/
def subscribeAll (f : Nat → Except Err ω) (fail : Err → ω) (aobvs : List κ) :
    Py Nat (Event ω κ) Unit :=
  Py.forEach aobvs (subscribe (factory f) fail fun o a => Py.emit (.subscribed o a))

/-- C24. The k-th subscription calls the factory exactly once (its k-th call), and that subscription's
observer, and only it, is subscribed to the result, or to `fail(ex)` if the factory raised `ex`
(which delivers exactly `ex`: C21_fail). -/
theorem C24_defer (f : Nat → Except Err ω) (hf : ∀ k, f k ≠ .error .cancelled) (fail : Err → ω)
    (aobvs : List κ) :
    (subscribeAll f fail aobvs 0).out = aobvs.zipIdx.flatMap fun (a, k) =>
      [.called k, .subscribed (match f k with | .ok o => o | .error e => fail e) a] := by
  have key : ∀ (aobvs : List κ) (k : Nat), subscribeAll f fail aobvs k =
      ⟨.ok (), k + aobvs.length, (aobvs.zipIdx k).flatMap fun (a, k) =>
      [.called k, .subscribed (match f k with | .ok o => o | .error e => fail e) a]⟩ := by
    intro aobvs
    induction aobvs with
    | nil => intro k; rfl
    | cons a as ih =>
      intro k
      have h1 : subscribe (factory f) fail (fun o a => Py.emit (.subscribed o a)) a k =
          ⟨.ok (), k + 1,
            [.called k, .subscribed (match f k with | .ok o => o | .error e => fail e) a]⟩ := by
        simp only [subscribe, factory, Py.bind_eq, Py.andThen, Py.tryExcept]
        cases hk : f k with
        | ok o => rfl
        | error e =>
          cases e with
          | cancelled => exact absurd hk (hf k)
          | _ => rfl
      rw [subscribeAll, Py.forEach, Py.andThen_ok h1]
      have := ih (k + 1)
      rw [subscribeAll] at this
      rw [this]
      simp only [List.length_cons, List.zipIdx_cons, List.flatMap_cons]
      congr 1
      omega
  rw [key]

/-- a factory that raises on its second call -/
def demoFactory : Nat → Except Err Nat
  | 1 => .error (.user 9)
  | k => .ok k

example : (subscribeAll demoFactory (fun _ => 100) ['a', 'b', 'c'] 0).out =
    [.called 0, .subscribed 0 'a', .called 1, .subscribed 100 'b', .called 2, .subscribed 2 'c'] := by
  decide

end Aio.Defer
