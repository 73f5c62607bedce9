import Verif.Model.Slow
import Verif.Lemmas.Chains
/-!
# Suspending workers compute the same functions
-/

namespace Aio
variable {S ι ο α β γ : Type}

namespace Proc

theorem slow_exec (a : Agent S ι ο) {es : List (Ev ι Unit)} {s s' : List ι × List ο × S} {out}
    (h : (slow a).exec s es = some (s', out)) :
    s.2.1 ++ (a.run s.2.2 (s.1 ++ inputs es)).2 = out ++ s'.2.1 ++ (a.run s'.2.2 s'.1).2 := by
  induction es generalizing s out with
  | nil => simp at h; obtain ⟨rfl, rfl⟩ := h; simp
  | cons e es ih =>
    cases e with
    | feed i =>
      obtain ⟨o2, h2, rfl⟩ := exec_feed_inv h
      simpa [slow] using ih h2
    | step l =>
      obtain ⟨s1, o1, o2, hs, h2, rfl⟩ := exec_step_inv h
      have := ih h2
      obtain ⟨q, p, t⟩ := s
      cases p with
      | cons o os =>
        simp [slow] at hs
        obtain ⟨rfl, rfl⟩ := hs
        simpa using this
      | nil =>
        cases q with
        | nil => simp [slow] at hs
        | cons i q =>
          simp [slow] at hs
          obtain ⟨rfl, rfl⟩ := hs
          simpa using this

theorem slow_implements (a : Agent S ι ο) : (slow a).Implements a.fn := by
  intro es s out h
  have := slow_exec a h
  simp [slow] at this
  constructor
  · simp [Agent.fn, this]
  · intro hq
    obtain ⟨q, p, t⟩ := s
    have hq' := hq ()
    cases p with
    | cons o os => simp [slow] at hq'
    | nil =>
      cases q with
      | nil => simp [Agent.fn, this]
      | cons i q => simp [slow] at hq'

theorem slow_terminates (a : Agent S ι ο) : (slow a).Terminates := by
  intro s
  obtain ⟨q, p, t⟩ := s
  induction q generalizing p t with
  | nil =>
    induction p with
    | nil => constructor; rintro _ ⟨l, o, h⟩; simp [slow] at h
    | cons o os ih =>
      constructor
      rintro s' ⟨l, o, h⟩
      simp [slow] at h
      obtain ⟨rfl, rfl⟩ := h
      exact ih
  | cons i q ihq =>
    induction p with
    | nil =>
      constructor
      rintro s' ⟨l, o, h⟩
      simp [slow] at h
      obtain ⟨rfl, rfl⟩ := h
      exact ihq _ _
    | cons o os ih =>
      constructor
      rintro s' ⟨l, o, h⟩
      simp [slow] at h
      obtain ⟨rfl, rfl⟩ := h
      exact ih

end Proc

/-- The same code in the caller's task, and processes behind it that compute the same function. -/
inductive Code.Same : Code α γ → Code α γ → Prop where
  | final {σ : Type} (obs : Observer σ (Notif γ) α) (s0 : σ) : Same (.final obs s0) (.final obs s0)
  | more {σ μ St Lab St' Lab' : Type} (obs : Observer σ (Notif μ) α) (s0 : σ) {p : Proc St Lab (Notif μ) (Notif γ)}
      {q : Proc St' Lab' (Notif μ) (Notif γ)} {f} (hp : p.Implements f) (tp : p.Terminates) (hq : q.Implements f)
      (tq : q.Terminates) : Same (.more obs s0 p) (.more obs s0 q)

theorem Chain.same (c : Chain α γ) : Code.Same c.compile c.compileSlow := by
  induction c with
  | done => exact .final _ _
  | wrap w c ih =>
    rw [Chain.compile, Chain.compileSlow]
    generalize c.compile = a at ih
    generalize c.compileSlow = b at ih
    cases ih with
    | final obs s0 => exact .final _ _
    | more obs s0 hp tp hq tq => exact .more _ _ hp tp hq tq
  | safe c ih =>
    rw [Chain.compile, Chain.compileSlow]
    generalize c.compile = a at ih
    generalize c.compileSlow = b at ih
    cases ih with
    | final obs s0 =>
      exact .more _ _ (Proc.mailbox_implements _) (Proc.mailbox_terminates _) (Proc.slow_implements _)
        (Proc.slow_terminates _)
    | more obs s0 hp tp hq tq =>
      exact .more _ _ (Proc.seq_implements (Proc.mailbox_implements _) hp (fun _ _ h => hp.mono tp h))
        (Proc.seq_terminates (Proc.mailbox_terminates _) tp)
        (Proc.seq_implements (Proc.slow_implements _) hq (fun _ _ h => hq.mono tq h))
        (Proc.seq_terminates (Proc.slow_terminates _) tq)
  | loop c ih =>
    rw [Chain.compile, Chain.compileSlow]
    generalize c.compile = a at ih
    generalize c.compileSlow = b at ih
    cases ih with
    | final obs s0 =>
      exact .more _ _ (Proc.mailbox_implements _) (Proc.mailbox_terminates _) (Proc.slow_implements _)
        (Proc.slow_terminates _)
    | more obs s0 hp tp hq tq =>
      exact .more _ _ (Proc.seq_implements (Proc.mailbox_implements _) hp (fun _ _ h => hp.mono tp h))
        (Proc.seq_terminates (Proc.mailbox_terminates _) tp)
        (Proc.seq_implements (Proc.slow_implements _) hq (fun _ _ h => hq.mono tq h))
        (Proc.seq_terminates (Proc.slow_terminates _) tq)

theorem Code.Same.procs {c d : Code α γ} (h : Code.Same c d) :
    ∃ f, c.proc.Implements f ∧ d.slowProc.Implements f ∧ d.slowProc.Terminates := by
  cases h with
  | final obs s0 => exact ⟨_, Proc.direct_implements _, Proc.slow_implements _, Proc.slow_terminates _⟩
  | more obs s0 hp tp hq tq =>
    exact ⟨_, Proc.seq_implements (Proc.direct_implements _) hp (fun _ _ h => hp.mono tp h),
      Proc.seq_implements (Proc.slow_implements _) hq (fun _ _ h => hq.mono tq h),
      Proc.seq_terminates (Proc.slow_terminates _) tq⟩

end Aio
