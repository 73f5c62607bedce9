import Verif.Model.Pipeline
import Verif.Lemmas.Stream
import Verif.Lemmas.Proc
/-!
# Composition of operators

`Guarded c F`: behind a `safe_observer`, the pipeline `c` acts on streams as the function `F`.
-/
namespace Aio
open Spec

variable {α β γ σ ο : Type}

/-! ### the safe worker -/

@[simp] theorem safeBody_next (obv : Observer σ ο α) (d : Py σ ο Unit) (v : α) :
    safeBody obv d (.next v) = Py.tryExcept (Py.andThen (obv.asend v) fun _ => Py.ret true)
      (fun ex => Py.andThen (obv.athrow ex) fun _ => Py.ret false) := rfl

/-- What one observer call leaves behind when made by the safe worker. -/
def safeRecv (obv : Observer σ ο α) (s : σ) : Notif α → (Bool × σ) × List ο
  | .next v =>
    match obv.asend v s with
    | ⟨.ok _, s', o⟩ => ((true, s'), o)
    | ⟨.error .cancelled, s', o⟩ => ((false, s'), o)
    | ⟨.error e, s', o⟩ => ((false, (obv.athrow e s').st), o ++ (obv.athrow e s').out)
  | .error e => ((false, (obv.athrow e s).st), (obv.athrow e s).out)
  | .completed => ((false, (obv.aclose s).st), (obv.aclose s).out)

theorem safeAgent_recv (obv : Observer σ ο α) (s0 s : σ) (n : Notif α) :
    (safeAgent obv (Py.ret ()) s0).recv (true, s) n = safeRecv obv s n := by
  cases n with
  | next v =>
    simp only [safeAgent, safeBody_next, safeRecv, Py.tryExcept, Py.andThen, if_true]
    rcases obv.asend v s with ⟨_ | _, s', o⟩
    · rename_i e
      cases e <;> simp <;> (try (generalize obv.athrow _ s' = r; rcases r with ⟨_ | _, s'', o'⟩ <;> simp))
    · simp
  | error e =>
    simp only [safeAgent, safeBody, safeRecv, Py.bind_eq, Py.andThen, Py.ret, if_true,
      Observer.accept_error, List.nil_append]
    generalize obv.athrow e s = r
    rcases r with ⟨_ | _, s', o⟩ <;> simp
  | completed =>
    simp only [safeAgent, safeBody, safeRecv, Py.bind_eq, Py.andThen, Py.ret, if_true,
      List.nil_append]
    generalize obv.aclose s = r
    rcases r with ⟨_ | _, s', o⟩ <;> simp

@[simp] theorem safeAgent_stopped (obv : Observer σ ο α) (d : Py σ ο Unit) (s0 s : σ)
    (ns : List (Notif α)) : (safeAgent obv d s0).run (false, s) ns = ((false, s), []) := by
  induction ns with
  | nil => rfl
  | cons n ns ih =>
    simp only [Agent.run_cons]
    have : (safeAgent obv d s0).recv (false, s) n = ((false, s), []) := rfl
    rw [this]; simp [ih]

/-- Output of the safe worker from a running state (does not depend on `s0`). -/
def safeOut (obv : Observer σ ο α) (s : σ) (ns : List (Notif α)) : List ο :=
  ((safeAgent obv (Py.ret ()) s).run (true, s) ns).2

theorem safeAgent_run_indep (obv : Observer σ ο α) (d : Py σ ο Unit) (s0 s1 : σ) (s : Bool × σ)
    (ns : List (Notif α)) : (safeAgent obv d s0).run s ns = (safeAgent obv d s1).run s ns := by
  induction ns generalizing s with
  | nil => rfl
  | cons n ns ih =>
    simp only [Agent.run_cons]
    have : (safeAgent obv d s0).recv s n = (safeAgent obv d s1).recv s n := rfl
    rw [this, ih]

theorem safeAgent_fn (obv : Observer σ ο α) (s0 : σ) (ns : List (Notif α)) :
    (safeAgent obv (Py.ret ()) s0).fn ns = safeOut obv s0 ns := rfl

@[simp] theorem safeOut_nil (obv : Observer σ ο α) (s : σ) : safeOut obv s [] = [] := rfl

theorem safeOut_cons (obv : Observer σ ο α) (s : σ) (n : Notif α) (ns : List (Notif α)) :
    safeOut obv s (n :: ns) = (safeRecv obv s n).2 ++
      (if (safeRecv obv s n).1.1 then safeOut obv (safeRecv obv s n).1.2 ns else []) := by
  simp only [safeOut, Agent.run_cons, safeAgent_recv]
  congr 1
  obtain ⟨⟨b, s'⟩, o⟩ := safeRecv obv s n
  cases b
  · simp
  · simp only [if_true]
    rw [safeAgent_run_indep _ _ s s']

@[simp] theorem safeOut_error (obv : Observer σ ο α) (s : σ) (e : Err) (ns : List (Notif α)) :
    safeOut obv s (.error e :: ns) = (obv.athrow e s).out := by
  simp [safeOut_cons, safeRecv]

@[simp] theorem safeOut_completed (obv : Observer σ ο α) (s : σ) (ns : List (Notif α)) :
    safeOut obv s (.completed :: ns) = (obv.aclose s).out := by
  simp [safeOut_cons, safeRecv]

theorem safeOut_next_ok {obv : Observer σ ο α} {s s' : σ} {v : α} {u o} (ns : List (Notif α))
    (h : obv.asend v s = ⟨.ok u, s', o⟩) :
    safeOut obv s (.next v :: ns) = o ++ safeOut obv s' ns := by
  simp [safeOut_cons, safeRecv, h]

theorem safeOut_next_error {obv : Observer σ ο α} {s s' : σ} {v : α} {e o} (ns : List (Notif α))
    (h : obv.asend v s = ⟨.error e, s', o⟩) (he : e ≠ .cancelled) :
    safeOut obv s (.next v :: ns) = o ++ (obv.athrow e s').out := by
  cases e <;> simp_all [safeOut_cons, safeRecv]

theorem safeOut_next_cancelled {obv : Observer σ ο α} {s s' : σ} {v : α} {o} (ns : List (Notif α))
    (h : obv.asend v s = ⟨.error .cancelled, s', o⟩) :
    safeOut obv s (.next v :: ns) = o := by
  simp [safeOut_cons, safeRecv, h]

/-- The safe worker ignores everything after the first terminal notification. -/
theorem safeOut_cut (obv : Observer σ ο α) (s : σ) (ns : List (Notif α)) :
    safeOut obv s (cut ns) = safeOut obv s ns := by
  induction ns generalizing s with
  | nil => rfl
  | cons n ns ih =>
    cases n with
    | next v => simp only [cut_next, safeOut_cons]; split <;> simp [ih]
    | error e => simp
    | completed => simp

theorem safeOut_congr (obv : Observer σ ο α) (s : σ) {ns ns' : List (Notif α)}
    (h : cut ns = cut ns') : safeOut obv s ns = safeOut obv s ns' := by
  rw [← safeOut_cut, h, safeOut_cut]

/-! ### meaning of code -/

/-- Compiled code behind a `safe_observer` acts on streams as `F`. -/
def Code.Den (F : Story α → Story γ) : Code α γ → Prop
  | .final obs s0 => ∀ ns, safeOut obs s0 ns = (F (story ns)).events
  | .more obs s0 p => ∃ f, p.Implements f ∧ p.Terminates ∧
      ∀ ns, f (safeOut obs s0 ns) = (F (story ns)).events

/-- What the code does when a producer calls it directly, one call at a time (no safe observer in
front): all inputs go through `obs`. -/
def Code.RawDen (f : List (Notif α) → List (Notif γ)) : Code α γ → Prop
  | .final obs s0 => ∀ ns, (Agent.ofObserver obs s0).fn ns = f ns
  | .more obs s0 p => ∃ g, p.Implements g ∧ p.Terminates ∧
      ∀ ns, g ((Agent.ofObserver obs s0).fn ns) = f ns

@[simp] theorem ofObserver_post_fn (ns : List (Notif α)) :
    (Agent.ofObserver Observer.post ()).fn ns = ns := by
  have : ∀ s, ((Agent.ofObserver (Observer.post (α := α)) ()).run s ns).2 = ns := by
    induction ns with
    | nil => intro; rfl
    | cons n ns ih => intro s; simp [Agent.ofObserver] at *; exact ih ()
  exact this ()

theorem safeOut_post (ns : List (Notif α)) : safeOut Observer.post () ns = cut ns := by
  induction ns with
  | nil => rfl
  | cons n ns ih =>
    cases n with
    | next v =>
      have : safeRecv (Observer.post (α := α)) () (.next v) = ((true, ()), [.next v]) := rfl
      simp [safeOut_cons, this, ih]
    | error e => simp [Observer.post]
    | completed => simp [Observer.post]

/-- A guarded code is a mailbox process computing `F`. -/
theorem Code.guard_spec {c : Code α γ} {F} (h : c.Den F) :
    ∃ (St Lab : Type) (p : Proc St Lab (Notif α) (Notif γ)), c.guard = .more Observer.post () p ∧
      p.Implements (fun ns => (F (story ns)).events) ∧ p.Terminates := by
  cases c with
  | final obs s0 =>
    exact ⟨_, _, _, rfl, (Proc.mailbox_implements _).congr h, Proc.mailbox_terminates _⟩
  | more obs s0 p =>
    obtain ⟨f, h1, h2, h3⟩ := h
    exact ⟨_, _, _, rfl,
      (Proc.seq_implements (Proc.mailbox_implements _) h1 (fun _ _ h => h1.mono h2 h)).congr h3,
      Proc.seq_terminates (Proc.mailbox_terminates _) h2⟩

/-- A pipeline behind a safe observer acts as `F`. -/
def Guarded (c : Chain α γ) (F : Story α → Story γ) : Prop := c.compile.Den F

theorem guarded_done : Guarded (Chain.done : Chain α α) id := by
  intro ns; rw [safeOut_post]; rfl

/-- One more safe observer changes nothing. -/
theorem guarded_safe {c : Chain α γ} {F} (h : Guarded c F) : Guarded (.safe c) F := by
  obtain ⟨St, Lab, p, hp, h1, h2⟩ := Code.guard_spec h
  rw [Guarded, Chain.compile, hp]
  exact ⟨_, h1, h2, fun ns => by simp [safeOut_post, cut]⟩

/-- `w` acts on streams as `G`, whatever the downstream observer does (including raising). -/
def Transparent (w : Wrap α β) (G : Story α → Story β) : Prop :=
  ∀ (σ ο : Type) (O : Observer σ ο β) (s : σ) (ns : List (Notif α)),
    safeOut (w.obs O) (w.init, s) ns = safeOut O s (G (story ns)).events

theorem guarded_wrap {w : Wrap α β} {G} {c : Chain β γ} {F} (hw : Transparent w G)
    (h : Guarded c F) : Guarded (.wrap w c) (F ∘ G) := by
  unfold Guarded at *
  rw [Chain.compile]
  cases hc : c.compile with
  | final obs s0 =>
    rw [hc] at h
    intro ns
    rw [hw, h]; simp
  | more obs s0 p =>
    rw [hc] at h
    obtain ⟨f, h1, h2, h3⟩ := h
    refine ⟨f, h1, h2, fun ns => ?_⟩
    rw [hw, h3]; simp

/-! ### fronts: code that only posts to a safe mailbox -/

/-- The observer never raises. -/
def NoRaise (obv : Observer σ ο α) : Prop := ∀ n s, ∃ u, (obv.accept n s).val = .ok u

theorem safeOut_noRaise {obv : Observer σ ο α} (h : NoRaise obv) (s : σ) (ns : List (Notif α)) :
    safeOut obv s ns = (Agent.ofObserver obv s).fn (cut ns) := by
  have hi : ∀ (s0 s1 s : σ) ns, (Agent.ofObserver obv s0).run s ns =
      (Agent.ofObserver obv s1).run s ns := by
    intro s0 s1 s ns
    induction ns generalizing s with
    | nil => rfl
    | cons n ns ih => simp [Agent.ofObserver] at *; simp [ih]
  induction ns generalizing s with
  | nil => rfl
  | cons n ns ih =>
    cases n with
    | next v =>
      obtain ⟨u, hu⟩ := h (.next v) s
      simp only [Observer.accept_next] at hu
      rcases hr : obv.asend v s with ⟨val, s', o⟩
      rw [hr] at hu
      simp only at hu
      subst hu
      have h1 : safeRecv obv s (.next v) = ((true, s'), o) := by simp [safeRecv, hr]
      have h2 : (Agent.ofObserver obv s).recv s (.next v) = (s', o) := by
        simp [Agent.ofObserver, hr]
      rw [safeOut_cons, h1]
      simp only [if_true, ih, Agent.fn, cut_next, Agent.run_cons]
      have h3 : (Agent.ofObserver obv s).init = s := rfl
      rw [h3, h2, hi s' s]
      rfl
    | error e => simp [Agent.fn, Agent.ofObserver]
    | completed => simp [Agent.fn, Agent.ofObserver]

/-- The front `w`, posting to a safe mailbox, acts on streams as `G`: for *any* call sequence, also
an ill-formed one. -/
def Front (w : Wrap α β) (G : Story α → Story β) : Prop :=
  NoRaise (w.obs (Observer.post (α := β))) ∧
  ∀ ns, cut ((Agent.ofObserver (w.obs Observer.post) (w.init, ())).fn ns) = (G (story ns)).events

theorem Front.story {w : Wrap α β} {G} (hw : Front w G) (ns : List (Notif α)) :
    Spec.story ((Agent.ofObserver (w.obs Observer.post) (w.init, ())).fn ns) = G (Spec.story ns) := by
  have := congrArg Spec.story (hw.2 ns)
  simpa [cut] using this

/-- An operator that posts to a safe mailbox. -/
theorem guarded_front {w : Wrap α β} {G} {c : Chain β γ} {F} (hw : Front w G)
    (h : Guarded c F) : Guarded (.wrap w (.safe c)) (F ∘ G) := by
  obtain ⟨St, Lab, p, hp, h1, h2⟩ := Code.guard_spec h
  rw [Guarded, Chain.compile, Chain.compile, hp]
  refine ⟨_, h1, h2, fun ns => ?_⟩
  simp only [safeOut_noRaise hw.1, hw.story]
  simp [cut]

/-- The same operator called directly by any producer. -/
theorem raw_front {w : Wrap α β} {G} {c : Chain β γ} {F} (hw : Front w G)
    (h : Guarded c F) :
    (Chain.wrap w (.safe c)).compile.RawDen fun ns => (F (G (story ns))).events := by
  obtain ⟨St, Lab, p, hp, h1, h2⟩ := Code.guard_spec h
  rw [Chain.compile, Chain.compile, hp]
  exact ⟨_, h1, h2, fun ns => by simp only [hw.story]⟩

end Aio
