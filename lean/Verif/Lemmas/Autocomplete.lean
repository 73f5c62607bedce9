import Verif.Model.Autocomplete
import Verif.Lemmas.Jobs
import Verif.Lemmas.HostedNested
import Verif.Lemmas.HostedWork
import Verif.Lemmas.Chains
/-! `single` on a clock; `distinct_until_changed` up to its safe observer. -/

namespace Aio
open Spec Spec.Timed Producer
variable {α β ω : Type}

namespace Once

theorem move_eq {v : α} {s t : State α} {l} (h : move v s l = some t) : (single v).next s.sub l = some t.sub ∧ t.now = s.now ∧
    ∃ ns, t.sub.received = s.sub.received ++ ns ∧ t.sent = s.sent ++ ns.map fun n => (n, s.now) := by
  simp only [move] at h
  split at h
  · cases h
  next t' ht =>
    cases h
    obtain ⟨ns, hns⟩ := received_next ht
    exact ⟨ht, rfl, ns, hns.symm, by rw [← hns]; simp⟩

/-- Where the worker is, what is left in the mailbox and what the observer was told. -/
inductive At (v : α) : Safe.State α → List (Notif α) → Prop where
  | first (log) : At v ⟨[.next v, .completed], .waiting, log⟩ []
  | telling (log) : At v ⟨[.completed], .sending v, log⟩ [.next v]
  | second (log) : At v ⟨[.completed], .waiting, log⟩ [.next v]
  | disposing (log) : At v ⟨[], .disposing .completed, log⟩ [.next v]
  | closing (log) : At v ⟨[], .terminating .completed, log⟩ [.next v, .completed]
  | over (log) : At v ⟨[], .halted, log⟩ [.next v, .completed]

structure Inv (v : α) (t0 : Nat) (s : State α) : Prop where
  place : At v s.sub.safe s.sub.received
  sent : s.sent = s.sub.received.map fun n => (n, t0)
  late : t0 ≤ s.now
  busy : busy s = true → s.now = t0

theorem at_busy {v : α} {s : State α} (h : At v s.sub.safe s.sub.received) : busy s = false → s.sub.received = [.next v, .completed] := by
  obtain ⟨⟨src, posts, safe⟩, now, sent⟩ := s
  simp only [State.received, busy] at h ⊢
  generalize Safe.calls safe.log = c at h
  cases h <;> simp

theorem inv_move {v : α} {t0 : Nat} {s t : State α} (hi : Inv v t0 s) {l : Producer.Label Unit} (hl : l = .receive ∨ l = .ret) (h : move v s l = some t) : Inv v t0 t := by
  obtain ⟨h1, h2, ns, h3, h4⟩ := move_eq h
  have hb : Once.busy s = true := by
    cases hb : Once.busy s with
    | true => rfl
    | false =>
      have hp := hi.place
      obtain ⟨⟨src, posts, safe⟩, now, sent⟩ := s
      simp only [State.received, Once.busy] at hp hb
      generalize Safe.calls safe.log = c at hp
      rcases hl with rfl | rfl <;> cases hp <;> simp at hb <;> simp [next, Safe.step] at h1
  have hn := hi.busy hb
  have hpl : At v t.sub.safe t.sub.received := by
    have hp := hi.place
    obtain ⟨⟨src, posts, safe⟩, now, sent⟩ := s
    obtain ⟨⟨src', posts', safe'⟩, now', sent'⟩ := t
    simp only [State.received] at hp ⊢
    generalize hc : Safe.calls safe.log = c at hp
    rcases hl with rfl | rfl <;> cases hp <;> simp [next, Safe.step] at h1 <;> obtain ⟨-, -, rfl⟩ := h1 <;> simp only at hc <;>
      simp only [Safe.calls_append, hc, Safe.calls, List.nil_append, List.append_nil, List.cons_append] <;> constructor
  refine ⟨hpl, by rw [h4, hi.sent, h3, hn, List.map_append], by omega, fun _ => by omega⟩

theorem inv_run {v : α} {t0 : Nat} {ls s} (hr : LTS.run (clocked v t0).step (clocked v t0).init ls = some s) : Inv v t0 s := by
  refine LTS.inv (step := (clocked v t0).step) (fun s => Inv v t0 s) (s0 := (clocked v t0).init) ?_ ?_ hr
  · exact ⟨.first _, rfl, Nat.le_refl _, fun _ => rfl⟩
  · intro s l t hi h
    cases l with
    | pass d =>
      simp only [Clocked.step, clocked] at h
      split at h
      · cases h
      next hb =>
        cases h
        exact ⟨hi.place, hi.sent, Nat.le_trans hi.late (Nat.le_add_right ..), fun h => absurd h hb⟩
    | act l =>
      cases l with
      | receive => exact inv_move hi (.inl rfl) h
      | ret => exact inv_move hi (.inr rfl) h

theorem lawful (v : α) (t0 : Nat) : (clocked v t0).Lawful where
  init := rfl
  act {ls s l t} _ h := by
    cases l with
    | receive => obtain ⟨-, h2, ns, -, h4⟩ := move_eq (show move v s .receive = some t from h); exact ⟨h2, ns, h4⟩
    | ret => obtain ⟨-, h2, ns, -, h4⟩ := move_eq (show move v s .ret = some t from h); exact ⟨h2, ns, h4⟩
  pass {ls s d t} _ h := by
    simp only [clocked] at h
    split at h
    · cases h
    · cases h; exact ⟨rfl, rfl⟩

/-- The value and the completion come when it is subscribed, before time passes. -/
theorem exact_ {v : α} {t0 : Nat} {ls s} (hr : LTS.run (clocked v t0).step (clocked v t0).init ls = some s) :
    (clocked v t0).calls s <+: [(.next v, t0), (.completed, t0)] ∧ (t0 < s.now → (clocked v t0).calls s = [(.next v, t0), (.completed, t0)]) := by
  have hi := inv_run hr
  have hc : (clocked v t0).calls s = s.sub.received.map fun n => (n, t0) := hi.sent
  constructor
  · rw [hc]
    have : s.sub.received <+: [.next v, .completed] := by
      have := hi.place
      generalize s.sub.received = c at this
      generalize s.sub.safe = sf at this
      cases this <;> simp
    exact this.map fun n => (n, t0)
  · intro hlt
    have hb : Once.busy s = false := by
      cases hb : Once.busy s with
      | false => rfl
      | true => have := hi.busy hb; omega
    rw [hc, at_busy hi.place hb]; rfl

theorem host_lawful {v : α} {t0 : Nat} : (host (α := α)).Lawful (clocked v t0) where
  clock := lawful v t0
  names := by intro s t _ _; simp [host]
  turn := by
    intro s t hr _
    have only : ∀ (s' : State α) (t' : Unit) (w : Nat), t' ≠ t → host.need s' t' = .until w → host.need s t' = .until w := fun _ _ _ h => absurd rfl h
    obtain ⟨⟨src, posts, inbox, pc, log⟩, now, sent⟩ := s
    cases pc with
    | halted => exact ⟨_, rfl, only _⟩
    | waiting =>
      cases inbox with
      | nil => exact ⟨_, rfl, only _⟩
      | cons n q =>
        cases n <;> exact ⟨_, rfl, only _⟩
    | sending v => exact ⟨_, rfl, only _⟩
    | rethrowing v => exact ⟨_, rfl, only _⟩
    | disposing v => exact ⟨_, rfl, only _⟩
    | terminating v => exact ⟨_, rfl, only _⟩
  outside := by intro s l s' _ h; cases h
  pass := by
    intro s d hr hc
    have h1 := hc ()
    simp only [host] at h1
    have hb : Once.busy s = false := by
      cases hb : Once.busy s with
      | false => rfl
      | true => rw [hb] at h1; exact h1.elim
    refine ⟨{ s with now := s.now + d }, by simp [clocked, hb], fun t => rfl⟩

end Once

theorem singles_family : Host.Family (Once.host (α := ω)) singles where
  lawful _ _ := Once.host_lawful
  start _ _ := rfl
  fresh x t n w h := by simp only [Once.host] at h; split at h <;> cases h

theorem singles_proper {SO LO : Type} {o : Clocked SO LO ω} (ho : o.Lawful) (hg : ∀ ls s, LTS.run o.step o.init ls = some s → Grammar ((o.calls s).map (·.1))) :
    Nested.Proper o singles where
  source := ho
  sourceGrammar := hg
  inner x t := ⟨Once.lawful _ _, rfl⟩
  innerGrammar x t ls s hr := grammar_prefix ((Once.exact_ hr).1.map (·.1)) ⟨⟨[x], .done⟩, rfl⟩

/-! ## `distinct_until_changed` -/

theorem Operator.computes_done {op : Operator α β} {G} (h : op.direct.compile.Den G) (hc : op.direct.compile.Calm) : op.Computes G := by
  have hp := (guard_rawDen h).implements
  obtain ⟨f, h1, h2⟩ := h.raw hc
  have h3 := h1.implements
  refine ⟨⟨fun es s out he _ => (hp.1 es s out he).1, fun es s out he _ => (hp.1 es s out he).2, hp.2⟩, fun es s out he hg => ?_, fun es s out he hg hq => ?_, h3.2⟩
  · have := (h3.1 es s out he).1; rw [h2 _ hg] at this; exact this
  · have := (h3.1 es s out he).2 hq; rw [h2 _ hg] at this; exact this

theorem distinct_events (eq : α → α → Bool) (fin : End) : ∀ (vs : List α) (t : Notif α),
    ((loopAgent ((distinctW fun a b => .ok (eq a b)).obs Observer.post) ((distinctW fun a b => .ok (eq a b)).init, ())).run (true, (t, ())) (Story.events ⟨vs, fin⟩)).2 =
      (distinctTry (fun a b => .ok (eq a b)) (prevOf t) vs fin).events
  | [], t => by
    cases fin <;> simp [Story.events, End.events, distinctTry, Agent.run, loopAgent, Py.andThen]
  | v :: vs, t => by
    have hm : ((prevOf t).map (fun a => (Except.ok (eq v a) : Except Err Bool))).getD (.ok false) = sameAs (fun a b => .ok (eq a b)) v t := by cases t <;> rfl
    have e : Story.events ⟨v :: vs, fin⟩ = .next v :: Story.events ⟨vs, fin⟩ := rfl
    rw [e, distinctTry, hm]
    rcases hq : sameAs (fun a b => (Except.ok (eq a b) : Except Err Bool)) v t with e | b
    · cases t <;> simp [sameAs] at hq
    · cases b
      · have h1 : (loopAgent ((distinctW fun a b => .ok (eq a b)).obs Observer.post) ((distinctW fun a b => .ok (eq a b)).init, ())).recv (true, (t, ())) (.next v) =
            ((true, (.next v, ())), [.next v]) := by simp [loopAgent, Py.andThen, Py.call, hq, Py.tryExcept]
        have := distinct_events eq fin vs (.next v)
        rw [Agent.run_cons, h1]
        exact congrArg (Notif.next v :: ·) this
      · have h1 : (loopAgent ((distinctW fun a b => .ok (eq a b)).obs Observer.post) ((distinctW fun a b => .ok (eq a b)).init, ())).recv (true, (t, ())) (.next v) =
            ((true, (.next v, ())), []) := by simp [loopAgent, Py.andThen, Py.call, hq]
        have := distinct_events eq fin vs (.next v)
        rw [Agent.run_cons, h1]
        exact this

theorem distinctPosts_computes (eq : α → α → Bool) : (distinctPosts fun a b => .ok (eq a b)).Computes fun s => ⟨changes eq s.vals, s.fin⟩ := by
  refine Operator.computes_done ?_ noRaise_post
  refine ⟨_, Proc.mailbox_implements _, Proc.mailbox_terminates _, fun ns => ?_⟩
  rw [safeOut_post]
  have h1 := distinct_events eq (story ns).fin (story ns).vals .completed
  have h2 := distinctTry_ok eq (story ns)
  exact h1.trans (congrArg Story.events h2)

end Aio
