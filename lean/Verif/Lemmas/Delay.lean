import Verif.Spec.Delay
import Verif.Lemmas.Lists
/-!
# Invariants of `delay`
-/

namespace Aio.Delay
variable {α : Type}
open Aio.Spec.Delay

def Label.target : Label α → Option Nat
  | .event i _ | .start i | .receive i | .wake i | .ret i | .raise i | .kill i | .dispose i => some i
  | _ => none

def Label.isDispose : Label α → Bool
  | .dispose _ => true
  | _ => false

theorem step_cases {seconds : Nat} {s s' : State α} {l : Label α} (h : step seconds s l = some s') :
    (l = .subscribe ∧ s' = { s with subs := s.subs ++ [⟨[], .fresh, [], 0⟩] }) ∨
    (∃ dw dl, l = .tick dw dl ∧ s' = { s with wall := s.wall + dw, loop := s.loop + dl }) ∨
    (∃ i b b', l.target = some i ∧ s.subs[i]? = some b ∧ subStep seconds s b l = some b' ∧
      s' = { s with cancelled := s.cancelled || l.isDispose, subs := s.subs.set i b' }) := by
  cases l
  case subscribe => simp [step] at h; exact .inl ⟨rfl, h.symm⟩
  case tick dw dl => simp [step] at h; exact .inr (.inl ⟨dw, dl, rfl, h.symm⟩)
  all_goals
    simp only [step] at h
    split at h
    · cases h
    · rename_i b hb
      obtain ⟨b', h1, h2⟩ := Option.map_eq_some_iff.mp h
      refine .inr (.inr ⟨_, b, b', rfl, hb, h1, ?_⟩)
      rw [← h2]; simp [State.upd, Label.isDispose]

theorem clock_append (a b : List (Label α)) : clock (a ++ b) = clock a + clock b := by
  induction a with
  | nil => simp [clock]
  | cons l a ih => cases l <;> simp [clock, ih]; omega

theorem arrivalsFrom_append (i : Nat) (a b : List (Label α)) : ∀ t : Nat,
    arrivalsFrom i t (a ++ b) = arrivalsFrom i t a ++ arrivalsFrom i (t + clock a) b := by
  induction a with
  | nil => simp [clock, arrivalsFrom]
  | cons l a ih =>
    intro t
    cases l
    case tick dw dl => simp [clock, arrivalsFrom, ih]; congr 1; omega
    case event j n => by_cases h : j = i <;> simp [clock, arrivalsFrom, ih, h]
    all_goals simp [clock, arrivalsFrom, ih]

theorem arrivals_snoc (i : Nat) (ls : List (Label α)) (l : Label α) :
    arrivals i (ls ++ [l]) = arrivals i ls ++ arrivalsFrom i (clock ls) [l] := by
  simp [arrivals, arrivalsFrom_append]

theorem run_clock {seconds : Nat} {ls : List (Label α)} {s : State α} (h : LTS.run (step seconds) init ls = some s) :
    s.loop = clock ls := by
  refine LTS.inv_hist (fun ls s => s.loop = clock ls) (s0 := init) rfl ?_ h
  intro ls s l s' hi hs
  rw [clock_append]
  rcases step_cases hs with ⟨rfl, rfl⟩ | ⟨dw, dl, rfl, rfl⟩ | ⟨i, b, b', ht, _, _, rfl⟩
  · simpa [clock] using hi
  · simp [clock, hi]
  · cases l <;> simp_all [clock, Label.target]

theorem sync_append {a b : List (Label α)} : Synchronous (a ++ b) ↔ Synchronous a ∧ Synchronous b := by
  simp only [Synchronous, List.mem_append]
  constructor
  · intro h; exact ⟨fun x y hx => h x y (.inl hx), fun x y hx => h x y (.inr hx)⟩
  · rintro ⟨h1, h2⟩ x y (h | h)
    · exact h1 x y h
    · exact h2 x y h

theorem run_sync {seconds : Nat} {ls : List (Label α)} {s : State α} (h : LTS.run (step seconds) init ls = some s)
    (hy : Synchronous ls) : s.wall = s.loop := by
  refine LTS.inv_hist (fun ls (s : State α) => Synchronous ls → s.wall = s.loop) (s0 := init) (fun _ => rfl) ?_ h hy
  intro ls s l s' hi hs hy
  rw [sync_append] at hy
  have := hi hy.1
  rcases step_cases hs with ⟨rfl, rfl⟩ | ⟨dw, dl, rfl, rfl⟩ | ⟨i, b, b', ht, _, _, rfl⟩
  · simpa using this
  · have := hy.2 dw dl (by simp); simp only; omega
  · simpa using this

/-- What the worker holds: a notification taken from the mailbox but not delivered. -/
def Holds (w : Worker α) (h : List (Notif α)) : Prop :=
  match w with
  | .sleeping n _ => h = [n]
  | .dead => h.length ≤ 1
  | _ => h = []

def HoldsDue (w : Worker α) (h : List (Notif α × Nat)) : Prop :=
  match w with
  | .sleeping n t => h = [(n, t)]
  | .dead => h.length ≤ 1
  | _ => h = []

theorem arrivals_other {i : Nat} {ls : List (Label α)} {l : Label α} (h : ∀ n, l ≠ .event i n) :
    arrivals i (ls ++ [l]) = arrivals i ls := by
  rw [arrivals_snoc]
  cases l
  case event j n =>
    have : j ≠ i := fun hj => h n (by rw [hj])
    simp [arrivalsFrom, this]
  all_goals simp [arrivalsFrom]

theorem arrivals_event {i : Nat} {ls : List (Label α)} {n : Notif α} :
    arrivals i (ls ++ [.event i n]) = arrivals i ls ++ [(n, clock ls)] := by
  rw [arrivals_snoc]; simp [arrivalsFrom]

/-- A subscription that does not exist yet has received nothing. -/
theorem arrivals_none {seconds : Nat} {ls : List (Label α)} {s : State α} {i : Nat}
    (h : LTS.run (step seconds) init ls = some s) (hi : s.subs.length ≤ i) : arrivals i ls = [] := by
  refine LTS.inv_hist (fun ls (s : State α) => s.subs.length ≤ i → arrivals i ls = []) (s0 := init)
    (fun _ => rfl) ?_ h hi
  intro ls s l s' hI hs hl
  rcases step_cases hs with ⟨rfl, rfl⟩ | ⟨dw, dl, rfl, rfl⟩ | ⟨j, b, b', ht, hb, _, rfl⟩
  · rw [arrivals_other (by simp)]; exact hI (by simp at hl; omega)
  · rw [arrivals_other (by simp)]; exact hI hl
  · have hj := (List.getElem?_eq_some_iff.mp hb).1
    simp at hl
    rw [arrivals_other]
    · exact hI hl
    · rintro n rfl; simp [Label.target] at ht; omega

/-- The shape of the proofs: a property of one subscription that relates it to the history. -/
theorem sub_inv {seconds : Nat} (I : List (Label α) → Nat → State α → Sub α → Prop)
    (hnew : ∀ ls i s, LTS.run (step seconds) init ls = some s → arrivals i ls = [] → I (ls ++ [.subscribe]) i { s with subs := s.subs ++ [⟨[], .fresh, [], 0⟩] } ⟨[], .fresh, [], 0⟩)
    (hother : ∀ ls i s b l s', LTS.run (step seconds) init ls = some s → step seconds s l = some s' → s.subs[i]? = some b → l.target ≠ some i → I ls i s b → I (ls ++ [l]) i s' b)
    (hsub : ∀ ls i s b l b', LTS.run (step seconds) init ls = some s → s.subs[i]? = some b → l.target = some i → subStep seconds s b l = some b' → I ls i s b →
      I (ls ++ [l]) i { s with cancelled := s.cancelled || l.isDispose, subs := s.subs.set i b' } b')
    {ls : List (Label α)} {s : State α} (h : LTS.run (step seconds) init ls = some s) :
    ∀ (i : Nat) (b : Sub α), s.subs[i]? = some b → I ls i s b := by
  refine LTS.inv_reach (fun ls (s : State α) => ∀ (i : Nat) (b : Sub α), s.subs[i]? = some b → I ls i s b)
    (s0 := init) (by simp [init]) ?_ h
  intro ls s l s' hr hI hs i b hb
  rcases step_cases hs with ⟨rfl, rfl⟩ | ⟨dw, dl, rfl, rfl⟩ | ⟨j, c, c', ht, hc, hst, rfl⟩
  · rcases get_push.mp hb with hb | ⟨rfl, rfl⟩
    · exact hother _ _ _ _ _ _ hr hs hb (by simp [Label.target]) (hI i b hb)
    · exact hnew ls _ s hr (arrivals_none hr (by simp))
  · exact hother _ _ _ _ _ _ hr hs hb (by simp [Label.target]) (hI i b hb)
  · have hj := (List.getElem?_eq_some_iff.mp hc).1
    rcases (get_set hj).mp hb with ⟨rfl, rfl⟩ | ⟨hne, hb⟩
    · exact hsub _ _ _ _ _ _ hr hc ht hst (hI _ _ hc)
    · exact hother _ _ _ _ _ _ hr hs hb (by rw [ht]; simp; omega) (hI i b hb)

/-- Nothing is lost or reordered, whatever the clocks do. -/
def Conserved (ls : List (Label α)) (i : Nat) (b : Sub α) : Prop :=
  ∃ h : List (Notif α), Holds b.worker h ∧
    b.delivered.map Prod.fst ++ h ++ b.queue.map Prod.fst = (arrivals i ls).map Prod.fst

theorem target_event {l : Label α} {i : Nat} (h : l.target ≠ some i) : ∀ n, l ≠ .event i n := by
  rintro n rfl; simp [Label.target] at h

theorem conserved {seconds : Nat} {ls : List (Label α)} {s : State α} (h : LTS.run (step seconds) init ls = some s) :
    ∀ (i : Nat) (b : Sub α), s.subs[i]? = some b → Conserved ls i b := by
  refine sub_inv (fun ls i _ b => Conserved ls i b) ?_ ?_ ?_ h
  · intro ls i s _ h
    exact ⟨[], rfl, by rw [arrivals_other (by simp), h]; rfl⟩
  · intro ls i s b l s' _ _ _ ht hI
    simp only [Conserved]; rw [arrivals_other (target_event ht)]; exact hI
  · intro ls i s b l b' _ _ ht hst ⟨h, hh, he⟩
    cases l <;> simp only [Label.target, Option.some.injEq, reduceCtorEq] at ht <;> subst ht
    case event n =>
      simp [subStep] at hst; subst hst
      refine ⟨h, hh, ?_⟩
      rw [arrivals_event]; simp [← he]
    case start =>
      simp only [Conserved]; rw [arrivals_other (by simp)]
      cases hw : b.worker <;> simp only [subStep, hw, reduceCtorEq, Option.some.injEq] at hst
      subst hst
      rw [hw] at hh; refine ⟨h, ?_, he⟩
      cases s.cancelled <;> exact hh
    case receive =>
      simp only [Conserved]; rw [arrivals_other (by simp)]
      cases hw : b.worker <;> cases hq : b.queue <;> simp only [subStep, hw, hq, reduceCtorEq, Option.some.injEq] at hst
      rename_i p q
      obtain ⟨n, due⟩ := p
      rw [hw] at hh
      change h = [] at hh; subst hh
      rw [hq] at he
      simp only [Sub.handle] at hst
      split at hst <;> subst hst
      · exact ⟨[n], rfl, by simpa using he⟩
      · exact ⟨[], rfl, by simpa [Sub.call] using he⟩
    case wake =>
      simp only [Conserved]; rw [arrivals_other (by simp)]
      cases hw : b.worker <;> simp only [subStep, hw, reduceCtorEq, Option.ite_none_right_eq_some, Option.some.injEq] at hst
      rename_i n w
      obtain ⟨_, rfl⟩ := hst
      rw [hw] at hh; change h = [n] at hh; subst hh
      exact ⟨[], rfl, by simpa [Sub.call] using he⟩
    case ret =>
      simp only [Conserved]; rw [arrivals_other (by simp)]
      cases hw : b.worker <;> simp only [subStep, hw, reduceCtorEq, Option.some.injEq] at hst
      subst hst
      rw [hw] at hh; refine ⟨h, ?_, he⟩
      cases s.cancelled <;> exact hh
    case raise =>
      simp only [Conserved]; rw [arrivals_other (by simp)]
      cases hw : b.worker <;> simp only [subStep, hw, reduceCtorEq, Option.some.injEq] at hst
      subst hst
      rw [hw] at hh; change h = [] at hh; subst hh
      exact ⟨[], by simp [Holds], he⟩
    case dispose =>
      simp [subStep] at hst; subst hst
      simp only [Conserved]; rw [arrivals_other (by simp)]; exact ⟨h, hh, he⟩
    case kill =>
      simp only [subStep, Option.ite_none_right_eq_some, Option.some.injEq] at hst
      obtain ⟨_, rfl⟩ := hst
      simp only [Conserved]; rw [arrivals_other (by simp)]
      refine ⟨h, ?_, he⟩
      cases hw : b.worker <;> rw [hw] at hh <;> simp only [Holds] at hh ⊢ <;> simp [hh]

/-- The same with the due times, if the clocks run alike. -/
def Timed (seconds : Nat) (ls : List (Label α)) (i : Nat) (b : Sub α) : Prop :=
  ∃ D h : List (Notif α × Nat), HoldsDue b.worker h ∧
    D ++ h ++ b.queue = shifted seconds (arrivals i ls) ∧
    All2 (fun d e => d.1 = e.1 ∧ d.2 ≤ e.2) D b.delivered

theorem timed {seconds : Nat} {ls : List (Label α)} {s : State α} (h : LTS.run (step seconds) init ls = some s)
    (hy : Synchronous ls) : ∀ (i : Nat) (b : Sub α), s.subs[i]? = some b → Timed seconds ls i b := by
  intro i b hb
  refine sub_inv (fun ls i _ b => Synchronous ls → Timed seconds ls i b) ?_ ?_ ?_ h i b hb hy
  · intro ls i s _ h _
    exact ⟨[], [], rfl, by rw [arrivals_other (by simp), h]; rfl, .nil⟩
  · intro ls i s b l s' _ _ _ ht hI hy
    have hy := (sync_append.mp hy).1
    simp only [Timed]; rw [arrivals_other (target_event ht)]; exact hI hy
  · intro ls i s b l b' hrun _ ht hst hI hy
    have hy := (sync_append.mp hy).1
    have hwl := run_sync hrun hy
    have hcl := run_clock hrun
    obtain ⟨D, h, hh, he, hd⟩ := hI hy
    cases l <;> simp only [Label.target, Option.some.injEq, reduceCtorEq] at ht <;> subst ht
    case event n =>
      simp [subStep] at hst; subst hst
      refine ⟨D, h, hh, ?_, hd⟩
      rw [arrivals_event]; simp only [shifted, List.map_append] at he ⊢; rw [← he]
      simp [hwl, hcl]
    case start =>
      simp only [Timed]; rw [arrivals_other (by simp)]
      cases hw : b.worker <;> simp only [subStep, hw, reduceCtorEq, Option.some.injEq] at hst
      subst hst
      rw [hw] at hh; refine ⟨D, h, ?_, he, hd⟩
      cases s.cancelled <;> exact hh
    case receive =>
      simp only [Timed]; rw [arrivals_other (by simp)]
      cases hw : b.worker <;> cases hq : b.queue <;> simp only [subStep, hw, hq, reduceCtorEq, Option.some.injEq] at hst
      rename_i p q
      obtain ⟨n, due⟩ := p
      rw [hw] at hh
      change h = [] at hh; subst hh
      rw [hq] at he
      simp only [Sub.handle] at hst
      split at hst <;> subst hst
      · rename_i hlt
        refine ⟨D, [(n, due)], ?_, by simpa using he, hd⟩
        simp only [HoldsDue]
        have : s.loop + (due - s.wall) = due := by omega
        rw [this]
      · rename_i hlt
        refine ⟨D ++ [(n, due)], [], rfl, by simpa [Sub.call] using he, ?_⟩
        exact hd.snoc ⟨rfl, by simp only; omega⟩
    case wake =>
      simp only [Timed]; rw [arrivals_other (by simp)]
      cases hw : b.worker <;> simp only [subStep, hw, reduceCtorEq, Option.ite_none_right_eq_some, Option.some.injEq] at hst
      rename_i n w
      obtain ⟨hle, rfl⟩ := hst
      rw [hw] at hh; change h = [(n, w)] at hh; subst hh
      refine ⟨D ++ [(n, w)], [], rfl, by simpa [Sub.call] using he, ?_⟩
      exact hd.snoc ⟨rfl, hle⟩
    case ret =>
      simp only [Timed]; rw [arrivals_other (by simp)]
      cases hw : b.worker <;> simp only [subStep, hw, reduceCtorEq, Option.some.injEq] at hst
      subst hst
      rw [hw] at hh; refine ⟨D, h, ?_, he, hd⟩
      cases s.cancelled <;> exact hh
    case raise =>
      simp only [Timed]; rw [arrivals_other (by simp)]
      cases hw : b.worker <;> simp only [subStep, hw, reduceCtorEq, Option.some.injEq] at hst
      subst hst
      rw [hw] at hh; change h = [] at hh; subst hh
      exact ⟨D, [], by simp [HoldsDue], he, hd⟩
    case dispose =>
      simp [subStep] at hst; subst hst
      simp only [Timed]; rw [arrivals_other (by simp)]; exact ⟨D, h, hh, he, hd⟩
    case kill =>
      simp only [subStep, Option.ite_none_right_eq_some, Option.some.injEq] at hst
      obtain ⟨_, rfl⟩ := hst
      simp only [Timed]; rw [arrivals_other (by simp)]
      refine ⟨D, h, ?_, he, hd⟩
      cases hw : b.worker <;> rw [hw] at hh <;> simp only [HoldsDue] at hh ⊢ <;> simp [hh]

end Aio.Delay
