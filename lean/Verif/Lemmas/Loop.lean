import Verif.Model.Loop
import Verif.Lemmas.Work
import Verif.Spec.Iterator
/-!
# Lemmas about `Model/Loop.lean`
-/

namespace Aio
variable {α β γ A B σ : Type}

/-- When the loop comes for its next value, if it does: the number of the value and the time. -/
abbrev Loop.View := Option (Nat × Nat)

namespace Co
open Loop

inductive Meet (A : Type) where
  | ok (a : A) (t : Nat) (c : View)
  | raised (e : Err) (t : Nat) (c : View)
  | stuck

/-- What a coroutine gets through that begins at time `t` and whose calls wait for the loop. -/
def meet (m : Nat → β → Option Nat) : Co β A → Nat → View → List (Notif β × Nat) × Meet A
  | .done a, t, c => ([], .ok a t c)
  | .raise e, t, c => ([], .raised e t c)
  | .wait d k, t, c => k.meet m (t + d) c
  | .call n k, t, c =>
    match c, n with
    | none, _ => ([], .stuck)
    | some (i, r), .next v =>
      ((.next v, max t r) :: (k.meet m (max t r) ((m i v).map fun d => (i + 1, max t r + d))).1,
        (k.meet m (max t r) ((m i v).map fun d => (i + 1, max t r + d))).2)
    | some (_, r), n => ([(n, max t r)], .stuck)

def Meet.time : Meet A → Option Nat
  | .ok _ t _ => some t
  | .raised _ t _ => some t
  | .stuck => none

theorem meet_ge (m : Nat → β → Option Nat) (k : Co β A) : ∀ t c, (∀ x ∈ (k.meet m t c).1, t ≤ x.2) ∧ ∀ u ∈ (k.meet m t c).2.time, t ≤ u := by
  induction k with
  | done a => intro t c; exact ⟨fun _ h => (by cases h), fun u h => (by cases h; exact Nat.le_refl _)⟩
  | raise e => intro t c; exact ⟨fun _ h => (by cases h), fun u h => (by cases h; exact Nat.le_refl _)⟩
  | wait d k ih =>
    intro t c
    obtain ⟨h1, h2⟩ := ih (t + d) c
    exact ⟨fun x hx => Nat.le_trans (Nat.le_add_right ..) (h1 x hx), fun u hu => Nat.le_trans (Nat.le_add_right ..) (h2 u hu)⟩
  | call n k ih =>
    intro t c
    cases c with
    | none => exact ⟨fun _ h => (by cases h), fun _ h => (by cases h)⟩
    | some p =>
      obtain ⟨i, r⟩ := p
      cases n with
      | next v =>
        obtain ⟨h1, h2⟩ := ih (max t r) ((m i v).map fun d => (i + 1, max t r + d))
        refine ⟨fun x hx => ?_, fun u hu => ?_⟩
        · rcases List.mem_cons.mp hx with rfl | hx
          · dsimp only; omega
          · have := h1 x hx; omega
        · have := h2 u hu; omega
      | error e =>
        refine ⟨fun x hx => ?_, fun _ h => (by cases h)⟩
        simp only [meet, List.mem_singleton] at hx
        subst hx; dsimp only; omega
      | completed =>
        refine ⟨fun x hx => ?_, fun _ h => (by cases h)⟩
        simp only [meet, List.mem_singleton] at hx
        subst hx; dsimp only; omega

theorem meet_attempt (m : Nat → β → Option Nat) (k : Co β A) (f : A → Co β B) (h : Err → Co β B) : ∀ t c, (k.attempt f h).meet m t c =
    match (k.meet m t c).2 with
    | .ok a u c' => ((k.meet m t c).1 ++ ((f a).meet m u c').1, ((f a).meet m u c').2)
    | .raised e u c' => if e = .cancelled then ((k.meet m t c).1, .raised e u c')
      else ((k.meet m t c).1 ++ ((h e).meet m u c').1, ((h e).meet m u c').2)
    | .stuck => ((k.meet m t c).1, .stuck) := by
  induction k with
  | done a => intro t c; simp [attempt, meet]
  | raise e => intro t c; simp only [attempt, meet]; split <;> simp [meet]
  | wait d k ih => intro t c; simp only [attempt, meet]; exact ih (t + d) c
  | call n k ih =>
    intro t c
    cases c with
    | none => simp [attempt, meet]
    | some p =>
      obtain ⟨i, r⟩ := p
      cases n with
      | next v =>
        simp only [attempt, meet, ih]
        cases h : (k.meet m (max t r) ((m i v).map fun d => (i + 1, max t r + d))).2 with
        | ok a u c' => simp
        | raised e u c' => dsimp only; split <;> simp
        | stuck => simp
      | error e => simp [attempt, meet]
      | completed => simp [attempt, meet]

theorem meet_work (m : Nat → β → Option Nat) (w : Nat × Except Err A) (f : A → Co β B) (t : Nat) (c : View) : ((work w).bind f).meet m t c =
    match w.2 with
    | .ok a => (f a).meet m (t + w.1) c
    | .error e => ([], .raised e (t + w.1) c) := by
  obtain ⟨d, r⟩ := w
  cases r <;> rfl

end Co

/-! ## the iterator with one producer -/

namespace Iterator.One

def AllReturned (cs : List (Call α)) : Prop := ∀ c ∈ cs, c = .returned

inductive Shape (β : Type) where
  /-- no call -/
  | free
  /-- a call waits for the consumer -/
  | offered (n : Notif β)
  /-- the consumer has taken what the call has brought -/
  | taken

/-- What becomes of a call when the consumer has come: one that brings an exception never returns. -/
def Shape.after : Notif β → Shape β
  | .next _ => .taken
  | n => .offered n

def Fits (it : State β) (c : Consumer) : Shape β → Prop
  | .free => ∃ calls h t, AllReturned calls ∧ it = ⟨none, false, [], false, c, calls, [], h, t⟩
  | .offered n => ∃ calls h t, AllReturned calls ∧
      it = ⟨some n, false, [], true, c, calls ++ [.sending n], if c = .waiting then [.consumer] else [], h, t⟩
  | .taken => ∃ calls h t n, AllReturned calls ∧ it = ⟨none, true, [], true, c, calls ++ [.sending n], [.pull calls.length], h, t⟩

theorem Fits.consumer {it : State β} {c : Consumer} {sh : Shape β} (h : Fits it c sh) : it.consumer = c := by
  cases sh with
  | free => obtain ⟨_, _, _, _, rfl⟩ := h; rfl
  | offered n => obtain ⟨_, _, _, _, rfl⟩ := h; rfl
  | taken => obtain ⟨_, _, _, _, _, rfl⟩ := h; rfl

theorem set_last (calls : List (Call β)) (a b : Call β) : (calls ++ [a]).set calls.length b = calls ++ [b] := by
  simp

theorem call_free {it : State β} {c : Consumer} (h : Fits it c .free) (n : Notif β) :
    ∃ it', step it (.call n) = some it' ∧ Fits it' c (.offered n) ∧ it'.taken = it.taken := by
  obtain ⟨calls, hd, t, ha, rfl⟩ := h
  refine ⟨_, rfl, ⟨calls, hd ++ [(calls.length, n)], t, ha, ?_⟩, ?_⟩
  · simp [State.access, State.handOver]
  · simp [State.access, State.handOver]

theorem senders {calls : List (Call β)} (ha : AllReturned calls) (n : Notif β) :
    (List.range (calls ++ [Call.sending n]).length).filter (fun c => isSending (calls ++ [Call.sending n])[c]?) = [calls.length] := by
  rw [List.length_append, List.length_singleton, List.range_succ, List.filter_append]
  have h1 : (List.range calls.length).filter (fun c => isSending (calls ++ [Call.sending n])[c]?) = [] := by
    rw [List.filter_eq_nil_iff]
    intro c hc
    have hc : c < calls.length := by simpa using hc
    rw [List.getElem?_append_left hc, List.getElem?_eq_getElem hc, ha _ (List.getElem_mem hc)]
    simp [isSending]
  rw [h1]
  simp [isSending]

theorem take_offered {calls : List (Call β)} (ha : AllReturned calls) (n : Notif β) (c : Consumer) (hd : List (Nat × Notif β)) (t : List (Took β)) :
    let it' := State.take ⟨some n, false, [], true, c, calls ++ [.sending n], [], hd, t⟩ n
    it'.taken = t ++ [Took.of n] ∧ Fits it' .idle (.after n) := by
  cases n with
  | next v =>
    simp only [State.take, senders ha]
    exact ⟨rfl, calls, hd, t ++ [.value v], .next v, ha, rfl⟩
  | error e => exact ⟨rfl, calls, hd, t ++ [.raised e], ha, rfl⟩
  | completed => exact ⟨rfl, calls, hd, t ++ [.stop], ha, rfl⟩

/-- The consumer comes (in the first `__anext__`, or in a later one) and has to wait. -/
theorem come_free {it : State β} {c : Consumer} (h : Fits it c .free) :
    (∀ it', step it .anext = some it' → (c = .fresh ∧ Fits it' .subscribing .free ∨ c = .idle ∧ Fits it' .waiting .free) ∧ it'.taken = it.taken) ∧
    (∀ it', step it .subscribed = some it' → c = .subscribing ∧ Fits it' .waiting .free ∧ it'.taken = it.taken) := by
  obtain ⟨calls, hd, t, ha, rfl⟩ := h
  constructor
  · intro it' h
    cases c with
    | fresh =>
      simp [step, isTurn] at h
      subst h
      exact ⟨.inl ⟨rfl, calls, hd, t, ha, rfl⟩, rfl⟩
    | idle =>
      simp [step, isTurn, State.receive] at h
      subst h
      exact ⟨.inr ⟨rfl, calls, hd, t, ha, rfl⟩, rfl⟩
    | _ => simp [step, isTurn] at h
  · intro it' h
    cases c with
    | subscribing =>
      simp [step, isTurn, State.receive] at h
      subst h
      exact ⟨rfl, ⟨calls, hd, t, ha, rfl⟩, rfl⟩
    | _ => simp [step, isTurn] at h

theorem come_offered {it : State β} {c : Consumer} {n : Notif β} (h : Fits it c (.offered n)) :
    (∀ it', c ≠ .fresh → step it .anext = some it' → c = .idle ∧ it'.taken = it.taken ++ [Took.of n] ∧ Fits it' .idle (.after n)) ∧
    (∀ it', step it .subscribed = some it' → c = .subscribing ∧ it'.taken = it.taken ++ [Took.of n] ∧ Fits it' .idle (.after n)) := by
  obtain ⟨calls, hd, t, ha, rfl⟩ := h
  constructor
  · intro it' hc h
    cases c with
    | fresh => exact absurd rfl hc
    | idle =>
      simp only [step, isTurn, State.receive, reduceCtorEq, if_false, Bool.false_eq_true, Option.some.injEq] at h
      subst h
      exact ⟨rfl, take_offered ha n _ hd t⟩
    | _ => simp [step, isTurn] at h
  · intro it' h
    cases c with
    | subscribing =>
      simp only [step, isTurn, State.receive, reduceCtorEq, if_false, Bool.false_eq_true, Option.some.injEq] at h
      subst h
      exact ⟨rfl, take_offered ha n _ hd t⟩
    | _ => simp [step, isTurn] at h

theorem come_taken {it : State β} {c : Consumer} (h : Fits it c .taken) (hc : c ≠ .fresh) (hc' : c ≠ .subscribing) :
    (∀ it', step it .anext = some it' → c = .idle ∧ Fits it' .waiting .taken ∧ it'.taken = it.taken) ∧
    (∀ it', step it .subscribed = some it' → False) := by
  obtain ⟨calls, hd, t, n, ha, rfl⟩ := h
  constructor
  · intro it' h
    cases c with
    | fresh => exact absurd rfl hc
    | idle =>
      simp [step, isTurn, State.receive] at h
      subst h
      exact ⟨rfl, ⟨calls, hd, t, n, ha, rfl⟩, rfl⟩
    | _ => simp [step, isTurn] at h
  · intro it' h
    cases c with
    | subscribing => exact absurd rfl hc'
    | _ => simp [step, isTurn] at h

theorem run_free {it : State β} {c : Consumer} (h : Fits it c .free) (it' : State β) : step it .run = some it' → False := by
  obtain ⟨calls, hd, t, ha, rfl⟩ := h
  simp [step]

theorem run_offered {it : State β} {c : Consumer} {n : Notif β} (h : Fits it c (.offered n)) {it' : State β} (hs : step it .run = some it') :
    c = .waiting ∧ it'.taken = it.taken ++ [Took.of n] ∧ Fits it' .idle (.after n) := by
  obtain ⟨calls, hd, t, ha, rfl⟩ := h
  by_cases hc : c = .waiting
  · subst hc
    simp only [step, if_true, Option.some.injEq] at hs
    subst hs
    exact ⟨rfl, take_offered ha n _ hd t⟩
  · simp [step, hc] at hs

theorem run_taken {it : State β} {c : Consumer} (h : Fits it c .taken) {it' : State β} (hs : step it .run = some it') :
    Fits it' c .free ∧ it'.taken = it.taken := by
  obtain ⟨calls, hd, t, n, ha, rfl⟩ := h
  simp only [step, Option.some.injEq] at hs
  subst hs
  refine ⟨⟨calls ++ [.returned], hd, t, ?_, ?_⟩, rfl⟩
  · intro x hx
    rcases List.mem_append.mp hx with hx | hx
    · exact ha x hx
    · simpa using hx
  · simp

end Iterator.One

namespace Loop
open Iterator.One (Fits Shape)
variable {o : Handler σ α β} {m : Nat → β → Option Nat} {gone : Nat}

/-- What the loop gets if the worker is free from `free` on and the loop comes as `c` says. -/
def serve (o : Handler σ α β) (m : Nat → β → Option Nat) (gone : Nat) : σ → Nat → View → List (Notif α × Nat) → List (Notif β × Nat)
  | _, _, _, [] => []
  | s, free, c, (n, a) :: cs =>
    ((Work.body o gone s n).meet m (max a free) c).1 ++
      match ((Work.body o gone s n).meet m (max a free) c).2 with
      | .ok (some t) u c' => serve o m gone t u c' cs
      | _ => []

def cont (o : Handler σ α β) (m : Nat → β → Option Nat) (gone : Nat) (k : Co β (Option σ)) (t : Nat) (c : View) (cs : List (Notif α × Nat)) : List (Notif β × Nat) :=
  (k.meet m t c).1 ++
    match (k.meet m t c).2 with
    | .ok (some s) u c' => serve o m gone s u c' cs
    | _ => []

theorem serve_cons (s : σ) (free : Nat) (c : View) (n : Notif α) (a : Nat) (cs : List (Notif α × Nat)) :
    serve o m gone s free c ((n, a) :: cs) = cont o m gone (Work.body o gone s n) (max a free) c cs := by
  rw [serve, cont]

theorem cont_next {v : β} {k : Co β (Option σ)} {t i r : Nat} {cs : List (Notif α × Nat)} : cont o m gone (.call (.next v) k) t (some (i, r)) cs =
    (.next v, max t r) :: cont o m gone k (max t r) ((m i v).map fun d => (i + 1, max t r + d)) cs := rfl

theorem cont_error {e : Err} {k : Co β (Option σ)} {t i r : Nat} {cs : List (Notif α × Nat)} : cont o m gone (.call (.error e) k) t (some (i, r)) cs =
    [(.error e, max t r)] := rfl

theorem cont_completed {k : Co β (Option σ)} {t i r : Nat} {cs : List (Notif α × Nat)} : cont o m gone (.call .completed k) t (some (i, r)) cs =
    [(.completed, max t r)] := rfl

theorem cont_over {n : Notif β} {k : Co β (Option σ)} {t : Nat} {cs : List (Notif α × Nat)} : cont o m gone (.call n k) t none cs = [] := rfl

def arrivals : Nat → List (Label α) → List (Notif α × Nat)
  | _, [] => []
  | t, .tick d :: ls => arrivals (t + d) ls
  | t, .event n :: ls => (n, t) :: arrivals t ls
  | t, _ :: ls => arrivals t ls

def clock : List (Label α) → Nat
  | [] => 0
  | .tick d :: ls => d + clock ls
  | _ :: ls => clock ls

theorem clock_append (a b : List (Label α)) : clock (a ++ b) = clock a + clock b := by
  induction a with
  | nil => simp [clock]
  | cons l a ih => cases l <;> simp [clock, ih] <;> omega

theorem arrivals_append (a b : List (Label α)) (t : Nat) : arrivals t (a ++ b) = arrivals t a ++ arrivals (t + clock a) b := by
  induction a generalizing t with
  | nil => simp [arrivals, clock]
  | cons l a ih => cases l <;> simp [arrivals, clock, ih, Nat.add_assoc]

theorem arrivals_ge : ∀ (ls : List (Label α)) (t : Nat), ∀ c ∈ arrivals t ls, t ≤ c.2 := by
  intro ls
  induction ls with
  | nil => intro t c h; cases h
  | cons l ls ih =>
    intro t c h
    cases l with
    | event n =>
      rcases List.mem_cons.mp h with rfl | h
      · exact Nat.le_refl _
      · exact ih t c h
    | tick d => exact Nat.le_trans (Nat.le_add_right ..) (ih _ c h)
    | _ => exact ih t c h

theorem stage_reads {s0 : σ} : (stage o s0 m gone).Reads arrivals clock := by
  refine ⟨fun t => ⟨rfl, rfl⟩, fun t ms n => ⟨?_, ?_⟩, fun t ms d => ⟨?_, ?_⟩, fun t ms l hl => ?_⟩
  · rw [arrivals_append]; rfl
  · rw [clock_append]; rfl
  · rw [arrivals_append]; exact List.append_nil _
  · rw [clock_append]; rfl
  · rw [arrivals_append, clock_append]
    cases l with
    | event n => cases hl
    | tick d => cases hl
    | _ => exact ⟨List.append_nil _, rfl⟩

def view (b : Body) (i r : Nat) : View :=
  match b with
  | .asking => some (i, r)
  | .busy due => some (i, due)
  | .over => none

/-- What the loop is still to get. -/
def left (o : Handler σ α β) (m : Nat → β → Option Nat) (gone : Nat) (pc : PC β σ) (sh : Shape β) (now t free : Nat) (c : View) (rest : List (Notif α × Nat)) :
    List (Notif β × Nat) :=
  match pc, sh with
  | .waiting u, _ => serve o m gone u free c rest
  | .running k, _ => cont o m gone k now c rest
  | .asleep due k, _ => cont o m gone k due c rest
  | .calling k, .offered n => cont o m gone (.call n k) t c rest
  | .calling k, _ => cont o m gone k now c rest
  | .halted, _ => []

def Open : Shape β → Prop
  | .taken => False
  | _ => True

def Free : Shape β → Prop
  | .free => True
  | _ => False

def Met (t r now : Nat) : Shape β → Prop
  | .offered _ => max t r = now
  | _ => True

def PC.Elsewhere : PC β σ → Prop
  | .calling _ => False
  | _ => True

/-- What holds after the calls `cs`, with the ghosts `sh`: where the call on the iterator is, `r`: since when the loop asks, `t`: since when a call waits,
`free`: since when the worker is free, `rest`: the mailbox with times. -/
structure InvAt (o : Handler σ α β) (s0 : σ) (m : Nat → β → Option Nat) (gone t0 : Nat) (cs : List (Notif α × Nat)) (s : State α β σ)
    (sh : Shape β) (r t free : Nat) (rest : List (Notif α × Nat)) : Prop where
  fits : Fits s.it s.it.consumer sh
  box : s.inbox = rest.map (·.1)
  past : ∀ c ∈ rest, c.2 ≤ s.now
  asks : s.body = .asking → (s.it.consumer = .subscribing ∧ Open sh) ∨ s.it.consumer = .waiting
  idle : s.body ≠ .asking → s.it.consumer = .idle
  asked : r ≤ s.now
  due : ∀ d, s.body = .busy d → s.now ≤ d
  called : s.pc.Elsewhere → Free sh
  since : t ≤ s.now
  both : s.body = .asking → Met t r s.now sh
  wait : ∀ u, s.pc = .waiting u → free ≤ s.now ∧ ∀ c ∈ rest.head?, max c.2 free = s.now
  sleep : ∀ d k, s.pc = .asleep d k → s.now ≤ d
  told : ∀ more, serve o m gone s0 0 (some (0, t0)) (cs ++ more) = s.sent ++ left o m gone s.pc sh s.now t free (view s.body s.sent.length r) (rest ++ more)

def Inv (o : Handler σ α β) (s0 : σ) (m : Nat → β → Option Nat) (gone t0 : Nat) (cs : List (Notif α × Nat)) (s : State α β σ) : Prop :=
  ∃ sh r t free rest, InvAt o s0 m gone t0 cs s sh r t free rest

theorem not_returned {it : Iterator.State β} {c : Iterator.Consumer} {sh : Shape β} (h : Fits it c sh) (hr : returned it = true) :
    Free sh := by
  cases sh with
  | free => trivial
  | offered n => obtain ⟨_, _, _, _, rfl⟩ := h; simp [returned] at hr
  | taken => obtain ⟨_, _, _, _, _, rfl⟩ := h; simp [returned] at hr

theorem is_returned {it : Iterator.State β} {c : Iterator.Consumer} (h : Fits it c .free) : returned it = true := by
  obtain ⟨calls, _, _, ha, rfl⟩ := h
  simp only [returned, List.all_eq_true]
  intro x hx
  rw [ha x hx]

theorem absorb_nothing {s : State α β σ} {it : Iterator.State β} (h : it.taken = s.it.taken) : absorb m s it = { s with it } := by
  simp [absorb, h]

/-- The loop has come for what a call has brought. -/
theorem inv_take {s0 : σ} {t0 : Nat} {cs : List (Notif α × Nat)} {s : State α β σ} {n : Notif β} {r t free : Nat} {rest : List (Notif α × Nat)} {k : Co β (Option σ)}
    {it : Iterator.State β} (hpc : s.pc = .calling k) (hit : it.taken = s.it.taken ++ [Iterator.Took.of n]) (hf : Fits it .idle (.after n))
    (box : s.inbox = rest.map (·.1)) (past : ∀ c ∈ rest, c.2 ≤ s.now) (asked : r ≤ s.now) (since : t ≤ s.now) (both : max t r = s.now)
    (told : ∀ more, serve o m gone s0 0 (some (0, t0)) (cs ++ more) = s.sent ++ cont o m gone (.call n k) t (some (s.sent.length, r)) (rest ++ more)) :
    Inv o s0 m gone t0 cs (absorb m s it) ∧ (absorb m s it).now = s.now := by
  have hc := hf.consumer
  have hf' : Fits it it.consumer (.after n) := by rw [hc]; exact hf
  cases n with
  | next v =>
    have ha : absorb m s it = { s with
        it
        body := match m s.sent.length v with
          | some d => .busy (s.now + d)
          | none => .over
        sent := s.sent ++ [(.next v, s.now)] } := by
      simp only [absorb, hit, Iterator.Took.of, List.drop_left]
      cases m s.sent.length v <;> rfl
    rw [ha]
    refine ⟨⟨.taken, r, t, free, rest, hf', box, past, ?_, fun _ => hc, asked, ?_, fun h => ?_, since, fun _ => trivial, fun u h => ?_, fun d k h => ?_, ?_⟩, rfl⟩
    · intro h
      dsimp only at h
      split at h <;> cases h
    · intro d h
      dsimp only at h
      split at h
      · cases h; exact Nat.le_add_right ..
      · cases h
    · dsimp only at h; rw [hpc] at h; exact h.elim
    · dsimp only at h; rw [hpc] at h; cases h
    · dsimp only at h; rw [hpc] at h; cases h
    · intro more
      rw [told more, cont_next, both]
      simp only [left, hpc, List.append_assoc, List.singleton_append, List.length_append, List.length_singleton]
      cases m s.sent.length v <;> simp [view]
  | error e =>
    have ha : absorb m s it = { s with it, body := .over, sent := s.sent ++ [(.error e, s.now)] } := by simp [absorb, hit, Iterator.Took.of]
    rw [ha]
    refine ⟨⟨.offered (.error e), r, t, free, rest, hf', box, past, nofun, fun _ => hc, asked, nofun, fun h => ?_, since, nofun, fun u h => ?_, fun d k h => ?_, ?_⟩, rfl⟩
    · dsimp only at h; rw [hpc] at h; exact h.elim
    · dsimp only at h; rw [hpc] at h; cases h
    · dsimp only at h; rw [hpc] at h; cases h
    · intro more
      rw [told more, cont_error, both]
      simp [left, hpc, view, cont_over]
  | completed =>
    have ha : absorb m s it = { s with it, body := .over, sent := s.sent ++ [(.completed, s.now)] } := by simp [absorb, hit, Iterator.Took.of]
    rw [ha]
    refine ⟨⟨.offered .completed, r, t, free, rest, hf', box, past, nofun, fun _ => hc, asked, nofun, fun h => ?_, since, nofun, fun u h => ?_, fun d k h => ?_, ?_⟩, rfl⟩
    · dsimp only at h; rw [hpc] at h; exact h.elim
    · dsimp only at h; rw [hpc] at h; cases h
    · dsimp only at h; rw [hpc] at h; cases h
    · intro more
      rw [told more, cont_completed, both]
      simp [left, hpc, view, cont_over]

theorem inv_step {s0 : σ} {t0 : Nat} {cs : List (Notif α × Nat)} {s s' : State α β σ} (hi : Inv o s0 m gone t0 cs s) {l : Label α} (h : step o m gone s l = some s') :
    Inv o s0 m gone t0 (cs ++ arrivals s.now [l]) s' ∧ s'.now = s.now + clock [l] := by
  obtain ⟨sh, r, t, free, rest, hi⟩ := hi
  have ⟨fits, box, past, asks, idle, asked, due, called, since, both, wait, sleep, told⟩ := hi
  cases l with
  | event n =>
    simp only [step, Option.some.injEq] at h
    subst h
    refine ⟨⟨sh, r, t, free, rest ++ [(n, s.now)], fits, by simp [box], ?_, asks, idle, asked, due, called, since, both, ?_, sleep, ?_⟩, rfl⟩
    · intro c hc
      rcases List.mem_append.mp hc with hc | hc
      · exact past c hc
      · simp at hc; subst hc; exact Nat.le_refl _
    · intro u hp
      obtain ⟨h1, h2⟩ := wait u hp
      refine ⟨h1, ?_⟩
      cases rest with
      | nil => simp; omega
      | cons c rest => exact h2
    · intro more
      have := told ((n, s.now) :: more)
      simp only [arrivals, List.append_assoc, List.singleton_append]
      exact this
  | tick d =>
    simp only [step] at h
    split at h
    · cases h
    · next hr =>
      cases h
      have hr : ready s d = false := by simpa using hr
      simp only [ready, Bool.or_eq_false_iff] at hr
      obtain ⟨⟨⟨hr1, hr2⟩, hr3⟩, hr4⟩ := hr
      have hsub : s.it.consumer ≠ .subscribing := by simpa using hr3
      have htk : sh ≠ .taken := by
        rintro rfl
        obtain ⟨_, _, _, _, _, he⟩ := fits
        rw [he] at hr2; simp at hr2
      refine ⟨⟨sh, r, t, free, rest, fits, box, fun c hc => Nat.le_trans (past c hc) (Nat.le_add_right ..), asks, idle, Nat.le_trans asked (Nat.le_add_right ..), ?_, called,
        Nat.le_trans since (Nat.le_add_right ..), ?_, ?_, ?_, ?_⟩, rfl⟩
      · intro d' hb
        dsimp only at hb ⊢
        rw [hb] at hr4
        simp only [decide_eq_false_iff_not] at hr4
        omega
      · intro hb
        dsimp only at hb
        cases sh with
        | offered n =>
          exfalso
          rcases asks hb with h | h
          · exact hsub h.1
          · obtain ⟨_, _, _, _, he⟩ := fits
            rw [h] at he
            rw [he] at hr2; simp at hr2
        | _ => trivial
      · intro u hp
        dsimp only at hp
        obtain ⟨h1, h2⟩ := wait u hp
        have : rest = [] := by
          rw [hp, box] at hr1
          simpa using hr1
        subst this
        exact ⟨by dsimp only; omega, by simp⟩
      · intro d' k hp
        dsimp only at hp ⊢
        rw [hp] at hr1
        simp only [decide_eq_false_iff_not] at hr1
        omega
      · intro more
        simp only [arrivals, List.append_nil]
        rw [told more]
        cases hp : s.pc with
        | running k => rw [hp] at hr1; cases hr1
        | calling k =>
          cases sh with
          | offered n => rfl
          | taken => exact absurd rfl htk
          | free =>
            rw [hp] at hr1
            dsimp only at hr1
            rw [is_returned fits] at hr1
            cases hr1
        | _ => rfl
  | receive =>
    simp only [step] at h
    simp only [arrivals, List.append_nil, clock, Nat.add_zero]
    cases hp : s.pc with
    | waiting u =>
      obtain ⟨hf, hh⟩ := wait u hp
      cases rest with
      | nil => rw [hp, box] at h; cases h
      | cons c rest =>
        obtain ⟨n, a⟩ := c
        have ha : max a free = s.now := hh (n, a) rfl
        rw [hp, box] at h
        simp only [left, hp] at told
        cases h
        refine ⟨⟨sh, r, t, 0, rest, fits, rfl, fun c hc => past c (by simp [hc]), asks, idle, asked, due, fun _ => called (by rw [hp]; trivial), since, both, nofun, nofun, ?_⟩, rfl⟩
        intro more
        rw [told more, List.cons_append, serve_cons, ha]
        rfl
    | _ => rw [hp] at h; cases h
  | go =>
    simp only [step] at h
    simp only [arrivals, List.append_nil, clock, Nat.add_zero]
    cases hp : s.pc with
    | running k =>
      have hfree : sh = .free := by
        have := called (by rw [hp]; trivial)
        cases sh with
        | free => rfl
        | _ => exact this.elim
      subst hfree
      rw [hp] at h
      simp only [left, hp] at told
      cases k with
      | done x =>
        cases x with
        | none =>
          cases h
          refine ⟨⟨.free, r, t, 0, rest, fits, box, past, asks, idle, asked, due, fun _ => trivial, since, both, nofun, nofun, ?_⟩, rfl⟩
          intro more
          rw [told more]
          rfl
        | some u =>
          cases h
          refine ⟨⟨.free, r, t, s.now, rest, fits, box, past, asks, idle, asked, due, fun _ => trivial, since, both, ?_, nofun, ?_⟩, rfl⟩
          · intro t _
            refine ⟨Nat.le_refl _, fun c hc => ?_⟩
            have := past c (List.mem_of_mem_head? hc)
            dsimp only
            omega
          · intro more
            rw [told more]
            rfl
      | raise e =>
        cases h
        refine ⟨⟨.free, r, t, 0, rest, fits, box, past, asks, idle, asked, due, fun _ => trivial, since, both, nofun, nofun, ?_⟩, rfl⟩
        intro more
        rw [told more]
        rfl
      | wait d k =>
        cases h
        refine ⟨⟨.free, r, t, 0, rest, fits, box, past, asks, idle, asked, due, fun _ => trivial, since, both, nofun, ?_, ?_⟩, rfl⟩
        · intro due k' hk
          cases hk
          exact Nat.le_add_right ..
        · intro more
          rw [told more]
          rfl
      | call n k =>
        obtain ⟨it, h1, h2, h3⟩ := Iterator.One.call_free fits n
        dsimp only at h
        rw [h1] at h
        cases h
        have hc : it.consumer = s.it.consumer := h2.consumer
        refine ⟨⟨.offered n, r, s.now, 0, rest, by rw [hc]; exact h2, box, past, fun hb => ?_, fun hb => by rw [hc]; exact idle hb, asked, due, fun h => h.elim, Nat.le_refl _, ?_, nofun, nofun, ?_⟩, rfl⟩
        · dsimp only
          rw [hc]
          exact (asks hb).imp (fun h => ⟨h.1, trivial⟩) id
        · intro _; simp only [Met]; omega
        · intro more
          rw [told more]
          rfl
    | _ => rw [hp] at h; cases h
  | wake =>
    simp only [step] at h
    simp only [arrivals, List.append_nil, clock, Nat.add_zero]
    cases hp : s.pc with
    | asleep d k =>
      rw [hp] at h
      simp only [left, hp] at told
      dsimp only at h
      split at h
      · next hd =>
        have := sleep d k hp
        have he : d = s.now := by omega
        subst he
        cases h
        exact ⟨⟨sh, r, t, 0, rest, fits, box, past, asks, idle, asked, due, fun _ => called (by rw [hp]; trivial), since, both, nofun, nofun, told⟩, rfl⟩
      · cases h
    | _ => rw [hp] at h; cases h
  | back =>
    simp only [step] at h
    simp only [arrivals, List.append_nil, clock, Nat.add_zero]
    cases hp : s.pc with
    | calling k =>
      rw [hp] at h
      dsimp only at h
      split at h
      · next hret =>
        have hfree := not_returned fits hret
        cases sh with
        | free =>
          simp only [left, hp] at told
          cases h
          exact ⟨⟨.free, r, t, 0, rest, fits, box, past, asks, idle, asked, due, fun _ => trivial, since, both, nofun, nofun, told⟩, rfl⟩
        | _ => exact hfree.elim
      · cases h
    | _ => rw [hp] at h; cases h
  | subscribed =>
    simp only [step, Option.map_eq_some_iff] at h
    simp only [arrivals, List.append_nil, clock, Nat.add_zero]
    obtain ⟨it, h1, rfl⟩ := h
    cases sh with
    | free =>
      obtain ⟨hc, hf, ht⟩ := (Iterator.One.come_free fits).2 it h1
      have hb : s.body = .asking := Classical.byContradiction fun hb => by rw [idle hb] at hc; cases hc
      rw [absorb_nothing ht]
      have hc' := hf.consumer
      exact ⟨⟨.free, r, t, free, rest, by rw [hc']; exact hf, box, past, fun _ => .inr hc', fun h => absurd hb h, asked, due, called, since, both, wait, sleep, told⟩, rfl⟩
    | offered n =>
      obtain ⟨hc, ht, hf⟩ := (Iterator.One.come_offered fits).2 it h1
      have hb : s.body = .asking := Classical.byContradiction fun hb => by rw [idle hb] at hc; cases hc
      cases hp : s.pc with
      | calling k =>
        simp only [left, hp, view, hb] at told
        exact inv_take (free := free) hp ht hf box past asked since (both hb) told
      | _ => exact (called (by rw [hp]; trivial)).elim
    | taken =>
      exfalso
      cases hb : s.body with
      | asking =>
        rcases asks hb with h | h
        · exact h.2
        · exact (Iterator.One.come_taken fits (by rw [h]; nofun) (by rw [h]; nofun)).2 it h1
      | _ =>
        have h := idle (by rw [hb]; nofun)
        exact (Iterator.One.come_taken fits (by rw [h]; nofun) (by rw [h]; nofun)).2 it h1
  | run =>
    simp only [step, Option.map_eq_some_iff] at h
    simp only [arrivals, List.append_nil, clock, Nat.add_zero]
    obtain ⟨it, h1, rfl⟩ := h
    cases sh with
    | free => exact (Iterator.One.run_free fits it h1).elim
    | offered n =>
      obtain ⟨hc, ht, hf⟩ := Iterator.One.run_offered fits h1
      have hb : s.body = .asking := Classical.byContradiction fun hb => by rw [idle hb] at hc; cases hc
      cases hp : s.pc with
      | calling k =>
        simp only [left, hp, view, hb] at told
        exact inv_take (free := free) hp ht hf box past asked since (both hb) told
      | _ => exact (called (by rw [hp]; trivial)).elim
    | taken =>
      obtain ⟨hf, ht⟩ := Iterator.One.run_taken fits h1
      rw [absorb_nothing ht]
      have hc := hf.consumer
      cases hp : s.pc with
      | calling k =>
        simp only [left, hp] at told
        refine ⟨⟨.free, r, t, free, rest, by rw [hc]; exact hf, box, past, ?_, ?_, asked, due, fun _ => trivial, since, fun _ => trivial, ?_, ?_, ?_⟩, rfl⟩
        · intro hb
          dsimp only
          rw [hc]
          exact (asks hb).imp (fun h => h.2.elim) id
        · intro hb
          dsimp only
          rw [hc]
          exact idle hb
        · intro u h; cases h
        · intro u k h; cases h
        · intro more
          rw [told more]
          simp only [left, hp]
      | _ => exact (called (by rw [hp]; trivial)).elim
  | anext =>
    simp only [step] at h
    simp only [arrivals, List.append_nil, clock, Nat.add_zero]
    cases hb : s.body with
    | busy d =>
      rw [hb] at h
      dsimp only at h
      split at h
      · next hd =>
        have := due d hb
        have he : d = s.now := by omega
        subst he
        simp only [Option.map_eq_some_iff] at h
        obtain ⟨it, h1, rfl⟩ := h
        have hidle : s.it.consumer = .idle := idle (by rw [hb]; nofun)
        simp only [view, hb] at told
        cases sh with
        | free =>
          obtain ⟨hc, ht⟩ := (Iterator.One.come_free fits).1 it h1
          rcases hc with ⟨hc, -⟩ | ⟨-, hf⟩
          · rw [hidle] at hc; cases hc
          · rw [absorb_nothing (s := { s with body := .asking }) ht]
            have hc' := hf.consumer
            exact ⟨⟨.free, s.now, t, free, rest, by rw [hc']; exact hf, box, past, fun _ => .inr hc', fun h => absurd rfl h, Nat.le_refl _, nofun, called, since, fun _ => trivial, wait, sleep, told⟩, rfl⟩
        | offered n =>
          obtain ⟨-, ht, hf⟩ := (Iterator.One.come_offered fits).1 it (by rw [hidle]; nofun) h1
          cases hp : s.pc with
          | calling k =>
            simp only [left, hp] at told
            exact inv_take (s := { s with body := .asking, pc := .calling k }) (r := s.now) (free := free) rfl ht hf box past (Nat.le_refl _) since (by dsimp only; omega) told
          | _ => exact (called (by rw [hp]; trivial)).elim
        | taken =>
          obtain ⟨-, hf, ht⟩ := (Iterator.One.come_taken fits (by rw [hidle]; nofun) (by rw [hidle]; nofun)).1 it h1
          rw [absorb_nothing (s := { s with body := .asking }) ht]
          have hc' := hf.consumer
          exact ⟨⟨.taken, s.now, t, free, rest, by rw [hc']; exact hf, box, past, fun _ => .inr hc', fun h => absurd rfl h, Nat.le_refl _, nofun, called, since, fun _ => trivial, wait, sleep, told⟩, rfl⟩
      · cases h
    | _ => rw [hb] at h; cases h

theorem inv_run {s0 : σ} {t0 : Nat} {ls : List (Label α)} {s : State α β σ} (hr : LTS.run (step o m gone) ((stage o s0 m gone).init t0) ls = some s) :
    Inv o s0 m gone t0 (arrivals t0 ls) s ∧ s.now = t0 + clock ls := by
  refine LTS.inv_hist (step := step o m gone) (fun ls s => Inv o s0 m gone t0 (arrivals t0 ls) s ∧ s.now = t0 + clock ls) (s0 := (stage o s0 m gone).init t0) ?_ ?_ hr
  · refine ⟨⟨.free, t0, t0, 0, [], ⟨[], [], [], fun _ h => (by cases h), rfl⟩, rfl, fun _ h => (by cases h), fun _ => .inl ⟨rfl, trivial⟩, fun h => absurd rfl h, Nat.le_refl _, nofun, fun _ => trivial,
      Nat.le_refl _, fun _ => trivial, fun _ _ => ⟨Nat.zero_le _, fun _ h => (by cases h)⟩, nofun, fun _ => rfl⟩, rfl⟩
  · intro ls s l t ⟨h1, h2⟩ h
    obtain ⟨h3, h4⟩ := inv_step h1 h
    rw [arrivals_append, clock_append, ← h2]
    exact ⟨h3, by omega⟩

theorem serve_late {t : Nat} {cs : List (Notif α × Nat)} : ∀ {s : σ} {free : Nat} {v : View}, (t ≤ free ∨ ∀ c ∈ cs.head?, t ≤ max c.2 free) →
    ∀ c ∈ serve o m gone s free v cs, t ≤ c.2 := by
  induction cs with
  | nil => intro s free v h; exact fun _ h => (by cases h)
  | cons c cs ih =>
    intro s free v h
    obtain ⟨n, a⟩ := c
    have h0 : t ≤ max a free := by
      rcases h with h | h
      · omega
      · exact h (n, a) rfl
    intro c hc
    obtain ⟨g1, g2⟩ := (Work.body o gone s n).meet_ge m (max a free) v
    rw [serve] at hc
    rcases List.mem_append.mp hc with hc | hc
    · exact Nat.le_trans h0 (g1 c hc)
    · split at hc
      · next he =>
        rw [he] at g2
        exact ih (.inl (Nat.le_trans h0 (g2 _ rfl))) c hc
      · cases hc

theorem cont_late {k : Co β (Option σ)} {t : Nat} {v : View} {cs : List (Notif α × Nat)} : ∀ c ∈ cont o m gone k t v cs, t ≤ c.2 := by
  intro c hc
  obtain ⟨g1, g2⟩ := k.meet_ge m t v
  rw [cont] at hc
  rcases List.mem_append.mp hc with hc | hc
  · exact g1 c hc
  · split at hc
    · next he =>
      rw [he] at g2
      exact serve_late (.inl (g2 _ rfl)) c hc
    · cases hc

/-- What the loop has got is the beginning of what `serve` tells of, and the rest does not come before now. -/
theorem told {s0 : σ} {t0 : Nat} {ls : List (Label α)} {s : State α β σ} (hr : LTS.run (step o m gone) ((stage o s0 m gone).init t0) ls = some s) :
    ∃ r, serve o m gone s0 0 (some (0, t0)) (arrivals t0 ls) = s.sent ++ r ∧ ∀ c ∈ r, s.now ≤ c.2 := by
  obtain ⟨⟨sh, r, t, free, rest, hi⟩, -⟩ := inv_run hr
  have := hi.told []
  rw [List.append_nil, List.append_nil] at this
  refine ⟨_, this, ?_⟩
  intro c hc
  cases hp : s.pc with
  | waiting u =>
    simp only [left, hp] at hc
    exact serve_late (.inr fun c hc => by rw [(hi.wait u hp).2 c hc]; exact Nat.le_refl _) c hc
  | running k => simp only [left, hp] at hc; exact cont_late c hc
  | asleep d k => simp only [left, hp] at hc; exact Nat.le_trans (hi.sleep d k hp) (cont_late c hc)
  | halted => simp [left, hp] at hc
  | calling k =>
    simp only [left, hp] at hc
    cases sh with
    | free => exact cont_late c hc
    | taken => exact cont_late c hc
    | offered n =>
      dsimp only at hc
      have key : ∀ r', s.now ≤ max t r' → c ∈ cont o m gone (.call n k) t (some (s.sent.length, r')) rest → s.now ≤ c.2 := by
        intro r' h hc
        cases n with
        | next v =>
          rw [cont_next] at hc
          rcases List.mem_cons.mp hc with rfl | hc
          · exact h
          · exact Nat.le_trans h (cont_late c hc)
        | error e => rw [cont_error, List.mem_singleton] at hc; subst hc; exact h
        | completed => rw [cont_completed, List.mem_singleton] at hc; subst hc; exact h
      cases hb : s.body with
      | asking =>
        have := hi.both hb
        simp only [Met] at this
        exact key r (by omega) (by simpa only [hb, view] using hc)
      | busy d => exact key d (by have := hi.due d hb; omega) (by simpa only [hb, view] using hc)
      | over => simp [hb, view, cont_over] at hc

end Loop
end Aio
