import Verif.Spec.Iterator
import Verif.Lemmas.Lists
/-!
# The invariant of AsyncIteratorObserver
-/

namespace Aio.Iterator
variable {α : Type}

/-- Where the event that was handed over last is: there is none; in `_push`; taken, but the producer has not gone on
yet. -/
inductive Mode (α : Type) where
  | free
  | full (c : Nat) (n : Notif α)
  | taken (c : Nat) (n : Notif α)

def Mode.busy : Mode α → Bool
  | free => false
  | _ => true
def Mode.push : Mode α → Option (Notif α)
  | full _ n => some n
  | _ => none
def Mode.pull : Mode α → Bool
  | taken _ _ => true
  | _ => false
def Mode.pulls : Mode α → List Waiter
  | taken c _ => [.pull c]
  | _ => []
def Mode.cur : Mode α → Option (Nat × Notif α)
  | free => none
  | full c n => some (c, n)
  | taken c n => some (c, n)
/-- The consumer, if it waits and can go on. -/
def Mode.wake (m : Mode α) (k : Consumer) : List Waiter :=
  match m, k with
  | full _ _, .waiting => [.consumer]
  | _, _ => []

/-- What a call is doing. `q`: those that wait for their turn. -/
def Fits (m : Mode α) (q : List Nat) (sent : List (Notif α)) (handed : List (Nat × Notif α)) (c : Nat) : Call α → Prop
  | .blocked n => c ∈ q ∧ sent[c]? = some n
  | .sending n => m.cur = some (c, n)
  | .returned => c ∈ handed.map (·.1) ∧ ∀ n, m.cur ≠ some (c, n)
  | .raised _ => False

structure Shape (ls : List (Label α)) (s : State α) (m : Mode α) (t : Option Nat) (rest : List Nat)
    (vs : List α) (k : Nat) : Prop where
  busy : s.busy = m.busy
  push : s.push = m.push
  pull : s.pull = m.pull
  awaiters : s.awaiters = t.toList.map (·, true) ++ rest.map (·, false)
  ready : s.ready = m.pulls ++ t.toList.map .turn ++ m.wake s.consumer
  len : s.calls.length = (made ls).length
  fits : ∀ (c : Nat) x, s.calls[c]? = some x → Fits m (t.toList ++ rest) (made ls) s.handed c x
  bound : ∀ c ∈ t.toList ++ rest ++ s.handed.map (·.1), c < s.calls.length
  nodup : (t.toList ++ rest ++ s.handed.map (·.1)).Nodup
  handed : ∀ x ∈ s.handed, (made ls)[x.1]? = some x.2
  cur : ∀ x, m.cur = some x → ∃ h, s.handed = h ++ [x]
  vals : s.handed.map (·.2) = vs.map .next ++ m.push.toList
  took : ∃ n, s.taken = vs.map .value ++ List.replicate k (Took.of n) ∧ (k = 0 ∨ (m.push = some n ∧ n.isTerminal = true))

def Inv (ls : List (Label α)) (s : State α) : Prop := ∃ m t rest vs k, Shape ls s m t rest vs k

theorem made_snoc (ls : List (Label α)) (l : Label α) : made (ls ++ [l]) =
    made ls ++ (match l with | .call n => [n] | _ => []) := by
  rw [made, List.filterMap_append]; cases l <;> rfl

theorem getElem_set_if {β : Type} {l : List β} {c0 : Nat} (h : c0 < l.length) {x : β} {c : Nat} :
    (l.set c0 x)[c]? = if c = c0 then some x else l[c]? := by
  rw [List.getElem?_set]
  by_cases hc : c = c0
  · subst hc; simp [h]
  · rw [if_neg (fun h => hc h.symm), if_neg hc]

theorem getElem_push_if {β : Type} {l : List β} {x : β} {c : Nat} :
    (l ++ [x])[c]? = if c = l.length then some x else l[c]? := by
  by_cases hc : c = l.length
  · subst hc; simp
  · rw [if_neg hc]
    by_cases hl : c < l.length
    · exact List.getElem?_append_left hl
    · rw [List.getElem?_eq_none (l := l) (by omega), List.getElem?_eq_none (by simp; omega)]

/-- A call hands its event over in a free state. -/
theorem shape_handOver {ls : List (Label α)} {s : State α} {rest vs} {c : Nat} {n : Notif α} {x0}
    (hbusy : s.busy = true) (hpush : s.push = none) (hpull : s.pull = false)
    {t : Option Nat}
    (haw : s.awaiters = t.toList.map (·, true) ++ rest.map (·, false))
    (hready : s.ready = t.toList.map .turn)
    (hlen : s.calls.length = (made ls).length)
    (hfits : ∀ (c' : Nat) x, c' ≠ c → s.calls[c']? = some x → Fits .free (t.toList ++ rest) (made ls) s.handed c' x)
    (hc : s.calls[c]? = some x0) (hn : (made ls)[c]? = some n)
    (hbound : ∀ c ∈ t.toList ++ rest ++ s.handed.map (·.1), c < s.calls.length)
    (hnodup : (t.toList ++ rest ++ s.handed.map (·.1)).Nodup) (hnew : c ∉ t.toList ++ rest ++ s.handed.map (·.1))
    (hhanded : ∀ x ∈ s.handed, (made ls)[x.1]? = some x.2)
    (hvals : s.handed.map (·.2) = vs.map .next)
    (htook : s.taken = vs.map .value) : Shape ls (s.handOver c n) (.full c n) t rest vs 0 := by
  have hlt := (List.getElem?_eq_some_iff.mp hc).1
  have hs : s.handOver c n = { s with
      push := some n, handed := s.handed ++ [(c, n)]
      ready := if s.consumer = Consumer.waiting then s.ready ++ [.consumer] else s.ready
      calls := s.calls.set c (.sending n) } := by
    simp [State.handOver, hpush, hpull]
  rw [hs]
  refine ⟨hbusy, rfl, hpull, haw, ?_, ?_, ?_, ?_, ?_, ?_, ?_, ?_, ⟨n, ?_, Or.inl rfl⟩⟩
  · cases hk : s.consumer <;> simp [Mode.pulls, Mode.wake, hready]
  · simpa using hlen
  · intro c' x hx
    by_cases he : c' = c
    · subst he
      rw [getElem_set_if hlt, if_pos rfl] at hx
      cases hx; rfl
    · rw [getElem_set_if hlt, if_neg he] at hx
      have := hfits c' x he hx
      cases x with
      | blocked n' => exact this
      | sending n' => cases this
      | returned =>
        refine ⟨by simpa using Or.inl (by simpa using this.1), fun n' hn' => he ?_⟩
        cases hn'; rfl
      | raised e => exact this
  · intro c' hc'
    rw [List.map_append, ← List.append_assoc] at hc'
    rcases List.mem_append.mp hc' with h | h
    · simpa using hbound c' h
    · simp at h; subst h; simpa using hlt
  · rw [List.map_append, ← List.append_assoc]
    refine List.nodup_append.mpr ⟨hnodup, by simp, ?_⟩
    intro a ha b hb hab
    simp at hb; subst hb; subst hab; exact hnew ha
  · intro x hx
    rcases List.mem_append.mp hx with h | h
    · exact hhanded x h
    · simp at h; subst h; exact hn
  · intro x hx; cases hx; exact ⟨s.handed, rfl⟩
  · simp [hvals, Mode.push]
  · simp [htook]

theorem Shape.taken_free {ls : List (Label α)} {s : State α} {m t rest vs k} (h : Shape ls s m t rest vs k)
    (hm : m.push = none) : s.taken = vs.map .value := by
  obtain ⟨n, h1, h2⟩ := h.took
  rcases h2 with h2 | h2
  · simpa [h2] using h1
  · rw [hm] at h2; exact absurd h2.1 (by simp)

theorem Shape.blocked {ls : List (Label α)} {s : State α} {m t rest vs k} (h : Shape ls s m t rest vs k) {c : Nat}
    (hc : c ∈ t.toList ++ rest) : ∃ n, s.calls[c]? = some (.blocked n) ∧ (made ls)[c]? = some n := by
  have hlt := h.bound c (List.mem_append_left _ hc)
  have hx : s.calls[c]? = some s.calls[c] := List.getElem?_eq_getElem hlt
  have hnot : c ∉ s.handed.map (·.1) := by
    intro hh
    exact (List.nodup_append.mp h.nodup).2.2 c hc c hh rfl
  have := h.fits c _ hx
  cases hxx : s.calls[c] with
  | blocked n => rw [hxx] at this hx; exact ⟨n, hx, this.2⟩
  | sending n =>
    rw [hxx] at this
    obtain ⟨p, hp⟩ := h.cur _ this
    exact absurd (by rw [hp]; simp) hnot
  | returned => rw [hxx] at this; exact absurd this.1 hnot
  | raised e => rw [hxx] at this; exact this.elim

theorem Shape.sending {ls : List (Label α)} {s : State α} {m t rest vs k} (h : Shape ls s m t rest vs k) {c : Nat} {n}
    (hc : m.cur = some (c, n)) : s.calls[c]? = some (.sending n) := by
  obtain ⟨p, hp⟩ := h.cur _ hc
  have hin : c ∈ s.handed.map (·.1) := by rw [hp]; simp
  have hlt := h.bound c (List.mem_append_right _ hin)
  have hx : s.calls[c]? = some s.calls[c] := List.getElem?_eq_getElem hlt
  have := h.fits c _ hx
  cases hxx : s.calls[c] with
  | blocked n =>
    rw [hxx] at this
    exact absurd rfl ((List.nodup_append.mp h.nodup).2.2 c this.1 c hin)
  | sending n' =>
    rw [hxx] at this hx
    rw [hx]
    have h3 : m.cur = some (c, n') := this
    rw [hc] at h3; cases h3; rfl
  | returned => rw [hxx] at this; exact absurd hc (this.2 n)
  | raised e => rw [hxx] at this; exact this.elim

theorem Shape.senders {ls : List (Label α)} {s : State α} {m t rest vs k} (h : Shape ls s m t rest vs k) {c : Nat} {n}
    (hc : m.cur = some (c, n)) : ((List.range s.calls.length).filter fun c => isSending s.calls[c]?) = [c] := by
  have hs := h.sending hc
  refine filter_range_one ?_ (List.getElem?_eq_some_iff.mp hs).1
  intro x hx
  constructor
  · intro hp
    cases hxx : s.calls[x]? with
    | none => rw [hxx] at hp; cases hp
    | some y =>
      rw [hxx] at hp
      cases y with
      | sending n' =>
        have h3 : m.cur = some (x, n') := h.fits x _ hxx
        rw [hc] at h3; cases h3; rfl
      | _ => cases hp
  · intro he; subst he; rw [hs]; rfl

/-- The consumer gets what is in `_push`. -/
theorem shape_take {ls : List (Label α)} {s : State α} {rest vs k} {c : Nat} {n : Notif α}
    (h : Shape ls { s with consumer := .idle } (.full c n) none rest vs k) : Inv ls (s.take n) := by
  obtain ⟨n0, h1, h2⟩ := h.took
  have hready : s.ready = [] := by simpa [Mode.pulls, Mode.wake] using h.ready
  cases n with
  | next v =>
    have hk : k = 0 := by
      rcases h2 with h2 | h2
      · exact h2
      · obtain ⟨h3, h4⟩ := h2
        cases h3; cases h4
    have hp : s.pull = false := h.pull
    have hsend := h.senders (c := c) (n := .next v) rfl
    dsimp only at hsend
    have haw : s.awaiters = rest.map (·, false) := by simpa using h.awaiters
    have hc1 := h.sending (c := c) (n := .next v) rfl
    -- what does not depend on who is woken
    have key : ∀ (t' : Option Nat) (rest' : List Nat), t'.toList ++ rest' = rest →
        Shape ls { s with
          push := none, pull := true, awaiters := t'.toList.map (·, true) ++ rest'.map (·, false)
          ready := [.pull c] ++ t'.toList.map .turn, consumer := .idle, taken := s.taken ++ [.value v] }
          (.taken c (.next v)) t' rest' (vs ++ [v]) 0 := by
      intro t' rest' he
      refine ⟨h.busy, rfl, rfl, rfl, ?_, h.len, ?_, ?_, ?_, h.handed, ?_, ?_, ⟨.completed, ?_, Or.inl rfl⟩⟩
      · simp [Mode.pulls, Mode.wake]
      · intro c' x hx
        have := h.fits c' x hx
        rw [he]
        cases x with
        | blocked n' => exact this
        | sending n' => exact this
        | returned => exact this
        | raised e => exact this
      · rw [he]; exact h.bound
      · rw [he]; exact h.nodup
      · intro x hx; exact h.cur x hx
      · have := h.vals
        simpa [Mode.push] using this
      · have : s.taken = vs.map .value := by simpa [hk] using h1
        simp [this]
    cases rest with
    | nil =>
      have := key none [] rfl
      refine ⟨.taken c (.next v), none, [], vs ++ [v], 0, ?_⟩
      · simp only [State.take, hp, hsend, haw, hready]
        exact this
    | cons r rs =>
      have := key (some r) rs rfl
      refine ⟨.taken c (.next v), some r, rs, vs ++ [v], 0, ?_⟩
      · simp only [State.take, hp, hsend, haw, hready, List.map_cons]
        exact this
  | error e =>
    refine ⟨.full c (.error e), none, rest, vs, k + 1, ⟨h.busy, h.push, h.pull, h.awaiters, h.ready, h.len, h.fits,
      h.bound, h.nodup, h.handed, h.cur, h.vals, ⟨.error e, ?_, Or.inr ⟨rfl, rfl⟩⟩⟩⟩
    have h1 : s.taken = _ := h1
    rcases h2 with h2 | h2
    · subst h2; simp [State.take, h1, Took.of]
    · have := h2.1; cases this
      rw [List.replicate_succ', ← List.append_assoc, ← h1]; rfl
  | completed =>
    refine ⟨.full c .completed, none, rest, vs, k + 1, ⟨h.busy, h.push, h.pull, h.awaiters, h.ready, h.len, h.fits,
      h.bound, h.nodup, h.handed, h.cur, h.vals, ⟨.completed, ?_, Or.inr ⟨rfl, rfl⟩⟩⟩⟩
    have h1 : s.taken = _ := h1
    rcases h2 with h2 | h2
    · subst h2; simp [State.take, h1, Took.of]
    · have := h2.1; cases this
      rw [List.replicate_succ', ← List.append_assoc, ← h1]; rfl

/-- The consumer comes to `await self._push`. -/
theorem shape_receive {ls : List (Label α)} {s : State α} {m t rest vs k} (h : Shape ls s m t rest vs k)
    (ht : isTurn s.ready = false) (hk : s.consumer ≠ .waiting) : Inv ls s.receive := by
  have hw : m.wake s.consumer = [] := by
    cases m <;> cases hc : s.consumer <;> simp_all [Mode.wake]
  have hpush := h.push
  cases m with
  | full c n =>
    have hready := h.ready
    rw [hw] at hready
    cases t with
    | some t => rw [hready] at ht; simp [Mode.pulls, isTurn] at ht
    | none =>
      rw [State.receive, hpush]
      refine shape_take (c := c) (rest := rest) (vs := vs) (k := k) ?_
      exact ⟨h.busy, h.push, h.pull, h.awaiters, by simpa [Mode.wake] using hready, h.len, h.fits, h.bound, h.nodup,
        h.handed, h.cur, h.vals, h.took⟩
  | free =>
    have he : s.receive = { s with consumer := .waiting } := by simp [State.receive, hpush, Mode.push]
    rw [he]
    exact ⟨.free, t, rest, vs, k, ⟨h.busy, h.push, h.pull, h.awaiters, by simpa [Mode.wake] using h.ready, h.len, h.fits,
      h.bound, h.nodup, h.handed, h.cur, h.vals, h.took⟩⟩
  | taken c n =>
    have he : s.receive = { s with consumer := .waiting } := by simp [State.receive, hpush, Mode.push]
    rw [he]
    exact ⟨.taken c n, t, rest, vs, k, ⟨h.busy, h.push, h.pull, h.awaiters, by simpa [Mode.wake] using h.ready, h.len,
      h.fits, h.bound, h.nodup, h.handed, h.cur, h.vals, h.took⟩⟩

theorem Shape.congr {ls ls' : List (Label α)} {s : State α} {m t rest vs k} (h : Shape ls s m t rest vs k)
    (he : made ls' = made ls) : Shape ls' s m t rest vs k := by
  obtain ⟨h1, h2, h3, h4, h5, h6, h7, h8, h9, h10, h11, h12, h13⟩ := h
  exact ⟨h1, h2, h3, h4, h5, he ▸ h6, he ▸ h7, h8, h9, he ▸ h10, h11, h12, h13⟩

theorem Fits.mono {m : Mode α} {q q' sent sent' handed c x} (h : Fits m q sent handed c x)
    (hq : c ∈ q → c ∈ q') (hs : ∀ n, sent[c]? = some n → sent'[c]? = some n) : Fits m q' sent' handed c x := by
  cases x with
  | blocked n => exact ⟨hq h.1, hs n h.2⟩
  | sending n => exact h
  | returned => exact h
  | raised e => exact h

theorem get_append_old {β : Type} {l : List β} {x y : β} {c : Nat} (h : l[c]? = some y) : (l ++ [x])[c]? = some y := by
  rw [List.getElem?_append_left (List.getElem?_eq_some_iff.mp h).1]; exact h

theorem inv_step (ls : List (Label α)) (s : State α) (l : Label α) (s' : State α)
    (h : Inv ls s) (hs : step s l = some s') : Inv (ls ++ [l]) s' := by
  obtain ⟨m, t, rest, vs, k, h⟩ := h
  cases l with
  | call n =>
    have hm : made (ls ++ [.call n]) = made ls ++ [n] := made_snoc ls _
    simp only [step, Option.some.injEq] at hs
    subst hs
    have hnew : s.calls.length ∉ t.toList ++ rest ++ s.handed.map (·.1) :=
      fun hh => Nat.lt_irrefl _ (h.bound _ hh)
    have hget : (made (ls ++ [.call n]))[s.calls.length]? = some n := by rw [hm, h.len]; simp
    have holdfits : ∀ (c : Nat) x, c ≠ s.calls.length → (s.calls ++ [Call.returned])[c]? = some x →
        Fits m (t.toList ++ rest) (made (ls ++ [.call n])) s.handed c x := by
      intro c x hne hx
      rw [getElem_push_if, if_neg hne] at hx
      exact (h.fits c x hx).mono (fun h => h) (fun n' hn' => by rw [hm]; exact get_append_old hn')
    have hhand : ∀ x ∈ s.handed, (made (ls ++ [.call n]))[x.1]? = some x.2 := fun x hx => by
      rw [hm]; exact get_append_old (h.handed x hx)
    by_cases hb : s.busy = true
    · have he : State.access { s with calls := s.calls ++ [.returned] } s.calls.length n =
          { s with awaiters := s.awaiters ++ [(s.calls.length, false)], calls := s.calls ++ [.blocked n] } := by
        simp [State.access, hb]
      rw [he]
      refine ⟨m, t, rest ++ [s.calls.length], vs, k, ⟨h.busy, h.push, h.pull, ?_, h.ready, ?_, ?_, ?_, ?_, hhand, h.cur,
        h.vals, h.took⟩⟩
      · simp [h.awaiters]
      · simp [hm, h.len]
      · intro c x hx
        dsimp only at hx
        by_cases hne : c = s.calls.length
        · subst hne
          rw [getElem_push_if, if_pos rfl] at hx
          cases hx
          exact ⟨by simp, hget⟩
        · refine (holdfits c x hne (by rw [getElem_push_if, if_neg hne] at hx ⊢; exact hx)).mono ?_ (fun _ h => h)
          intro hh; rw [← List.append_assoc]; exact List.mem_append_left _ hh
      · intro c hc
        simp only [List.length_append, List.length_singleton]
        simp only [List.mem_append, List.mem_singleton] at hc
        have := fun hh => h.bound c hh
        simp only [List.mem_append] at this
        rcases hc with (hc | hc | hc) | hc
        · have := this (Or.inl (Or.inl hc)); omega
        · have := this (Or.inl (Or.inr hc)); omega
        · omega
        · have := this (Or.inr hc); omega
      · have hperm : (t.toList ++ (rest ++ [s.calls.length]) ++ s.handed.map (·.1)).Perm
            (s.calls.length :: (t.toList ++ rest ++ s.handed.map (·.1))) := by
          rw [← List.append_assoc, List.append_assoc (t.toList ++ rest)]
          exact List.perm_middle
        exact hperm.nodup_iff.mpr (List.nodup_cons.mpr ⟨hnew, h.nodup⟩)
    · have hfree : m = .free := by
        have := h.busy
        cases m <;> simp_all [Mode.busy]
      subst hfree
      have he : State.access { s with calls := s.calls ++ [.returned] } s.calls.length n =
          State.handOver { s with calls := s.calls ++ [.returned], busy := true } s.calls.length n := by
        simp [State.access, hb]
      rw [he]
      refine ⟨.full s.calls.length n, t, rest, vs, 0, shape_handOver
        (s := { s with calls := s.calls ++ [.returned], busy := true }) (x0 := .returned) rfl h.push h.pull h.awaiters ?_ ?_ holdfits ?_ hget ?_
        h.nodup hnew hhand ?_ (h.taken_free rfl)⟩
      · simpa [Mode.pulls, Mode.wake] using h.ready
      · simp [hm, h.len]
      · simp
      · intro c hc
        have := h.bound c hc
        simp only [List.length_append, List.length_singleton]; omega
      · simpa [Mode.push] using h.vals
  | anext =>
    have h := h.congr (ls' := ls ++ [.anext]) (by rw [made_snoc]; simp)
    simp only [step] at hs
    split at hs
    · cases hs
    · rename_i ht
      split at hs
      · rename_i hk
        cases hs
        refine ⟨m, t, rest, vs, k, ⟨h.busy, h.push, h.pull, h.awaiters, ?_, h.len, h.fits, h.bound, h.nodup, h.handed,
          h.cur, h.vals, h.took⟩⟩
        have := h.ready
        rw [hk] at this
        cases m <;> simpa [Mode.wake] using this
      · rename_i hk
        cases hs
        exact shape_receive h (by simpa using ht) (by rw [hk]; simp)
      · cases hs
  | subscribed =>
    have h := h.congr (ls' := ls ++ [.subscribed]) (by rw [made_snoc]; simp)
    simp only [step] at hs
    split at hs
    · cases hs
    · rename_i ht
      split at hs
      · rename_i hk
        cases hs
        exact shape_receive h (by simpa using ht) (by rw [hk]; simp)
      · cases hs
  | run =>
    have h := h.congr (ls' := ls ++ [.run]) (by rw [made_snoc]; simp)
    have hready := h.ready
    simp only [step] at hs
    cases m with
    | taken c n =>
      simp only [Mode.pulls, List.cons_append, List.nil_append] at hready
      rw [hready] at hs
      simp only [Option.some.injEq] at hs
      subst hs
      have hc := h.sending (c := c) (n := n) rfl
      have hlt := (List.getElem?_eq_some_iff.mp hc).1
      obtain ⟨p, hp⟩ := h.cur (c, n) rfl
      refine ⟨.free, t, rest, vs, 0, ⟨rfl, h.push, rfl, h.awaiters, ?_, ?_, ?_, ?_, h.nodup, h.handed, ?_, h.vals,
        ⟨.completed, ?_, Or.inl rfl⟩⟩⟩
      · simp [Mode.pulls, Mode.wake]
      · simpa using h.len
      · intro c' x hx
        dsimp only at hx
        rw [getElem_set_if hlt] at hx
        split at hx
        · rename_i he; subst he; cases hx
          exact ⟨by rw [hp]; simp, fun n' => by simp [Mode.cur]⟩
        · rename_i hne
          have := h.fits c' x hx
          cases x with
          | blocked n' => exact this
          | sending n' =>
            have h3 : some (c, n) = some (c', n') := this
            cases h3; exact absurd rfl hne
          | returned => exact ⟨this.1, fun n' => by simp [Mode.cur]⟩
          | raised e => exact this
      · intro c' hc'; simpa using h.bound c' hc'
      · intro x hx; cases hx
      · simpa using h.taken_free rfl
    | free =>
      simp only [Mode.pulls, Mode.wake, List.nil_append, List.append_nil] at hready
      cases t with
      | none => rw [hready] at hs; cases hs
      | some c =>
        rw [hready] at hs
        obtain ⟨n, hc, hn⟩ := h.blocked (c := c) (by simp)
        simp only [Option.toList, List.map_cons, List.map_nil, hc, Option.some.injEq] at hs
        subst hs
        have hb : s.busy = false := h.busy
        have hnd := h.nodup
        simp only [Option.toList, List.cons_append, List.nil_append, List.nodup_cons] at hnd
        have he : ∀ aw, State.access { s with ready := [], awaiters := aw } c n =
            State.handOver { s with ready := [], awaiters := aw, busy := true } c n := by
          intro aw; simp [State.access, hb]
        rw [he]
        refine ⟨.full c n, none, rest, vs, 0, shape_handOver (s := { s with ready := [], awaiters := _, busy := true })
          (x0 := .blocked n) rfl h.push h.pull ?_ rfl h.len ?_ hc hn ?_
          hnd.2 hnd.1 h.handed ?_ (h.taken_free rfl)⟩
        · show s.awaiters.filter _ = _
          rw [h.awaiters]
          have : ∀ x ∈ rest, x ≠ c := fun x hx he => hnd.1 (List.mem_append_left _ (he ▸ hx))
          simp only [Option.toList, List.map_cons, List.map_nil, List.cons_append, List.nil_append]
          rw [List.filter_cons]
          simp only [ne_eq, not_true_eq_false, decide_false, Bool.false_eq_true, if_false]
          rw [List.filter_eq_self]
          intro x hx
          obtain ⟨y, hy, rfl⟩ := List.mem_map.mp hx
          simpa using this y hy
        · intro c' x hne hx
          refine (h.fits c' x hx).mono ?_ (fun _ h => h)
          intro hh
          simp only [Option.toList, List.cons_append, List.nil_append, List.mem_cons] at hh ⊢
          exact hh.resolve_left hne
        · intro c' hc'
          exact h.bound c' (by
            simp only [Option.toList, List.cons_append, List.nil_append, List.mem_cons] at hc' ⊢; exact Or.inr hc')
        · simpa [Mode.push] using h.vals
    | full c n =>
      simp only [Mode.pulls, List.nil_append] at hready
      cases t with
      | none =>
        cases hk : s.consumer with
        | waiting =>
          rw [hk] at hready
          rw [hready] at hs
          have hp : s.push = some n := h.push
          simp only [Mode.wake, Option.toList, List.map_nil, List.nil_append, hp, Option.some.injEq] at hs
          subst hs
          refine shape_take (c := c) (rest := rest) (vs := vs) (k := k) ?_
          exact ⟨h.busy, rfl, h.pull, h.awaiters, by simp [Mode.wake, Mode.pulls], h.len, h.fits, h.bound, h.nodup,
            h.handed, h.cur, h.vals, h.took⟩
        | fresh => rw [hk] at hready; rw [hready] at hs; cases hs
        | subscribing => rw [hk] at hready; rw [hready] at hs; cases hs
        | idle => rw [hk] at hready; rw [hready] at hs; cases hs
      | some c1 =>
        rw [hready] at hs
        obtain ⟨n1, hc, hn⟩ := h.blocked (c := c1) (by simp)
        simp only [Option.toList, List.map_cons, List.map_nil, List.cons_append, List.nil_append, hc,
          Option.some.injEq] at hs
        subst hs
        have hb : s.busy = true := h.busy
        have hnd := h.nodup
        simp only [Option.toList, List.cons_append, List.nil_append, List.nodup_cons] at hnd
        have hlt := (List.getElem?_eq_some_iff.mp hc).1
        have he : ∀ aw rd, State.access { s with ready := rd, awaiters := aw } c1 n1 =
            { s with ready := rd, awaiters := aw ++ [(c1, false)], calls := s.calls.set c1 (.blocked n1) } := by
          intro aw rd; simp [State.access, hb]
        rw [he]
        have hmem : ∀ x, x ∈ ((none : Option Nat).toList ++ (rest ++ [c1])) ↔ x ∈ (some c1).toList ++ rest := by
          intro x; simp [or_comm]
        refine ⟨.full c n, none, rest ++ [c1], vs, k, ⟨h.busy, h.push, h.pull, ?_, ?_, ?_, ?_, ?_, ?_, h.handed, h.cur,
          h.vals, h.took⟩⟩
        · show s.awaiters.filter _ ++ _ = _
          rw [h.awaiters]
          have : ∀ x ∈ rest, x ≠ c1 := fun x hx he => hnd.1 (List.mem_append_left _ (he ▸ hx))
          simp only [Option.toList, List.map_cons, List.map_nil, List.cons_append, List.nil_append]
          rw [List.filter_cons]
          simp only [ne_eq, not_true_eq_false, decide_false, Bool.false_eq_true, if_false]
          rw [List.filter_eq_self.mpr]
          · simp
          · intro x hx
            obtain ⟨y, hy, rfl⟩ := List.mem_map.mp hx
            simpa using this y hy
        · simp [Mode.pulls]
        · simpa using h.len
        · intro c' x hx
          dsimp only at hx
          rw [getElem_set_if hlt] at hx
          split at hx
          · rename_i he; subst he; cases hx
            exact ⟨(hmem _).mpr (by simp), hn⟩
          · exact (h.fits c' x hx).mono (fun hh => (hmem _).mpr hh) (fun _ h => h)
        · intro c' hc'
          rw [List.length_set]
          refine h.bound c' ?_
          rcases List.mem_append.mp hc' with hh | hh
          · exact List.mem_append_left _ ((hmem _).mp hh)
          · exact List.mem_append_right _ hh
        · have hperm : ((none : Option Nat).toList ++ (rest ++ [c1]) ++ s.handed.map (·.1)).Perm
              (c1 :: (rest ++ s.handed.map (·.1))) := by
            simp only [Option.toList, List.nil_append, List.append_assoc]
            exact List.perm_middle
          exact hperm.nodup_iff.mpr (List.nodup_cons.mpr hnd)

theorem inv_init : Inv [] (init : State α) :=
  ⟨.free, none, [], [], 0, ⟨rfl, rfl, rfl, rfl, rfl, rfl, by simp [init], by simp [init], by simp [init], by simp [init],
    by simp [Mode.cur], by simp [init, Mode.push], ⟨.completed, by simp [init], Or.inl rfl⟩⟩⟩

theorem inv_run {ls : List (Label α)} {s : State α} (h : LTS.run step init ls = some s) : Inv ls s :=
  LTS.inv_hist Inv (s0 := init) inv_init inv_step h

end Aio.Iterator
