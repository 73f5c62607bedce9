import Verif.Lemmas.Iterator
/-!
# C17 - C19: AsyncIteratorObserver
-/

namespace Aio.Iterator
variable {α : Type}

/-- Two producers; the second call waits for its turn; the consumer takes both values, then the end. -/
def demo : List (Label Nat) :=
  [.anext, .call (.next 1), .call (.next 2), .subscribed, .run, .run, .anext, .run, .call .completed, .anext]

example : (LTS.run step init demo).map (fun s => (s.taken, s.handed)) =
    some ([.value 1, .value 2, .stop], [(0, .next 1), (1, .next 2), (2, .completed)]) := by decide

theorem valuesOf_next (vs : List α) (r : List (Notif α)) : valuesOf (vs.map .next ++ r) = vs ++ valuesOf r := by
  induction vs with
  | nil => rfl
  | cons v vs ih => simp only [valuesOf, List.map_cons, List.cons_append, List.filterMap_cons] at ih ⊢; rw [ih]

theorem yielded_value (vs : List α) (r : List (Took α)) : yielded (vs.map .value ++ r) = vs ++ yielded r := by
  induction vs with
  | nil => rfl
  | cons v vs ih => simp only [yielded, List.map_cons, List.cons_append, List.filterMap_cons] at ih ⊢; rw [ih]

theorem yielded_replicate {n : Notif α} (hn : n.isTerminal = true) (k : Nat) :
    yielded (List.replicate k (Took.of n)) = [] := by
  induction k with
  | zero => rfl
  | succ k ih =>
    cases n with
    | next v => cases hn
    | error e => simpa [List.replicate_succ, yielded, Took.of] using ih
    | completed => simpa [List.replicate_succ, yielded, Took.of] using ih

theorem Shape.yielded {ls : List (Label α)} {s : State α} {m t rest vs k} (h : Shape ls s m t rest vs k) :
    yielded s.taken = vs := by
  obtain ⟨n, h1, h2⟩ := h.took
  rw [h1, yielded_value]
  rcases h2 with h2 | h2
  · simp [h2, Iterator.yielded]
  · rw [yielded_replicate h2.2]; simp

theorem Shape.queue_nil {ls : List (Label α)} {s : State α} {m t rest vs k} (h : Shape ls s m t rest vs k)
    (ha : s.awaiters = []) : t.toList ++ rest = [] := by
  have := h.awaiters
  rw [ha] at this
  cases t with
  | some t => cases this
  | none => cases rest with
    | nil => rfl
    | cons r rs => cases this

theorem Shape.free {ls : List (Label α)} {s : State α} {m t rest vs k} (h : Shape ls s m t rest vs k)
    (hk : s.consumer = .waiting) (hrd : s.ready = []) : m = .free := by
  have := h.ready
  rw [hk, hrd] at this
  cases m with
  | free => rfl
  | full c n => simp [Mode.pulls, Mode.wake] at this
  | taken c n => simp [Mode.pulls, Mode.wake] at this

/-- C17. What the iteration has yielded, followed by the value that lies in `_push`, if any, are the values handed
over, in order; and a call is handed over at most once, with the event it was called with. -/
theorem C17_yields_what_was_handed_over {ls : List (Label α)} {s : State α} (hr : LTS.run step init ls = some s) :
    yielded s.taken ++ valuesOf s.push.toList = valuesOf (s.handed.map (·.2)) ∧
    (s.handed.map (·.1)).Nodup ∧ ∀ x ∈ s.handed, (made ls)[x.1]? = some x.2 := by
  obtain ⟨m, t, rest, vs, k, h⟩ := inv_run hr
  refine ⟨?_, (List.nodup_append.mp h.nodup).2.1, h.handed⟩
  rw [h.yielded, h.vals, valuesOf_next, h.push]

/-- C17. The n-th call of `__anext__` that returned did so with the n-th event handed over, as long as no terminal event
was; so every prefix of the iteration is a prefix of what was handed over. -/
theorem C17_nth {ls : List (Label α)} {s : State α} (hr : LTS.run step init ls = some s) {i : Nat} {v : α} :
    s.taken[i]? = some (.value v) → ∃ c, s.handed[i]? = some (c, .next v) := by
  obtain ⟨m, t, rest, vs, k, h⟩ := inv_run hr
  intro hi
  obtain ⟨n, h1, h2⟩ := h.took
  have hlt : i < vs.length := by
    rcases Nat.lt_or_ge i vs.length with hh | hh
    · exact hh
    · rw [h1, List.getElem?_append_right (by simpa using hh)] at hi
      obtain ⟨hlt, hval⟩ := List.getElem?_eq_some_iff.mp hi
      rw [List.getElem_replicate] at hval
      rcases h2 with h2 | h2
      · simp [h2] at hlt
      · cases n with
        | next v => cases h2.2
        | error e => cases hval
        | completed => cases hval
  rw [h1, List.getElem?_append_left (by simpa using hlt), List.getElem?_map, List.getElem?_eq_getElem hlt] at hi
  have h3 : (s.handed.map (·.2))[i]? = some (.next vs[i]) := by
    rw [h.vals, List.getElem?_append_left (by simpa using hlt), List.getElem?_map, List.getElem?_eq_getElem hlt]; rfl
  obtain ⟨x, hx, hx2⟩ := get_map.mp h3
  have h5 : vs[i] = v := by simpa using hi
  exact ⟨x.1, by rw [hx, ← h5, ← hx2]⟩

/-- C17. No producer and no `__anext__` ever sees an error of a future that is set twice. -/
theorem C17_no_invalid_state {ls : List (Label α)} {s : State α} (hr : LTS.run step init ls = some s)
    (hm : ∀ n ∈ made ls, n ≠ .error .invalidState) :
    (∀ (c : Nat) e, s.calls[c]? ≠ some (.raised e)) ∧ Took.raised .invalidState ∉ s.taken := by
  obtain ⟨m, t, rest, vs, k, h⟩ := inv_run hr
  refine ⟨fun c e hc => h.fits c _ hc, ?_⟩
  obtain ⟨n, h1, h2⟩ := h.took
  rw [h1]
  intro hin
  rcases List.mem_append.mp hin with hin | hin
  · simp at hin
  · obtain ⟨hk, heq⟩ := List.mem_replicate.mp hin
    rcases h2 with h2 | h2
    · exact hk h2
    · cases n with
      | next v => cases heq
      | completed => cases heq
      | error e =>
        cases heq
        have hv := h.vals
        rw [h2.1] at hv
        have hmem : Notif.error .invalidState ∈ s.handed.map (·.2) := by rw [hv]; simp
        obtain ⟨x, hx, hx2⟩ := List.mem_map.mp hmem
        have := h.handed x hx
        exact hm x.2 (List.mem_of_getElem? this) hx2

/-- `handed` only grows. -/
theorem handed_step {s s' : State α} {l : Label α} (hs : step s l = some s') : ∃ r, s'.handed = s.handed ++ r := by
  have hand : ∀ (s : State α) c n, ∃ r, (s.handOver c n).handed = s.handed ++ r := by
    intro s c n
    unfold State.handOver
    split
    · exact ⟨[], by simp⟩
    · dsimp only; split <;> exact ⟨_, rfl⟩
  have acc : ∀ (s : State α) c n, ∃ r, (s.access c n).handed = s.handed ++ r := by
    intro s c n
    unfold State.access
    split
    · exact ⟨[], by simp⟩
    · exact hand _ c n
  have take : ∀ (s : State α) n, (s.take n).handed = s.handed := by
    intro s n
    unfold State.take
    split
    · rfl
    · rfl
    · split
      · rfl
      · dsimp only; split <;> rfl
  have recv : ∀ s : State α, s.receive.handed = s.handed := by
    intro s; unfold State.receive; split
    · exact take _ _
    · rfl
  cases l with
  | call n => simp only [step, Option.some.injEq] at hs; subst hs; exact acc _ _ _
  | anext =>
    simp only [step] at hs
    split at hs
    · cases hs
    · split at hs <;> cases hs
      · exact ⟨[], by simp⟩
      · exact ⟨[], by simp [recv]⟩
  | subscribed =>
    simp only [step] at hs
    split at hs
    · cases hs
    · split at hs <;> cases hs
      exact ⟨[], by simp [recv]⟩
  | run =>
    simp only [step] at hs
    split at hs
    · cases hs
    · split at hs <;> cases hs
      exact ⟨[], by simp [take]⟩
    · cases hs; exact ⟨[], by simp⟩
    · split at hs <;> cases hs
      exact acc _ _ _

theorem handed_run {ls : List (Label α)} : ∀ {s s' : State α}, LTS.run step s ls = some s' →
    ∃ r, s'.handed = s.handed ++ r := by
  induction ls with
  | nil => intro s s' h; cases h; exact ⟨[], by simp⟩
  | cons l ls ih =>
    intro s s' h
    obtain ⟨s1, h1, h2⟩ := LTS.run_cons.mp h
    obtain ⟨r1, e1⟩ := handed_step h1
    obtain ⟨r2, e2⟩ := ih h2
    exact ⟨r1 ++ r2, by rw [e2, e1, List.append_assoc]⟩

/-- C17. The hand-over order respects the order of the calls that do not overlap: a call that returned before another one
was made was handed over before it. -/
theorem C17_real_time_order {ls ls' : List (Label α)} {s s' : State α} (hr : LTS.run step init ls = some s)
    (hr' : LTS.run step s ls' = some s') {i j : Nat} (hi : s.calls[i]? = some .returned) (hj : s.calls.length ≤ j)
    (hjh : j ∈ s'.handed.map (·.1)) : ∃ a b, s'.handed.map (·.1) = a ++ b ∧ i ∈ a ∧ j ∉ a ∧ j ∈ b ∧ i ∉ b := by
  obtain ⟨m, t, rest, vs, k, h⟩ := inv_run hr
  obtain ⟨r, he⟩ := handed_run hr'
  have hrun : LTS.run step init (ls ++ ls') = some s' := LTS.run_append.mpr ⟨s, hr, hr'⟩
  obtain ⟨_, hnd, _⟩ := C17_yields_what_was_handed_over hrun
  have h1 : i ∈ s.handed.map (·.1) := (h.fits i _ hi).1
  have h2 : j ∉ s.handed.map (·.1) := fun hh => by
    have := h.bound j (List.mem_append_right _ hh); omega
  rw [he, List.map_append] at hjh hnd
  refine ⟨s.handed.map (·.1), r.map (·.1), by rw [he, List.map_append], h1, h2, ?_, ?_⟩
  · exact (List.mem_append.mp hjh).resolve_left h2
  · intro hh; exact (List.nodup_append.mp hnd).2.2 i h1 i hh rfl

/-- With calls that do not overlap, nobody ever waits for a turn. -/
theorem sequential_inv {ls : List (Label α)} {s : State α} (hr : LTS.run step init ls = some s)
    (hseq : Sequential ls) : s.awaiters = [] ∧ s.handed.map (·.2) = made ls := by
  refine LTS.inv_reach (fun ls s => Sequential ls → s.awaiters = [] ∧ s.handed.map (·.2) = made ls) (s0 := init)
    (fun _ => ⟨rfl, rfl⟩) ?_ hr hseq
  intro ls s l s' hrun ih hs hseq
  have hseq0 : Sequential ls := by
    intro p n q s he
    exact hseq p n (q ++ [l]) s (by rw [he]; simp)
  obtain ⟨h1, h2⟩ := ih hseq0
  obtain ⟨m, t, rest, vs, k, h⟩ := inv_run hrun
  have hq := h.queue_nil h1
  have hready : ∀ c r, s.ready ≠ .turn c :: r := by
    intro c r hc
    have := h.ready
    have ht : t = none := by cases t with | none => rfl | some t => cases hq
    subst ht
    rw [hc] at this
    generalize s.consumer = k at this
    cases m <;> cases k <;> simp [Mode.pulls, Mode.wake] at this
  have take : ∀ (s : State α) n, s.awaiters = [] → (s.take n).handed = s.handed ∧ (s.take n).awaiters = [] := by
    intro s n ha
    unfold State.take
    split
    · exact ⟨rfl, ha⟩
    · exact ⟨rfl, ha⟩
    · split
      · exact ⟨rfl, ha⟩
      · dsimp only; rw [ha]; exact ⟨rfl, rfl⟩
  have recv : s.receive.handed = s.handed ∧ s.receive.awaiters = [] := by
    unfold State.receive; split
    · exact take _ _ h1
    · exact ⟨rfl, h1⟩
  rw [made_snoc]
  cases l with
  | call n =>
    have hall := hseq ls n [] s rfl hrun
    have hm : m = .free := by
      cases m with
      | free => rfl
      | full c n =>
        have := hall _ (List.mem_of_getElem? (h.sending (c := c) (n := n) rfl)); cases this
      | taken c n =>
        have := hall _ (List.mem_of_getElem? (h.sending (c := c) (n := n) rfl)); cases this
    subst hm
    simp only [step, Option.some.injEq] at hs
    subst hs
    have hb : s.busy = false := h.busy
    have hp : s.push = none := h.push
    have hpl : s.pull = false := h.pull
    simp [State.access, State.handOver, hb, hp, hpl, h1, h2]
  | anext =>
    simp only [step] at hs
    split at hs
    · cases hs
    · split at hs <;> cases hs
      · simpa using ⟨h1, h2⟩
      · rw [recv.1, recv.2]; simpa using h2
  | subscribed =>
    simp only [step] at hs
    split at hs
    · cases hs
    · split at hs <;> cases hs
      rw [recv.1, recv.2]; simpa using h2
  | run =>
    simp only [step] at hs
    split at hs
    · cases hs
    · split at hs <;> cases hs
      rename_i n _
      have := take { s with ready := ‹List Waiter› } n h1
      rw [this.1, this.2]; simpa using h2
    · cases hs; simpa using ⟨h1, h2⟩
    · rename_i hc; exact absurd hc (hready _ _)

/-- C17. With producers whose calls do not overlap, the values are yielded in the order of the calls: all of them, but
the last one that nobody has taken yet. -/
theorem C17_sequential {ls : List (Label α)} {s : State α} (hr : LTS.run step init ls = some s) (hseq : Sequential ls) :
    yielded s.taken ++ valuesOf s.push.toList = valuesOf (made ls) := by
  rw [(C17_yields_what_was_handed_over hr).1, (sequential_inv hr hseq).2]

/-- `Sequential` for concrete schedules. -/
def seqFrom (s : State α) : List (Label α) → Bool
  | [] => true
  | l :: ls => (match l with | .call _ => s.calls.all (fun | .returned => true | _ => false) | _ => true) &&
    (match step s l with | some s' => seqFrom s' ls | none => true)

theorem sequential_of {ls : List (Label α)} (h : seqFrom init ls = true) : Sequential ls := by
  have key : ∀ (p : List (Label α)) (s0 : State α) n q s, seqFrom s0 (p ++ .call n :: q) = true →
      LTS.run step s0 p = some s → ∀ x ∈ s.calls, x = .returned := by
    intro p
    induction p with
    | nil =>
      intro s0 n q s hs hr x hx
      cases hr
      simp only [List.nil_append, seqFrom, Bool.and_eq_true] at hs
      have := List.all_eq_true.mp hs.1 x hx
      cases x <;> simp_all
    | cons l p ih =>
      intro s0 n q s hs hr
      obtain ⟨s1, h1, h2⟩ := LTS.run_cons.mp hr
      simp only [List.cons_append, seqFrom, Bool.and_eq_true, h1] at hs
      exact ih s1 n q s hs.2 h2
  intro p n q s he hr
  subst he
  exact key p init n q s h hr

/-- One producer that awaits each call; a consumer that keeps asking. -/
def demoSequential : List (Label Nat) :=
  [.anext, .call (.next 1), .subscribed, .run, .anext, .call (.next 2), .run, .run, .anext]

example : Sequential demoSequential := sequential_of (by decide)
example : (LTS.run step init demoSequential).map (fun s => s.taken) = some [.value 1, .value 2] := by decide

/-- C18. At most one event is handed over and not yet taken. -/
theorem C18_at_most_one_waiting {ls : List (Label α)} {s : State α} (hr : LTS.run step init ls = some s) :
    s.handed.length ≤ s.taken.length + 1 := by
  obtain ⟨m, t, rest, vs, k, h⟩ := inv_run hr
  have h1 : s.handed.length = vs.length + m.push.toList.length := by
    have := congrArg List.length h.vals; simpa using this
  obtain ⟨n, h2, _⟩ := h.took
  have h3 : s.taken.length = vs.length + k := by rw [h2]; simp
  have h4 : m.push.toList.length ≤ 1 := by cases m.push <;> simp
  omega

/-- C18. A call that has returned was of `asend`, and its value has been yielded: its position among the events handed
over is a position among the results of `__anext__`, with its value. -/
theorem C18_returns_after_taken {ls : List (Label α)} {s : State α} (hr : LTS.run step init ls = some s) {c : Nat}
    (hc : s.calls[c]? = some .returned) :
    ∃ v, ∃ i : Nat, (made ls)[c]? = some (.next v) ∧ s.handed[i]? = some (c, .next v) ∧ s.taken[i]? = some (.value v) := by
  obtain ⟨m, t, rest, vs, k, h⟩ := inv_run hr
  obtain ⟨hin, hcur⟩ := h.fits c _ hc
  obtain ⟨x, hx, hxc⟩ := List.mem_map.mp hin
  obtain ⟨i, hi⟩ := List.getElem?_of_mem hx
  have h2 : (s.handed.map (·.2))[i]? = some x.2 := get_map.mpr ⟨x, hi, rfl⟩
  rw [h.vals] at h2
  have hlt : i < vs.length := by
    rcases Nat.lt_or_ge i vs.length with hh | hh
    · exact hh
    · exfalso
      rw [List.getElem?_append_right (by simpa using hh)] at h2
      cases m with
      | free => simp [Mode.push] at h2
      | taken c' n => simp [Mode.push] at h2
      | full c' n =>
        obtain ⟨p, hp⟩ := h.cur (c', n) rfl
        have hpl : p.length = vs.length := by
          have := congrArg List.length h.vals
          rw [hp] at this; simpa [Mode.push] using this
        have hilt := (List.getElem?_eq_some_iff.mp hi).1
        rw [hp] at hilt; simp at hilt
        have : i = p.length := by omega
        rw [hp, this] at hi
        simp at hi
        rw [← hi] at hxc
        exact hcur n (by rw [← hxc]; rfl)
  rw [List.getElem?_append_left (by simpa using hlt), List.getElem?_map, List.getElem?_eq_getElem hlt] at h2
  have hx2 : x.2 = .next vs[i] := by simpa using h2.symm
  have hxx : x = (c, .next vs[i]) := by rw [← hxc, ← hx2]
  refine ⟨vs[i], i, ?_, by rw [hi, hxx], ?_⟩
  · have := h.handed x hx; rw [hxx] at this; exact this
  · obtain ⟨n, h3, _⟩ := h.took
    rw [h3, List.getElem?_append_left (by simpa using hlt), List.getElem?_map, List.getElem?_eq_getElem hlt]; rfl

example : (LTS.run step init demo).map (fun s => s.calls) =
    some [.returned, .returned, .sending .completed] := by decide

/-- A lost wake-up: when the consumer takes the first value nobody waits for a turn; the second producer comes before
the first one goes on, finds `_busy` and waits; nobody wakes it. -/
def lost : List (Label Nat) :=
  [.anext, .subscribed, .call (.next 1), .run, .call (.next 2), .run, .anext]

/-- C19, first part, is false: the consumer waits, a producer waits for its turn, and nobody can go on. -/
theorem C19_violated_lost_wakeup : ∃ s : State Nat, LTS.run step init lost = some s ∧
    s.consumer = .waiting ∧ s.calls = [.returned, .blocked (.next 2)] ∧ s.ready = [] ∧
    ∀ l s', step s l = some s' → ∃ n, l = .call n := by
  refine ⟨_, rfl, rfl, rfl, rfl, ?_⟩
  intro l s' h
  cases l with
  | call n => exact ⟨n, rfl⟩
  | anext => cases h
  | subscribed => cases h
  | run => cases h

/-- C19, last part, is false, always: `aclose()` and `athrow()` never return. -/
theorem C19_violated_close {ls : List (Label α)} {s : State α} (hr : LTS.run step init ls = some s) {c : Nat} {n : Notif α}
    (hn : (made ls)[c]? = some n) (ht : n.isTerminal = true) :
    ∃ x, s.calls[c]? = some x ∧ x ≠ .returned ∧ ∀ e, x ≠ .raised e := by
  obtain ⟨m, t, rest, vs, k, h⟩ := inv_run hr
  have hlt : c < s.calls.length := by rw [h.len]; exact (List.getElem?_eq_some_iff.mp hn).1
  refine ⟨_, List.getElem?_eq_getElem hlt, ?_, ?_⟩
  · intro hx
    obtain ⟨v, i, h1, _⟩ := C18_returns_after_taken hr ((List.getElem?_eq_getElem hlt).trans (by rw [hx]))
    rw [hn] at h1; cases h1; cases ht
  · intro e hx
    exact h.fits c _ ((List.getElem?_eq_getElem hlt).trans (by rw [hx]))

/-- C19, the middle part: once a terminal event is handed over, that is the last event, and every call of `__anext__`
that does not wait for a producer's turn ends with it, at once. -/
theorem C19_ends_partial {ls : List (Label α)} {s : State α} (hr : LTS.run step init ls = some s) {c : Nat} {n : Notif α}
    (hc : (c, n) ∈ s.handed) (ht : n.isTerminal = true) :
    s.push = some n ∧ (∃ p, s.handed = p ++ [(c, n)]) ∧
    (∃ k, s.taken = (yielded s.taken).map .value ++ List.replicate k (Took.of n)) ∧
    (s.consumer = .waiting → .consumer ∈ s.ready) ∧
    (s.consumer = .idle → s.ready = [] →
      ∃ s', step s .anext = some s' ∧ s'.taken = s.taken ++ [Took.of n] ∧ s'.consumer = .idle) := by
  obtain ⟨m, t, rest, vs, k, h⟩ := inv_run hr
  have hpush : m.push = some n := by
    have hmem : n ∈ s.handed.map (·.2) := List.mem_map.mpr ⟨_, hc, rfl⟩
    rw [h.vals] at hmem
    rcases List.mem_append.mp hmem with hh | hh
    · obtain ⟨v, _, rfl⟩ := List.mem_map.mp hh; cases ht
    · simpa using hh
  cases m with
  | free => cases hpush
  | taken c' n' => cases hpush
  | full c' n' =>
    cases hpush
    have hp : s.push = some n := h.push
    obtain ⟨p, hp2⟩ := h.cur (c', n) rfl
    have hcc : c' = c := by
      rw [hp2] at hc
      rcases List.mem_append.mp hc with hh | hh
      · have hv := h.vals
        rw [hp2] at hv
        have hv2 : p.map (·.2) = vs.map .next := by simpa [Mode.push] using hv
        have : n ∈ p.map (·.2) := List.mem_map.mpr ⟨_, hh, rfl⟩
        rw [hv2] at this
        obtain ⟨v, _, rfl⟩ := List.mem_map.mp this; cases ht
      · simp at hh; exact hh.symm
    subst hcc
    refine ⟨hp, ⟨p, hp2⟩, ⟨k, ?_⟩, ?_, ?_⟩
    · obtain ⟨n0, h1, h2⟩ := h.took
      rw [h.yielded]
      rcases h2 with h2 | h2
      · rw [h1, h2]; simp
      · have := h2.1; cases this; exact h1
    · intro hk; rw [h.ready, hk]; simp [Mode.wake]
    · intro hk hrd
      cases n with
      | next v => cases ht
      | error e =>
        refine ⟨_, by simp only [step, hrd, hk, isTurn, State.receive, hp]; rfl, rfl, rfl⟩
      | completed =>
        refine ⟨_, by simp only [step, hrd, hk, isTurn, State.receive, hp]; rfl, rfl, rfl⟩

/-- C19, first part, for producers whose calls do not overlap: when the consumer waits and nothing is scheduled, every
call has returned. -/
theorem C19_sequential_partial {ls : List (Label α)} {s : State α} (hr : LTS.run step init ls = some s)
    (hseq : Sequential ls) (hk : s.consumer = .waiting) (hrd : s.ready = []) : ∀ x ∈ s.calls, x = .returned := by
  obtain ⟨m, t, rest, vs, k, h⟩ := inv_run hr
  obtain ⟨h1, _⟩ := sequential_inv hr hseq
  have hq := h.queue_nil h1
  have hm := h.free hk hrd
  subst hm
  intro x hx
  obtain ⟨c, hc⟩ := List.getElem?_of_mem hx
  have := h.fits c x hc
  cases x with
  | blocked n => rw [hq] at this; cases this.1
  | sending n => cases this
  | returned => rfl
  | raised e => exact this.elim

/-- C19, first part, for any producers: when the consumer waits and nothing is scheduled, no value lies in `_push` and
nobody waits to be taken; the next event that any producer sends is handed over at once and wakes the consumer. -/
theorem C19_next_call_wakes_partial {ls : List (Label α)} {s : State α} (hr : LTS.run step init ls = some s)
    (hk : s.consumer = .waiting) (hrd : s.ready = []) (n : Notif α) :
    s.push = none ∧ (∀ (c : Nat) n, s.calls[c]? ≠ some (.sending n)) ∧
    ∃ s', step s (.call n) = some s' ∧ s'.push = some n ∧ s'.ready = [.consumer] := by
  obtain ⟨m, t, rest, vs, k, h⟩ := inv_run hr
  have hm := h.free hk hrd
  subst hm
  have hb : s.busy = false := h.busy
  have hp : s.push = none := h.push
  have hpl : s.pull = false := h.pull
  refine ⟨hp, fun c n hc => ?_, _, rfl, ?_, ?_⟩
  · have := h.fits c _ hc; cases this
  · simp [State.access, State.handOver, hb, hp, hpl]
  · simp [State.access, State.handOver, hb, hp, hpl, hk, hrd]

example : (LTS.run step init demoSequential).map (fun s => (s.consumer, s.ready, s.calls)) =
    some (.waiting, [], [.returned, .returned]) := by decide

end Aio.Iterator
