import Verif.Props.C08_11_Subject
import Verif.Lemmas.Stream
/-!
# C98–C100: what the subscribers of an AsyncSubject see together
-/

namespace Aio.Subject
variable {α : Type} {guard : Bool}

/-! ### vocabulary -/

/-- What observer `o` has got, in order. -/
def heardBy (o : Nat) (s : State α) : List (Notif α) := s.log.filterMap fun x => if x.2.1 = o then some x.2.2 else none

/-- Which calls of the subject observer `o` has heard, in order. -/
def heardCalls (o : Nat) (s : State α) : List Nat := s.log.filterMap fun x => if x.2.1 = o then some x.1 else none

/-- Two observers agree on the order of two calls. -/
def Agree (a b : List Nat) : Prop := ∀ c c', c ≠ c' → List.Sublist [c, c'] a → ¬ List.Sublist [c', c] b

/-- Every call was made when all earlier ones were over. -/
def NonOverlapping (guard : Bool) (ls : List (Label α)) : Prop :=
  ∀ p n q s, ls = p ++ .call n :: q → LTS.run (step guard) init p = some s → ∀ x ∈ s.calls, ∀ m o rest, x ≠ .running m o rest

/-! ### the invariant -/

theorem nonOverlapping_prefix {ls : List (Label α)} {l : Label α} (h : NonOverlapping guard (ls ++ [l])) : NonOverlapping guard ls := by
  intro p n q s he
  exact h p n (q ++ [l]) s (by rw [he]; simp)

private structure Seq (s : State α) : Prop where
  last : ∀ (c : Nat) m o rest, s.calls[c]? = some (.running m o rest) → c + 1 = s.calls.length
  sorted : (s.log.map (·.1)).Pairwise (· ≤ ·)
  bound : ∀ x ∈ s.log, x.1 < s.calls.length

private theorem seq_loop {s : State α} {c : Nat} {n : Notif α} {os : List Nat} (h1 : c + 1 = s.calls.length)
    (hl : ∀ (c' : Nat) m o rest, c' ≠ c → s.calls[c']? ≠ some (.running m o rest))
    (hs : (s.log.map (·.1)).Pairwise (· ≤ ·)) (hb : ∀ x ∈ s.log, x.1 < s.calls.length) : Seq (s.loop c n os) := by
  refine ⟨fun c' m o rest h => ?_, ?_, ?_⟩
  · rw [loop_calls] at h ⊢
    by_cases hc : c' = c
    · subst hc; simpa using h1
    · rw [List.getElem?_set_ne (Ne.symm hc)] at h
      exact absurd h (hl c' m o rest hc)
  · rw [loop_log, List.map_append, List.pairwise_append]
    refine ⟨hs, by cases os <;> simp, ?_⟩
    intro a ha b hb'
    obtain ⟨x, hx, rfl⟩ := List.mem_map.mp ha
    have := hb x hx
    cases os with
    | nil => simp at hb'
    | cons o rest => simp at hb'; omega
  · intro x hx
    rw [loop_log] at hx
    rw [loop_calls, List.length_set]
    rcases List.mem_append.mp hx with hx | hx
    · exact hb x hx
    · cases os with
      | nil => simp at hx
      | cons o rest => simp at hx; subst hx; show c < _; omega

private theorem seq_run {ls : List (Label α)} {s : State α} (hr : LTS.run (step guard) init ls = some s) (hn : NonOverlapping guard ls) : Seq s := by
  refine LTS.inv_reach (step := step guard) (fun ls s => NonOverlapping guard ls → Seq s) (s0 := init) ?_ ?_ hr hn
  · exact fun _ => ⟨by simp [init], by simp [init], by simp [init]⟩
  intro ls s l s' hrun ih h hn
  have hi := ih (nonOverlapping_prefix hn)
  rcases step_cases h with ⟨n, rfl, rfl⟩ | ⟨c, n, o, rest, rfl, hc, rfl⟩ | ⟨c, e, n, o, rest, rfl, hc, rfl⟩ |
    ⟨o, rfl, hd, rfl⟩ | ⟨o, rfl, hd, rfl⟩ | ⟨k, o, rfl, hk, hg, rfl⟩ | ⟨k, o, g, rfl, hk, hg, rfl⟩ | ⟨rfl, rfl⟩
  · have hidle := hn ls n [] s rfl hrun
    have hidle' : ∀ (c : Nat) m o rest, s.calls[c]? ≠ some (.running m o rest) := by
      intro c m o rest hx
      exact hidle _ (List.mem_of_getElem? hx) m o rest rfl
    have push : ∀ x, (∀ m o rest, x ≠ Call.running m o rest) → Seq { s with calls := s.calls ++ [x] } := by
      intro x hx
      refine ⟨fun c m o rest hc => ?_, hi.sorted, fun y hy => by simpa using Nat.lt_succ_of_lt (hi.bound y hy)⟩
      dsimp only at hc
      by_cases hlt : c < s.calls.length
      · rw [List.getElem?_append_left hlt] at hc
        exact absurd hc (hidle' c m o rest)
      · have hlt' := (List.getElem?_eq_some_iff.mp hc).1
        simp at hlt' ⊢; omega
    rcases begin_cases s n with ⟨-, h2⟩ | ⟨-, -, h2⟩ | ⟨-, -, h2⟩
    · rw [h2]; exact push _ (by simp)
    · rw [h2]; exact push _ (by simp)
    · rw [h2]
      refine seq_loop (by simp) ?_ hi.sorted (fun x hx => by simpa using Nat.lt_succ_of_lt (hi.bound x hx))
      intro c' m o rest hne hx
      dsimp only at hx
      by_cases hlt : c' < s.calls.length
      · rw [List.getElem?_append_left hlt] at hx
        exact hidle' c' m o rest hx
      · have hlt' := (List.getElem?_eq_some_iff.mp hx).1
        simp at hlt'; omega
  · have hl := hi.last c n o rest hc
    refine seq_loop hl ?_ hi.sorted hi.bound
    intro c' m o' rest' hne hx
    have := hi.last c' m o' rest' hx
    omega
  · refine ⟨fun c' m o' rest' hx => ?_, hi.sorted, by simpa using hi.bound⟩
    dsimp only at hx ⊢
    rw [List.length_set]
    by_cases hcc : c' = c
    · subst hcc; exact hi.last _ n o rest hc
    · rw [List.getElem?_set_ne (Ne.symm hcc)] at hx
      exact hi.last c' m o' rest' hx
  all_goals exact ⟨hi.last, hi.sorted, hi.bound⟩

private theorem heardCalls_sublist (o : Nat) (s : State α) : List.Sublist (heardCalls o s) (s.log.map (·.1)) := by
  unfold heardCalls
  generalize s.log = l
  induction l with
  | nil => exact .slnil
  | cons x l ih =>
    rw [List.filterMap_cons, List.map_cons]
    by_cases h : x.2.1 = o
    · simp only [h, if_true]; exact ih.cons_cons _
    · simp only [h, if_false]; exact ih.cons _

/-! ### C98 -/

/-- C98, the part that holds: with calls that do not overlap, every observer hears the calls in the order in which they were
made, so all observers agree. Missing: calls that overlap. -/
theorem C98_partial {ls : List (Label α)} {s : State α} (hr : LTS.run (step guard) init ls = some s) (hn : NonOverlapping guard ls) :
    (∀ o, (heardCalls o s).Pairwise (· ≤ ·)) ∧ ∀ o o', Agree (heardCalls o s) (heardCalls o' s) := by
  have h1 : ∀ o, (heardCalls o s).Pairwise (· ≤ ·) := fun o => (seq_run hr hn).sorted.sublist (heardCalls_sublist o s)
  refine ⟨h1, fun o o' c c' hne h2 h3 => ?_⟩
  have h4 := (h1 o).sublist h2
  have h5 := (h1 o').sublist h3
  simp at h4 h5
  omega

/-- Two subscribers, the first one slow; two calls that overlap. -/
def overtaking : List (Label Nat) :=
  [.subscribe 1, .subscribe 2, .call (.next 10), .call (.next 20), .ret 1, .ret 1, .ret 0, .ret 0]

/-- C98 is false: the first subscriber gets 10 and then 20, the second one 20 and then 10. All calls return. -/
theorem C98_violated (guard : Bool) : ∃ s : State Nat, LTS.run (step guard) init overtaking = some s ∧
    heardBy 1 s = [.next 10, .next 20] ∧ heardBy 2 s = [.next 20, .next 10] ∧ s.calls = [.returned, .returned] ∧
    ¬ Agree (heardCalls 1 s) (heardCalls 2 s) := by
  refine ⟨_, by cases guard <;> rfl, rfl, rfl, rfl, fun h => ?_⟩
  exact h 0 1 (by decide) (.refl _) (.refl _)

/-! ### C99 -/

/-- Nothing after a terminal notification: that is the grammar. -/
private theorem grammar_of {l : List (Notif α)} (h : ∀ a n b, l = a ++ n :: b → n.isTerminal = true → b = []) : Spec.Grammar l := by
  induction l with
  | nil => exact ⟨⟨[], .running⟩, rfl⟩
  | cons n l ih =>
    cases n with
    | next v =>
      obtain ⟨s, hs⟩ := ih (fun a m b he hm => h (.next v :: a) m b (by rw [he]; rfl) hm)
      exact ⟨⟨v :: s.vals, s.fin⟩, by rw [hs]; rfl⟩
    | error e =>
      have := h [] (.error e) l rfl rfl
      subst this; exact ⟨⟨[], .failed e⟩, rfl⟩
    | completed =>
      have := h [] .completed l rfl rfl
      subst this; exact ⟨⟨[], .done⟩, rfl⟩

private theorem filterMap_split {β δ : Type} {f : β → Option δ} : ∀ {l : List β} {a : List δ} {y : δ} {b : List δ},
    l.filterMap f = a ++ y :: b → ∃ l1 x l2, l = l1 ++ x :: l2 ∧ f x = some y ∧ l2.filterMap f = b := by
  intro l
  induction l with
  | nil => intro a y b h; simp at h
  | cons x l ih =>
    intro a y b h
    rw [List.filterMap_cons] at h
    cases hf : f x with
    | none =>
      rw [hf] at h
      obtain ⟨l1, x', l2, rfl, h2, h3⟩ := ih h
      exact ⟨x :: l1, x', l2, rfl, h2, h3⟩
    | some z =>
      rw [hf] at h
      cases a with
      | nil =>
        simp only [List.nil_append, List.cons.injEq] at h
        exact ⟨[], x, l, rfl, by rw [hf, h.1], h.2⟩
      | cons a0 a =>
        simp only [List.cons_append, List.cons.injEq] at h
        obtain ⟨l1, x', l2, rfl, h2, h3⟩ := ih h.2
        exact ⟨x :: l1, x', l2, rfl, h2, h3⟩

/-- A delivery belongs to a call that was made with this notification, before `dispose_async`. -/
private theorem ended_of {ls : List (Label α)} {s : State α} (hr : LTS.run (step guard) init ls = some s) {c o : Nat} {n : Notif α}
    (h : (c, o, n) ∈ s.log) : ∃ a b, ls = a ++ .call n :: b ∧ (made a).length = c ∧ ¬ Disposed a := by
  have hlt : c < (made ls).length := by rw [← (inv_run hr).made]; exact log_lt hr _ h
  obtain ⟨a, m, b, rfl, hc⟩ := split_made ls c hlt
  have hmem : (o, n) ∈ deliveries c s := by
    rw [deliveries_eq, List.mem_filterMap]; exact ⟨_, h, by simp⟩
  have hnd : ¬ Disposed a := by
    intro hd
    have := (C10_call hr hd).2
    rw [hc] at this; rw [this] at hmem; simp at hmem
  have hne : ¬ Ended a := by
    intro hd
    have := C09_nothing_later hr hd
    rw [hc] at this; rw [this] at hmem; simp at hmem
  obtain ⟨s0, h0, hr'⟩ := LTS.run_append.mp hr
  obtain ⟨s1, h1, hr'⟩ := LTS.run_cons.mp hr'
  simp only [step, Option.some.injEq] at h1
  subst h1
  have hd' : s0.isDisposed = false := by
    cases h : s0.isDisposed with
    | false => rfl
    | true => exact absurd ((disposed_iff h0).mp h) hnd
  have he' : s0.isStopped = false := by
    cases h : s0.isStopped with
    | false => rfl
    | true => exact absurd ((stopped_iff h0).mp h) hne
  have ht := track_begin (n := m) (fresh_deliveries h0) hd' he'
  obtain ⟨rest, h5, -⟩ := LTS.inv_from (step := step guard) (Track s0.calls.length m s0.observers)
    (fun ls s l s' hi h => track_step hi h) ht hr'
  rw [(inv_run h0).made, hc] at h5
  have : (o, n) ∈ s0.observers.map (·, m) := by rw [← h5]; exact List.mem_append_left _ hmem
  obtain ⟨x, -, hx⟩ := List.mem_map.mp this
  cases hx
  exact ⟨a, b, rfl, hc, hnd⟩

/-- C99, the part that holds: with calls that do not overlap, every observer (subscribed once) gets a sequence of the Rx grammar,
and its methods are never called while another call is under way. Missing: calls that overlap. -/
theorem C99_partial {ls : List (Label α)} {s : State α} (hr : LTS.run (step guard) init ls = some s) (hn : NonOverlapping guard ls)
    (hp : (passed ls).Nodup) (o : Nat) : Spec.Grammar (heardBy o s) ∧
    ∀ (c c' : Nat) m m' o' o'' rest rest', s.calls[c]? = some (.running m o' rest) → s.calls[c']? = some (.running m' o'' rest') → c = c' := by
  have hs := seq_run hr hn
  refine ⟨grammar_of ?_, ?_⟩
  · intro a n b he ht
    obtain ⟨l1, ⟨c, o1, n1⟩, l2, hlog, hx, hb⟩ := filterMap_split he
    have ho : o1 = o ∧ n1 = n := by
      dsimp only at hx
      split at hx
      · next h => cases hx; exact ⟨h, rfl⟩
      · cases hx
    obtain ⟨rfl, rfl⟩ := ho
    rw [← hb, List.filterMap_eq_nil_iff]
    rintro ⟨c2, o2, n2⟩ hmem
    by_cases ho : o2 = o1
    · subst ho
      exfalso
      have hle : c ≤ c2 := by
        have := hs.sorted
        rw [hlog, List.map_append, List.map_cons, List.pairwise_append] at this
        have := (List.pairwise_cons.mp this.2.1).1 c2 (List.mem_map.mpr ⟨_, hmem, rfl⟩)
        exact this
      have h1 : (c, o2, n1) ∈ s.log := by rw [hlog]; simp
      have h2 : (c2, o2, n2) ∈ s.log := by rw [hlog]; simp [hmem]
      obtain ⟨a1, b1, e1, f1, g1⟩ := ended_of hr h1
      obtain ⟨a2, b2, e2, f2, g2⟩ := ended_of hr h2
      rcases Nat.lt_or_ge c c2 with hlt | hge
      · -- a later call: the subject was ended before
        have hend : Ended a2 := by
          have hpre : a1 ++ [.call n1] <+: a2 := by
            rcases List.prefix_or_prefix_of_prefix (l₁ := a1 ++ [.call n1]) (l₂ := a2) (l₃ := ls) (by rw [e1]; simp) (by rw [e2]; simp) with h | h
            · exact h
            · obtain ⟨r, hr2⟩ := h
              rcases List.eq_nil_or_concat r with rfl | ⟨r', x, rfl⟩
              · exact ⟨[], by simpa using hr2.symm⟩
              · have h3 : a2 ++ r' = a1 := by
                  rw [List.concat_eq_append, ← List.append_assoc] at hr2
                  exact (List.append_inj' hr2 rfl).1
                have h4 : (made a2).length ≤ (made a1).length := by
                  rw [← h3, made, made, List.filterMap_append, List.length_append]; omega
                omega
          obtain ⟨r, rfl⟩ := hpre
          exact ⟨a1, n1, r, by simp, g1, (terminal_iff n1).mp ht⟩
        rw [e2] at hr
        have := C09_nothing_later hr hend
        have hmem2 : (o2, n2) ∈ deliveries (made a2).length s := by
          rw [deliveries_eq, List.mem_filterMap]; exact ⟨_, h2, by simp [f2]⟩
        rw [this] at hmem2; simp at hmem2
      · have : c2 = c := by omega
        subst this
        -- the same call: it would have delivered the terminal event twice
        have hn2 : n2 = n1 := by
          have : a1 = a2 ∧ (Label.call n1 :: b1) = (Label.call n2 :: b2) := by
            have hlen : a1.length = a2.length := by
              rcases List.prefix_or_prefix_of_prefix (l₁ := a1) (l₂ := a2) (l₃ := ls) (by rw [e1]; simp) (by rw [e2]; simp) with ⟨r, hr2⟩ | ⟨r, hr2⟩
              · cases r with
                | nil => rw [← hr2]; simp
                | cons x r =>
                  exfalso
                  rw [e2, ← hr2] at e1
                  simp at e1
                  obtain ⟨rfl, -⟩ := e1
                  rw [← hr2, made, List.filterMap_append, List.length_append] at f2
                  rw [made] at f1
                  simp at f2; omega
              · cases r with
                | nil => rw [← hr2]; simp
                | cons x r =>
                  exfalso
                  rw [e1, ← hr2] at e2
                  simp at e2
                  obtain ⟨rfl, -⟩ := e2
                  rw [← hr2, made, List.filterMap_append, List.length_append] at f1
                  rw [made] at f2
                  simp at f1; omega
            exact List.append_inj (e1.symm.trans e2) hlen
          have h3 := this.2
          simp at h3; exact h3.1.symm
        subst hn2
        have h5 := C09_one_terminal hr hp o2
        rw [hlog, List.filter_append, List.length_append, List.filter_cons] at h5
        simp only [ht, and_self, decide_true, if_true, List.length_cons] at h5
        have h6 : 0 < (l2.filter fun x => decide (x.2.1 = o2 ∧ x.2.2.isTerminal = true)).length := by
          refine List.length_pos_of_mem (a := (c2, o2, n2)) ?_
          rw [List.mem_filter]; exact ⟨hmem, by simp [ht]⟩
        omega
    · simp [ho]
  · intro c c' m m' o' o'' rest rest' h1 h2
    have := hs.last c m o' rest h1
    have := hs.last c' m' o'' rest' h2
    omega

/-- Two subscribers, the first one slow; the subject is closed while a value is under way. -/
def closing : List (Label Nat) :=
  [.subscribe 1, .subscribe 2, .call (.next 10), .call .completed, .ret 1, .ret 1, .ret 0, .ret 0]

/-- C99 is false: the second subscriber gets its completion and then a value, and the first one is told about the completion while
it still handles the value. -/
theorem C99_violated (guard : Bool) : ∃ s : State Nat, LTS.run (step guard) init closing = some s ∧ heardBy 2 s = [.completed, .next 10] ∧
    ¬ Spec.Grammar (heardBy 2 s) ∧
    ∃ s1 : State Nat, LTS.run (step guard) init (closing.take 4) = some s1 ∧ s1.calls = [.running (.next 10) 1 [2], .running .completed 1 [2]] := by
  refine ⟨_, by cases guard <;> rfl, rfl, ?_, _, by cases guard <;> rfl, rfl⟩
  rintro ⟨⟨vs, fin⟩, h⟩
  have h : [Notif.completed, .next 10] = (Spec.Story.events ⟨vs, fin⟩ : List (Notif Nat)) := h
  cases vs with
  | nil => cases fin <;> simp [Spec.Story.events] at h
  | cons v vs => simp [Spec.Story.events] at h

-- a history of calls that do not overlap, with two subscribers, that is ended
example : (LTS.run (step true) init ([.subscribe 1, .subscribe 2, .call (.next 10), .ret 0, .ret 0, .call .completed, .ret 1, .ret 1] : List (Label Nat))).map
    (fun s => (heardBy 1 s, heardBy 2 s)) = some ([.next 10, .completed], [.next 10, .completed]) := by decide

/-! ### C100 -/

private theorem raised_over {b : List (Label α)} {s0 s : State α} {c o : Nat} {n : Notif α} {rest : List Nat} {e : Err}
    (hc : s0.calls[c]? = some (.running n o rest)) (hr : LTS.run (step guard) s0 (.raise c e :: b) = some s) :
    s.calls[c]? = some (.raised e) ∧ deliveries c s = deliveries c s0 := by
  obtain ⟨s1, h1, hr⟩ := LTS.run_cons.mp hr
  simp only [step, hc, Option.some.injEq] at h1
  subst h1
  have hlt := (List.getElem?_eq_some_iff.mp hc).1
  have hover : Over c (.raised e) (deliveries c s0) { s0 with calls := s0.calls.set c (.raised e) } :=
    ⟨by simp [hlt], by simp, deliveries_congr rfl⟩
  have := LTS.inv (step := step guard) (Over c (.raised e) (deliveries c s0)) hover (fun _ _ _ h h' => over_step h h') hr
  exact ⟨this.1, this.2.2⟩

/-- C100 is false, always: the event of a call `c` in which an observer raises has reached the first observers of the list, up to
the one that raised (`got`), and the others (`rest`) do not get it, whatever happens later; whoever made the call gets the exception. -/
theorem C100_violated {a b d : List (Label α)} {n : Notif α} {e : Err} {s : State α}
    (hr : LTS.run (step guard) init (a ++ .call n :: b ++ .raise (made a).length e :: d) = some s)
    (hd : ¬ Disposed a) (he : ¬ Ended a) (hp : (passed a).Nodup) :
    ∃ got rest, (live a).map (·.2) = got ++ rest ∧ s.calls[(made a).length]? = some (.raised e) ∧
      deliveries (made a).length s = got.map (·, n) ∧ ∀ o ∈ rest, (o, n) ∉ deliveries (made a).length s := by
  obtain ⟨s0, h0, hr⟩ := LTS.run_append.mp hr
  obtain ⟨rest, h1, h2⟩ := C08_broadcast h0 hd he (.inl hp)
  have hrun : ∃ o, s0.calls[(made a).length]? = some (.running n o rest) := by
    rcases h2 with h2 | ⟨h2, -⟩ | ⟨e', h2, -⟩
    · exact h2
    all_goals
      obtain ⟨s1, h3, -⟩ := LTS.run_cons.mp hr
      simp [step, h2] at h3
  obtain ⟨o, hrun⟩ := hrun
  obtain ⟨h3, h4⟩ := raised_over hrun hr
  obtain ⟨sa, ha, -⟩ := LTS.run_append.mp h0
  have hnd := hp.sublist (inv_run ha).sub
  have h5 := congrArg (List.map Prod.fst) h1
  have h6 := congrArg (List.map Prod.snd) h1
  simp only [List.map_append, List.map_map, Function.comp_def, List.map_id'] at h5 h6
  refine ⟨(deliveries (made a).length s0).map (·.1), rest, h5.symm, h3, ?_, ?_⟩
  · rw [h4, List.map_map]
    have h7 : ∀ x ∈ deliveries (made a).length s0, x.2 = n := by
      intro x hx
      have : x ∈ (live a).map (fun x => (x.2, n)) := by rw [← h1]; exact List.mem_append_left _ hx
      obtain ⟨y, -, rfl⟩ := List.mem_map.mp this
      rfl
    have h8 : (deliveries (made a).length s0).map id = (deliveries (made a).length s0).map ((fun x => (x, n)) ∘ (·.1)) := by
      apply List.map_congr_left
      rintro ⟨x, m⟩ hx
      have := h7 _ hx
      dsimp only at this
      subst this; rfl
    simpa using h8
  · intro o' ho hmem
    rw [h4] at hmem
    rw [← h5] at hnd
    exact (List.nodup_append.mp hnd).2.2 o' (List.mem_map.mpr ⟨_, hmem, rfl⟩) o' ho rfl

/-- A witness: of three subscribers the second one raises; the third one never hears of the value, nor of the error. -/
theorem C100_violated_witness (guard : Bool) : ∃ s : State Nat,
    LTS.run (step guard) init [.subscribe 1, .subscribe 2, .subscribe 3, .call (.next 10), .ret 0, .raise 0 (.user 7), .call (.next 20), .ret 1, .ret 1, .ret 1]
      = some s ∧ heardBy 1 s = [.next 10, .next 20] ∧ heardBy 2 s = [.next 10, .next 20] ∧ heardBy 3 s = [.next 20] := by
  refine ⟨_, by cases guard <;> rfl, rfl, rfl, rfl⟩

/-- C100, the part that holds: a call whose observers have not raised reaches all subscribers, whatever an observer did in
another call; those in front of an observer that raises have got the event too. -/
theorem C100_partial {a b : List (Label α)} {n : Notif α} {s : State α}
    (hr : LTS.run (step guard) init (a ++ .call n :: b) = some s) (hd : ¬ Disposed a) (he : ¬ Ended a) (hp : Plain a) :
    ((∀ e, Label.raise (made a).length e ∉ b) → s.calls[(made a).length]? = some .returned →
      deliveries (made a).length s = (live a).map (fun x => (x.2, n))) ∧
    deliveries (made a).length s <+: (live a).map (fun x => (x.2, n)) := by
  obtain ⟨rest, h1, h2⟩ := C08_broadcast hr hd he hp
  refine ⟨fun hno hret => ?_, ⟨_, h1⟩⟩
  rcases h2 with ⟨o, h2⟩ | ⟨-, rfl⟩ | ⟨e, -, h2⟩
  · rw [hret] at h2; cases h2
  · simpa using h1
  · exact absurd h2 (hno e)

/-! ### the hypotheses of C98_partial and C99_partial can be met -/

private def idle (s : State α) : Bool := s.calls.all fun | .running .. => false | _ => true

private def sequential (guard : Bool) : State α → List (Label α) → Bool
  | _, [] => true
  | s, l :: ls => (match l with | .call _ => idle s | _ => true) && (match step guard s l with | none => true | some t => sequential guard t ls)

private theorem nonOverlapping_of : ∀ {p : List (Label α)} {s t : State α} {n q}, sequential guard s (p ++ .call n :: q) = true →
    LTS.run (step guard) s p = some t → ∀ x ∈ t.calls, ∀ m o rest, x ≠ .running m o rest
  | [], s, t, n, q, h, hr, x, hx, m, o, rest => by
    cases hr
    simp only [List.nil_append, sequential, Bool.and_eq_true, idle, List.all_eq_true] at h
    rintro rfl
    have := h.1 _ hx
    cases this
  | l :: p, s, t, n, q, h, hr, x, hx, m, o, rest => by
    obtain ⟨u, h1, h2⟩ := LTS.run_cons.mp hr
    simp only [List.cons_append, sequential, h1, Bool.and_eq_true] at h
    exact nonOverlapping_of h.2 h2 x hx m o rest

/-- Two subscribers, three calls, one after the other. -/
private def demoSeq : List (Label Nat) :=
  [.subscribe 1, .subscribe 2, .call (.next 10), .ret 0, .ret 0, .call (.next 20), .ret 1, .ret 1, .call .completed, .ret 2, .ret 2]

example (guard : Bool) : NonOverlapping guard demoSeq := by
  intro p n q s he hr
  have h : sequential guard init demoSeq = true := by cases guard <;> decide
  rw [he] at h
  exact nonOverlapping_of h hr
example (guard : Bool) : (LTS.run (step guard) init demoSeq).map (fun s => (heardBy 1 s, heardBy 2 s)) =
    some ([.next 10, .next 20, .completed], [.next 10, .next 20, .completed]) := by cases guard <;> decide
example : (passed demoSeq).Nodup := by decide

end Aio.Subject
