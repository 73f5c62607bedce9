import Verif.Lemmas.DebouncePrompt
import Verif.Lemmas.Stream
/-!
# C60, C61, C78: debounce

C60 holds for all schedules (nothing that should be suppressed is emitted, nothing is early) and on a
prompt loop (everything else is emitted, exactly when due). C61 is false: disposing the subscription
makes the observer receive a completion. C78 (the docstring: only values followed by another *value*
are ignored) is false: a value followed by the end of the stream is lost.
-/

namespace Aio.Debounce
variable {α : Type}
open Aio.Spec.Debounce

/-- `seen` is what C03 says about the safe observer. -/
theorem seen_eq_cut : ∀ l : List (Notif α × Nat), (seen l).map Prod.fst = Spec.cut (l.map Prod.fst)
  | [] => rfl
  | (.next v, t) :: l => by simp [seen, seen_eq_cut l]
  | (.error e, t) :: l => by simp [seen]
  | (.completed, t) :: l => by simp [seen]

theorem seen_values {T : Nat → Nat → Prop} {Q : List (Item α)} {l : List (Notif α × Nat)}
    (h : All2 (fun (q : Item α) (p : Notif α × Nat) => q.n = p.1 ∧ T q.t p.2) Q l) :
    ∃ V rest, Q = V ++ rest ∧ (∀ q ∈ V, isVal q = true) ∧ (∀ q, rest.head? = some q → isVal q = false) ∧
      All2 (fun (q : Item α) (p : α × Nat) => q.n = .next p.1 ∧ T q.t p.2) V (timedValues (seen l)) := by
  induction h with
  | nil => exact ⟨[], [], rfl, by simp, by simp, .nil⟩
  | @cons x y a b hxy _ ih =>
    obtain ⟨n, t⟩ := y
    cases n with
    | next v =>
      obtain ⟨V, rest, rfl, h1, h2, h3⟩ := ih
      refine ⟨x :: V, rest, rfl, ?_, h2, .cons hxy h3⟩
      intro q hq
      rcases List.mem_cons.mp hq with rfl | hq
      · simp [isVal, hxy.1, Notif.isTerminal]
      · exact h1 q hq
    | error e =>
      exact ⟨[], x :: a, rfl, by simp, by rintro q ⟨⟩; simp [isVal, hxy.1, Notif.isTerminal], .nil⟩
    | completed =>
      exact ⟨[], x :: a, rfl, by simp, by rintro q ⟨⟩; simp [isVal, hxy.1, Notif.isTerminal], .nil⟩

/-- The values the observer sees come from items in front of the first terminal. -/
theorem debounced_of {seconds : Nat} {arr : List (Notif α × Nat)} {s : State α} {Q R : List (Item α)} {L : Int}
    (hi : Inv seconds arr s Q R L) {V rest : List (Item α)} (hQ : Q = V ++ rest) (hV : ∀ q ∈ V, isVal q = true)
    (ha : All2 (fun (q : Item α) (p : α × Nat) => q.n = .next p.1 ∧ q.t ≤ p.2) V (timedValues (seen s.posted))) :
    Debounced seconds arr (V.map Item.k) (timedValues (seen s.posted)) := by
  refine ⟨?_, by simp [ha.length], ?_⟩
  · have h1 : V.Pairwise fun a b => a.k < b.k := by
      have hf : V.filter isVal = V := List.filter_eq_self.mpr hV
      have h2 := hi.order
      rw [hQ, List.append_assoc, List.filter_append, hf] at h2
      exact (List.pairwise_append.mp h2).1
    exact List.pairwise_map.mpr h1
  · intro p k v t hk ho
    obtain ⟨it, hit, hn, hle⟩ := ha.get ho
    have hk' : it.k = k := by simpa [List.getElem?_map, hit] using hk
    subst hk'
    dsimp only at hn hle
    have hmem : it ∈ Q ++ R := by
      have := List.mem_of_getElem? hit; rw [hQ]; simp [this]
    obtain ⟨⟨tk, h1, h2⟩, _, h4⟩ := hi.item it hmem v hn
    refine ⟨tk, h1, by omega, ?_⟩
    intro j n tj hj hor
    cases htm : n.isTerminal with
    | true =>
      apply Classical.byContradiction
      intro hlt
      obtain ⟨A, B, hAB⟩ := List.append_of_mem (List.mem_of_getElem? hit)
      have he : Q ++ R = A ++ it :: (B ++ rest ++ R) := by rw [hQ, hAB]; simp
      obtain ⟨x, hx, hxt⟩ := hi.termFirst A _ it he (hV it (List.mem_of_getElem? hit)) ⟨j, n, tj, hj, htm, by omega⟩
      have := hV x (by rw [hAB]; simp [hx])
      simp [isVal, hxt] at this
    | false =>
      cases n with
      | next w =>
        rcases hor with hor | hor
        · have := h4 j w tj hor hj; omega
        · simp [htm] at hor
      | error e => simp [Notif.isTerminal] at htm
      | completed => simp [Notif.isTerminal] at htm

/-! ## C60 -/

/-- For every schedule: the values the observer sees are values of the source, in order and each at
most once, never earlier than `seconds` after their arrival, and none that was followed by another
value or by the end of the stream within `seconds`. -/
theorem C60_quiet (seconds : Nat) (ls : List (Label α)) (s : State α) (h : LTS.run (step seconds) init ls = some s) :
    ∃ ks : List Nat, Debounced seconds (arrivals ls) ks (timedValues (seen s.posted)) := by
  obtain ⟨Q, R, L, hi, _⟩ := good h
  obtain ⟨V, rest, hQ, hV, _, ha⟩ := seen_values hi.post
  exact ⟨_, debounced_of hi hQ hV ha⟩

/-- On a prompt loop: the same with the exact times, and every value that is not followed by any event
within `seconds` (and not preceded by the end of the stream) is among them once its time has passed. -/
theorem C60_exact (seconds : Nat) (ls : List (Label α)) (s : State α) (h : LTS.run (promptStep seconds) init ls = some s) :
    ∃ ks : List Nat, Debounced seconds (arrivals ls) ks (timedValues (seen s.posted)) ∧
      (∀ (p k : Nat) (v : α) (t tk : Nat), ks[p]? = some k → (timedValues (seen s.posted))[p]? = some (v, t) →
        (arrivals ls)[k]? = some (.next v, tk) → t = tk + seconds) ∧
      (Label.dispose ∉ ls → ∀ (k : Nat) (v : α) (tk : Nat), (arrivals ls)[k]? = some (.next v, tk) → tk + seconds < clock ls →
        (∀ (j : Nat) (n : Notif α) (tj : Nat), (arrivals ls)[j]? = some (n, tj) → k < j ∨ n.isTerminal = true → tk + seconds < tj) →
        ∃ p : Nat, ks[p]? = some k ∧ (timedValues (seen s.posted))[p]? = some (v, tk + seconds)) := by
  obtain ⟨Q, R, L, hi, hp⟩ := good (prompt_run h)
  have hp := hp h
  have hclock := run_clock (prompt_run h)
  obtain ⟨V, rest, hQ, hV, hrest, ha⟩ := seen_values hp.post
  have ha' : All2 (fun (q : Item α) (p : α × Nat) => q.n = .next p.1 ∧ q.t ≤ p.2) V (timedValues (seen s.posted)) :=
    ha.imp fun _ _ h => ⟨h.1, Nat.le_of_eq h.2⟩
  refine ⟨_, debounced_of hi hQ hV ha', ?_, ?_⟩
  · intro p k v t tk hk ho harr
    obtain ⟨it, hit, hn, hle⟩ := ha.get ho
    have hk' : it.k = k := by simpa [List.getElem?_map, hit] using hk
    subst hk'
    dsimp only at hn hle
    have hmem : it ∈ Q ++ R := by
      have := List.mem_of_getElem? hit; rw [hQ]; simp [this]
    have := hp.item it hmem v tk hn harr
    omega
  · intro hnd k v tk harr hpast hq
    have hdisp : s.disposed = 0 := by
      refine LTS.inv_hist (fun ls (s : State α) => Label.dispose ∉ ls → s.disposed = 0) (s0 := init) (fun _ => rfl) ?_ (prompt_run h) hnd
      intro ls s l s' hI hs hnd
      have h0 := hI fun hm => hnd (by simp [hm])
      cases l <;> simp only [step] at hs
      case event n => cases hs; exact h0
      case start k => split at hs <;> cases hs; exact h0
      case wake k =>
        split at hs
        · split at hs <;> cases hs; exact h0
        · cases hs
      case receive => split at hs <;> cases hs; exact h0
      case dispose => exact absurd (by simp) hnd
      case tick d => cases hs; exact h0
    -- the timer of event `k` has fired
    have hlen : k < s.timers.length := by
      rw [hi.len]; exact (List.getElem?_eq_some_iff.mp harr).1
    have hdone : s.timers[k]? = some (.next v, .done) := by
      cases hx : s.timers[k] with
      | mk n x =>
        have hg : s.timers[k]? = some (n, x) := by rw [List.getElem?_eq_getElem hlen, hx]
        obtain ⟨t', ht'⟩ := hi.same k n x hg
        rw [harr] at ht'; cases ht'
        cases x with
        | fresh =>
          have := hp.fresh k _ hg; rw [harr] at this; cases this; omega
        | sleeping w =>
          obtain ⟨h1, t'', h2, h3⟩ := hp.wake k _ w hg
          rw [harr] at h2; cases h2; omega
        | done => exact hg
    rcases hp.done k v tk hdone harr with ⟨it, hit, hitk, hitn⟩ | ⟨j, w, tj, h1, h2, h3⟩
    · have ht := hp.item it hit v tk hitn (by rw [hitk]; exact harr)
      have hitQ : it ∈ Q := by
        rcases List.mem_append.mp hit with h1 | h1
        · exact h1
        · have := hp.pending it h1; omega
      have hitV : it ∈ V := by
        rw [hQ] at hitQ
        rcases List.mem_append.mp hitQ with h1 | h1
        · exact h1
        · exfalso
          cases rest with
          | nil => cases h1
          | cons x rest =>
            have hx := hrest x rfl
            simp [isVal] at hx
            have hle : x.t ≤ it.t := by
              have hs := hi.sorted
              rw [hQ, List.append_assoc] at hs
              have hs := (List.pairwise_append.mp hs).2.1
              rw [List.cons_append] at hs
              rcases List.mem_cons.mp h1 with h1 | h1
              · rw [h1]; exact Nat.le_refl _
              · exact (List.pairwise_cons.mp hs).1 it (by simp [h1])
            rcases hi.origin x (by rw [hQ]; simp) hx with h2 | ⟨j, n, tj, h2, h3, h4⟩
            · omega
            · have := hq j n tj h2 (.inr h3); omega
      obtain ⟨p, hp', hpe⟩ := List.getElem_of_mem hitV
      have hpo : p < (timedValues (seen s.posted)).length := by rw [← ha.length]; exact hp'
      refine ⟨p, by simp [List.getElem?_map, List.getElem?_eq_getElem hp', hpe, hitk], ?_⟩
      obtain ⟨it', h1, h2, h3⟩ := ha.get (List.getElem?_eq_getElem hpo)
      rw [List.getElem?_eq_getElem hp', hpe] at h1
      cases h1
      rw [List.getElem?_eq_getElem hpo]
      rw [hitn] at h2; cases h2
      rw [ht, h3]
    · have := hq j _ tj h2 (.inl h1); omega

/-- A burst of two values and, later, a third: the second and the third are emitted. -/
example : ∃ s : State Nat, LTS.run (promptStep 2) init
    [.event (.next 7), .start 0, .receive, .tick 1, .event (.next 8), .start 1, .receive, .tick 1, .wake 0, .receive,
      .tick 1, .wake 1, .receive, .tick 1, .event (.next 9), .start 2, .receive, .tick 2, .wake 2, .receive, .tick 1] = some s ∧
    timedValues (seen s.posted) = [(8, 3), (9, 6)] := ⟨_, rfl, rfl⟩

/-! ## C61 -/

/-- All calls on the safe observer, made and due. -/
def total (s : State α) : List (Notif α) := s.posted.map Prod.fst ++ (process s.current s.inbox).2

theorem total_step {seconds : Nat} {s s' : State α} {l : Label α} (h : step seconds s l = some s') :
    ∃ x, total s' = total s ++ x := by
  cases l <;> simp only [step] at h
  case event n => cases h; exact ⟨_, by simp [total, process_snoc]; rfl⟩
  case start k => split at h <;> cases h; exact ⟨[], by simp [total]⟩
  case wake k =>
    split at h
    · split at h <;> cases h
      exact ⟨_, by simp [total, process_snoc]; rfl⟩
    · cases h
  case receive =>
    split at h
    · rename_i hm; cases h
      refine ⟨[], ?_⟩
      simp only [total, hm, process, List.map_append, List.map_map]
      cases (handle s.current _).2 <;> simp
    · cases h
  case dispose => cases h; exact ⟨_, by simp [total, process_snoc]; rfl⟩
  case tick d => cases h; exact ⟨[], by simp [total]⟩

theorem total_run {seconds : Nat} {ls : List (Label α)} : ∀ {s s' : State α}, LTS.run (step seconds) s ls = some s' →
    ∃ x, total s' = total s ++ x := by
  induction ls with
  | nil => intro s s' h; simp [LTS.run] at h; subst h; exact ⟨[], by simp⟩
  | cons l ls ih =>
    intro s s' h
    obtain ⟨s1, h1, h2⟩ := LTS.run_cons.mp h
    obtain ⟨x, hx⟩ := total_step h1
    obtain ⟨y, hy⟩ := ih h2
    exact ⟨x ++ y, by rw [hy, hx]; simp⟩

/-- C61 is false, always: when a subscription has been disposed and the worker has emptied its mailbox,
the observer has been given a terminal notification - by the disposal, if not by the source. -/
theorem C61_violated_always (seconds : Nat) (ls ls' : List (Label α)) (s s' : State α)
    (_h : LTS.run (step seconds) init ls = some s) (h' : LTS.run (step seconds) s (.dispose :: ls') = some s') (hi : s'.inbox = []) :
    ∃ p ∈ seen s'.posted, p.1.isTerminal = true := by
  obtain ⟨s1, h1, h2⟩ := LTS.run_cons.mp h'
  simp only [step, Option.some.injEq] at h1; subst h1
  obtain ⟨x, hx⟩ := total_run h2
  have hm : Notif.completed ∈ s'.posted.map Prod.fst := by
    simp [total, hi, process, process_snoc, handle] at hx
    rw [hx]; simp
  have key : ∀ l : List (Notif α × Nat), Notif.completed ∈ l.map Prod.fst → ∃ p ∈ seen l, p.1.isTerminal = true := by
    intro l
    induction l with
    | nil => intro h; simp at h
    | cons p l ih =>
      intro h
      obtain ⟨n, t⟩ := p
      cases n with
      | next v =>
        obtain ⟨q, hq, ht⟩ := ih (by simpa using h)
        exact ⟨q, by simp [seen, hq], ht⟩
      | error e => exact ⟨(.error e, t), by simp [seen], rfl⟩
      | completed => exact ⟨(.completed, t), by simp [seen], rfl⟩
  exact key _ hm

/-- The witness: a source that never sends anything; the observer is told that it has completed. -/
theorem C61_violated : ∃ (ls : List (Label Nat)) (s : State Nat), LTS.run (step 1) init ls = some s ∧
    arrivals ls = [] ∧ seen s.posted = [(.completed, 0)] := ⟨[.dispose, .receive], _, rfl, rfl, rfl⟩

/-- What remains of C61: after the disposal the observer receives at most what was already in the
mailbox, then that completion, and nothing else, whatever timers are still running and whatever the
source still sends. Missing: the completion should not be sent at all (false, see above). -/
theorem C61_bounded_partial (seconds : Nat) (ls ls' : List (Label α)) (s s' : State α)
    (_h : LTS.run (step seconds) init ls = some s) (h' : LTS.run (step seconds) s (.dispose :: ls') = some s') :
    (seen s'.posted).map Prod.fst <+:
      Spec.cut (s.posted.map Prod.fst ++ (process s.current s.inbox).2 ++ [.completed]) := by
  obtain ⟨s1, h1, h2⟩ := LTS.run_cons.mp h'
  simp only [step, Option.some.injEq] at h1; subst h1
  obtain ⟨x, hx⟩ := total_run h2
  rw [seen_eq_cut]
  have h3 : s'.posted.map Prod.fst <+: total s' := ⟨_, rfl⟩
  have h4 := Spec.cut_mono h3
  rw [hx] at h4
  have h5 : ∀ (a : List (Notif α)) (y : List (Notif α)), Spec.cut (a ++ [.completed] ++ y) = Spec.cut (a ++ [.completed]) := by
    intro a y
    induction a with
    | nil => simp
    | cons n a ih => cases n <;> simp_all
  have h6 : total { s with disposed := s.disposed + 1, inbox := s.inbox ++ [(.completed, 0)] } =
      s.posted.map Prod.fst ++ (process s.current s.inbox).2 ++ [.completed] := by
    simp [total, process_snoc, handle]
  rw [h6, h5] at h4
  exact h4

example : ∃ s : State Nat, LTS.run (step 1) init [.event (.next 7), .start 0, .receive, .dispose, .tick 1, .wake 0, .receive, .receive] = some s ∧
    seen s.posted = [(.completed, 1)] := ⟨_, rfl, rfl⟩

/-! ## C78 -/

/-- C78 is false: a value followed by the completion within `seconds` is never delivered, however the
schedule goes on. -/
theorem C78_violated (v : α) (seconds : Nat) (hs : 0 < seconds) (ls : List (Label α)) (s : State α)
    (h : LTS.run (step seconds) init (.event (.next v) :: .event .completed :: ls) = some s) : timedValues (seen s.posted) = [] := by
  obtain ⟨ks, _, hlen, hq⟩ := C60_quiet seconds _ s h
  cases ho : timedValues (seen s.posted) with
  | nil => rfl
  | cons p rest =>
    exfalso
    obtain ⟨w, t⟩ := p
    rw [ho] at hlen hq
    cases ks with
    | nil => simp at hlen
    | cons k ks =>
      obtain ⟨tk, _, _, h3⟩ := hq 0 k w t rfl rfl
      have := h3 1 .completed 0 (by simp [arrivals, arrivalsFrom]) (.inr rfl)
      omega

/-- The value is not followed by another one, all timers have run, and it is not delivered. -/
example : ∃ s : State Nat, LTS.run (promptStep 1) init [.event (.next 7), .event .completed, .start 0, .start 1, .receive, .receive, .tick 1,
    .wake 0, .wake 1, .receive, .receive, .tick 1] = some s ∧ seen s.posted = [(.completed, 0)] := ⟨_, rfl, rfl⟩

/-- What remains of C78, on a prompt loop: a value whose time has passed and that was not delivered was
followed by an event (value or terminal) within `seconds`, or the stream had ended before it, or the
subscription was disposed. Missing: that it was a value. -/
theorem C78_followed_partial (seconds : Nat) (ls : List (Label α)) (s : State α) (h : LTS.run (promptStep seconds) init ls = some s)
    (hnd : Label.dispose ∉ ls) (k : Nat) (v : α) (tk : Nat) (hk : (arrivals ls)[k]? = some (.next v, tk)) (hp : tk + seconds < clock ls)
    (hlost : (v, tk + seconds) ∉ timedValues (seen s.posted)) :
    ∃ (j : Nat) (n : Notif α) (tj : Nat), (arrivals ls)[j]? = some (n, tj) ∧ (k < j ∨ n.isTerminal = true) ∧ tj ≤ tk + seconds := by
  apply Classical.byContradiction
  intro hno
  obtain ⟨ks, _, _, h3⟩ := C60_exact seconds ls s h
  obtain ⟨p, _, h5⟩ := h3 hnd k v tk hk hp (by
    intro j n tj h1 h2
    apply Classical.byContradiction
    intro h6
    exact hno ⟨j, n, tj, h1, h2, by omega⟩)
  exact hlost (List.mem_of_getElem? h5)

end Aio.Debounce
