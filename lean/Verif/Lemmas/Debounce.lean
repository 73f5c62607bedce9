import Verif.Spec.Debounce
import Verif.Lemmas.Lists
/-!
# Invariants of `debounce`
-/

namespace Aio.Debounce
variable {α : Type}
open Aio.Spec.Debounce

theorem clock_append (a b : List (Label α)) : clock (a ++ b) = clock a + clock b := by
  induction a with
  | nil => simp [clock]
  | cons l a ih => cases l <;> simp [clock, ih]; omega

theorem arrivalsFrom_append (a b : List (Label α)) : ∀ t : Nat,
    arrivalsFrom t (a ++ b) = arrivalsFrom t a ++ arrivalsFrom (t + clock a) b := by
  induction a with
  | nil => simp [clock, arrivalsFrom]
  | cons l a ih =>
    intro t
    cases l
    case tick d => simp [clock, arrivalsFrom, ih]; congr 1; omega
    all_goals simp [clock, arrivalsFrom, ih]

theorem arrivals_event (ls : List (Label α)) (n : Notif α) :
    arrivals (ls ++ [.event n]) = arrivals ls ++ [(n, clock ls)] := by
  simp [arrivals, arrivalsFrom_append, arrivalsFrom]

theorem arrivals_other (ls : List (Label α)) {l : Label α} (h : ∀ n, l ≠ .event n) :
    arrivals (ls ++ [l]) = arrivals ls := by
  simp only [arrivals, arrivalsFrom_append]
  cases l <;> simp [arrivalsFrom]
  rename_i n; exact h n rfl

theorem step_clock {seconds : Nat} {ls : List (Label α)} {s s' : State α} {l : Label α} (hi : s.now = clock ls)
    (h : step seconds s l = some s') : s'.now = clock (ls ++ [l]) := by
  rw [clock_append]
  cases l <;> simp only [step] at h
  case event n => cases h; simpa [clock] using hi
  case start k => split at h <;> cases h; simpa [clock] using hi
  case wake k =>
    split at h
    · split at h <;> cases h; simpa [clock] using hi
    · cases h
  case receive => split at h <;> cases h; simpa [clock] using hi
  case dispose => cases h; simpa [clock] using hi
  case tick d => cases h; simp [clock, hi]

theorem run_clock {seconds : Nat} {ls : List (Label α)} {s : State α} (h : LTS.run (step seconds) init ls = some s) :
    s.now = clock ls :=
  LTS.inv_hist (fun ls s => s.now = clock ls) (s0 := init) rfl (fun _ _ _ _ hi hs => step_clock hi hs) h

theorem prompt_run {seconds : Nat} {ls : List (Label α)} : ∀ {s s' : State α},
    LTS.run (promptStep seconds) s ls = some s' → LTS.run (step seconds) s ls = some s' := by
  induction ls with
  | nil => intro s s' h; exact h
  | cons l ls ih =>
    intro s s' h
    obtain ⟨s1, h1, h2⟩ := LTS.run_cons.mp h
    simp only [promptStep, Option.ite_none_right_eq_some] at h1
    exact LTS.run_cons.mpr ⟨s1, h1.2, ih h2⟩

theorem prompt_snoc {seconds : Nat} {ls : List (Label α)} {l : Label α} {s s' : State α}
    (hr : LTS.run (step seconds) init ls = some s)
    (h : LTS.run (promptStep seconds) init (ls ++ [l]) = some s') :
    LTS.run (promptStep seconds) init ls = some s ∧ prompt s l = true := by
  obtain ⟨s1, h1, h2⟩ := LTS.run_append.mp h
  have := prompt_run h1
  rw [hr] at this; cases this
  obtain ⟨s2, h3, _⟩ := LTS.run_cons.mp h2
  simp only [promptStep, Option.ite_none_right_eq_some] at h3
  exact ⟨h1, h3.1⟩

/-- The worker on a whole mailbox. -/
def process (c : Int) : List (Notif α × Int) → Int × List (Notif α)
  | [] => (c, [])
  | m :: ms => ((process (handle c m).1 ms).1, (handle c m).2.toList ++ (process (handle c m).1 ms).2)

theorem process_snoc (ms : List (Notif α × Int)) (m : Notif α × Int) : ∀ c : Int,
    process c (ms ++ [m]) = ((handle (process c ms).1 m).1, (process c ms).2 ++ (handle (process c ms).1 m).2.toList) := by
  induction ms with
  | nil => intro c; simp [process]
  | cons x ms ih => intro c; simp [process, ih]

/-- A call on the safe observer that is due: the notification, the number of the event and the time
at which its message was posted to the worker. -/
structure Item (α : Type) where
  n : Notif α
  k : Nat
  t : Nat

/-- The number of the newest value (-1: none). -/
def IsLast (arr : List (Notif α × Nat)) (L : Int) : Prop :=
  (∀ (j : Nat) (w : α) (tj : Nat), arr[j]? = some (.next w, tj) → (j : Int) ≤ L) ∧
  (L = -1 ∨ ∃ (j : Nat) (w : α) (tj : Nat), L = j ∧ arr[j]? = some (.next w, tj))

theorem IsLast.lt {arr : List (Notif α × Nat)} {L : Int} (h : IsLast arr L) : L < arr.length := by
  rcases h.2 with h1 | ⟨j, w, tj, h1, h2⟩
  · omega
  · have := (List.getElem?_eq_some_iff.mp h2).1; omega

def isVal (it : Item α) : Bool := !it.n.isTerminal

/-- What does not depend on the loop being prompt. `arr` are the arrivals. -/
structure Inv (seconds : Nat) (arr : List (Notif α × Nat)) (s : State α) (Q R : List (Item α)) (L : Int) : Prop where
  post : All2 (fun (q : Item α) (p : Notif α × Nat) => q.n = p.1 ∧ q.t ≤ p.2) Q s.posted
  proc : process s.current s.inbox = (L, R.map Item.n)
  last : IsLast arr L
  index : s.nextIndex = arr.length
  len : s.timers.length = arr.length
  same : ∀ (k : Nat) (n : Notif α) (x : Timer), s.timers[k]? = some (n, x) → ∃ t : Nat, arr[k]? = some (n, t)
  wake : ∀ (k : Nat) (n : Notif α) (w : Nat), s.timers[k]? = some (n, .sleeping w) → ∃ t : Nat, arr[k]? = some (n, t) ∧ t + seconds ≤ w
  past : ∀ (k : Nat) (n : Notif α) (t : Nat), arr[k]? = some (n, t) → t ≤ s.now
  itemPast : ∀ it ∈ Q ++ R, it.t ≤ s.now
  order : ((Q ++ R).filter isVal).Pairwise fun a b => a.k < b.k
  item : ∀ it ∈ Q ++ R, ∀ v : α, it.n = .next v →
    (∃ tk : Nat, arr[it.k]? = some (.next v, tk) ∧ tk + seconds ≤ it.t) ∧ s.timers[it.k]? = some (.next v, .done) ∧
    ∀ (j : Nat) (w : α) (tj : Nat), it.k < j → arr[j]? = some (.next w, tj) → it.t ≤ tj
  term : (∃ (j : Nat) (n : Notif α) (tj : Nat), arr[j]? = some (n, tj) ∧ n.isTerminal = true) → ∃ it ∈ Q ++ R, it.n.isTerminal = true
  termFirst : ∀ (A B : List (Item α)) (it : Item α), Q ++ R = A ++ it :: B → isVal it = true →
    (∃ (j : Nat) (n : Notif α) (tj : Nat), arr[j]? = some (n, tj) ∧ n.isTerminal = true ∧ tj < it.t) → ∃ x ∈ A, x.n.isTerminal = true
  done : ∀ (k : Nat) (v : α), s.timers[k]? = some (.next v, .done) →
    (∃ it ∈ Q ++ R, it.k = k ∧ it.n = .next v) ∨ ∃ (j : Nat) (w : α) (tj : Nat), k < j ∧ arr[j]? = some (.next w, tj)
  sorted : (Q ++ R).Pairwise fun a b => a.t ≤ b.t
  origin : ∀ it ∈ Q ++ R, it.n.isTerminal = true →
    0 < s.disposed ∨ ∃ (j : Nat) (n : Notif α) (tj : Nat), arr[j]? = some (n, tj) ∧ n.isTerminal = true ∧ tj ≤ it.t

/-- What holds on a prompt loop in addition. -/
structure Prompt (seconds : Nat) (arr : List (Notif α × Nat)) (s : State α) (Q R : List (Item α)) : Prop where
  post : All2 (fun (q : Item α) (p : Notif α × Nat) => q.n = p.1 ∧ q.t = p.2) Q s.posted
  pending : ∀ it ∈ R, it.t = s.now
  fresh : ∀ (k : Nat) (n : Notif α), s.timers[k]? = some (n, .fresh) → arr[k]? = some (n, s.now)
  wake : ∀ (k : Nat) (n : Notif α) (w : Nat), s.timers[k]? = some (n, .sleeping w) → s.now ≤ w ∧ ∃ t : Nat, arr[k]? = some (n, t) ∧ t + seconds = w
  item : ∀ it ∈ Q ++ R, ∀ (v : α) (tk : Nat), it.n = .next v → arr[it.k]? = some (.next v, tk) → tk + seconds = it.t
  done : ∀ (k : Nat) (v : α) (tk : Nat), s.timers[k]? = some (.next v, .done) → arr[k]? = some (.next v, tk) →
    (∃ it ∈ Q ++ R, it.k = k ∧ it.n = .next v) ∨ ∃ (j : Nat) (w : α) (tj : Nat), k < j ∧ arr[j]? = some (.next w, tj) ∧ tj ≤ tk + seconds

variable {seconds : Nat} {arr : List (Notif α × Nat)} {s : State α} {Q R : List (Item α)} {L : Int}

theorem Inv.event_value (h : Inv seconds arr s Q R L) (v : α) :
    Inv seconds (arr ++ [(.next v, s.now)])
      { s with nextIndex := s.nextIndex + 1, inbox := s.inbox ++ [(.next v, (s.nextIndex : Int))], timers := s.timers ++ [(.next v, .fresh)] }
      Q R (arr.length : Nat) := by
  have hL := h.last.lt
  refine ⟨h.post, ?_, ?_, by simp [h.index], by simp [h.len], ?_, ?_, ?_, h.itemPast, h.order, ?_, ?_, ?_, ?_, h.sorted, ?_⟩
  · have h1 : ¬ (arr.length : Int) = L := by omega
    have h2 : (arr.length : Int) > L := by omega
    simp [process_snoc, h.proc, handle, h.index, h1, h2]
  · refine ⟨?_, .inr ⟨arr.length, v, s.now, rfl, by simp⟩⟩
    intro j w tj hj
    have := (List.getElem?_eq_some_iff.mp hj).1
    simp at this; omega
  · intro k n x hk
    rcases get_push.mp hk with hk | ⟨rfl, he⟩
    · obtain ⟨t, ht⟩ := h.same k n x hk; exact ⟨t, prefix_get ht⟩
    · cases he; exact ⟨s.now, by simp [h.len]⟩
  · intro k n w hk
    rcases get_push.mp hk with hk | ⟨_, he⟩
    · obtain ⟨t, ht, hle⟩ := h.wake k n w hk; exact ⟨t, prefix_get ht, hle⟩
    · cases he
  · intro k n t hk
    rcases get_push.mp hk with hk | ⟨_, he⟩
    · exact h.past k n t hk
    · cases he; exact Nat.le_refl _
  · intro it hit v' hn
    obtain ⟨⟨tk, h1, h2⟩, h3, h4⟩ := h.item it hit v' hn
    refine ⟨⟨tk, prefix_get h1, h2⟩, prefix_get h3, ?_⟩
    intro j w tj hlt hj
    rcases get_push.mp hj with hj | ⟨_, he⟩
    · exact h4 j w tj hlt hj
    · cases he; exact h.itemPast it hit
  · rintro ⟨j, n, tj, hj, ht⟩
    rcases get_push.mp hj with hj | ⟨_, he⟩
    · exact h.term ⟨j, n, tj, hj, ht⟩
    · cases he; cases ht
  · rintro A B it he hv ⟨j, n, tj, hj, ht, hlt⟩
    rcases get_push.mp hj with hj | ⟨_, he'⟩
    · exact h.termFirst A B it he hv ⟨j, n, tj, hj, ht, hlt⟩
    · cases he'; cases ht
  · intro k v' hk
    rcases get_push.mp hk with hk | ⟨_, he⟩
    · rcases h.done k v' hk with h1 | ⟨j, w, tj, h1, h2⟩
      · exact .inl h1
      · exact .inr ⟨j, w, tj, h1, prefix_get h2⟩
    · cases he
  · intro it hit ht
    rcases h.origin it hit ht with h1 | ⟨j, n, tj, h1, h2⟩
    · exact .inl h1
    · exact .inr ⟨j, n, tj, prefix_get h1, h2⟩

theorem sorted_snoc {l : List (Item α)} {it : Item α} (h : l.Pairwise fun a b => a.t ≤ b.t) (hl : ∀ x ∈ l, x.t ≤ it.t) :
    (l ++ [it]).Pairwise fun a b => a.t ≤ b.t :=
  List.pairwise_append.mpr ⟨h, List.pairwise_singleton _ _, fun a ha b hb => by simp at hb; subst hb; exact hl a ha⟩

theorem filter_snoc_term {l : List (Item α)} {it : Item α} (h : it.n.isTerminal = true) :
    (l ++ [it]).filter isVal = l.filter isVal := by
  simp [List.filter_append, isVal, h]

/-- A terminal is appended to what is due. -/
theorem Inv.push_term (h : Inv seconds arr s Q R L) {n : Notif α} (hn : n.isTerminal = true) (k : Nat) (i : Int) (d : Nat)
    (ho : 0 < s.disposed + d ∨ ∃ (j : Nat) (n : Notif α) (tj : Nat), arr[j]? = some (n, tj) ∧ n.isTerminal = true) :
    Inv seconds arr { s with inbox := s.inbox ++ [(n, i)], disposed := s.disposed + d } Q (R ++ [⟨n, k, s.now⟩]) L := by
  have happ : Q ++ (R ++ [⟨n, k, s.now⟩]) = (Q ++ R) ++ [⟨n, k, s.now⟩] := by simp
  refine ⟨h.post, ?_, h.last, h.index, h.len, h.same, h.wake, h.past, ?_, ?_, ?_, ?_, ?_, ?_, ?_, ?_⟩
  · cases n
    · cases hn
    · simp [process_snoc, h.proc, handle]
    · simp [process_snoc, h.proc, handle]
  · intro it hit
    rw [happ] at hit
    rcases List.mem_append.mp hit with hit | hit
    · exact h.itemPast it hit
    · simp at hit; subst hit; exact Nat.le_refl _
  · rw [happ, filter_snoc_term hn]; exact h.order
  · intro it hit v' hv
    rw [happ] at hit
    rcases List.mem_append.mp hit with hit | hit
    · exact h.item it hit v' hv
    · simp at hit; subst hit; simp at hv; subst hv; cases hn
  · intro _; exact ⟨⟨n, k, s.now⟩, by simp, hn⟩
  · intro A B it he hv hx
    rw [happ] at he
    rcases List.eq_nil_or_concat B with rfl | ⟨B', x, rfl⟩
    · have := List.append_inj' he rfl
      simp at this
      have h2 := this.2; subst h2; simp [isVal, hn] at hv
    · rw [List.concat_eq_append, ← List.cons_append, ← List.append_assoc] at he
      have := List.append_inj' he rfl
      exact h.termFirst A B' it this.1 hv hx
  · intro k' v' hk
    rcases h.done k' v' hk with ⟨it, hit, h1⟩ | h1
    · exact .inl ⟨it, by rw [happ]; exact List.mem_append_left _ hit, h1⟩
    · exact .inr h1
  · rw [happ]; exact sorted_snoc h.sorted h.itemPast
  · intro it hit ht
    rw [happ] at hit
    rcases List.mem_append.mp hit with hit | hit
    · rcases h.origin it hit ht with h1 | h1
      · exact .inl (by dsimp only; omega)
      · exact .inr h1
    · simp at hit; subst hit
      rcases ho with h1 | ⟨j, n', tj, h1, h2⟩
      · exact .inl h1
      · exact .inr ⟨j, n', tj, h1, h2, h.past j n' tj h1⟩

theorem Inv.event_term (h : Inv seconds arr s Q R L) {n : Notif α} (hn : n.isTerminal = true) :
    Inv seconds (arr ++ [(n, s.now)])
      { s with nextIndex := s.nextIndex + 1, inbox := s.inbox ++ [(n, (s.nextIndex : Int))], timers := s.timers ++ [(n, .fresh)] }
      Q (R ++ [⟨n, arr.length, s.now⟩]) L := by
  have h' := h.push_term hn arr.length (s.nextIndex : Int) 1 (.inl (by omega))
  have hno : ∀ {k : Nat} {w : α} {tj : Nat}, (arr ++ [(n, s.now)])[k]? = some (.next w, tj) → arr[k]? = some (.next w, tj) := by
    intro k w tj hk
    rcases get_push.mp hk with hk | ⟨_, he⟩
    · exact hk
    · cases he; cases hn
  refine ⟨h'.post, h'.proc, ⟨fun j w tj hj => h.last.1 j w tj (hno hj), ?_⟩, by simp [h.index], by simp [h.len], ?_, ?_, ?_, h'.itemPast, h'.order, ?_, ?_, ?_, ?_, h'.sorted, ?_⟩
  · rcases h.last.2 with h1 | ⟨j, w, tj, h1, h2⟩
    · exact .inl h1
    · exact .inr ⟨j, w, tj, h1, prefix_get h2⟩
  · intro k n' x hk
    rcases get_push.mp hk with hk | ⟨rfl, he⟩
    · obtain ⟨t, ht⟩ := h.same k n' x hk; exact ⟨t, prefix_get ht⟩
    · cases he; exact ⟨s.now, by simp [h.len]⟩
  · intro k n' w hk
    rcases get_push.mp hk with hk | ⟨_, he⟩
    · obtain ⟨t, ht, hle⟩ := h.wake k n' w hk; exact ⟨t, prefix_get ht, hle⟩
    · cases he
  · intro k n' t hk
    rcases get_push.mp hk with hk | ⟨_, he⟩
    · exact h.past k n' t hk
    · cases he; exact Nat.le_refl _
  · intro it hit v' hv
    obtain ⟨⟨tk, h1, h2⟩, h3, h4⟩ := h'.item it hit v' hv
    refine ⟨⟨tk, prefix_get h1, h2⟩, prefix_get h3, ?_⟩
    intro j w tj hlt hj
    exact h4 j w tj hlt (hno hj)
  · intro _; exact ⟨⟨n, arr.length, s.now⟩, by simp, hn⟩
  · rintro A B it he hv ⟨j, n', tj, hj, ht, hlt⟩
    rcases get_push.mp hj with hj | ⟨_, he'⟩
    · exact h'.termFirst A B it he hv ⟨j, n', tj, hj, ht, hlt⟩
    · cases he'
      have := h'.itemPast it (by rw [he]; simp)
      dsimp only at this; omega
  · intro k v' hk
    rcases get_push.mp hk with hk | ⟨_, he⟩
    · rcases h'.done k v' hk with h1 | ⟨j, w, tj, h1, h2⟩
      · exact .inl h1
      · exact .inr ⟨j, w, tj, h1, prefix_get h2⟩
    · cases he
  · intro it hit ht
    rw [← List.append_assoc] at hit
    rcases List.mem_append.mp hit with hit | hit
    · rcases h.origin it hit ht with h1 | ⟨j, n', tj, h1, h2⟩
      · exact .inl h1
      · exact .inr ⟨j, n', tj, prefix_get h1, h2⟩
    · simp at hit; subst hit
      exact .inr ⟨arr.length, n, s.now, by simp, hn, Nat.le_refl _⟩

theorem Inv.set_timer (h : Inv seconds arr s Q R L) {k : Nat} {n : Notif α} {x0 x : Timer}
    (hk : s.timers[k]? = some (n, x0)) (h0 : x0 ≠ .done)
    (hw : ∀ w, x = .sleeping w → ∃ t : Nat, arr[k]? = some (n, t) ∧ t + seconds ≤ w)
    (hd : x = .done → ∀ v, n = .next v → ∃ (j : Nat) (w : α) (tj : Nat), k < j ∧ arr[j]? = some (.next w, tj)) :
    Inv seconds arr { s with timers := s.timers.set k (n, x) } Q R L := by
  have hlt := (List.getElem?_eq_some_iff.mp hk).1
  refine ⟨h.post, h.proc, h.last, h.index, by simp [h.len], ?_, ?_, h.past, h.itemPast, h.order, ?_, h.term, h.termFirst, ?_, h.sorted, h.origin⟩
  · intro k' n' x' hk'
    rcases (get_set hlt).mp hk' with ⟨rfl, he⟩ | ⟨_, hk'⟩
    · cases he; exact h.same _ _ _ hk
    · exact h.same _ _ _ hk'
  · intro k' n' w hk'
    rcases (get_set hlt).mp hk' with ⟨rfl, he⟩ | ⟨_, hk'⟩
    · cases he; exact hw w rfl
    · exact h.wake _ _ _ hk'
  · intro it hit v' hv
    obtain ⟨h1, h3, h4⟩ := h.item it hit v' hv
    refine ⟨h1, ?_, h4⟩
    have hne : it.k ≠ k := by
      intro hc; rw [hc, hk] at h3; cases h3; exact h0 rfl
    exact (get_set hlt).mpr (.inr ⟨hne, h3⟩)
  · intro k' v' hk'
    rcases (get_set hlt).mp hk' with ⟨rfl, he⟩ | ⟨_, hk'⟩
    · cases he; exact .inr (hd rfl v' rfl)
    · exact h.done k' v' hk'

/-- The newest value: its timer fires. -/
theorem Inv.wake_emit (h : Inv seconds arr s Q R L) {k : Nat} {v : α} {w : Nat}
    (hk : s.timers[k]? = some (.next v, .sleeping w)) (hw : w ≤ s.now) (hL : L = k) :
    Inv seconds arr { s with timers := s.timers.set k (.next v, .done), inbox := s.inbox ++ [(.next v, (k : Int))] }
      Q (R ++ [⟨.next v, k, s.now⟩]) L := by
  have happ : Q ++ (R ++ [⟨.next v, k, s.now⟩]) = (Q ++ R) ++ [⟨.next v, k, s.now⟩] := by simp
  have hlt := (List.getElem?_eq_some_iff.mp hk).1
  obtain ⟨tk, htk, hle⟩ := h.wake k _ w hk
  have hnewest : ∀ (j : Nat) (w : α) (tj : Nat), arr[j]? = some (.next w, tj) → j ≤ k := by
    intro j w tj hj; have := h.last.1 j w tj hj; omega
  have hne : ∀ it ∈ Q ++ R, isVal it = true → it.k < k := by
    intro it hit hv
    cases hn : it.n with
    | next v' =>
      obtain ⟨⟨t', h1, _⟩, h3, _⟩ := h.item it hit v' hn
      have := hnewest _ _ _ h1
      have : it.k ≠ k := by intro hc; rw [hc, hk] at h3; cases h3
      omega
    | error e => simp [isVal, hn, Notif.isTerminal] at hv
    | completed => simp [isVal, hn, Notif.isTerminal] at hv
  refine ⟨h.post, ?_, h.last, h.index, by simp [h.len], ?_, ?_, h.past, ?_, ?_, ?_, ?_, ?_, ?_, ?_, ?_⟩
  · simp [process_snoc, h.proc, handle, hL]
  · intro k' n' x' hk'
    rcases (get_set hlt).mp hk' with ⟨rfl, he⟩ | ⟨_, hk'⟩
    · cases he; exact ⟨tk, htk⟩
    · exact h.same _ _ _ hk'
  · intro k' n' w hk'
    rcases (get_set hlt).mp hk' with ⟨rfl, he⟩ | ⟨_, hk'⟩
    · cases he
    · exact h.wake _ _ _ hk'
  · intro it hit
    rw [happ] at hit
    rcases List.mem_append.mp hit with hit | hit
    · exact h.itemPast it hit
    · simp at hit; subst hit; exact Nat.le_refl _
  · rw [happ, List.filter_append]
    refine List.pairwise_append.mpr ⟨h.order, List.Pairwise.sublist List.filter_sublist (List.pairwise_singleton _ _), ?_⟩
    intro a ha b hb
    have ha := List.mem_filter.mp ha
    have hb := (List.mem_filter.mp hb).1
    simp at hb
    rw [hb]
    exact hne a ha.1 ha.2
  · intro it hit v' hv
    rw [happ] at hit
    rcases List.mem_append.mp hit with hit | hit
    · obtain ⟨h1, h3, h4⟩ := h.item it hit v' hv
      refine ⟨h1, ?_, h4⟩
      have hnek : it.k ≠ k := by
        intro hc; rw [hc, hk] at h3; cases h3
      exact (get_set hlt).mpr (.inr ⟨hnek, h3⟩)
    · simp at hit; subst hit; simp at hv; subst hv
      refine ⟨⟨tk, htk, by simp only; omega⟩, (get_set hlt).mpr (.inl ⟨rfl, rfl⟩), ?_⟩
      intro j w' tj hj ha; have := hnewest j w' tj ha; dsimp only at hj; omega
  · intro hx
    obtain ⟨it, hit, hn⟩ := h.term hx
    exact ⟨it, by rw [happ]; exact List.mem_append_left _ hit, hn⟩
  · intro A B it he hv hx
    rw [happ] at he
    rcases List.eq_nil_or_concat B with rfl | ⟨B', x, rfl⟩
    · have := List.append_inj' he rfl
      obtain ⟨j, n, tj, h1, h2, _⟩ := hx
      obtain ⟨y, hy, hyt⟩ := h.term ⟨j, n, tj, h1, h2⟩
      exact ⟨y, this.1 ▸ hy, hyt⟩
    · rw [List.concat_eq_append, ← List.cons_append, ← List.append_assoc] at he
      have := List.append_inj' he rfl
      exact h.termFirst A B' it this.1 hv hx
  · intro k' v' hk'
    rcases (get_set hlt).mp hk' with ⟨rfl, he⟩ | ⟨_, hk'⟩
    · cases he; exact .inl ⟨⟨.next v, k', s.now⟩, by simp, rfl, rfl⟩
    · rcases h.done k' v' hk' with ⟨it, hit, h1⟩ | h1
      · exact .inl ⟨it, by rw [happ]; exact List.mem_append_left _ hit, h1⟩
      · exact .inr h1
  · rw [happ]; exact sorted_snoc h.sorted h.itemPast
  · intro it hit ht
    rw [happ] at hit
    rcases List.mem_append.mp hit with hit | hit
    · exact h.origin it hit ht
    · simp at hit; subst hit; cases ht

/-- A message of a value that is not the newest does nothing. -/
theorem Inv.push_stale (h : Inv seconds arr s Q R L) {k : Nat} {v : α} (hL : (k : Int) < L) :
    Inv seconds arr { s with inbox := s.inbox ++ [(.next v, (k : Int))] } Q R L := by
  refine ⟨h.post, ?_, h.last, h.index, h.len, h.same, h.wake, h.past, h.itemPast, h.order, h.item, h.term, h.termFirst, h.done, h.sorted, h.origin⟩
  have h1 : ¬ (k : Int) = L := by omega
  have h2 : ¬ (k : Int) > L := by omega
  simp [process_snoc, h.proc, handle, h1, h2]

theorem Inv.tick (h : Inv seconds arr s Q R L) (d : Nat) : Inv seconds arr { s with now := s.now + d } Q R L :=
  ⟨h.post, h.proc, h.last, h.index, h.len, h.same, h.wake, fun k n t hk => Nat.le_trans (h.past k n t hk) (Nat.le_add_right _ _),
    fun it hit => Nat.le_trans (h.itemPast it hit) (Nat.le_add_right _ _), h.order, h.item, h.term, h.termFirst, h.done, h.sorted, h.origin⟩

/-- The worker takes a message: at most one of the due calls is made. -/
theorem Inv.receive (h : Inv seconds arr s Q R L) {m : Notif α × Int} {rest : List (Notif α × Int)} (hm : s.inbox = m :: rest) :
    ∃ A B, R = A ++ B ∧ A.map Item.n = (handle s.current m).2.toList ∧
    Inv seconds arr { s with inbox := rest, current := (handle s.current m).1, posted := s.posted ++ (handle s.current m).2.toList.map fun n => (n, s.now) }
      (Q ++ A) B L := by
  have hp := h.proc
  rw [hm] at hp
  simp only [process, Prod.mk.injEq] at hp
  obtain ⟨hp1, hp2⟩ := hp
  cases ho : (handle s.current m).2 with
  | none =>
    rw [ho] at hp2
    refine ⟨[], R, rfl, rfl, ?_⟩
    simp only [List.append_nil, Option.toList_none, List.map_nil]
    exact ⟨h.post, by simp [Prod.ext_iff, hp1, ← hp2], h.last, h.index, h.len, h.same, h.wake, h.past, h.itemPast, h.order, h.item, h.term, h.termFirst, h.done, h.sorted, h.origin⟩
  | some n =>
    rw [ho] at hp2
    simp only [Option.toList_some, List.singleton_append] at hp2
    cases R with
    | nil => simp at hp2
    | cons it R =>
      simp only [List.map_cons, List.cons.injEq] at hp2
      obtain ⟨hn, hp2⟩ := hp2
      refine ⟨[it], R, rfl, by simp [hn], ?_⟩
      have happ : (Q ++ [it]) ++ R = Q ++ it :: R := by simp
      have hpast := h.itemPast it (by simp)
      refine ⟨?_, by simp [Prod.ext_iff, hp1, ← hp2], h.last, h.index, h.len, h.same, h.wake, h.past, ?_, ?_, ?_, ?_, ?_, ?_, ?_, ?_⟩
      · simpa using h.post.snoc ⟨hn.symm, hpast⟩
      · rw [happ]; exact h.itemPast
      · rw [happ]; exact h.order
      · rw [happ]; exact h.item
      · rw [happ]; exact h.term
      · rw [happ]; exact h.termFirst
      · rw [happ]; exact h.done
      · rw [happ]; exact h.sorted
      · rw [happ]; exact h.origin

end Aio.Debounce
