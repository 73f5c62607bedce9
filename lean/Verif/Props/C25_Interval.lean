import Verif.Model.Interval
import Verif.Spec.Stream
/-!
# C25: interval and timer
-/

namespace Aio.Interval
open Spec

/-- The values sent, with times. -/
def sent (s : State) : List (Nat × Nat) := s.calls.filterMap fun
  | (t, .next v) => some (t, v)
  | _ => none

/-- The time at which value `k` is due. -/
def due (t0 : Nat) (seconds period : Int) (k : Nat) : Nat := t0 + seconds.toNat + k * period.toNat

/-- How many values have been sent, from the program's point of view. -/
def count : PC → Nat → Nat
  | .fresh, _ => 0
  | .sleeping _ n, _ => n
  | .sending n, _ => n + 1
  | .closing, _ => 1
  | .dead, n => n

/-- The main invariant. -/
structure Inv (t0 : Nat) (seconds period : Int) (s : State) : Prop where
  vals : ∃ n, (sent s).map (·.2) = List.range n ∧ (s.pc ≠ .dead → n = count s.pc n) ∧
    (period = 0 → n ≤ 1)
  late : ∀ k t, (sent s)[k]? = some (t, k) → due t0 seconds period k ≤ t
  clock : t0 ≤ s.now
  wake : ∀ w n, s.pc = .sleeping w n → due t0 seconds period n ≤ w
  sending : ∀ n, s.pc = .sending n → due t0 seconds period n ≤ s.now
  zero : period = 0 → ∀ w n, s.pc = .sleeping w n → n = 0
  zero' : period = 0 → ∀ n, s.pc = .sending n → n = 0
  shape : (∃ n, s.calls.map (·.2) = (List.range n).map .next ∧ s.pc ≠ .closing) ∨
    (s.calls.map (·.2) = [.next 0, .completed] ∧ period = 0 ∧ (s.pc = .closing ∨ s.pc = .dead))

theorem sent_snoc_next (s : State) (pc : PC) (c : Bool) (t v : Nat) :
    sent ⟨s.now, pc, c, s.calls ++ [(t, .next v)]⟩ = sent s ++ [(t, v)] := by
  simp [sent]

theorem sent_of_calls (cs : List (Nat × Notif Nat)) : ∀ xs : List Nat, cs.map (·.2) = xs.map .next →
    (cs.filterMap fun | (t, .next v) => some (t, v) | _ => none).map (·.2) = xs := by
  induction cs with
  | nil => intro xs h; simp at h; subst h; rfl
  | cons a cs ih =>
    intro xs h
    cases xs with
    | nil => simp at h
    | cons x xs =>
      obtain ⟨t, v⟩ := a
      simp at h
      obtain ⟨rfl, h⟩ := h
      simpa using ih xs (by simpa using h)

theorem inv_afterSend {t0 : Nat} {seconds period : Int} {now n : Nat} {c c' : Bool}
    {calls : List (Nat × Notif Nat)} (h : Inv t0 seconds period ⟨now, .sending n, c, calls⟩) :
    Inv t0 seconds period (afterSend period ⟨now, .sending n, c', calls⟩ n) := by
  obtain ⟨⟨k, h1, h2, h2'⟩, h3, h4, -, h6, -, h8, h9⟩ := h
  have hk : k = n + 1 := h2 (by simp)
  subst hk
  have h9' : ∃ m, calls.map (·.2) = (List.range m).map .next := by
    rcases h9 with ⟨m, h, -⟩ | ⟨-, -, h | h⟩
    · exact ⟨m, h⟩
    · simp at h
    · simp at h
  obtain ⟨m, hm⟩ := h9'
  simp only [afterSend]
  split
  · rename_i hp
    have hn : n = 0 := h8 hp n rfl
    subst hn
    have hs : sent ⟨now, .closing, c', calls ++ [(now, .completed)]⟩ = sent ⟨now, .sending 0, c, calls⟩ := by
      simp [sent]
    constructor
    · exact ⟨1, by rw [hs, h1], by simp [count], by simp⟩
    · rw [hs]; exact h3
    · exact h4
    · simp
    · simp
    · simp
    · simp
    · right
      have hm1 : m = 1 := by
        have e1 : ((sent ⟨now, .sending 0, c, calls⟩).map (·.2)).length = m := by
          rw [sent, sent_of_calls _ _ hm]; simp
        rw [h1] at e1; simpa using e1.symm
      subst hm1
      exact ⟨by simp [hm, List.range_succ], hp, .inl rfl⟩
  · rename_i hp
    constructor
    · exact ⟨n + 1, h1, by simp [count], by simp [hp]⟩
    · exact h3
    · exact h4
    · intro w j hw
      simp at hw
      obtain ⟨rfl, rfl⟩ := hw
      have := h6 n rfl
      simp only [due] at this ⊢
      rw [Nat.add_mul]; omega
    · simp
    · simp [hp]
    · simp
    · left; exact ⟨m, hm, by simp⟩

theorem inv_step {t0 : Nat} {seconds period : Int} {s s' : State} {l : Label}
    (h : Inv t0 seconds period s) (hs : step seconds period s l = some s') :
    Inv t0 seconds period s' := by
  obtain ⟨now, pc, c, calls⟩ := s
  have dead : ∀ c', Inv t0 seconds period ⟨now, .dead, c', calls⟩ := by
    intro c'
    obtain ⟨⟨k, h1, h2, h2'⟩, h3, h4, h5, h6, h7, h8, h9⟩ := h
    refine ⟨⟨k, h1, by simp, h2'⟩, h3, h4, by simp, by simp, by simp, by simp, ?_⟩
    rcases h9 with ⟨n, h, -⟩ | ⟨h, h', -⟩
    · exact .inl ⟨n, h, by simp⟩
    · exact .inr ⟨h, h', .inr rfl⟩
  cases l with
  | tick =>
    simp [step] at hs; subst hs
    obtain ⟨h1, h3, h4, h5, h6, h7, h8, h9⟩ := h
    exact ⟨h1, h3, Nat.le_succ_of_le h4, h5, fun n hn => Nat.le_succ_of_le (h6 n hn), h7, h8, h9⟩
  | start =>
    cases pc <;> simp [step] at hs
    split at hs <;> (simp at hs; subst hs)
    · exact dead _
    · obtain ⟨⟨k, h1, h2, h2'⟩, h3, h4, h5, h6, h7, h8, h9⟩ := h
      have hk : k = 0 := h2 (by simp)
      subst hk
      refine ⟨⟨0, h1, by simp [count], by simp⟩, h3, h4, ?_, by simp, ?_, by simp, ?_⟩
      · intro w n hw
        simp at hw; obtain ⟨rfl, rfl⟩ := hw
        simp only [due]; simp only at h4; omega
      · intro _ w n hw; simp at hw; exact hw.2.symm
      · left
        rcases h9 with ⟨n, h, -⟩ | ⟨-, -, h | h⟩
        · exact ⟨n, h, by simp⟩
        · simp at h
        · simp at h
  | wake =>
    cases pc <;> simp [step] at hs
    rename_i w n
    obtain ⟨⟨hw, hc⟩, rfl⟩ := hs
    obtain ⟨⟨k, h1, h2, h2'⟩, h3, h4, h5, h6, h7, h8, h9⟩ := h
    have hk : k = n := h2 (by simp)
    subst hk
    have hd := h5 w k rfl
    have hlen : (sent ⟨now, .sleeping w k, c, calls⟩).length = k := by
      have := congrArg List.length h1; simpa using this
    constructor
    · refine ⟨k + 1, ?_, by simp [count], ?_⟩
      · have := sent_snoc_next ⟨now, .sleeping w k, c, calls⟩ (.sending k) c now k
        rw [this]; simp [h1, List.range_succ]
      · intro hp; have := h7 hp w k rfl; omega
    · intro j t hj
      have := sent_snoc_next ⟨now, .sleeping w k, c, calls⟩ (.sending k) c now k
      rw [this] at hj
      by_cases hjk : j < k
      · rw [List.getElem?_append_left (by omega)] at hj
        exact h3 j t hj
      · rw [List.getElem?_append_right (by omega), hlen] at hj
        rcases Nat.eq_zero_or_pos (j - k) with h0 | h0
        · rw [h0] at hj; simp at hj
          obtain ⟨rfl, rfl⟩ := hj
          exact Nat.le_trans hd hw
        · rw [List.getElem?_eq_none (by simp; omega)] at hj; simp at hj
    · exact h4
    · simp
    · intro j hj; simp at hj; subst hj; exact Nat.le_trans hd hw
    · simp
    · intro hp j hj; simp at hj; subst hj; exact h7 hp w k rfl
    · left
      rcases h9 with ⟨m, h, -⟩ | ⟨-, -, h | h⟩
      · refine ⟨m + 1, ?_, by simp⟩
        have hm : m = k := by
          have e1 : (sent ⟨now, .sleeping w k, c, calls⟩).map (·.2) = List.range m := sent_of_calls _ _ h
          rw [h1] at e1
          have := congrArg List.length e1; simpa using this.symm
        subst hm
        rw [List.map_append, h]
        simp [List.range_succ]
      · simp at h
      · simp at h
  | ret =>
    cases pc <;> simp [step] at hs
    · subst hs; exact inv_afterSend h
    · subst hs; exact dead _
  | raise e => cases pc <;> simp [step] at hs <;> (subst hs; exact dead _)
  | dispose =>
    simp [step] at hs; subst hs
    obtain ⟨h1, h3, h4, h5, h6, h7, h8, h9⟩ := h
    exact ⟨h1, h3, h4, h5, h6, h7, h8, h9⟩
  | thrown => cases pc <;> simp [step] at hs <;> (obtain ⟨-, rfl⟩ := hs; exact dead _)
  | swallow =>
    cases pc <;> simp [step] at hs
    · obtain ⟨-, rfl⟩ := hs; exact inv_afterSend h
    · obtain ⟨-, rfl⟩ := hs; exact dead _

theorem inv_init (t0 : Nat) (seconds period : Int) : Inv t0 seconds period (init t0) where
  vals := ⟨0, by simp [init, sent], by simp [init, count], by simp⟩
  late k t h := by simp [init, sent] at h
  clock := by simp [init]
  wake := by simp [init]
  sending := by simp [init]
  zero := by simp [init]
  zero' := by simp [init]
  shape := .inl ⟨0, by simp [init], by simp [init]⟩

/-- C25. The values are 0, 1, 2, ... in order, without gaps or repetitions - whatever happens. -/
theorem C25_consecutive (t0 : Nat) (seconds period : Int) {ls s}
    (hr : LTS.run (step seconds period) (init t0) ls = some s) :
    ∃ n, (sent s).map (·.2) = List.range n := by
  have h := LTS.inv (Inv t0 seconds period) (inv_init t0 seconds period)
    (fun _ _ _ => inv_step) hr
  obtain ⟨n, hn, -⟩ := h.vals
  exact ⟨n, hn⟩

/-- C25. Value `k` is never sent before subscription time + seconds + k * period - whatever the
observer and the loop do. -/
theorem C25_never_early (t0 : Nat) (seconds period : Int) {ls s}
    (hr : LTS.run (step seconds period) (init t0) ls = some s) (t k : Nat) (h : (t, k) ∈ sent s) :
    t0 + seconds.toNat + k * period.toNat ≤ t := by
  have hi := LTS.inv (Inv t0 seconds period) (inv_init t0 seconds period)
    (fun _ _ _ => inv_step) hr
  obtain ⟨n, hn, -⟩ := hi.vals
  obtain ⟨j, hj, he⟩ := List.getElem_of_mem h
  have hjk : j = k := by
    have h1 : ((sent s).map (·.2))[j]? = some k := by simp [hj, he]
    rw [hn] at h1
    rw [List.getElem?_eq_some_iff] at h1
    obtain ⟨_, h1⟩ := h1
    simpa using h1
  subst hjk
  exact hi.late j t (by rw [List.getElem?_eq_getElem hj, he])

/-- C25. `timer` (period 0): the calls are an initial part of `asend(0)`, `aclose()`. -/
theorem C25_timer (t0 : Nat) (seconds : Int) {ls s}
    (hr : LTS.run (step seconds 0) (init t0) ls = some s) :
    s.calls.map (·.2) <+: [.next 0, .completed] := by
  have h := LTS.inv (Inv t0 seconds 0) (inv_init t0 seconds 0) (fun _ _ _ => inv_step) hr
  rcases h.shape with ⟨n, h1, h2⟩ | ⟨h1, -⟩
  · obtain ⟨m, hm, -, hz⟩ := h.vals
    have hz := hz rfl
    have hmn : m = n := by
      have e1 : (sent s).map (·.2) = List.range n := sent_of_calls _ _ h1
      rw [hm] at e1
      have := congrArg List.length e1; simpa using this
    subst hmn
    rw [h1]
    have : m = 0 ∨ m = 1 := by omega
    rcases this with rfl | rfl <;> simp [List.range_succ]
  · rw [h1]; exact List.prefix_refl _

/-- C25. An interval with a nonzero period never completes or fails. -/
theorem C25_no_terminal (t0 : Nat) (seconds period : Int) (hp : period ≠ 0) {ls s}
    (hr : LTS.run (step seconds period) (init t0) ls = some s) :
    ∃ n, s.calls.map (·.2) = (List.range n).map .next := by
  have h := LTS.inv (Inv t0 seconds period) (inv_init t0 seconds period) (fun _ _ _ => inv_step) hr
  rcases h.shape with ⟨n, h1, -⟩ | ⟨-, h2, -⟩
  · exact ⟨n, h1⟩
  · exact absurd h2 hp

/-- C25. After `dispose_async()` no further value is sent, unless the observer itself catches the
`CancelledError` thrown into it. -/
theorem C25_dispose (seconds period : Int) {ls s s'}
    (hr : LTS.run (step seconds period) s (.dispose :: ls) = some s')
    (hsw : .swallow ∉ ls) : sent s' = sent s := by
  obtain ⟨s1, h1, h2⟩ := LTS.run_cons.mp hr
  simp [step] at h1
  have := LTS.inv_of (step := step seconds period) (fun l => l ≠ .swallow)
    (fun t : State => (t.cancelling = true ∨ t.pc = .dead) ∧ sent t = sent s) (s0 := s1)
    (by subst h1; exact ⟨.inl rfl, rfl⟩) ?_ (by rintro l hl rfl; exact hsw hl) h2
  · exact this.2
  · rintro ⟨now, pc, c, calls⟩ l t' hl ⟨ha, hb⟩ hs
    simp only at ha
    have hb' : ∀ now pc c, sent ⟨now, pc, c, calls⟩ = sent s := fun _ _ _ => hb
    cases l
    case swallow => exact absurd rfl hl
    all_goals cases pc <;> simp [step] at hs <;> try (subst hs; exact ⟨by first | exact ha | simp, hb' _ _ _⟩)
    case start.fresh =>
      split at hs <;> (simp at hs; subst hs)
      · exact ⟨.inr rfl, hb' _ _ _⟩
      · rename_i hc; simp at ha; simp [ha] at hc
    case wake.sleeping => simp at ha; simp [ha] at hs
    case ret.sending n =>
      subst hs
      simp only [afterSend]
      split
      · exact ⟨by simpa using ha, by simpa [sent] using hb⟩
      · exact ⟨by simpa using ha, hb' _ _ _⟩
    all_goals obtain ⟨-, rfl⟩ := hs; exact ⟨.inr rfl, hb' _ _ _⟩

theorem prompt_inv (t0 : Nat) (seconds period : Int) {ls s}
    (hr : LTS.run (promptStep seconds period) (init t0) ls = some s) :
    (s.pc = .fresh → s.now = t0) ∧ (∀ w n, s.pc = .sleeping w n → w = due t0 seconds period n ∧ s.now ≤ w) ∧
    (∀ n, s.pc = .sending n → s.now = due t0 seconds period n) ∧
    ∀ t k, (t, k) ∈ sent s → t = due t0 seconds period k := by
  refine LTS.inv (step := promptStep seconds period) (fun s : State =>
    (s.pc = .fresh → s.now = t0) ∧ (∀ w n, s.pc = .sleeping w n → w = due t0 seconds period n ∧ s.now ≤ w) ∧
    (∀ n, s.pc = .sending n → s.now = due t0 seconds period n) ∧
    ∀ t k, (t, k) ∈ sent s → t = due t0 seconds period k) ?_ ?_ hr
  · exact ⟨fun _ => rfl, by simp [init], by simp [init], by simp [init, sent]⟩
  · rintro ⟨now, pc, c, calls⟩ l s' ⟨h1, h2, h3, h4⟩ hs
    simp only [promptStep] at hs
    split at hs
    · simp at hs
    rename_i hl
    have h4' : ∀ now pc c, ∀ t k, (t, k) ∈ sent ⟨now, pc, c, calls⟩ → t = due t0 seconds period k :=
      fun _ _ _ => h4
    have after : ∀ n c', pc = .sending n →
        let s' := afterSend period ⟨now, .sending n, c', calls⟩ n
        (s'.pc = .fresh → s'.now = t0) ∧
        (∀ w n, s'.pc = .sleeping w n → w = due t0 seconds period n ∧ s'.now ≤ w) ∧
        (∀ n, s'.pc = .sending n → s'.now = due t0 seconds period n) ∧
        ∀ t k, (t, k) ∈ sent s' → t = due t0 seconds period k := by
      intro n c' hpc
      have := h3 n hpc
      simp only [afterSend]
      split
      · exact ⟨by simp, by simp, by simp, by simpa [sent] using h4⟩
      · refine ⟨by simp, ?_, by simp, h4' _ _ _⟩
        intro w j hw
        simp at hw this
        obtain ⟨rfl, rfl⟩ := hw
        refine ⟨?_, by simp⟩
        rw [this]; simp only [due, Nat.add_mul]; omega
    cases l
    case tick =>
      simp [step] at hs; subst hs
      cases pc <;> simp [busy] at hl
      · rename_i w n
        refine ⟨by simp, ?_, by simp, h4' _ _ _⟩
        intro w' n' hw
        have := h2 w' n' hw
        simp at hw ⊢
        obtain ⟨rfl, rfl⟩ := hw
        exact ⟨this.1, hl.1⟩
      · exact ⟨by simp, by simp, by simp, h4' _ _ _⟩
    case dispose => simp [step] at hs; subst hs; exact ⟨h1, h2, h3, h4' _ _ _⟩
    all_goals
      cases pc <;> simp [step] at hs
    case start.fresh =>
      split at hs <;> (simp at hs; subst hs)
      · exact ⟨by simp, by simp, by simp, h4' _ _ _⟩
      · refine ⟨by simp, ?_, by simp, h4' _ _ _⟩
        intro w n hw
        simp at hw
        obtain ⟨rfl, rfl⟩ := hw
        have := h1 rfl
        simp at this; subst this
        simp [due]
    case wake.sleeping w n =>
      obtain ⟨⟨hw, -⟩, rfl⟩ := hs
      have := h2 w n rfl
      simp at this
      have hn : now = due t0 seconds period n := by omega
      refine ⟨by simp, by simp, ?_, ?_⟩
      · intro j hj; simp at hj; subst hj; exact hn
      · intro t k htk
        rw [sent_snoc_next ⟨now, .sleeping w n, c, calls⟩] at htk
        simp at htk
        rcases htk with htk | ⟨rfl, rfl⟩
        · exact h4 t k htk
        · exact hn
    case ret.sending n => subst hs; exact after n c rfl
    case swallow.sending n => obtain ⟨-, rfl⟩ := hs; exact after n false rfl
    all_goals
      first
      | (subst hs; exact ⟨by simp, by simp, by simp, h4' _ _ _⟩)
      | (obtain ⟨-, rfl⟩ := hs; exact ⟨by simp, by simp, by simp, h4' _ _ _⟩)

/-- C25. Under a prompt schedule every value is sent exactly on time. -/
theorem C25_exact (t0 : Nat) (seconds period : Int) {ls s}
    (hr : LTS.run (promptStep seconds period) (init t0) ls = some s) (t k : Nat) (h : (t, k) ∈ sent s) :
    t = t0 + seconds.toNat + k * period.toNat :=
  (prompt_inv t0 seconds period hr).2.2.2 t k h

/-- C25. Nothing due is ever outstanding under a prompt schedule: when the program is waiting for
time to pass, all values due so far have been sent (and the observer was not disposed or raising). -/
theorem C25_on_schedule (t0 : Nat) (seconds period : Int) {ls s}
    (hr : LTS.run (promptStep seconds period) (init t0) ls = some s) (hb : busy s = false)
    (hd : s.pc ≠ .dead) (k : Nat) (hk : t0 + seconds.toNat + k * period.toNat ≤ s.now) :
    (t0 + seconds.toNat + k * period.toNat, k) ∈ sent s := by
  have hr' : LTS.run (step seconds period) (init t0) ls = some s := by
    clear hb hd hk
    generalize init t0 = s0 at hr
    induction ls generalizing s0 with
    | nil => exact hr
    | cons l ls ih =>
      obtain ⟨s1, h1, h2⟩ := LTS.run_cons.mp hr
      refine LTS.run_cons.mpr ⟨s1, ?_, ih _ h2⟩
      simp only [promptStep] at h1
      split at h1
      · simp at h1
      · exact h1
  have hi := LTS.inv (Inv t0 seconds period) (inv_init t0 seconds period)
    (fun _ _ _ => inv_step) hr'
  have hp := prompt_inv t0 seconds period hr
  obtain ⟨m, hm, hc, -⟩ := hi.vals
  have hmk : k < m := by
    obtain ⟨now, pc, c, calls⟩ := s
    cases pc <;> simp [busy] at hb hd
    rename_i w n
    have hw := (hp.2.1 w n rfl).1
    have hmn : m = n := hc (by simp)
    subst hmn
    have : due t0 seconds period k < due t0 seconds period m := by
      rw [← hw]; exact Nat.lt_of_le_of_lt hk hb.1
    simp only [due] at this
    rcases Nat.lt_or_ge k m with h | h
    · exact h
    · have := Nat.mul_le_mul_right period.toNat h
      omega
  have hmem : k ∈ (sent s).map (·.2) := by rw [hm]; simpa using hmk
  obtain ⟨⟨t, k'⟩, htk, rfl⟩ := List.mem_map.mp hmem
  have := hp.2.2.2 t k' htk
  simp only [due] at this
  rw [← this]; exact htk

/-- C25. An observer that raises ends the timer: its exception is possible in every call, and no call follows. -/
theorem C25_raise_stops (seconds period : Int) {s : State} {e : Err} {n : Nat} (hp : s.pc = .sending n ∨ s.pc = .closing) :
    ∃ s1, step seconds period s (.raise e) = some s1 ∧
      ∀ {ls s'}, LTS.run (step seconds period) s1 ls = some s' → s'.calls = s.calls := by
  refine ⟨{ s with pc := .dead }, by rcases hp with h | h <;> simp [step, h], fun {ls s'} hr => ?_⟩
  refine (LTS.inv (step := step seconds period) (fun t : State => t.pc = .dead ∧ t.calls = s.calls)
    (s0 := { s with pc := .dead }) ⟨rfl, rfl⟩ ?_ hr).2
  rintro t l t' ⟨h1, h2⟩ hs
  cases l <;> simp [step, h1] at hs <;> (subst hs; exact ⟨rfl, h2⟩)

/-- C25. The task of a disposed subscription that has not started or is asleep ends at its next step,
without a call. -/
theorem C25_dispose_ends (seconds period : Int) {s : State}
    (hp : s.pc = .fresh ∨ ∃ w n, s.pc = .sleeping w n) :
    ∃ s1 l s2, step seconds period s .dispose = some s1 ∧ step seconds period s1 l = some s2 ∧
      s2.pc = .dead ∧ s2.calls = s.calls := by
  rcases hp with h | ⟨w, n, h⟩
  · exact ⟨{ s with cancelling := true }, .start, { s with pc := .dead, cancelling := false }, rfl,
      by simp [step, h], rfl, rfl⟩
  · exact ⟨{ s with cancelling := true }, .thrown, { s with pc := .dead, cancelling := false }, rfl,
      by simp [step, h], rfl, rfl⟩

/-- C25. As long as nobody disposes and the observer does not raise, the task of `interval` lives, and
whenever it is not waiting for time to pass (or for the observer to return) its next step is possible. -/
theorem C25_goes_on (t0 : Nat) (seconds period : Int) (hp : period ≠ 0) {ls s}
    (hr : LTS.run (step seconds period) (init t0) ls = some s)
    (hd : .dispose ∉ ls) (he : ∀ e, .raise e ∉ ls) :
    s.pc ≠ .dead ∧
      (busy s = true → ∃ l, (l = .start ∨ l = .wake ∨ l = .ret) ∧ (step seconds period s l).isSome) := by
  have h := LTS.inv_of (step := step seconds period) (fun l => l ≠ .dispose ∧ ∀ e, l ≠ .raise e)
    (fun t : State => t.cancelling = false ∧ t.pc ≠ .dead ∧ t.pc ≠ .closing) (s0 := init t0)
    ⟨rfl, by simp [init], by simp [init]⟩ ?_
    (fun l hl => ⟨by rintro rfl; exact hd hl, by rintro e rfl; exact he e hl⟩) hr
  · refine ⟨h.2.1, fun hb => ?_⟩
    rcases s with ⟨now, pc, c, calls⟩
    obtain ⟨h1, h2, h3⟩ := h
    simp only at h1 h2 h3
    subst h1
    cases pc with
    | fresh => exact ⟨.start, .inl rfl, by simp [step]⟩
    | sleeping w n => 
      simp [busy] at hb
      exact ⟨.wake, .inr (.inl rfl), by simp [step, hb]⟩
    | sending n => exact ⟨.ret, .inr (.inr rfl), by simp [step]⟩
    | closing => exact absurd rfl h3
    | dead => exact absurd rfl h2
  · rintro ⟨now, pc, c, calls⟩ l t' hl ⟨h1, h2, h3⟩ hs
    simp only at h1 h2 h3
    subst h1
    cases l
    case dispose => exact absurd rfl hl.1
    case raise e => exact absurd rfl (hl.2 e)
    all_goals cases pc <;> simp [step, afterSend, hp] at hs h2 h3 <;>
      first | (subst hs; simp) | (obtain ⟨-, rfl⟩ := hs; simp)

/-! ### Examples -/

/-- a prompt run: subscribe at 5, first value after 2, then every 3 -/
def demo : List Label :=
  [.start, .tick, .tick, .wake, .ret, .tick, .tick, .tick, .wake, .ret, .dispose, .thrown]

example : (LTS.run (promptStep 2 3) (init 5) demo).map (·.calls) = some [(7, .next 0), (10, .next 1)] := by
  decide
example : (LTS.run (promptStep 2 0) (init 5) [.start, .tick, .tick, .wake, .ret, .ret]).map (·.calls) =
    some [(7, .next 0), (7, .completed)] := by decide
-- the observer swallows the cancellation and the next value is sent
example : (LTS.run (step 0 1) (init 0) [.start, .wake, .dispose, .swallow, .tick, .wake]).map sent =
    some [(0, 0), (1, 1)] := by decide

end Aio.Interval
