import Verif.Model.TestObserver
import Verif.Lemmas.Lists
/-!
# C64: AsyncTestObserver
-/

namespace Aio.TestObserver
variable {α : Type}

/-- The calls with the times at which they were made. -/
def arrivals : Nat → List (Label α) → List (Nat × Notif α)
  | _, [] => []
  | t, .call n :: ls => (t, n) :: arrivals t ls
  | t, .advance d :: ls => arrivals (t + d) ls
  | t, _ :: ls => arrivals t ls

/-- C64, first part: `values` lists every call once, with its time, in order; whatever the callbacks do, however calls
overlap, whether the observer is stopped or not. -/
theorem C64_values_partial {ls : List (Label α)} : ∀ {s s' : State α}, LTS.run step s ls = some s' →
    s'.values = s.values ++ arrivals s.time ls := by
  induction ls with
  | nil => intro s s' h; cases h; simp [arrivals]
  | cons l ls ih =>
    intro s s' h
    obtain ⟨s1, h1, h2⟩ := LTS.run_cons.mp h
    rw [ih h2]
    cases l with
    | call n => cases h1; simp [arrivals]
    | advance d => cases h1; simp [arrivals]
    | dispose => cases h1; rfl
    | first c r =>
      have : s1.values = s.values ∧ s1.time = s.time := by
        simp only [step] at h1
        split at h1
        · split at h1
          · cases h1; exact ⟨rfl, rfl⟩
          · split at h1 <;> cases h1 <;> exact ⟨rfl, rfl⟩
        · cases h1
      rw [this.1, this.2]; rfl
    | second c r =>
      have : s1.values = s.values ∧ s1.time = s.time := by
        simp only [step] at h1
        split at h1
        · cases h1; exact ⟨rfl, rfl⟩
        · cases h1
      rw [this.1, this.2]; rfl

/-- The times never decrease. -/
theorem C64_times_in_order_partial (ls : List (Label α)) : ∀ t : Nat,
    (arrivals t ls).Pairwise (fun a b => a.1 ≤ b.1) ∧ ∀ x ∈ arrivals t ls, t ≤ x.1 := by
  induction ls with
  | nil => intro t; simp [arrivals]
  | cons l ls ih =>
    intro t
    cases l with
    | call n =>
      obtain ⟨h1, h2⟩ := ih t
      refine ⟨List.pairwise_cons.mpr ⟨fun b hb => h2 b hb, h1⟩, ?_⟩
      intro x hx
      rcases List.mem_cons.mp hx with hx | hx
      · rw [hx]; exact Nat.le_refl _
      · exact h2 x hx
    | advance d =>
      obtain ⟨h1, h2⟩ := ih (t + d)
      exact ⟨h1, fun x hx => by have := h2 x hx; omega⟩
    | first c r => exact ih t
    | second c r => exact ih t
    | dispose => exact ih t

def demo : List (Label Nat) :=
  [.call (.next 1), .advance 5, .call (.next 2), .first 1 none, .advance 1, .first 0 (some (.user 0)), .call .completed]

example : (LTS.run step init demo).map (·.values) = some [(0, .next 1), (5, .next 2), (6, .completed)] := by decide

/-- C64, second part, is false: whatever the first call is, the user's callback runs twice. -/
theorem C64_violated_twice (n : Notif α) : ∃ s, LTS.run step init [.call n, .first 0 none, .second 0 none] = some s ∧
    s.calls = [.returned] ∧ s.callbacks = [(0, n), (0, n)] := by
  cases n <;> exact ⟨_, rfl, rfl, rfl⟩

/-- How many callbacks a call has started. -/
def started (l : List (Nat × Notif α)) (c : Nat) : Nat := (l.filter (·.1 = c)).length

/-- The calls. -/
def made (ls : List (Label α)) : List (Notif α) := ls.filterMap fun | .call n => some n | _ => none

theorem started_push (l : List (Nat × Notif α)) (c c' : Nat) (n : Notif α) :
    started (l ++ [(c', n)]) c = started l c + if c' = c then 1 else 0 := by
  simp only [started, List.filter_append, List.length_append]
  by_cases h : c' = c <;> simp [h]

structure Inv (ls : List (Label α)) (s : State α) : Prop where
  len : s.calls.length = (made ls).length
  first : ∀ (c : Nat) n, s.calls[c]? = some (.first n) → started s.callbacks c = 1 ∧ (made ls)[c]? = some n
  second : ∀ (c : Nat) n, s.calls[c]? = some (.second n) → started s.callbacks c = 2
  all : ∀ (c : Nat) x, s.calls[c]? = some x → 1 ≤ started s.callbacks c ∧ started s.callbacks c ≤ 2
  none : ∀ c : Nat, s.calls.length ≤ c → started s.callbacks c = 0
  right : ∀ x ∈ s.callbacks, (made ls)[x.1]? = some x.2

theorem Inv.set {ls : List (Label α)} {s : State α} (h : Inv ls s) {c0 : Nat} {n : Notif α}
    (hc : s.calls[c0]? = some (.first n) ∨ s.calls[c0]? = some (.second n)) (x : Phase α)
    (hx : ∀ n, x ≠ .first n ∧ x ≠ .second n) (obv : Awaitable.State α) :
    Inv ls { s with obv, calls := s.calls.set c0 x } := by
  have hlt : c0 < s.calls.length := by
    rcases hc with hc | hc <;> exact (List.getElem?_eq_some_iff.mp hc).1
  refine ⟨by simpa using h.len, ?_, ?_, ?_, ?_, h.right⟩
  · intro c n' hn
    rcases (get_set hlt).mp hn with ⟨_, h2⟩ | ⟨_, h2⟩
    · exact absurd h2 (hx n').1
    · exact h.first c n' h2
  · intro c n' hn
    rcases (get_set hlt).mp hn with ⟨_, h2⟩ | ⟨_, h2⟩
    · exact absurd h2 (hx n').2
    · exact h.second c n' h2
  · intro c y hy
    rcases (get_set hlt).mp hy with ⟨h1, _⟩ | ⟨_, h2⟩
    · rw [h1]; rcases hc with hc | hc <;> exact h.all c0 _ hc
    · exact h.all c y h2
  · intro c hc2; exact h.none c (by simpa using hc2)

theorem made_snoc (ls : List (Label α)) (l : Label α) : made (ls ++ [l]) =
    made ls ++ (match l with | .call n => [n] | _ => []) := by
  rw [made, List.filterMap_append]; cases l <;> rfl

theorem Inv.congr {ls ls' : List (Label α)} {s : State α} (h : Inv ls s) (he : made ls' = made ls) : Inv ls' s := by
  obtain ⟨h1, h2, h3, h4, h5, h6⟩ := h
  exact ⟨he ▸ h1, he ▸ h2, h3, h4, h5, he ▸ h6⟩

theorem inv_step (ls : List (Label α)) (s : State α) (l : Label α) (s' : State α)
    (h : Inv ls s) (hs : step s l = some s') : Inv (ls ++ [l]) s' := by
  cases l with
  | call n =>
    have hm : made (ls ++ [.call n]) = made ls ++ [n] := made_snoc ls _
    cases hs
    refine ⟨by simp [hm, h.len], ?_, ?_, ?_, ?_, ?_⟩
    · intro c n' hn
      rw [started_push, hm]
      rcases get_push.mp hn with h1 | ⟨h1, h2⟩
      · have hlt := (List.getElem?_eq_some_iff.mp h1).1
        have := h.first c n' h1
        rw [if_neg (by omega)]
        exact ⟨this.1, prefix_get this.2⟩
      · subst h1; cases h2
        rw [h.none _ (Nat.le_refl _), h.len]; simp
    · intro c n' hn
      rw [started_push]
      rcases get_push.mp hn with h1 | ⟨h1, h2⟩
      · have hlt := (List.getElem?_eq_some_iff.mp h1).1
        rw [if_neg (by omega)]; exact h.second c n' h1
      · cases h2
    · intro c x hx
      rw [started_push]
      rcases get_push.mp hx with h1 | ⟨h1, h2⟩
      · have hlt := (List.getElem?_eq_some_iff.mp h1).1
        rw [if_neg (by omega)]; exact h.all c x h1
      · subst h1; rw [h.none _ (Nat.le_refl _)]; simp
    · intro c hc
      simp only [List.length_append, List.length_singleton] at hc
      rw [started_push, if_neg (by omega)]
      exact h.none c (by omega)
    · intro x hx
      rw [hm]
      rcases List.mem_append.mp hx with h1 | h1
      · exact prefix_get (h.right x h1)
      · simp at h1; subst h1; simp [h.len]
  | advance d =>
    have h := h.congr (ls' := ls ++ [.advance d]) (by rw [made_snoc]; simp)
    cases hs; exact ⟨h.len, h.first, h.second, h.all, h.none, h.right⟩
  | dispose =>
    have h := h.congr (ls' := ls ++ [.dispose]) (by rw [made_snoc]; simp)
    cases hs; exact ⟨h.len, h.first, h.second, h.all, h.none, h.right⟩
  | second c r =>
    have h := h.congr (ls' := ls ++ [.second c r]) (by rw [made_snoc]; simp)
    simp only [step] at hs
    split at hs
    · rename_i n hc
      cases hs
      exact h.set (.inr hc) _ (by intro n; cases r <;> simp [ending]) s.obv
    · cases hs
  | first c r =>
    have h := h.congr (ls' := ls ++ [.first c r]) (by rw [made_snoc]; simp)
    simp only [step] at hs
    split at hs
    · rename_i n hc
      split at hs
      · cases hs; exact h.set (.inl hc) _ (by simp) s.obv
      · split at hs
        · cases hs; exact h.set (.inl hc) _ (by simp) _
        · cases hs
          have hlt := (List.getElem?_eq_some_iff.mp hc).1
          have h1 := h.first c n hc
          refine ⟨by simpa using h.len, ?_, ?_, ?_, ?_, ?_⟩
          · intro c' n' hn
            rcases (get_set hlt).mp hn with ⟨_, h2⟩ | ⟨h2, h3⟩
            · cases h2
            · rw [started_push, if_neg (Ne.symm h2)]; exact h.first c' n' h3
          · intro c' n' hn
            rcases (get_set hlt).mp hn with ⟨h2, _⟩ | ⟨h2, h3⟩
            · subst h2; rw [started_push, if_pos rfl, h1.1]
            · rw [started_push, if_neg (Ne.symm h2)]; exact h.second c' n' h3
          · intro c' x hx
            rcases (get_set hlt).mp hx with ⟨h2, _⟩ | ⟨h2, h3⟩
            · subst h2; rw [started_push, if_pos rfl, h1.1]; omega
            · rw [started_push, if_neg (Ne.symm h2)]; exact h.all c' x h3
          · intro c' hc'
            simp only [List.length_set] at hc'
            rw [started_push, if_neg (by omega)]; exact h.none c' hc'
          · intro x hx
            rcases List.mem_append.mp hx with h2 | h2
            · exact h.right x h2
            · simp at h2; subst h2; exact h1.2
        · cases hs; exact h.set (.inl hc) _ (by simp) _
    · cases hs

/-- C64, second part, what holds: every call starts the callback at least once and at most twice, and callbacks are
started for nothing else than the calls, with their events. -/
theorem C64_callbacks_partial {ls : List (Label α)} {s : State α} (hr : LTS.run step init ls = some s) :
    (∀ (c : Nat), c < (made ls).length → 1 ≤ started s.callbacks c ∧ started s.callbacks c ≤ 2) ∧
    ∀ x ∈ s.callbacks, (made ls)[x.1]? = some x.2 := by
  have h : Inv ls s := LTS.inv_hist Inv (s0 := init)
    ⟨rfl, by simp [init], by simp [init], by simp [init], by simp [init, started], by simp [init]⟩ inv_step hr
  refine ⟨fun c hc => h.all c _ (List.getElem?_eq_getElem (by rw [h.len]; exact hc)), h.right⟩

example : (LTS.run step init demo).map (fun s => [0, 1, 2].map (started s.callbacks)) = some [1, 2, 1] := by decide

/-- C64, second part, for an observer that was disposed: every callback runs once, and every call that ends ends after
its first callback. -/
theorem C64_stopped_partial {ls : List (Label α)} {s : State α}
    (hr : LTS.run step init (.dispose :: ls) = some s) :
    (∀ c : Nat, c < (made ls).length → started s.callbacks c = 1) ∧ s.obv.fut = .pending := by
  obtain ⟨s0, h0, hr⟩ := LTS.run_cons.mp hr
  have key := LTS.inv_hist (fun ls (s : State α) => s.obv.isStopped = true ∧ s.obv.fut = .pending ∧
      s.calls.length = (made ls).length ∧ (∀ (c : Nat) n, s.calls[c]? ≠ some (.second n)) ∧
      (∀ c : Nat, started s.callbacks c = if c < (made ls).length then 1 else 0)) (s0 := s0) (step := step)
    (by cases h0; exact ⟨rfl, rfl, rfl, by simp [init], by simp [init, started, made]⟩) ?_ hr
  · obtain ⟨_, h2, _, _, h5⟩ := key
    exact ⟨fun c hc => by rw [h5, if_pos hc], h2⟩
  · rintro ls s l s' ⟨h1, h2, h3, h4, h5⟩ hs
    have hset : ∀ (c0 : Nat) (x : Phase α), (∀ n, x ≠ .second n) → (s.calls[c0]?).isSome →
        ∀ (c : Nat) n, (s.calls.set c0 x)[c]? ≠ some (.second n) := by
      intro c0 x hx hlt c n hc
      obtain ⟨y, hy⟩ := Option.isSome_iff_exists.mp hlt
      rcases (get_set (List.getElem?_eq_some_iff.mp hy).1).mp hc with ⟨_, h⟩ | ⟨_, h⟩
      · exact hx n h
      · exact h4 c n h
    rw [made_snoc]
    cases l with
    | call n =>
      cases hs
      refine ⟨h1, h2, by simp [h3], ?_, ?_⟩
      · intro c n' hc
        rcases get_push.mp hc with h | ⟨_, h⟩
        · exact h4 c n' h
        · cases h
      · intro c
        rw [started_push, h5, h3]
        simp only [List.length_append, List.length_singleton]
        split <;> split <;> split <;> omega
    | advance d => cases hs; simpa using ⟨h1, h2, h3, h4, h5⟩
    | dispose => cases hs; simpa using ⟨rfl, h2, h3, h4, h5⟩
    | second c r =>
      simp only [step] at hs
      split at hs
      · rename_i n hc; exact absurd hc (h4 c n)
      · cases hs
    | first c r =>
      simp only [step] at hs
      have hobv : ∀ n, s.obv.call n = (s.obv, .ignored) := by intro n; simp [Awaitable.State.call, h1]
      split at hs
      · rename_i n hc
        simp only [hobv] at hs
        split at hs <;> cases hs
        · refine ⟨h1, h2, by simpa using h3, hset c _ (by simp) (by rw [hc]; rfl), by simpa using h5⟩
        · refine ⟨h1, h2, by simpa using h3, hset c _ (by simp) (by rw [hc]; rfl), by simpa using h5⟩
      · cases hs

example : (LTS.run step init (.dispose :: [.call (.next 1), .first 0 none, .call (.next (2 : Nat))])).map
    (fun s => (s.callbacks, s.calls)) = some ([(0, .next 1), (1, .next 2)], [.returned, .first (.next 2)]) := by decide

end Aio.TestObserver
