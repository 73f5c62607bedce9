import Verif.Model.Iterate
import Verif.Props.C17_19_Iterator
/-!
# C80, C81: iterating a source that sends while it is subscribed to; leaving an iteration early
-/

namespace Aio.Iterate
variable {α : Type}
open Iterator (Took)

/-- Nothing but the consumer in `__anext__` takes anything, and it has to be past `subscribe_async` for that. -/
theorem unsubscribed_step {ls : List (Iterator.Label α)} {s s' : Iterator.State α} {l : Iterator.Label α}
    (hr : LTS.run Iterator.step Iterator.init ls = some s) (hs : Iterator.step s l = some s') (hl : l ≠ .subscribed)
    (hk : s.consumer = .fresh ∨ s.consumer = .subscribing) (ht : s.taken = []) :
    (s'.consumer = .fresh ∨ s'.consumer = .subscribing) ∧ s'.taken = [] := by
  obtain ⟨m, t, rest, vs, k, h⟩ := Iterator.inv_run hr
  have hand : ∀ (s : Iterator.State α) c n, (s.handOver c n).consumer = s.consumer ∧ (s.handOver c n).taken = s.taken := by
    intro s c n
    unfold Iterator.State.handOver
    split
    · exact ⟨rfl, rfl⟩
    · dsimp only; split <;> exact ⟨rfl, rfl⟩
  have acc : ∀ (s : Iterator.State α) c n, (s.access c n).consumer = s.consumer ∧ (s.access c n).taken = s.taken := by
    intro s c n
    unfold Iterator.State.access
    split
    · exact ⟨rfl, rfl⟩
    · exact hand _ c n
  cases l with
  | subscribed => exact absurd rfl hl
  | call n =>
    cases hs
    rw [(acc _ _ _).1, (acc _ _ _).2]
    exact ⟨hk, ht⟩
  | anext =>
    simp only [Iterator.step] at hs
    split at hs
    · cases hs
    · rcases hk with hk | hk
      · rw [hk] at hs; cases hs; exact ⟨Or.inr rfl, ht⟩
      · rw [hk] at hs; cases hs
  | run =>
    simp only [Iterator.step] at hs
    have hnc : ∀ r, s.ready ≠ .consumer :: r := by
      intro r hc
      have h1 := h.ready
      have : m.wake s.consumer = [] := by rcases hk with hk | hk <;> rw [hk] <;> cases m <;> rfl
      rw [this, hc] at h1
      cases m <;> cases t <;> simp [Iterator.Mode.pulls] at h1
    split at hs
    · cases hs
    · next hc => exact absurd hc (hnc _)
    · cases hs; exact ⟨hk, ht⟩
    · split at hs
      · cases hs
        rw [(acc _ _ _).1, (acc _ _ _).2]
        exact ⟨hk, ht⟩
      · cases hs

/-- What holds as long as `subscribe_async` has not returned, and it never does. -/
def Stuck (s : State α) : Prop :=
  (∃ ls, LTS.run Iterator.step Iterator.init ls = some s.it) ∧
  (s.it.consumer = .fresh ∨ s.it.consumer = .subscribing) ∧ s.it.taken = [] ∧ (s.cur = none → s.todo ≠ [])

theorem stuck_step {s s' : State α} {l : Label α} (h : Stuck s) (hs : step s l = some s') : Stuck s' := by
  obtain ⟨⟨ls, hr⟩, hk, ht, hc⟩ := h
  have go : ∀ {l it}, Iterator.step s.it l = some it → l ≠ .subscribed →
      (∃ ls, LTS.run Iterator.step Iterator.init ls = some it) ∧
      (it.consumer = .fresh ∨ it.consumer = .subscribing) ∧ it.taken = [] := by
    intro l it h1 h2
    obtain ⟨h3, h4⟩ := unsubscribed_step hr h1 h2 hk ht
    exact ⟨⟨ls ++ [l], LTS.run_append.mpr ⟨_, hr, LTS.run_cons.mpr ⟨_, h1, rfl⟩⟩⟩, h3, h4⟩
  cases l with
  | anext =>
    simp only [step] at hs
    obtain ⟨it, h1, rfl⟩ := Option.map_eq_some_iff.mp hs
    obtain ⟨h2, h3, h4⟩ := go h1 (by simp); exact ⟨h2, h3, h4, hc⟩
  | call n =>
    simp only [step] at hs
    obtain ⟨it, h1, rfl⟩ := Option.map_eq_some_iff.mp hs
    obtain ⟨h2, h3, h4⟩ := go h1 (by simp); exact ⟨h2, h3, h4, hc⟩
  | run =>
    simp only [step] at hs
    obtain ⟨it, h1, rfl⟩ := Option.map_eq_some_iff.mp hs
    obtain ⟨h2, h3, h4⟩ := go h1 (by simp); exact ⟨h2, h3, h4, hc⟩
  | source =>
    simp only [step] at hs
    split at hs
    · next hf =>
      split at hs
      · obtain ⟨it, h1, rfl⟩ := Option.map_eq_some_iff.mp hs
        obtain ⟨h2, h3, h4⟩ := go h1 (by simp); exact ⟨h2, h3, h4, nofun⟩
      · next htodo =>
        exfalso
        have hfree := hf.2
        unfold State.free at hfree
        split at hfree
        · next hcur => exact hc hcur htodo
        · split at hfree
          · next c _ hret =>
            obtain ⟨v, i, _, _, h3⟩ := Iterator.C18_returns_after_taken hr hret
            rw [ht] at h3; cases h3
          · cases hfree
    · cases hs

/-- C80 is false of every source that calls its observer from within `subscribe_async`: the first `__anext__` never
returns and never raises, whatever anybody does; in particular for `empty()`, where the iteration should end at once. -/
theorem C80_violated {es : List (Notif α)} (hes : es ≠ []) {ls : List (Label α)} {s : State α}
    (hr : LTS.run step (init es) ls = some s) :
    s.it.taken = [] ∧ (s.it.consumer = .fresh ∨ s.it.consumer = .subscribing) := by
  have := LTS.inv (step := step) Stuck (s0 := init es) ⟨⟨[], rfl⟩, Or.inl rfl, rfl, fun _ => hes⟩
    (fun s l s' h hs => stuck_step h hs) hr
  exact ⟨this.2.2.1, this.2.1⟩

/-- C80, the example: `async for x in empty()` hangs. Once `empty()` has called `aclose`, no task can go on: the
consumer waits for `aclose`, and `aclose` for the consumer. -/
theorem C80_violated_empty : ∃ s : State Nat, LTS.run step (init empty) [.anext, .source] = some s ∧
    s.it.calls = [.sending .completed] ∧ s.it.consumer = .subscribing ∧ ∀ l, (∀ n, l ≠ .call n) → step s l = none := by
  refine ⟨_, rfl, rfl, rfl, ?_⟩
  intro l hl
  cases l with
  | call n => exact absurd rfl (hl n)
  | anext => rfl
  | source => rfl
  | run => rfl

theorem sim_step {it it' : Iterator.State α} {l : Iterator.Label α} (h : Iterator.step it l = some it') :
    ∃ l', step ⟨it, [], none⟩ l' = some ⟨it', [], none⟩ := by
  cases l with
  | anext => exact ⟨.anext, by simp [step, h]⟩
  | call n => exact ⟨.call n, by simp only [step, h]; rfl⟩
  | run => exact ⟨.run, by simp [step, h]⟩
  | subscribed =>
    refine ⟨.source, ?_⟩
    have hk : it.consumer = .subscribing := by
      simp only [Iterator.step] at h
      split at h
      · cases h
      · split at h
        · assumption
        · cases h
    simp [step, hk, State.free, h]

/-- C80 for a source that calls nobody from within `subscribe_async`: `subscribe_async` returns when it is its turn, and
everything that C17 to C19 say of an iteration can happen. -/
theorem C80_partial {ls : List (Iterator.Label α)} {it : Iterator.State α}
    (hr : LTS.run Iterator.step Iterator.init ls = some it) :
    ∃ ls', LTS.run step (init []) ls' = some ⟨it, [], none⟩ := by
  refine LTS.inv (step := Iterator.step) (fun it => ∃ ls', LTS.run step (init []) ls' = some ⟨it, [], none⟩)
    ⟨[], rfl⟩ ?_ hr
  rintro it l it' ⟨ls', h⟩ hs
  obtain ⟨l', h'⟩ := sim_step hs
  exact ⟨ls' ++ [l'], LTS.run_append.mpr ⟨_, h, LTS.run_cons.mpr ⟨_, h', rfl⟩⟩⟩

/-- C80, the end of the stream: a source that completes after it has been subscribed to ends the loop. -/
example : (LTS.run step (init []) [.anext, .source, .call (.next 1), .run, .run, .anext, .call .completed, .run]).map
    (fun s : State Nat => s.it.taken) = some [.value 1, .stop] := by decide

end Aio.Iterate

namespace Aio.Iterator
variable {α : Type}

/-- The consumer takes nothing when it is not in `__anext__` (and does not call it). -/
theorem idle_step {ls : List (Label α)} {s s' : State α} {l : Label α}
    (hr : LTS.run step init ls = some s) (hs : step s l = some s') (hl : l ≠ .anext)
    (hk : s.consumer = .idle) : s'.consumer = .idle ∧ s'.taken = s.taken := by
  obtain ⟨m, t, rest, vs, k, h⟩ := inv_run hr
  have hand : ∀ (s : State α) c n, (s.handOver c n).consumer = s.consumer ∧ (s.handOver c n).taken = s.taken := by
    intro s c n
    unfold State.handOver
    split
    · exact ⟨rfl, rfl⟩
    · dsimp only; split <;> exact ⟨rfl, rfl⟩
  have acc : ∀ (s : State α) c n, (s.access c n).consumer = s.consumer ∧ (s.access c n).taken = s.taken := by
    intro s c n
    unfold State.access
    split
    · exact ⟨rfl, rfl⟩
    · exact hand _ c n
  cases l with
  | anext => exact absurd rfl hl
  | call n =>
    cases hs
    rw [(acc _ _ _).1, (acc _ _ _).2]
    exact ⟨hk, rfl⟩
  | subscribed =>
    simp only [step] at hs
    split at hs
    · cases hs
    · rw [hk] at hs; cases hs
  | run =>
    simp only [step] at hs
    have hnc : ∀ r, s.ready ≠ .consumer :: r := by
      intro r hc
      have h1 := h.ready
      have : m.wake s.consumer = [] := by rw [hk]; cases m <;> rfl
      rw [this, hc] at h1
      cases m <;> cases t <;> simp [Mode.pulls] at h1
    split at hs
    · cases hs
    · next hc => exact absurd hc (hnc _)
    · cases hs; exact ⟨hk, rfl⟩
    · split at hs
      · cases hs
        rw [(acc _ _ _).1, (acc _ _ _).2]
        exact ⟨hk, rfl⟩
      · cases hs

/-- C81 is false: a consumer that leaves its `async for` (it is not in `__anext__` and calls it no more) blocks every
later call of the source, for ever. -/
theorem C81_violated {ls ls' : List (Label α)} {s s' : State α} (hr : LTS.run step init ls = some s)
    (hk : s.consumer = .idle) (hr' : LTS.run step s ls' = some s') (hl : .anext ∉ ls') {c : Nat}
    (hc : s.calls.length ≤ c) : s'.calls[c]? ≠ some .returned := by
  intro hret
  have hrun : LTS.run step init (ls ++ ls') = some s' := LTS.run_append.mpr ⟨s, hr, hr'⟩
  have htk : s'.taken = s.taken := by
    have key : ∀ (ls' : List (Label α)) (ls : List (Label α)) (s s' : State α), LTS.run step init ls = some s →
        s.consumer = .idle → LTS.run step s ls' = some s' → .anext ∉ ls' → s'.taken = s.taken := by
      intro ls'
      induction ls' with
      | nil => intro ls s s' _ _ h _; cases h; rfl
      | cons l ls' ih =>
        intro ls s s' hr hk h hl
        obtain ⟨s1, h1, h2⟩ := LTS.run_cons.mp h
        obtain ⟨h3, h4⟩ := idle_step hr h1 (fun he => hl (by simp [he])) hk
        rw [ih (ls ++ [l]) s1 s' (LTS.run_append.mpr ⟨_, hr, LTS.run_cons.mpr ⟨_, h1, rfl⟩⟩) h3 h2
          (fun he => hl (by simp [he])), h4]
    exact key ls' ls s s' hr hk hr' hl
  obtain ⟨v, i, _, h2, h3⟩ := C18_returns_after_taken hrun hret
  obtain ⟨r, he⟩ := handed_run hr'
  obtain ⟨c', hc'⟩ := C17_nth hr (htk ▸ h3)
  have hlt := (List.getElem?_eq_some_iff.mp hc').1
  rw [he, List.getElem?_append_left hlt, hc'] at h2
  cases h2
  obtain ⟨m, t, rest, vs, k, h⟩ := inv_run hr
  have := h.bound c (List.mem_append_right _ (List.mem_map.mpr ⟨_, List.mem_of_getElem? hc', rfl⟩))
  omega

/-- C81, what holds: the call whose value was taken last goes on, so the source is not stuck in it. -/
theorem C81_last_taken_partial {ls : List (Label α)} {s : State α} (hr : LTS.run step init ls = some s)
    (hp : s.push = none) {c : Nat} {n : Notif α} (hc : s.calls[c]? = some (.sending n)) :
    ∃ r s', s.ready = .pull c :: r ∧ step s .run = some s' ∧ s'.calls[c]? = some .returned := by
  obtain ⟨m, t, rest, vs, k, h⟩ := inv_run hr
  have hf : m.cur = some (c, n) := h.fits c _ hc
  cases m with
  | free => cases hf
  | full c' n' => rw [h.push] at hp; cases hp
  | taken c' n' =>
    cases hf
    have hrd : s.ready = .pull c :: (t.toList.map .turn ++ Mode.wake (.taken c n) s.consumer) := by
      rw [h.ready]; simp [Mode.pulls]
    refine ⟨_, _, hrd, by simp only [step, hrd]; rfl, ?_⟩
    have hlt := (List.getElem?_eq_some_iff.mp hc).1
    simp [List.getElem?_set, hlt]

/-- A loop that is left after the first value; the next `asend` waits for ever. -/
def left : List (Label Nat) := [.anext, .subscribed, .call (.next 1), .run, .run]

example : (LTS.run step init left).map (fun s => (s.consumer, s.taken, s.calls)) =
    some (.idle, [.value 1], [.returned]) := by decide
example : (LTS.run step init (left ++ [.call (.next 2)])).map (fun s => (s.calls, s.ready)) =
    some ([.returned, .sending (.next 2)], []) := by decide

end Aio.Iterator
