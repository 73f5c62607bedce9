import Verif.Model.Awaitable
/-!
# C15, C16, C72: AsyncAwaitableObserver and run()
-/

namespace Aio.Awaitable
variable {α : Type}

/-- The calls `asend(v)` for a list of values. -/
def sends (vs : List α) : List (Label α) := vs.map fun v => .call (.next v)

theorem run_append (s : State α) (a b : List (Label α)) : run s (a ++ b) = run (run s a) b := by
  simp [run, List.foldl_append]

theorem run_sends (vs : List α) : run init (sends vs) =
    { (init : State α) with last := vs.getLast?, hasValue := !vs.isEmpty } := by
  have key : ∀ (vs : List α) (s : State α), s.isStopped = false → run s (sends vs) =
      { s with last := vs.getLast?.or s.last, hasValue := s.hasValue || !vs.isEmpty } := by
    intro vs
    induction vs with
    | nil => intro s _; simp [run, sends]
    | cons v vs ih =>
      intro s hs
      have : run s (sends (v :: vs)) = run { s with last := some v, hasValue := true } (sends vs) := by
        simp [run, sends, step, State.call, hs]
      rw [this, ih { s with last := some v, hasValue := true } hs]
      cases vs <;> simp [List.getLast?_cons_cons, List.getLast?_cons]
  have := key vs init rfl
  simpa [init] using this

/-- A future that is done never changes. -/
theorem run_done (f : Fut α) (hf : f ≠ .pending) (ls : List (Label α)) : ∀ s : State α, s.fut = f → (run s ls).fut = f := by
  have hc : ∀ s : State α, s.fut = f → s.cancel.fut = f := by
    intro s hs; unfold State.cancel; split
    next h => exact absurd (hs.symm.trans h) hf
    next => exact hs
  have hset : ∀ (s : State α) g, s.fut = f → (s.settle g).1.fut = f := by
    intro s g hs; unfold State.settle; split
    next h => exact absurd (hs.symm.trans h) hf
    next => exact hs
  induction ls with
  | nil => intro s hs; exact hs
  | cons l ls ih =>
    intro s hs
    refine ih _ ?_
    cases l with
    | call n =>
      simp only [step, State.call]
      split
      · exact hs
      · cases n with
        | next v => exact hs
        | error e => exact hset _ _ hs
        | completed =>
          dsimp only
          split
          · exact hset _ _ hs
          · exact hc _ hs
    | dispose => exact hs
    | cancel => exact hc _ hs

/-- A stopped observer ignores calls. -/
theorem run_stopped (ls : List (Label α)) (hl : Label.cancel ∉ ls) : ∀ s : State α, s.isStopped = true → (run s ls).fut = s.fut := by
  induction ls with
  | nil => intro s _; rfl
  | cons l ls ih =>
    intro s hs
    have hl' : Label.cancel ∉ ls := fun h => hl (by simp [h])
    cases l with
    | call n =>
      have : step s (.call n) = s := by simp [step, State.call, hs]
      show (run (step s (.call n)) ls).fut = _
      rw [this]; exact ih hl' s hs
    | dispose => exact ih hl' _ rfl
    | cancel => exact absurd (by simp) hl

/-! ## C15 -/

/-- Closed after some values: the last one, whatever happens afterwards. -/
theorem C15_last_value (vs : List α) (v : α) (rest : List (Label α)) :
    (run init (sends (vs ++ [v]) ++ .call .completed :: rest)).fut = .result (some v) := by
  rw [run_append, run_sends]
  refine run_done _ (by simp) rest _ ?_
  simp [step, State.call, State.settle, init]

/-- Closed without a value: cancelled, whatever happens afterwards. -/
theorem C15_no_value (rest : List (Label α)) : (run init (.call .completed :: rest)).fut = .cancelled := by
  refine run_done _ (by simp) rest _ ?_
  simp [step, State.call, State.cancel, init]

/-- Failed: the error, whatever happens afterwards. -/
theorem C15_error (vs : List α) (e : Err) (rest : List (Label α)) :
    (run init (sends vs ++ .call (.error e) :: rest)).fut = .exception e := by
  rw [run_append, run_sends]
  refine run_done _ (by simp) rest _ ?_
  simp [step, State.call, State.settle, init]

/-- Disposed before that: never done, whatever is sent afterwards (unless somebody cancels the future). -/
theorem C15_disposed (vs : List α) (rest : List (Label α)) (hc : Label.cancel ∉ rest) :
    (run init (sends vs ++ .dispose :: rest)).fut = .pending := by
  rw [run_append, run_sends]
  show (run (step _ .dispose) rest).fut = _
  rw [run_stopped rest hc _ rfl]
  rfl

/-- Still open: not done. (These five cover all histories in which nobody cancels the future.) -/
theorem C15_open (vs : List α) : (run init (sends vs)).fut = .pending := by rw [run_sends]; rfl

/-- The five forms are exhaustive. -/
theorem C15_exhaustive (ls : List (Label α)) (hc : Label.cancel ∉ ls) : ∃ vs,
    ls = sends vs ∨ ∃ rest, ls = sends vs ++ .call .completed :: rest ∨
      (∃ e, ls = sends vs ++ .call (.error e) :: rest) ∨ ls = sends vs ++ .dispose :: rest := by
  induction ls with
  | nil => exact ⟨[], .inl rfl⟩
  | cons l ls ih =>
    cases l with
    | call n =>
      cases n with
      | next v =>
        obtain ⟨vs, h⟩ := ih (fun h => hc (by simp [h]))
        refine ⟨v :: vs, ?_⟩
        rcases h with rfl | ⟨rest, rfl | ⟨e, rfl⟩ | rfl⟩
        · exact .inl rfl
        · exact .inr ⟨rest, .inl rfl⟩
        · exact .inr ⟨rest, .inr (.inl ⟨e, rfl⟩)⟩
        · exact .inr ⟨rest, .inr (.inr rfl)⟩
      | error e => exact ⟨[], .inr ⟨ls, .inr (.inl ⟨e, rfl⟩)⟩⟩
      | completed => exact ⟨[], .inr ⟨ls, .inl rfl⟩⟩
    | dispose => exact ⟨[], .inr ⟨ls, .inr (.inr rfl)⟩⟩
    | cancel => exact absurd (by simp) hc

/-- The histories in which the observer has been closed, has failed or has been disposed. -/
def Over (ls : List (Label α)) : Prop :=
  ∃ vs rest, ls = sends vs ++ .call .completed :: rest ∨ (∃ e, ls = sends vs ++ .call (.error e) :: rest) ∨ ls = sends vs ++ .dispose :: rest

/-- Afterwards every call returns at once: no callback, and no exception in the sender (the future is not touched). -/
theorem C15_ignored (ls : List (Label α)) (h : Over ls) (n : Notif α) : ((run init ls).call n).2 = .ignored := by
  have keep : ∀ (rest : List (Label α)) (s : State α), s.isStopped = true → (run s rest).isStopped = true := by
    intro rest
    induction rest with
    | nil => intro s hs; exact hs
    | cons l rest ih =>
      intro s hs
      refine ih _ ?_
      cases l with
      | call n => simp [step, State.call, hs]
      | dispose => rfl
      | cancel => simp only [step, State.cancel]; split <;> exact hs
  suffices hs : (run init ls).isStopped = true by simp [State.call, hs]
  obtain ⟨vs, rest, rfl | ⟨e, rfl⟩ | rfl⟩ := h
  · rw [run_append, run_sends]
    refine keep rest _ ?_
    simp only [step, State.call, init, State.settle, State.cancel]
    cases vs <;> rfl
  · rw [run_append, run_sends]
    refine keep rest _ ?_
    simp [step, State.call, init, State.settle]
  · rw [run_append, run_sends]
    exact keep rest _ rfl

/-- Before that every `asend`, and the first terminal call, goes to the user's callback (unless somebody has cancelled
the future, see the second example below). -/
theorem C15_callback (vs : List α) (n : Notif α) : ((run init (sends vs)).call n).2 = .callback := by
  rw [run_sends]
  cases n with
  | next v => rfl
  | error e => rfl
  | completed => cases vs <;> rfl

example : (run init (sends [1, 2] ++ [.call .completed, .call (.next 3), .call (.error (.user 0)), .cancel])).fut =
    .result (some 2) := by decide
/-- After a timeout has cancelled the future, `aclose` of an observer that has a value raises InvalidStateError
into the source. -/
example : ((run init (sends [1] ++ [.cancel])).call .completed).2 = .raised .invalidState := by decide

end Aio.Awaitable

namespace Aio.RunUntil
variable {α : Type}

/-- What happened to the observer. -/
def events (ls : List (Label α)) : List (Awaitable.Label α) := ls.filterMap fun | .obv l => some l | _ => none

theorem events_snoc (ls : List (Label α)) (l : Label α) : events (ls ++ [l]) =
    events ls ++ (match l with | .obv l => [l] | _ => []) := by
  rw [events, List.filterMap_append]; cases l <;> rfl

def Outcome.fut : Outcome α → Option (Awaitable.Fut α)
  | .value v => some (.result v)
  | .raised e => some (.exception e)
  | _ => none

/-- Nobody but the source touches the observer. -/
def Untouched (ls : List (Label α)) : Prop := ∀ l ∈ events ls, ∃ n, l = Awaitable.Label.call n

structure Inv (ls : List (Label α)) (s : State α) : Prop where
  before : s.phase = .subscribing ∨ s.phase = .waiting →
    s.obv = Awaitable.run Awaitable.init (events ls) ∧ s.disposals = 0
  leaving : ∀ o, s.phase = .disposing o → s.disposals = 1
  after : ∀ o f, s.phase = .disposing o ∨ s.phase = .done o → o.fut = some f →
    s.obv = Awaitable.run Awaitable.init (events ls) ∧ s.obv.fut = f
  over : ∀ o, s.phase = .done o → s.disposals = (match o with | .noSubscription _ => 0 | _ => 1)
  real : ∀ o e, s.phase = .disposing o → o ≠ .noSubscription e

theorem inv_step {ls : List (Label α)} {s s' : State α} {l : Label α} (hi : Inv ls s)
    (h : step s l = some s') : Inv (ls ++ [l]) s' := by
  have hrun : ∀ m, Awaitable.run Awaitable.init (events (ls ++ [Label.obv m])) =
      Awaitable.step (Awaitable.run Awaitable.init (events ls)) m := by
    intro m; rw [events_snoc, Awaitable.run_append]; rfl
  cases l with
  | obv m =>
    simp only [step, Option.some.injEq] at h
    subst h
    refine ⟨fun h => ?_, hi.leaving, fun o f h1 h2 => ?_, hi.over, hi.real⟩
    · rw [hrun, (hi.before h).1]; exact ⟨rfl, (hi.before h).2⟩
    · obtain ⟨h3, h4⟩ := hi.after o f h1 h2
      refine ⟨by rw [hrun, h3], ?_⟩
      have hf : f ≠ .pending := by cases o <;> simp [Outcome.fut] at h2 <;> subst h2 <;> simp
      exact Awaitable.run_done f hf [m] s.obv h4
  | subscribed =>
    simp only [step] at h
    split at h
    next hp =>
      cases h
      obtain ⟨h1, h2⟩ := hi.before (.inl hp)
      exact ⟨fun _ => ⟨by rw [events_snoc]; simpa using h1, h2⟩, by simp, by simp, by simp, by simp⟩
    next => cases h
  | subscribeRaises e =>
    simp only [step] at h
    split at h
    next hp =>
      cases h
      obtain ⟨h1, h2⟩ := hi.before (.inl hp)
      refine ⟨by simp, by simp, ?_, ?_, by simp⟩
      · intro o f h3 h4; simp at h3; subst h3; simp [Outcome.fut] at h4
      · intro o h3; simp at h3; subst h3; exact h2
    next => cases h
  | resume =>
    simp only [step] at h
    split at h
    next v hp hf =>
      cases h
      obtain ⟨h1, h2⟩ := hi.before (.inr hp)
      refine ⟨by simp [State.leave], by simp [State.leave, h2], ?_, by simp [State.leave], by intro o e h hh; subst hh; simp [State.leave] at h⟩
      intro o f h3 h4
      simp [State.leave] at h3; subst h3; simp [Outcome.fut] at h4; subst h4
      exact ⟨by rw [events_snoc]; simpa [State.leave] using h1, hf⟩
    next e hp hf =>
      cases h
      obtain ⟨h1, h2⟩ := hi.before (.inr hp)
      refine ⟨by simp [State.leave], by simp [State.leave, h2], ?_, by simp [State.leave], by intro o e h hh; subst hh; simp [State.leave] at h⟩
      intro o f h3 h4
      simp [State.leave] at h3; subst h3; simp [Outcome.fut] at h4; subst h4
      exact ⟨by rw [events_snoc]; simpa [State.leave] using h1, hf⟩
    next hp hf =>
      cases h
      obtain ⟨h1, h2⟩ := hi.before (.inr hp)
      refine ⟨by simp [State.leave], by simp [State.leave, h2], ?_, by simp [State.leave], by intro o e h hh; subst hh; simp [State.leave] at h⟩
      intro o f h3 h4
      simp [State.leave] at h3; subst h3; simp [Outcome.fut] at h4
    next => cases h
  | timeout =>
    simp only [step] at h
    split at h
    next hp =>
      cases h
      obtain ⟨h1, h2⟩ := hi.before (.inr hp)
      refine ⟨by simp [State.leave], by simp [State.leave, h2], ?_, by simp [State.leave], by intro o e h hh; subst hh; simp [State.leave] at h⟩
      intro o f h3 h4
      simp [State.leave] at h3; subst h3; simp [Outcome.fut] at h4
    next => cases h
  | cancel =>
    simp only [step] at h
    split at h
    next hp =>
      cases h
      obtain ⟨h1, h2⟩ := hi.before (.inr hp)
      refine ⟨by simp [State.leave], by simp [State.leave, h2], ?_, by simp [State.leave], by intro o e h hh; subst hh; simp [State.leave] at h⟩
      intro o f h3 h4
      simp [State.leave] at h3; subst h3; simp [Outcome.fut] at h4
    next => cases h
  | disposed =>
    simp only [step] at h
    split at h
    next o hp =>
      cases h
      refine ⟨by simp, by simp, ?_, ?_, by simp⟩
      · intro o' f h3 h4
        simp at h3; subst h3
        have := hi.after o f (.inl hp) h4
        exact ⟨by rw [events_snoc]; simpa using this.1, this.2⟩
      · intro o' h3
        simp at h3; subst h3
        have := hi.leaving o hp
        cases o with
        | noSubscription e => exact absurd rfl (hi.real _ e hp)
        | _ => exact this
    next => cases h
  | disposeRaises e =>
    simp only [step] at h
    split at h
    next o hp =>
      cases h
      refine ⟨by simp, by simp, ?_, ?_, by simp⟩
      · intro o' f h3 h4; simp at h3; subst h3; simp [Outcome.fut] at h4
      · intro o' h3; simp at h3; subst h3; exact hi.leaving o hp
    next => cases h

theorem inv_run {ls : List (Label α)} {s : State α} (hr : LTS.run step init ls = some s) : Inv ls s := by
  refine LTS.inv_hist Inv ?_ (fun _ _ _ _ => inv_step) hr
  exact ⟨fun _ => ⟨rfl, rfl⟩, by simp [init], by simp [init], by simp [init], by simp [init]⟩

/-! ## C16 -/

/-- When `run` is over, however it ended (value, error, timeout, cancellation), the subscription, if there was one, has
been disposed, exactly once. -/
theorem C16_disposes {ls : List (Label α)} {s : State α} (hr : LTS.run step init ls = some s) {o : Outcome α}
    (h : s.phase = .done o) (ho : ∀ e, o ≠ .noSubscription e) : s.disposals = 1 := by
  rw [(inv_run hr).over o h]
  cases o with
  | noSubscription e => exact absurd rfl (ho e)
  | _ => rfl

/-- If it returns a value, that is the last value that the source sent before it completed. -/
theorem C16_returns {ls : List (Label α)} {s : State α} (hr : LTS.run step init ls = some s) (hu : Untouched ls)
    {v : Option α} (h : s.phase = .done (.value v)) :
    ∃ vs w rest, v = some w ∧ events ls = Awaitable.sends (vs ++ [w]) ++ .call .completed :: rest := by
  obtain ⟨h1, h2⟩ := (inv_run hr).after _ _ (.inr h) rfl
  have hc : Awaitable.Label.cancel ∉ events ls := fun hm => by obtain ⟨n, hn⟩ := hu _ hm; cases hn
  rw [h1] at h2
  obtain ⟨vs, hvs⟩ := Awaitable.C15_exhaustive (events ls) hc
  rcases hvs with he | ⟨rest, he | ⟨e, he⟩ | he⟩
  · rw [he, Awaitable.C15_open] at h2; cases h2
  · rcases List.eq_nil_or_concat vs with rfl | ⟨vs, w, rfl⟩
    · rw [he, Awaitable.sends, List.map_nil, List.nil_append, Awaitable.C15_no_value] at h2; cases h2
    · rw [List.concat_eq_append] at he
      rw [he, Awaitable.C15_last_value] at h2
      cases h2
      exact ⟨vs, w, rest, rfl, he⟩
  · rw [he, Awaitable.C15_error] at h2; cases h2
  · obtain ⟨n, hn⟩ := hu .dispose (by rw [he]; simp)
    cases hn

/-- If it raises an error that came through the stream, the source failed with it. -/
theorem C16_raises {ls : List (Label α)} {s : State α} (hr : LTS.run step init ls = some s) (hu : Untouched ls)
    {e : Err} (h : s.phase = .done (.raised e)) :
    ∃ vs rest, events ls = Awaitable.sends vs ++ .call (.error e) :: rest := by
  obtain ⟨h1, h2⟩ := (inv_run hr).after _ _ (.inr h) rfl
  have hc : Awaitable.Label.cancel ∉ events ls := fun hm => by obtain ⟨n, hn⟩ := hu _ hm; cases hn
  rw [h1] at h2
  obtain ⟨vs, hvs⟩ := Awaitable.C15_exhaustive (events ls) hc
  rcases hvs with he | ⟨rest, he | ⟨e', he⟩ | he⟩
  · rw [he, Awaitable.C15_open] at h2; cases h2
  · rcases List.eq_nil_or_concat vs with rfl | ⟨vs, w, rfl⟩
    · rw [he, Awaitable.sends, List.map_nil, List.nil_append, Awaitable.C15_no_value] at h2; cases h2
    · rw [List.concat_eq_append] at he
      rw [he, Awaitable.C15_last_value] at h2; cases h2
  · rw [he, Awaitable.C15_error] at h2; cases h2; exact ⟨vs, rest, he⟩
  · obtain ⟨n, hn⟩ := hu .dispose (by rw [he]; simp)
    cases hn

/-- And conversely: while it waits, once the source has completed after a value (or failed), it can go on, and only with
that outcome (or a timeout or a cancellation). -/
theorem C16_goes_on {ls : List (Label α)} {s s' : State α} (hr : LTS.run step init ls = some s)
    (hw : s.phase = .waiting) {l : Label α} {o : Outcome α}
    (h : step s l = some s') (hs' : s'.phase = .disposing o) :
    (l = .timeout ∧ o = .timedOut) ∨ (l = .cancel ∧ o = .cancelled) ∨
    (l = .resume ∧
      (∀ vs w rest, events ls = Awaitable.sends (vs ++ [w]) ++ .call .completed :: rest → o = .value (some w)) ∧
      (∀ vs e rest, events ls = Awaitable.sends vs ++ .call (.error e) :: rest → o = .raised e)) := by
  have hobv := ((inv_run hr).before (.inr hw)).1
  cases l with
  | obv m => simp only [step, Option.some.injEq] at h; subst h; rw [hw] at hs'; cases hs'
  | subscribed => simp [step, hw] at h
  | subscribeRaises e => simp [step, hw] at h
  | timeout => simp only [step, hw, Option.some.injEq] at h; subst h; cases hs'; exact .inl ⟨rfl, rfl⟩
  | cancel => simp only [step, hw, Option.some.injEq] at h; subst h; cases hs'; exact .inr (.inl ⟨rfl, rfl⟩)
  | disposed => simp [step, hw] at h
  | disposeRaises e => simp [step, hw] at h
  | resume =>
    refine .inr (.inr ⟨rfl, ?_, ?_⟩)
    · intro vs w rest he
      have hf : s.obv.fut = .result (some w) := by rw [hobv, he, Awaitable.C15_last_value]
      simp only [step, hw, hf, Option.some.injEq] at h
      subst h; cases hs'; rfl
    · intro vs e rest he
      have hf : s.obv.fut = .exception e := by rw [hobv, he, Awaitable.C15_error]
      simp only [step, hw, hf, Option.some.injEq] at h
      subst h; cases hs'; rfl

theorem C16_can_go_on {ls : List (Label α)} {s : State α} (hr : LTS.run step init ls = some s)
    (hw : s.phase = .waiting)
    (he : (∃ vs rest, events ls = Awaitable.sends vs ++ .call .completed :: rest) ∨
      ∃ vs e rest, events ls = Awaitable.sends vs ++ .call (.error e) :: rest) :
    ∃ s', step s .resume = some s' := by
  have hobv := ((inv_run hr).before (.inr hw)).1
  rcases he with ⟨vs, rest, he⟩ | ⟨vs, e, rest, he⟩
  · rcases List.eq_nil_or_concat vs with rfl | ⟨vs, w, rfl⟩
    · have hf : s.obv.fut = .cancelled := by
        rw [hobv, he, Awaitable.sends, List.map_nil, List.nil_append, Awaitable.C15_no_value]
      simp [step, hw, hf]
    · rw [List.concat_eq_append] at he
      have hf : s.obv.fut = .result (some w) := by rw [hobv, he, Awaitable.C15_last_value]
      simp [step, hw, hf]
  · have hf : s.obv.fut = .exception e := by rw [hobv, he, Awaitable.C15_error]
    simp [step, hw, hf]

/-- A timeout, or a cancellation of the task, ends the wait at once, and the observer's future is done: the source's later
values cannot resolve it. -/
theorem C16_gives_up {s : State α} (hw : s.phase = .waiting) (l : Label α) (hl : l = .timeout ∨ l = .cancel) :
    ∃ s' o, step s l = some s' ∧ s'.phase = .disposing o ∧ o.fut = none ∧ s'.disposals = s.disposals + 1 ∧ s'.obv.fut ≠ .pending := by
  have hc : s.obv.cancel.fut ≠ .pending := by
    unfold Awaitable.State.cancel
    split
    · simp
    · rename_i h; exact h
  rcases hl with rfl | rfl
  · exact ⟨State.leave { s with obv := s.obv.cancel } .timedOut, .timedOut, by simp [step, hw, State.leave], rfl, rfl, rfl, hc⟩
  · exact ⟨State.leave { s with obv := s.obv.cancel } .cancelled, .cancelled, by simp [step, hw, State.leave], rfl, rfl, rfl, hc⟩

def completing : List (Label Nat) :=
  [.obv (.call (.next 1)), .subscribed, .obv (.call (.next 2)), .obv (.call .completed), .resume, .disposed]

example : (LTS.run step init completing).map (fun s => (s.phase, s.disposals)) = some (.done (.value (some 2)), 1) := by
  decide
example : Untouched completing := by simp [Untouched, completing, events]
example : (LTS.run step init ([.subscribed, .obv (.call (.next 2)), .timeout, .disposed] : List (Label Nat))).map
    (fun s => (s.phase, s.disposals, s.obv.fut)) = some (.done .timedOut, 1, .cancelled) := by decide
example : (LTS.run step init ([.subscribed, .obv (.call (.error (.user 3))), .resume, .disposed] : List (Label Nat))).map
    (fun s => (s.phase, s.disposals)) = some (.done (.raised (.user 3)), 1) := by decide

/-! ## C72 -/

/-- C72 is false: if the source completes without a value, `run` does not raise StopAsyncIteration; whatever the
schedule, it never does. It raises CancelledError. -/
theorem C72_violated {ls : List (Label α)} {s s' : State α} (hr : LTS.run step init ls = some s)
    (hw : s.phase = .waiting) {rest} (he : events ls = .call .completed :: rest) (h : step s .resume = some s') :
    s'.phase = .disposing .cancelled := by
  have hobv := ((inv_run hr).before (.inr hw)).1
  have hf : s.obv.fut = .cancelled := by rw [hobv, he, Awaitable.C15_no_value]
  simp only [step, hw, hf, Option.some.injEq] at h
  subst h; rfl

example : (LTS.run step init ([.subscribed, .obv (.call .completed), .resume, .disposed] : List (Label Nat))).map
    (fun s => (s.phase, s.disposals)) = some (.done .cancelled, 1) := by decide

/-- What is left of C72: an empty stream does not make `run` return a value. -/
theorem C72_no_value_partial {ls : List (Label α)} {s : State α} (hr : LTS.run step init ls = some s) {rest}
    (he : events ls = .call .completed :: rest) (v : Option α) : s.phase ≠ .done (.value v) := by
  intro h
  obtain ⟨h1, h2⟩ := (inv_run hr).after _ _ (.inr h) rfl
  rw [h1, he, Awaitable.C15_no_value] at h2
  cases h2

end Aio.RunUntil
