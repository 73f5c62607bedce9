import Verif.Lemmas.Subject
/-!
# C08–C11: AsyncSubject

Schedules are arbitrary: any number of callers, overlapping calls, observers' methods that suspend and
raise, subscribing and unsubscribing in the middle of a broadcast. `guard` is arbitrary unless given.
-/

namespace Aio.Subject
variable {α : Type} {guard : Bool}

/-- No observer object was subscribed twice, or no subscription was disposed. Anonymous observers (and those
that operators make) are fresh objects. -/
def Plain (ls : List (Label α)) : Prop := (passed ls).Nodup ∨ ∀ k, Label.unsubscribe k ∉ ls

/-! ## C08 -/

/-- Whatever is going on, the deliveries of a call are: the notification, to the observers subscribed
at the moment of the call, in the order of subscription; all of them when the call has returned, and up to
the one that raised when the call has raised, with that exception. -/
theorem C08_broadcast {a b : List (Label α)} {n : Notif α} {s : State α}
    (hr : LTS.run (step guard) init (a ++ .call n :: b) = some s)
    (hd : ¬ Disposed a) (he : ¬ Ended a) (hp : Plain a) :
    ∃ rest : List Nat, deliveries (made a).length s ++ rest.map (·, n) = (live a).map (fun x => (x.2, n)) ∧
      ((∃ o, s.calls[(made a).length]? = some (.running n o rest)) ∨
       (s.calls[(made a).length]? = some .returned ∧ rest = []) ∨
       (∃ e, s.calls[(made a).length]? = some (.raised e) ∧ .raise (made a).length e ∈ b)) := by
  obtain ⟨s0, h0, hr⟩ := LTS.run_append.mp hr
  obtain ⟨s1, h1, hr⟩ := LTS.run_cons.mp hr
  simp only [step, Option.some.injEq] at h1
  subst h1
  have hm := (inv_run h0).made
  have hob := observers_run h0 hp
  have hd' : s0.isDisposed = false := by
    cases h : s0.isDisposed with
    | false => rfl
    | true => exact absurd ((disposed_iff h0).mp h) hd
  have he' : s0.isStopped = false := by
    cases h : s0.isStopped with
    | false => rfl
    | true => exact absurd ((stopped_iff h0).mp h) he
  have ht := track_begin (n := n) (fresh_deliveries h0) hd' he'
  have := LTS.inv_from (step := step guard) (Track s0.calls.length n s0.observers)
    (fun ls s l s' hi h => track_step hi h) ht hr
  rw [hm, hob] at this
  simpa [Track, List.map_map, Function.comp_def] using this

/-- A call in the loop can always go on: nothing in the subject blocks it. -/
theorem C08_progress {s : State α} {c : Nat} {n : Notif α} {o : Nat} {rest : List Nat}
    (h : s.calls[c]? = some (.running n o rest)) : ∃ s', step guard s (.ret c) = some s' := by
  simp [step, h]

/-- Nobody subscribed: the call returns at once and delivers nothing, then or later. -/
theorem C08_dropped {a b : List (Label α)} {n : Notif α} {s : State α}
    (hr : LTS.run (step guard) init (a ++ .call n :: b) = some s) (hd : ¬ Disposed a) (hl : live a = [])
    (hp : Plain a) : s.calls[(made a).length]? = some .returned ∧ deliveries (made a).length s = [] := by
  obtain ⟨s0, h0, hr⟩ := LTS.run_append.mp hr
  obtain ⟨s1, h1, hr⟩ := LTS.run_cons.mp hr
  simp only [step, Option.some.injEq] at h1
  subst h1
  have hm := (inv_run h0).made
  have hob := observers_run h0 hp
  have hd' : s0.isDisposed = false := by
    cases h : s0.isDisposed with
    | false => rfl
    | true => exact absurd ((disposed_iff h0).mp h) hd
  have : Over s0.calls.length .returned [] (s0.begin n) := by
    rcases begin_cases s0 n with ⟨h1, -⟩ | ⟨-, -, h2⟩ | ⟨-, -, h2⟩
    · rw [hd'] at h1; cases h1
    · rw [h2]; exact ⟨by simp, by simp, fresh_deliveries h0⟩
    · rw [h2, hob, hl]
      refine ⟨?_, by simp, fresh_deliveries h0⟩
      rw [loop_calls, List.getElem?_set_self (by simp)]; rfl
  have := LTS.inv (step := step guard) (Over s0.calls.length .returned []) this (fun _ _ _ hi h => over_step hi h) hr
  rw [hm] at this
  exact ⟨this.1, this.2.2⟩

/-- 1 and 2 are subscribed; while observer 1 is busy with the value, 3 subscribes and 2 leaves; then the
call goes on. 2 was subscribed when the call was made, 3 was not. -/
def broadcasting : List (Label Nat) := [.subscribe 1, .subscribe 2, .call (.next 7), .subscribe 3, .unsubscribe 1, .ret 0, .ret 0]

example : (LTS.run (step true) init broadcasting).map (fun s => (deliveries 0 s, s.calls)) =
    some ([(1, .next 7), (2, .next 7)], [.returned]) := by decide
/-- the first observer raises: the second gets nothing, the caller gets the exception -/
example : (LTS.run (step true) init
    ([.subscribe 1, .subscribe 2, .call (.next 7), .raise 0 (.user 3)] : List (Label Nat))).map
      (fun s => (deliveries 0 s, s.calls)) = some ([(1, .next 7)], [.raised (.user 3)]) := by decide
/-- C08_broadcast applies to the call of `broadcasting` -/
example : ¬ Disposed ([.subscribe 1, .subscribe 2] : List (Label Nat)) ∧
    ¬ Ended ([.subscribe 1, .subscribe 2] : List (Label Nat)) ∧ Plain ([.subscribe 1, .subscribe 2] : List (Label Nat)) ∧
    live ([.subscribe 1, .subscribe 2] : List (Label Nat)) = [(0, 1), (1, 2)] := by
  refine ⟨by simp [Disposed], ?_, .inl (by decide), by decide⟩
  rw [← stopped_iff (guard := true) (ls := [.subscribe 1, .subscribe 2]) rfl]; decide
/-- C08_dropped -/
example : (LTS.run (step true) init ([.call (.next 7), .subscribe 1] : List (Label Nat))).map
    (fun s => (s.log, s.calls)) = some ([], [.returned]) := by decide

/-! ## C10 -/

/-- A call on a disposed subject raises ObjectDisposedException, and delivers nothing, then or later. -/
theorem C10_call {a b : List (Label α)} {n : Notif α} {s : State α}
    (hr : LTS.run (step guard) init (a ++ .call n :: b) = some s) (hd : Disposed a) :
    s.calls[(made a).length]? = some (.raised .objectDisposed) ∧ deliveries (made a).length s = [] := by
  obtain ⟨s0, h0, hr⟩ := LTS.run_append.mp hr
  obtain ⟨s1, h1, hr⟩ := LTS.run_cons.mp hr
  simp only [step, Option.some.injEq] at h1
  subst h1
  have hm := (inv_run h0).made
  have hs := (disposed_iff h0).mpr hd
  have : Over s0.calls.length (.raised .objectDisposed) [] (s0.begin n) := by
    rcases begin_cases s0 n with ⟨-, h2⟩ | ⟨h1, -⟩ | ⟨h1, -⟩
    · rw [h2]; exact ⟨by simp, by simp, fresh_deliveries h0⟩
    · rw [hs] at h1; cases h1
    · rw [hs] at h1; cases h1
  have := LTS.inv (step := step guard) (Over s0.calls.length (.raised .objectDisposed) []) this
    (fun _ _ _ hi h => over_step hi h) hr
  rw [hm] at this
  exact ⟨this.1, this.2.2⟩

/-- So does `subscribe_async` (`none` in the list of its outcomes), and the observer is not added. -/
theorem C10_subscribe {a : List (Label α)} {o : Nat} {s s' : State α}
    (h0 : LTS.run (step guard) init a = some s) (hd : Disposed a) (h : step guard s (.subscribe o) = some s') :
    s'.subs = s.subs ++ [none] ∧ s'.observers = s.observers ∧ s'.log = s.log := by
  have hs := (disposed_iff h0).mpr hd
  simp only [step, hs, if_true, Option.some.injEq] at h
  subst h
  exact ⟨rfl, rfl, rfl⟩

example : (LTS.run (step true) init ([.subscribe 1, .dispose, .call (.next 7), .subscribe 2] : List (Label Nat))).map
    (fun s => (s.log, s.calls, s.subs)) = some ([], [.raised .objectDisposed], [some (1, false), none]) := rfl

/-! ## C09 -/

/-- Calls made after `athrow` or `aclose` has been called (even while that call is still in progress) never
deliver anything. -/
theorem C09_nothing_later {a b : List (Label α)} {n : Notif α} {s : State α}
    (hr : LTS.run (step guard) init (a ++ .call n :: b) = some s) (he : Ended a) :
    deliveries (made a).length s = [] := by
  obtain ⟨s0, h0, hr⟩ := LTS.run_append.mp hr
  obtain ⟨s1, h1, hr⟩ := LTS.run_cons.mp hr
  simp only [step, Option.some.injEq] at h1
  subst h1
  have hm := (inv_run h0).made
  have hs := (stopped_iff h0).mpr he
  have : ∃ x, Over s0.calls.length x [] (s0.begin n) := by
    rcases begin_cases s0 n with ⟨-, h2⟩ | ⟨-, -, h2⟩ | ⟨-, h1, -⟩
    · rw [h2]; exact ⟨.raised .objectDisposed, by simp, by simp, fresh_deliveries h0⟩
    · rw [h2]; exact ⟨.returned, by simp, by simp, fresh_deliveries h0⟩
    · rw [hs] at h1; cases h1
  obtain ⟨x, hx⟩ := this
  have := LTS.inv (step := step guard) (Over s0.calls.length x []) hx (fun _ _ _ hi h => over_step hi h) hr
  rw [hm] at this
  exact this.2.2

/-- All terminal notifications that observers get are from one call. -/
theorem C09_one_call {ls : List (Label α)} {s : State α} (hr : LTS.run (step guard) init ls = some s)
    {c c' o o' : Nat} {n n' : Notif α} (h : (c, o, n) ∈ s.log) (h' : (c', o', n') ∈ s.log)
    (hn : ∀ v, n ≠ .next v) (hn' : ∀ v, n' ≠ .next v) : c = c' :=
  (sole_run hr).2 c c' (.inl ⟨o, n, h, (terminal_iff n).mpr hn⟩) (.inl ⟨o', n', h', (terminal_iff n').mpr hn'⟩)

/-- So an observer that is subscribed once gets at most one terminal notification. -/
theorem C09_one_terminal {ls : List (Label α)} {s : State α} (hr : LTS.run (step guard) init ls = some s)
    (hp : (passed ls).Nodup) (o : Nat) :
    (s.log.filter fun x => x.2.1 = o ∧ x.2.2.isTerminal = true).length ≤ 1 := by
  generalize hf : (s.log.filter fun x => x.2.1 = o ∧ x.2.2.isTerminal = true) = f
  match f, hf with
  | [], _ => simp
  | [x], _ => simp
  | x :: y :: f, hf =>
    exfalso
    have hm : ∀ z ∈ x :: y :: f, z ∈ s.log ∧ z.2.1 = o ∧ z.2.2.isTerminal = true := by
      intro z hz; rw [← hf, List.mem_filter] at hz; simpa using hz
    have hx := hm x (by simp)
    have hc : ∀ z ∈ x :: y :: f, z.1 = x.1 := fun z hz =>
      C09_one_call hr (hm z hz).1 hx.1 ((terminal_iff _).mp (hm z hz).2.2) ((terminal_iff _).mp hx.2.2)
    -- the call that these entries belong to
    obtain ⟨a, n, b, rfl, ha⟩ := split_made ls x.1 (by rw [← (inv_run hr).made]; exact log_lt hr x hx.1)
    have hd : ((deliveries x.1 s).map (·.1)).Nodup := by
      rw [← ha]
      by_cases hd : Disposed a
      · rw [(C10_call hr hd).2]; simp
      by_cases he : Ended a
      · rw [C09_nothing_later hr he]; simp
      rw [passed_append] at hp
      have hpa := (List.nodup_append.mp hp).1
      obtain ⟨rest, h1, -⟩ := C08_broadcast hr hd he (.inl hpa)
      obtain ⟨s0, h0, -⟩ := LTS.run_append.mp hr
      have h2 := congrArg (List.map Prod.fst) h1
      simp only [List.map_append, List.map_map, Function.comp_def] at h2
      refine (hpa.sublist (inv_run h0).sub).sublist ?_
      rw [← h2]
      exact List.sublist_append_left _ _
    have hs : ((x :: y :: f).map (·.2.1)).Sublist ((deliveries x.1 s).map (·.1)) := by
      have h1 : (x :: y :: f) = (s.log.filter fun z => z.1 = x.1).filter
          fun z => z.2.1 = o ∧ z.2.2.isTerminal = true := by
        rw [List.filter_filter, ← hf]
        apply List.filter_congr
        intro z hz
        by_cases h2 : z.2.1 = o ∧ z.2.2.isTerminal = true
        · have := hc z (by rw [← hf, List.mem_filter]; exact ⟨hz, by simpa using h2⟩)
          simp [this]
        · simp only [h2, decide_false, Bool.false_and]
      have h2 : deliveries x.1 s = (s.log.filter fun z => z.1 = x.1).map (·.2) := by
        rw [deliveries_eq]
        generalize s.log = log
        induction log with
        | nil => rfl
        | cons z log ih =>
          by_cases h3 : z.1 = x.1
          · simp [h3, ih]
          · simp [h3, ih]
      rw [h2, List.map_map, h1]
      exact List.filter_sublist.map _
    have := hd.sublist hs
    simp only [List.map_cons, List.nodup_cons, List.mem_cons, not_or] at this
    exact this.1.1 (by rw [hx.2.1, (hm y (by simp)).2.1])

/-- A value's broadcast that is still in progress when `aclose` is called does go on: observer 2 gets the
value after its completion. That call was made earlier. -/
def overlapping : List (Label Nat) := [.subscribe 1, .subscribe 2, .call (.next 7), .call .completed, .ret 1, .ret 1, .ret 0, .call (.next 8)]

example : (LTS.run (step true) init overlapping).map (·.log) =
    some [(0, 1, .next 7), (1, 1, .completed), (1, 2, .completed), (0, 2, .next 7)] := by decide
/-- C09_nothing_later, for its last call -/
example : Ended (overlapping.take 7) :=
  ⟨[.subscribe 1, .subscribe 2, .call (.next 7)], .completed, [.ret 1, .ret 1, .ret 0], rfl, by simp [Disposed], by simp⟩

/-! ## C11 -/

/-- Part of C11: if no observer object is subscribed twice, disposing a subscription takes its observer out and
leaves the others in their order, and disposing it again changes nothing. -/
theorem C11_removes_partial {a : List (Label α)} {k o : Nat} {s s' : State α}
    (hr : LTS.run (step guard) init a = some s) (hp : (passed a).Nodup) (hk : (passed a)[k]? = some o)
    (h : step guard s (.unsubscribe k) = some s') :
    s'.observers = s.observers.filter (· ≠ o) ∧
      ∀ s'', step guard s' (.unsubscribe k) = some s'' → s''.observers = s'.observers := by
  have hob := observers_run hr (.inl hp)
  have hi := inv_run hr
  have hr1 : LTS.run (step guard) init (a ++ [.unsubscribe k]) = some s' :=
    LTS.run_append.mpr ⟨s, hr, LTS.run_cons.mpr ⟨s', h, rfl⟩⟩
  have hp1 : (passed (a ++ [Label.unsubscribe (α := α) k])).Nodup := by rw [passed_snoc]; simpa using hp
  have hob1 := observers_run hr1 (.inl hp1)
  have hl1 : live (a ++ [Label.unsubscribe (α := α) k]) = (live a).filter (·.1 ≠ k) := by
    rw [live, tally_snoc]; rfl
  refine ⟨?_, ?_⟩
  · rw [hob1, hl1, hob, List.filter_map]
    congr 1
    apply List.filter_congr
    rintro ⟨k', o'⟩ hm
    have h1 := hi.pass _ _ _ ((hi.liveKey k' o').mp hm)
    obtain ⟨h3, h4⟩ := List.getElem?_eq_some_iff.mp h1
    obtain ⟨h5, h6⟩ := List.getElem?_eq_some_iff.mp hk
    by_cases h8 : k' = k
    · subst h8
      have : o' = o := by rw [← h4, h6]
      simp [this]
    · have h9 : o' ≠ o := fun h9 => h8 ((List.getElem_inj hp).mp (by rw [h4, h6, h9]))
      simp [h8, h9]
  · intro s'' h'
    have hr2 : LTS.run (step guard) init (a ++ [.unsubscribe k] ++ [.unsubscribe k]) = some s'' :=
      LTS.run_append.mpr ⟨s', hr1, LTS.run_cons.mpr ⟨s'', h', rfl⟩⟩
    have hp2 : (passed (a ++ [Label.unsubscribe (α := α) k] ++ [.unsubscribe k])).Nodup := by
      rw [passed_snoc]; simpa using hp1
    rw [observers_run hr2 (.inl hp2), hob1]
    have hl2 : live (a ++ [Label.unsubscribe (α := α) k] ++ [.unsubscribe k]) =
        (live (a ++ [Label.unsubscribe (α := α) k])).filter (·.1 ≠ k) := by rw [live, tally_snoc]; rfl
    rw [hl2, hl1, List.filter_filter]
    simp

/-- Part of C11: if no observer object is subscribed twice, calls made after a subscription was disposed do not
reach its observer. -/
theorem C11_never_again_partial {a b c : List (Label α)} {n : Notif α} {k o : Nat} {s : State α}
    (hr : LTS.run (step guard) init (a ++ .unsubscribe k :: (b ++ .call n :: c)) = some s)
    (hp : (passed (a ++ .unsubscribe k :: b)).Nodup) (hk : (passed a)[k]? = some o) :
    ∀ m, (o, m) ∉ deliveries (made (a ++ .unsubscribe k :: b)).length s := by
  intro m hm
  have hr' : LTS.run (step guard) init ((a ++ .unsubscribe k :: b) ++ .call n :: c) = some s := by simpa using hr
  obtain ⟨s0, h0, -⟩ := LTS.run_append.mp hr'
  have hi := inv_run h0
  by_cases hd : Disposed (a ++ .unsubscribe k :: b)
  · rw [(C10_call hr' hd).2] at hm; cases hm
  by_cases he : Ended (a ++ .unsubscribe k :: b)
  · rw [C09_nothing_later hr' he] at hm; cases hm
  obtain ⟨rest, h1, -⟩ := C08_broadcast hr' hd he (.inl hp)
  have h2 : (o, m) ∈ (live (a ++ .unsubscribe k :: b)).map (fun x => (x.2, n)) := by
    rw [← h1]; exact List.mem_append_left _ hm
  simp only [List.mem_map, Prod.mk.injEq] at h2
  obtain ⟨⟨k', o'⟩, h3, h4, -⟩ := h2
  dsimp only at h4
  subst h4
  -- the subscription with this observer is number k
  have h5 := hi.pass _ _ _ ((hi.liveKey _ _).mp h3)
  have h6 : (passed (a ++ .unsubscribe k :: b))[k]? = some o' := by
    rw [passed_append, List.getElem?_append_left (List.getElem?_eq_some_iff.mp hk).1, hk]
  have h7 : k' = k := by
    obtain ⟨h8, h9⟩ := List.getElem?_eq_some_iff.mp h5
    obtain ⟨h10, h11⟩ := List.getElem?_eq_some_iff.mp h6
    exact (List.getElem_inj hp).mp (by rw [h9, h11])
  subst h7
  -- and it is not there any more
  obtain ⟨s1, h12, -⟩ := LTS.run_append.mp h0
  have hi1 := inv_run h12
  have hlen : k' < (tally a).count := by
    rw [← hi1.count, ← hi1.plen]; exact (List.getElem?_eq_some_iff.mp hk).1
  have key := tally_gone b k' (tally (a ++ [Label.unsubscribe (α := α) k']))
    (by rw [tally_snoc]; exact ⟨hlen, by simp [Tally.next]⟩) o'
  rw [tally, ← List.foldl_append] at key
  exact key (by simpa [live, tally] using h3)

/-- Part of C11, for all histories (observer objects subscribed several times included), if a disposable runs
its action once only: the right observers remain, each as often as it is still subscribed. Their order
may be wrong, see `C11_violated`. -/
theorem C11_remaining_partial {ls : List (Label α)} {s : State α} (hr : LTS.run (step true) init ls = some s) :
    s.observers.Perm ((live ls).map (·.2)) := observers_perm hr

/-- Observer 1 is subscribed, then 2, then 1 again; the last subscription is disposed. -/
def twice : List (Label Nat) := [.subscribe 1, .subscribe 2, .subscribe 1, .unsubscribe 2]

/-- C11 as stated is false: the subscriptions that are left are 1 and 2 in this order, but the next value
reaches 2 first. -/
theorem C11_violated (guard : Bool) : live twice = [(0, 1), (1, 2)] ∧
    (LTS.run (step guard) init (twice ++ [.call (.next 7), .ret 0, .ret 0])).map (deliveries 0) =
      some [(2, .next 7), (1, .next 7)] := by
  cases guard <;> decide

/-- Without the guard, disposing one subscription twice also takes the other one away. -/
theorem C11_violated_unguarded : live ([.subscribe 1, .subscribe 1, .unsubscribe 0, .unsubscribe 0] : List (Label Nat)) = [(1, 1)] ∧
    (LTS.run (step false) init ([.subscribe 1, .subscribe 1, .unsubscribe 0, .unsubscribe 0] : List (Label Nat))).map
      (·.observers) = some [] := by decide

/-- the partial theorems apply: three observers, the second leaves (twice), a value is sent -/
def leaving : List (Label Nat) := [.subscribe 1, .subscribe 2, .subscribe 3, .unsubscribe 1, .unsubscribe 1, .call (.next 7), .ret 0, .ret 0]

example : (passed leaving).Nodup ∧ (passed leaving)[1]? = some 2 ∧
    (LTS.run (step false) init leaving).map (fun s => (s.observers, deliveries 0 s)) =
      some ([1, 3], [(1, .next 7), (3, .next 7)]) := by decide

end Aio.Subject
