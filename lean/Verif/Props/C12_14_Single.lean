import Verif.Lemmas.Single
/-!
# C12–C14, C71: AsyncSingleSubject
-/

namespace Aio.Single
variable {α : Type}

/-! ## C12 -/

/-- Before there is an observer nothing is delivered, and (unless the subject is disposed or a sender is
cancelled) all senders wait. -/
theorem C12_held {ls : List (Label α)} {s : State α} (hr : LTS.run step init ls = some s) (hs : ¬ Subscribed ls) :
    s.log = [] ∧ (¬ Disposed ls → ¬ Cancelled ls → ∀ c, c < (made ls).length →
      ∃ n, (made ls)[c]? = some n ∧ s.calls[c]? = some (.waiting n)) := by
  have hi := inv_run hr
  obtain ⟨h1, h2, h3⟩ := hi.fresh hs
  refine ⟨h1, fun hd hc c hlt => ?_⟩
  obtain ⟨hp, hw, -⟩ := placed_run hr hd hc
  have hns : s.isStopped = false := by
    -- nothing was sent, so nothing returned
    refine (LTS.inv_reach (step := step) (fun (ls : List (Label α)) s => ¬ Subscribed ls →
      s.isStopped = false ∧ ∀ (c : Nat) n, s.calls[c]? ≠ some (.sending n)) ?_ ?_ hr hs).1
    · intro _; exact ⟨rfl, by simp [init]⟩
    intro ls s l s' hr ih h hs
    rw [subscribed_snoc, not_or] at hs
    obtain ⟨ih1, ih2⟩ := ih hs.1
    have hob := ((inv_run hr).fresh hs.1).2.2
    obtain ⟨-, h⟩ := step_cases h
    rcases h with ⟨n, x, lg, rfl, ho, rfl⟩ | ⟨c, rd, n, x, lg, rfl, hr, hc, ho, rfl⟩ | ⟨c, n, rfl, hc, rfl⟩ |
      ⟨c, n, e, rfl, hc, rfl⟩ | ⟨c, n, rfl, hc, rfl⟩ | ⟨c, n, rfl, hc, rfl⟩ | ⟨o, rfl, hd, rfl⟩ |
      ⟨o, rfl, hd, hw, rfl⟩ | ⟨o, rfl, hd, hw, rfl⟩ | ⟨rfl, rfl⟩
    · refine ⟨ih1, fun c m h => ?_⟩
      rcases get_push.mp h with h | ⟨-, h⟩
      · exact ih2 c m h
      · cases ho <;> simp_all
    · refine ⟨ih1, fun c' m h => ?_⟩
      rcases (get_set (List.getElem?_eq_some_iff.mp hc).1).mp h with ⟨-, h⟩ | ⟨-, h⟩
      · cases ho <;> simp_all
      · exact ih2 c' m h
    · exact absurd hc (ih2 _ _)
    · exact absurd hc (ih2 _ _)
    · refine ⟨ih1, fun c' m h => ?_⟩
      obtain ⟨y, h3, h4⟩ := get_map.mp h
      cases y <;> simp [Call.abort] at h4
      exact ih2 _ _ h3
    · refine ⟨ih1, fun c' m h => ?_⟩
      rcases (get_set (List.getElem?_eq_some_iff.mp hc).1).mp h with ⟨-, h⟩ | ⟨-, h⟩
      · cases h
      · exact ih2 c' m h
    · exact absurd ⟨o, rfl⟩ hs.2
    · exact absurd ⟨o, rfl⟩ hs.2
    · exact absurd ⟨o, rfl⟩ hs.2
    · exact ⟨ih1, ih2⟩
  rcases hp c (by rw [early_before hs]; exact hlt) with ⟨n, h⟩ | h | h | h
  · exact ⟨n, hi.notif c _ n h rfl, h⟩
  · rw [h2] at h; cases h
  · rw [h1] at h; cases h
  · rw [hns] at h; cases h

/-- Whatever happens, the deliveries of early calls are in the order in which the calls were made, each call
delivers at most once, and it delivers the event it was made with. -/
theorem C12_in_order {ls : List (Label α)} {s : State α} (hr : LTS.run step init ls = some s) :
    ((s.log.map (·.1)).filter (· < (early ls).length)).Pairwise (· < ·) ∧ (s.log.map (·.1)).Nodup ∧
      ∀ x ∈ s.log, (made ls)[x.1]? = some x.2.2 := by
  have hi := inv_run hr
  exact ⟨(List.pairwise_append.mp hi.order).1, hi.once, hi.logged⟩

/-- Once there is an observer, the woken senders get through one after the other. -/
theorem C12_progress {ls : List (Label α)} {s : State α} (hr : LTS.run step init ls = some s) (hd : ¬ Disposed ls)
    (hre : s.ready ≠ []) : ∃ s', step s .wake = some s' ∧ s'.ready.length < s.ready.length := by
  have hi := inv_run hr
  cases h : s.ready with
  | nil => exact absurd h hre
  | cons c rd =>
    obtain ⟨n, hn⟩ := (hi.ready c).mp (by rw [h]; simp)
    refine ⟨State.attempt { s with ready := rd } c n, ?_, ?_⟩
    · simp [step, (calm_run hr hd).quiet, h, hn]
    · obtain ⟨x, lg, -, h2⟩ := attempt_outcome { s with ready := rd } c n
      rw [h2]; simp

/-- And when all have got through (and the stream has not ended meanwhile), exactly the early events have
been delivered by them, in order. -/
theorem C12_all {ls : List (Label α)} {s : State α} (hr : LTS.run step init ls = some s) (hs : Subscribed ls)
    (hd : ¬ Disposed ls) (hc : ¬ Cancelled ls) (hre : s.ready = []) (hst : s.isStopped = false) :
    (s.log.filter (·.1 < (early ls).length)).map (·.2.2) = early ls := by
  have hi := inv_run hr
  obtain ⟨hp, -, hw⟩ := placed_run hr hd hc
  have hidx : (s.log.map (·.1)).filter (· < (early ls).length) = List.range (early ls).length := by
    refine sorted_ext (C12_in_order hr).1 List.pairwise_lt_range fun c => ?_
    simp only [List.mem_filter, List.mem_range, decide_eq_true_eq]
    refine ⟨fun h => h.2, fun h => ⟨?_, h⟩⟩
    rcases hp c h with ⟨n, h1⟩ | h1 | h1 | h1
    · have := hi.waits c n h1; rw [hw hs] at this; cases this
    · rw [hre] at h1; cases h1
    · exact h1
    · rw [hst] at h1; cases h1
  rw [List.filter_map] at hidx
  have hget : ∀ x ∈ s.log.filter (·.1 < (early ls).length), (early ls)[x.1]? = some x.2.2 := by
    intro x hx
    simp only [List.mem_filter, decide_eq_true_eq] at hx
    obtain ⟨t, ht⟩ := early_prefix ls
    have := hi.logged x hx.1
    rwa [← ht, List.getElem?_append_left hx.2] at this
  apply List.ext_getElem?
  intro i
  have hlen : (s.log.filter (·.1 < (early ls).length)).length = (early ls).length := by
    have := congrArg List.length hidx
    rw [List.length_map, List.length_range] at this
    exact this
  rcases Nat.lt_or_ge i (early ls).length with hlt | hge
  · have hlt' : i < (s.log.filter (·.1 < (early ls).length)).length := by omega
    rw [List.getElem?_map, List.getElem?_eq_getElem hlt', Option.map_some]
    have h1 := hget _ (List.getElem_mem hlt')
    have h2 : ((s.log.filter (·.1 < (early ls).length))[i]).1 = i := by
      have := congrArg (·[i]?) hidx
      simp only [List.getElem?_range hlt, List.getElem?_map] at this
      rw [show (List.filter ((fun x => decide (x < (early ls).length)) ∘ fun x => x.1) s.log) =
        s.log.filter (·.1 < (early ls).length) from rfl, List.getElem?_eq_getElem hlt'] at this
      simpa using this
    rw [h2] at h1; exact h1.symm
  · rw [List.getElem?_eq_none (by simpa [hlen] using hge), List.getElem?_eq_none hge]

/-- two early senders, an observer; a third sender that comes right after the subscription overtakes them -/
def cold : List (Label Nat) := [.call (.next 1), .call (.next 2), .subscribe 9, .call (.next 3), .wake, .wake]

example : (LTS.run step init cold).map (fun s => (s.log, s.ready, s.isStopped)) =
    some ([(2, 9, .next 3), (0, 9, .next 1), (1, 9, .next 2)], [], false) := by decide
example : early cold = [.next 1, .next 2] ∧ Subscribed cold ∧ ¬ Disposed cold ∧ ¬ Cancelled cold :=
  ⟨by decide, ⟨9, by simp [cold]⟩, by simp [Disposed, cold], by simp [Cancelled, cold]⟩

/-! ## C71 -/

/-- C71 is false: if the task of a waiting sender is cancelled (for example by a timeout), the other waiting senders lose
their events too, with a CancelledError, although nobody cancelled them. -/
theorem C71_violated : (LTS.run step init
    ([.call (.next 1), .call (.next 2), .cancel 0, .subscribe 9] : List (Label Nat))).map
      (fun s => (s.calls, s.log, s.ready)) = some ([.raised .cancelled, .raised .cancelled], [], []) := rfl

/-- It is so for all states and all senders. -/
theorem C71_all_lost {s s' : State α} {c : Nat} {n : Notif α} (hc : s.calls[c]? = some (.waiting n))
    (h : step s (.cancel c) = some s') :
    (∀ (c' : Nat) m, s.calls[c']? = some (.waiting m) → s'.calls[c']? = some (.raised .cancelled)) ∧
      s'.wait = .cancelled := by
  rcases (step_cases h).2 with ⟨_, _, _, hl, -⟩ | ⟨_, _, _, _, _, hl, -⟩ | ⟨_, _, hl, -⟩ |
    ⟨_, _, _, hl, -⟩ | ⟨c1, m, hl, hc', rfl⟩ | ⟨c1, m, hl, hc', rfl⟩ | ⟨_, hl, -⟩ | ⟨_, hl, -⟩ | ⟨_, hl, -⟩ | ⟨hl, -⟩
  all_goals first
    | (cases hl; done)
    | skip
  · exact ⟨fun c' m h1 => get_map.mpr ⟨_, h1, rfl⟩, rfl⟩
  · cases hl; rw [hc] at hc'; cases hc'

/-- Part of C71: a sender that is cancelled when an observer is there already loses its own event only. -/
theorem C71_woken_partial {s s' : State α} {c : Nat} {n : Notif α} (hc : s.calls[c]? = some (.woken n))
    (h : step s (.cancel c) = some s') (c' : Nat) (hcc : c' ≠ c) :
    s'.calls[c']? = s.calls[c']? ∧ (c' ∈ s'.ready ↔ c' ∈ s.ready) ∧ s'.log = s.log := by
  rcases (step_cases h).2 with ⟨_, _, _, hl, -⟩ | ⟨_, _, _, _, _, hl, -⟩ | ⟨_, _, hl, -⟩ |
    ⟨_, _, _, hl, -⟩ | ⟨c1, m, hl, hc', rfl⟩ | ⟨c1, m, hl, hc', rfl⟩ | ⟨_, hl, -⟩ | ⟨_, hl, -⟩ | ⟨_, hl, -⟩ | ⟨hl, -⟩
  all_goals first
    | (cases hl; done)
    | skip
  · cases hl; rw [hc] at hc'; cases hc'
  · cases hl
    exact ⟨List.getElem?_set_ne (Ne.symm hcc), List.mem_erase_of_ne hcc, rfl⟩

example : (LTS.run step init
    ([.call (.next 1), .call (.next 2), .subscribe 9, .cancel 0, .wake] : List (Label Nat))).map
      (fun s => (s.calls, s.log)) =
      some ([.raised .cancelled, .sending (.next 2)], [(1, 9, .next 2)]) := by decide

/-! ## C13 -/

/-- C13 as stated is false: the observer is suspended in its `aclose` (or the second caller comes before the first
terminal call has returned), and gets a value and a second terminal. -/
theorem C13_violated : (LTS.run step init
    ([.subscribe 9, .call .completed, .call (.next 1), .call (.error (.user 5))] : List (Label Nat))).map (·.log) =
      some [(0, 9, .completed), (1, 9, .next 1), (2, 9, .error (.user 5))] := by decide

/-- Nor does it hold for callers that take turns: if the observer's method raises, the subject goes on. -/
theorem C13_violated_raise : (LTS.run step init
    ([.subscribe 9, .call .completed, .raise 0 (.user 5), .call (.next 1)] : List (Label Nat))).map
      (fun s => (s.log, s.calls)) =
      some ([(0, 9, .completed), (1, 9, .next 1)], [.raised (.user 5), .sending (.next 1)]) := by decide

/-- Part of C13: once the call of the observer's `athrow`/`aclose` has returned, nothing reaches any observer. -/
theorem C13_after_return_partial {s s' : State α} {c : Nat} {n : Notif α} {ls : List (Label α)}
    (hc : s.calls[c]? = some (.sending n)) (hn : n.isTerminal = true)
    (hr : LTS.run step s (.ret c :: ls) = some s') : s'.log = s.log := by
  obtain ⟨s1, h1, hr⟩ := LTS.run_cons.mp hr
  have h2 : s1.isStopped = true ∧ s1.log = s.log := by
    obtain ⟨-, h⟩ := step_cases h1
    rcases h with ⟨n, x, lg, h, -⟩ | ⟨c, rd, n, x, lg, h, -⟩ | ⟨c', m, h, hc', rfl⟩ |
      ⟨c, n, e, h, -⟩ | ⟨c, n, h, -⟩ | ⟨c, n, h, -⟩ | ⟨o, h, -⟩ | ⟨o, h, -⟩ | ⟨o, h, -⟩ | ⟨h, -⟩
    all_goals first
      | (cases h; done)
      | (cases h
         rw [hc] at hc'
         cases hc'
         exact ⟨by simp [hn], rfl⟩)
  have := LTS.inv (step := step) (fun s1 => s1.isStopped = true ∧ s1.log = s.log) h2 ?_ hr
  · exact this.2
  rintro s1 l s2 ⟨h3, h4⟩ h
  have hlog : ∀ {c n x lg}, Outcome s1 c n x lg → lg = [] := by
    intro c n x lg h
    cases h with
    | sent o a b => rw [h3] at b; cases b
    | _ => rfl
  obtain ⟨-, h⟩ := step_cases h
  rcases h with ⟨n, x, lg, rfl, ho, rfl⟩ | ⟨c, rd, n, x, lg, rfl, hr, hc, ho, rfl⟩ | ⟨c, n, rfl, hc, rfl⟩ |
    ⟨c, n, e, rfl, hc, rfl⟩ | ⟨c, n, rfl, hc, rfl⟩ | ⟨c, n, rfl, hc, rfl⟩ | ⟨o, rfl, hd, rfl⟩ |
    ⟨o, rfl, hd, hw, rfl⟩ | ⟨o, rfl, hd, hw, rfl⟩ | ⟨rfl, rfl⟩
  · exact ⟨h3, by simp [hlog ho, h4]⟩
  · exact ⟨h3, by simp [hlog ho, h4]⟩
  · exact ⟨by simp [h3], h4⟩
  all_goals exact ⟨h3, h4⟩

example : (LTS.run step init
    ([.subscribe 9, .call .completed, .ret 0, .call (.next 1), .call .completed, .subscribe 8] : List (Label Nat))).map
      (fun s => (s.log, s.calls)) = some ([(0, 9, .completed)], [.returned, .returned, .returned]) := by decide

/-! ## C14 -/

/-- Part of C14: `asend` on a disposed subject raises ObjectDisposedException and delivers nothing. -/
theorem C14_asend_partial {a : List (Label α)} {v : α} {s s' : State α} (hr : LTS.run step init a = some s)
    (hd : Disposed a) (h : step s (.call (.next v)) = some s') :
    s'.calls = s.calls ++ [.raised .objectDisposed] ∧ s'.log = s.log := by
  have hd' := (disposed_iff hr).mpr hd
  unfold step at h
  split at h
  · cases h
  · simp only [Option.some.injEq] at h
    subst h
    simp [State.begin, hd']

/-- Part of C14: so does `subscribe_async`, and there is no observer. -/
theorem C14_subscribe_partial {a : List (Label α)} {o : Nat} {s s' : State α} (hr : LTS.run step init a = some s)
    (hd : Disposed a) (h : step s (.subscribe o) = some s') :
    s'.subs = s.subs ++ [false] ∧ s'.observer = none ∧ s'.calls = s.calls := by
  have hd' := (disposed_iff hr).mpr hd
  unfold step at h
  split at h
  · cases h
  · simp only [hd', Option.some.injEq] at h
    subst h
    exact ⟨rfl, (inv_run hr).gone hd', rfl⟩

/-- What is true of all later calls: nothing is delivered any more. -/
theorem C14_silent_partial {a b : List (Label α)} {s s' : State α} (hr : LTS.run step init a = some s)
    (hd : Disposed a) (h : LTS.run step s b = some s') : s'.log = s.log := by
  have hd' := (disposed_iff hr).mpr hd
  have hob := (inv_run hr).gone hd'
  have := LTS.inv (step := step) (fun s1 => s1.isDisposed = true ∧ s1.observer = none ∧ s1.log = s.log)
    ⟨hd', hob, rfl⟩ ?_ h
  · exact this.2.2
  rintro s1 l s2 ⟨h3, h4, h5⟩ h
  have hlog : ∀ {c n x lg}, Outcome s1 c n x lg → lg = [] := by
    intro c n x lg h
    cases h with
    | sent o a b => rw [h4] at a; cases a
    | _ => rfl
  obtain ⟨-, h⟩ := step_cases h
  rcases h with ⟨n, x, lg, rfl, ho, rfl⟩ | ⟨c, rd, n, x, lg, rfl, hr, hc, ho, rfl⟩ | ⟨c, n, rfl, hc, rfl⟩ |
    ⟨c, n, e, rfl, hc, rfl⟩ | ⟨c, n, rfl, hc, rfl⟩ | ⟨c, n, rfl, hc, rfl⟩ | ⟨o, rfl, hd, rfl⟩ |
    ⟨o, rfl, hd, hw, rfl⟩ | ⟨o, rfl, hd, hw, rfl⟩ | ⟨rfl, rfl⟩
  · exact ⟨h3, h4, by simp [hlog ho, h5]⟩
  · exact ⟨h3, h4, by simp [hlog ho, h5]⟩
  all_goals first
    | exact ⟨h3, h4, h5⟩
    | exact ⟨rfl, rfl, h5⟩
    | (rw [h3] at hd; cases hd)

/-- C14 as stated is false: `aclose` and `athrow` on a subject that had an observer and was disposed do not raise.
They spin, and nothing else in the program runs any more. -/
theorem C14_violated {a : List (Label α)} {n : Notif α} {s : State α} (hr : LTS.run step init a = some s)
    (hd : Disposed a) (hw : s.wait = .done) (hn : n.isTerminal = true)
    (hq : s.calls.any Call.isSpinning = false) :
    ∃ s', step s (.call n) = some s' ∧ s'.calls = s.calls ++ [.spinning] ∧ ∀ l, step s' l = none := by
  have hd' := (disposed_iff hr).mpr hd
  have hob := (inv_run hr).gone hd'
  refine ⟨s.begin n, by simp [step, hq], ?_⟩
  have : s.begin n = { s with calls := s.calls ++ [.spinning] } := by
    cases n with
    | next v => simp [Notif.isTerminal] at hn
    | _ => simp [State.begin, State.attempt, hob, hw]
  rw [this]
  refine ⟨rfl, fun l => ?_⟩
  simp [step, List.any_append, Call.isSpinning]

/-- If it never had one, they wait for ever: `subscribe_async`, which could wake them, raises. -/
theorem C14_violated_stuck {a : List (Label α)} {n : Notif α} {c : Nat} {s s' : State α} {b : List (Label α)}
    (hr : LTS.run step init a = some s) (hd : Disposed a) (hc : s.calls[c]? = some (.waiting n))
    (h : LTS.run step s b = some s') (hcn : ¬ Cancelled b) : s'.calls[c]? = some (.waiting n) := by
  have hd' := (disposed_iff hr).mpr hd
  have := LTS.inv_of (step := step) (fun l => ∀ c, l ≠ .cancel c)
    (fun s1 => s1.isDisposed = true ∧ s1.calls[c]? = some (.waiting n)) ⟨hd', hc⟩ ?_
    (fun l hl c h => hcn ⟨c, h ▸ hl⟩) h
  · exact this.2
  rintro s1 l s2 hl ⟨h3, h4⟩ h
  obtain ⟨-, h⟩ := step_cases h
  rcases h with ⟨n, x, lg, rfl, ho, rfl⟩ | ⟨c, rd, n, x, lg, rfl, hr, hc, ho, rfl⟩ | ⟨c, n, rfl, hc, rfl⟩ |
    ⟨c, n, e, rfl, hc, rfl⟩ | ⟨c, n, rfl, hc, rfl⟩ | ⟨c, n, rfl, hc, rfl⟩ | ⟨o, rfl, hd, rfl⟩ |
    ⟨o, rfl, hd, hw, rfl⟩ | ⟨o, rfl, hd, hw, rfl⟩ | ⟨rfl, rfl⟩
  · exact ⟨h3, prefix_get h4⟩
  · refine ⟨h3, (get_set (List.getElem?_eq_some_iff.mp hc).1).mpr (.inr ⟨?_, h4⟩)⟩
    rintro rfl; rw [hc] at h4; cases h4
  · refine ⟨h3, (get_set (List.getElem?_eq_some_iff.mp hc).1).mpr (.inr ⟨?_, h4⟩)⟩
    rintro rfl; rw [hc] at h4; cases h4
  · refine ⟨h3, (get_set (List.getElem?_eq_some_iff.mp hc).1).mpr (.inr ⟨?_, h4⟩)⟩
    rintro rfl; rw [hc] at h4; cases h4
  · exact absurd rfl (hl c)
  · exact absurd rfl (hl c)
  · exact ⟨h3, h4⟩
  · rw [h3] at hd; cases hd
  · rw [h3] at hd; cases hd
  · exact ⟨rfl, h4⟩

/-- the hypotheses are met: subscribed, disposed, closed -/
example : (LTS.run step init ([.subscribe 9, .dispose] : List (Label Nat))).map
    (fun s => (s.wait, s.calls)) = some (.done, []) ∧
    (LTS.run step init ([.subscribe 9, .dispose, .call .completed] : List (Label Nat))).map (·.calls) =
      some [.spinning] := by decide
/-- disposed, closed; a later subscription is refused -/
example : (LTS.run step init ([.dispose, .call .completed, .call (.next 1), .subscribe 9] : List (Label Nat))).map
    (fun s => (s.calls, s.subs)) = some ([.waiting .completed, .raised .objectDisposed], [false]) := by decide

end Aio.Single
