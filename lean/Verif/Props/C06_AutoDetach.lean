import Verif.Model.AutoDetach
/-!
# C06: auto-detach

Full claim: "when the stream terminates (`cancel` was called by the safe observer), every registered
upstream subscription is disposed". It is false for the code in both possible behaviours of a
cancelled agent; the theorems below say exactly what does hold.
-/

namespace Aio.AutoDetach

/-- The full claim, for a given behaviour of cancelled agents: after a schedule in which `cancel`
happened, no dispose raised and the worker has nothing left to do, everything registered before the
cancel has been disposed. -/
def DisposesRegistered (k : Bool) : Prop :=
  ∀ before after s, run k init (before ++ .cancel :: after) = some s →
    .raise ∉ before ++ after → .cancel ∉ before ++ after → Drained k s →
    ∀ d ∈ registered before, d ∈ s.disposed

theorem run_append {k : Bool} (a b : List Label) (s : State) :
    run k s (a ++ b) = (run k s a).bind fun s' => run k s' b := by
  induction a generalizing s with
  | nil => rfl
  | cons l a ih =>
    simp only [List.cons_append, run]
    cases step k s l with
    | none => rfl
    | some s1 => simpa using ih s1

/-! ## the claim is false -/

/-- If cancelling the token cancels the waiting agent, nothing is ever disposed. -/
theorem C06_killed_agent_disposes_nothing (ls : List Label) (s : State)
    (h : run true init ls = some s) : s.disposed = [] := by
  -- invariant: before the cancel no dispose message is in the mailbox, after it the agent is dead
  have key : ∀ ls s s', (s.disposed = [] ∧ (s.cancelled = false → Msg.dispose ∉ s.inbox) ∧
      (s.cancelled = true → s.pc = .dead) ∧ (∀ c t, s.pc ≠ .disposing c t)) →
      run true s ls = some s' → s'.disposed = [] := by
    intro ls
    induction ls with
    | nil => intro s s' hi hr; simp only [run, Option.some.injEq] at hr; exact hr ▸ hi.1
    | cons l ls ih =>
      intro s s' hi hr
      simp only [run, Option.bind_eq_some_iff] at hr
      obtain ⟨s1, h1, h2⟩ := hr
      refine ih s1 s' ?_ h2
      obtain ⟨inbox, pc, c, d⟩ := s
      obtain ⟨hd, hm, hc, hp⟩ := hi
      simp only at hd hm hc hp
      cases l <;> cases c <;> simp_all [step] <;> (try split at h1) <;>
        (try simp_all [loopHead]) <;> (try subst h1) <;> simp_all
      all_goals (cases pc <;> simp_all)
  exact key ls init s ⟨rfl, by simp [init], by simp [init], by simp [init]⟩ h

theorem C06_violated_if_agent_killed : ¬ DisposesRegistered true := by
  intro h
  have := h [.start, .register 1, .receive] [] _ rfl (by decide) (by decide)
    (by refine ⟨?_, ?_, ?_⟩ <;> decide) 1 (by decide)
  revert this; decide

/-- Even if the agent survives: a subscription whose registration message is still in the mailbox
when the stream terminates is never disposed (the token check at the loop head ends the agent). -/
theorem C06_violated_if_agent_survives : ¬ DisposesRegistered false := by
  intro h
  have := h [.start, .register 1] [.receive] _ rfl (by decide) (by decide)
    (by refine ⟨?_, ?_, ?_⟩ <;> decide) 1 (by decide)
  revert this; decide

/-! ## what holds -/

/-- States that a schedule without `cancel` can reach. -/
theorem reach_before {ls : List Label} {s : State} (h : run false init ls = some s)
    (hc : .cancel ∉ ls) :
    s.cancelled = false ∧ s.disposed = [] ∧
    ((s.pc = .fresh ∧ s.inbox = (registered ls).map .disposable) ∨
     ∃ ds q, s.pc = .waiting ds ∧ registered ls = ds ++ q ∧ s.inbox = q.map .disposable) := by
  have key : ∀ ls (s s' : State) (r : List Nat), .cancel ∉ ls → run false s ls = some s' →
      (s.cancelled = false ∧ s.disposed = [] ∧
        ((s.pc = .fresh ∧ s.inbox = r.map .disposable) ∨
          ∃ ds q, s.pc = .waiting ds ∧ r = ds ++ q ∧ s.inbox = q.map .disposable)) →
      (s'.cancelled = false ∧ s'.disposed = [] ∧
        ((s'.pc = .fresh ∧ s'.inbox = (r ++ registered ls).map .disposable) ∨
          ∃ ds q, s'.pc = .waiting ds ∧ r ++ registered ls = ds ++ q ∧
            s'.inbox = q.map .disposable)) := by
    intro ls
    induction ls with
    | nil =>
      intro s s' r _ hr hi
      simp only [run, Option.some.injEq] at hr; subst hr; simpa [registered] using hi
    | cons l ls ih =>
      intro s s' r hnc hr hi
      simp only [run, Option.bind_eq_some_iff] at hr
      obtain ⟨s1, h1, h2⟩ := hr
      have hnc' : .cancel ∉ ls := fun hh => hnc (List.mem_cons_of_mem _ hh)
      have hl : l ≠ .cancel := fun hh => hnc (hh ▸ List.mem_cons_self)
      have hreg : r ++ registered (l :: ls) = (r ++ registered [l]) ++ registered ls := by
        cases l <;> simp [registered]
      rw [hreg]
      refine ih s1 s' (r ++ registered [l]) hnc' h2 ?_
      obtain ⟨inbox, pc, c, d⟩ := s
      obtain ⟨hc, hd, hi⟩ := hi
      simp only at hc hd hi
      subst hc hd
      rcases hi with ⟨rfl, rfl⟩ | ⟨ds, q, rfl, rfl, rfl⟩
      · cases l <;> simp_all [step, registered, loopHead]
        · subst h1; simp
        · subst h1; simp
      · cases l <;> simp_all [step, registered, loopHead]
        · subst h1; exact ⟨rfl, rfl, .inr ⟨ds, rfl, _, rfl, by simp⟩⟩
        · cases q with
          | nil => simp at h1
          | cons a q =>
            simp at h1; subst h1
            exact ⟨rfl, rfl, .inr ⟨ds ++ [a], rfl, q, by simp, rfl⟩⟩
  simpa [registered] using key ls init s [] hc h ⟨rfl, rfl, .inl ⟨rfl, rfl⟩⟩

/-- C06 (partial): if the agent survives the cancellation of its token and had already taken all
registrations out of its mailbox when the stream terminated, then every registered subscription is
disposed exactly once, in the order of registration, and anything registered later is not.
Missing from the full claim: registrations not yet taken out, and killed agents (both refuted
above). -/
theorem C06_detach_partial (before after : List Label) (s1 s : State)
    (h1 : run false init before = some s1) (hb : .cancel ∉ before)
    (hw : ∃ ds, s1.pc = .waiting ds) (hq : s1.inbox = [])
    (h2 : run false s1 (.cancel :: after) = some s)
    (hnr : .raise ∉ after) (hnc : .cancel ∉ after) (hd : Drained false s) :
    s.disposed = registered before := by
  obtain ⟨hc, hdis, hr⟩ := reach_before h1 hb
  obtain ⟨ds, hw⟩ := hw
  have hds : registered before = ds := by
    rcases hr with ⟨hf, _⟩ | ⟨ds', q, hp, hreg, hin⟩
    · rw [hf] at hw; cases hw
    · rw [hp] at hw; cases hw
      rw [hq] at hin
      have : q = [] := by cases q with
        | nil => rfl
        | cons a q => simp at hin
      simpa [this] using hreg
  rw [hds]
  obtain ⟨inbox, pc, c, d⟩ := s1
  simp only at hc hdis hw hq
  subst hc hdis hw hq
  simp only [run, step, Option.bind_some] at h2
  -- invariant of the phase after the cancel
  let J : State → Prop := fun t =>
    (t.pc = .waiting ds ∧ t.disposed = [] ∧ ∃ q, t.inbox = .dispose :: q) ∨
    (∃ c todo, t.pc = .disposing c todo ∧ t.disposed ++ todo = ds) ∨
    (t.pc = .dead ∧ t.disposed = ds)
  have key : ∀ ls (t t' : State), .raise ∉ ls → .cancel ∉ ls → J t → run false t ls = some t' →
      J t' := by
    intro ls
    induction ls with
    | nil => intro t t' _ _ hj hr; simp only [run, Option.some.injEq] at hr; exact hr ▸ hj
    | cons l ls ih =>
      intro t t' hnr hnc hj hr
      simp only [run, Option.bind_eq_some_iff] at hr
      obtain ⟨t1, ht1, ht2⟩ := hr
      refine ih t1 t' (fun hh => hnr (List.mem_cons_of_mem _ hh))
        (fun hh => hnc (List.mem_cons_of_mem _ hh)) ?_ ht2
      have hl : l ≠ .cancel := fun hh => hnc (hh ▸ List.mem_cons_self)
      have hl' : l ≠ .raise := fun hh => hnr (hh ▸ List.mem_cons_self)
      obtain ⟨inbox, pc, c, d⟩ := t
      rcases hj with ⟨hp, hdd, q, hin⟩ | ⟨c', todo, hp, hdd⟩ | ⟨hp, hdd⟩
      · simp only at hp hdd hin
        subst hp hdd hin
        cases l <;> simp [step] at ht1 hl hl'
        · subst ht1; exact .inl ⟨rfl, rfl, _, rfl⟩
        · subst ht1
          cases ds with
          | nil => exact .inr (.inr ⟨rfl, rfl⟩)
          | cons a ds => exact .inr (.inl ⟨a, ds, rfl, rfl⟩)
      · simp only at hp hdd
        subst hp
        cases l <;> simp [step] at ht1 hl hl'
        · subst ht1; exact .inr (.inl ⟨_, _, rfl, hdd⟩)
        · subst ht1
          cases todo with
          | nil => exact .inr (.inr ⟨rfl, by simpa [disposeLoop] using hdd⟩)
          | cons a todo => exact .inr (.inl ⟨a, todo, rfl, by simpa [disposeLoop] using hdd⟩)
      · simp only at hp hdd
        subst hp
        cases l <;> simp [step] at ht1 hl hl'
        subst ht1; exact .inr (.inr ⟨rfl, hdd⟩)
  have hJ := key after _ s hnr hnc (.inl ⟨rfl, rfl, [], rfl⟩) h2
  obtain ⟨-, hd2, hd3⟩ := hd
  rcases hJ with ⟨hp, -, q, hin⟩ | ⟨c', todo, hp, -⟩ | ⟨-, hdd⟩
  · simp [step, hp, hin] at hd2
  · simp [step, hp] at hd3
  · exact hdd

example : ∃ s1 s, run false init [.start, .register 1, .register 2, .receive, .receive] = some s1 ∧
    s1.pc = .waiting [1, 2] ∧ s1.inbox = [] ∧
    run false s1 [.cancel, .receive, .ret, .register 3, .ret] = some s ∧ Drained false s ∧
    s.disposed = [1, 2] :=
  ⟨_, _, rfl, rfl, rfl, rfl, by refine ⟨?_, ?_, ?_⟩ <;> decide, by decide⟩

/-- C06, the other case: if the worker had not begun, or a registration was still in its mailbox, when the stream
terminated, then nothing at all is ever disposed, not even the subscriptions registered earlier. (With
`C06_detach_partial`: it is all or nothing.) -/
theorem C06_pending_disposes_nothing (before after : List Label) (s1 s : State)
    (h1 : run false init before = some s1) (hb : .cancel ∉ before) (hq : s1.pc = .fresh ∨ s1.inbox ≠ [])
    (h2 : run false s1 (.cancel :: after) = some s) : s.disposed = [] := by
  obtain ⟨hc, hdis, hr⟩ := reach_before h1 hb
  let J : State → Prop := fun t => t.cancelled = true ∧ t.disposed = [] ∧
    (t.pc = .fresh ∨ t.pc = .dead ∨ ∃ ds d q, t.pc = .waiting ds ∧ t.inbox = .disposable d :: q)
  have key : ∀ ls (t t' : State), J t → run false t ls = some t' → J t' := by
    intro ls
    induction ls with
    | nil => intro t t' hj hr; simp only [run, Option.some.injEq] at hr; exact hr ▸ hj
    | cons l ls ih =>
      intro t t' hj hr
      simp only [run, Option.bind_eq_some_iff] at hr
      obtain ⟨t1, ht1, ht2⟩ := hr
      refine ih t1 t' ?_ ht2
      obtain ⟨inbox, pc, c, d⟩ := t
      obtain ⟨j1, j2, j3⟩ := hj
      simp only at j1 j2 j3
      subst j1 j2
      rcases j3 with rfl | rfl | ⟨ds, d, q, rfl, rfl⟩
      · cases l <;> simp [step, loopHead] at ht1 <;> subst ht1 <;> simp [J]
      · cases l <;> simp [step, loopHead] at ht1 <;> subst ht1 <;> simp [J]
      · cases l <;> simp [step, loopHead] at ht1 <;> subst ht1 <;> simp [J]
  simp only [run, Option.bind_eq_some_iff] at h2
  obtain ⟨s2, h3, h4⟩ := h2
  refine (key after s2 s ?_ h4).2.1
  obtain ⟨inbox, pc, c, d⟩ := s1
  simp only at hc hdis hq hr
  subst hc hdis
  simp only [step, Option.some.injEq] at h3
  subst h3
  rcases hr with ⟨rfl, -⟩ | ⟨ds, q, rfl, -, rfl⟩
  · exact ⟨rfl, rfl, .inl rfl⟩
  · cases q with
    | nil => simp at hq
    | cons d q => exact ⟨rfl, rfl, .inr (.inr ⟨ds, d, q.map .disposable ++ [.dispose], rfl, rfl⟩)⟩

example : ∃ s1 s, run false init [.start, .register 1, .receive, .register 2] = some s1 ∧ s1.inbox ≠ [] ∧
    run false s1 [.cancel, .receive] = some s ∧ Drained false s ∧ s.disposed = [] :=
  ⟨_, _, rfl, by decide, rfl, by refine ⟨?_, ?_, ?_⟩ <;> decide, rfl⟩

/-- A `dispose_async()` that raises ends the worker: what comes after it in the list is never disposed. -/
theorem C06_raise_stops {k : Bool} {s s1 s2 : State} (h1 : step k s .raise = some s1) {after : List Label}
    (h2 : run k s1 after = some s2) : s1.disposed = s.disposed ∧ s2.disposed = s.disposed := by
  have key : ∀ ls (t t' : State), t.pc = .dead → run k t ls = some t' → t'.disposed = t.disposed := by
    intro ls
    induction ls with
    | nil => intro t t' _ hr; simp only [run, Option.some.injEq] at hr; rw [hr]
    | cons l ls ih =>
      intro t t' hj hr
      simp only [run, Option.bind_eq_some_iff] at hr
      obtain ⟨t1, ht1, ht2⟩ := hr
      have : t1.pc = .dead ∧ t1.disposed = t.disposed := by
        cases l <;> simp [step, hj] at ht1 <;> subst ht1 <;> simp_all
      rw [ih t1 t' this.1 ht2, this.2]
  simp only [step] at h1
  split at h1
  · simp only [Option.some.injEq] at h1; subst h1; exact ⟨rfl, key after { s with pc := .dead } s2 rfl h2⟩
  · exact nomatch h1

/-- Two subscriptions registered in time, the first one's `dispose_async()` raises: the second is not disposed. -/
theorem C06_violated_raise : ∃ (ls : List Label) (s : State), run false init ls = some s ∧ Drained false s ∧
    registered ls = [1, 2] ∧ s.disposed = [1] :=
  ⟨[.start, .register 1, .register 2, .receive, .receive, .cancel, .receive, .raise], _, rfl,
    by refine ⟨?_, ?_, ?_⟩ <;> decide, rfl, rfl⟩

end Aio.AutoDetach
