import Verif.Lemmas.IterDispose
/-!
# C169, C170: disposing an AsyncIteratorObserver
-/

namespace Aio.IterDispose
variable {α : Type}

/-! ## What the iteration yields, over all subscriptions -/

/-- C169. Whenever the observer is disposed, and however often it subscribes anew, no value is lost or told twice: what
the iteration has yielded, followed by the value that lies in `_push`, if any, are the values handed over, in order. -/
theorem C169_yields {ls : List (Label α)} {s : State α} (hr : LTS.run step init ls = some s) :
    Iterator.yielded s.it.taken ++ Iterator.valuesOf s.it.push.toList = Iterator.valuesOf (s.it.handed.map (·.2)) ∧
    (s.it.handed.map (·.1)).Nodup ∧ ∀ x ∈ s.it.handed, (made ls)[x.1]? = some x.2 := by
  obtain ⟨ls', h1, h2, _⟩ := sim hr
  have := Iterator.C17_yields_what_was_handed_over h1
  rw [h2] at this
  unfold State.view at this
  split at this <;> exact this

/-- A loop over one value that is left and disposed; a second loop, which subscribes anew and begins with the value that was
handed over between the loops. -/
def again : List (Label Nat) :=
  [.anext, .subscribed, .call (.next 1), .run, .run, .call (.next 2), .dispose, .disposed 0, .anext, .subscribed, .run]

example : (LTS.run step init again).map (fun s => (s.it.taken, s.cur, s.subs, s.disposers)) =
    some ([.value 1, .value 2], some 1, [⟨1, 1, 0⟩, ⟨0, 0, 0⟩], [.returned]) := by decide

/-! ## The subscriptions -/

/-- C169 is false: a disposal while the first `__anext__` is still subscribing disposes nothing, and the subscription stays. -/
theorem C169_violated_subscribing : ∃ (ls : List (Label Nat)) (s : State Nat), LTS.run step init ls = some s ∧ Abandoned ls ∧ Disposed s ∧
    (∀ k, .disposing k ∉ s.disposers) ∧ ¬ Released s ∧ s.subs = [⟨0, 0, 0⟩] := by
  refine ⟨[.anext, .dispose, .subscribed], _, rfl, ⟨[.anext], [.subscribed], rfl, by decide, by decide⟩, rfl, ?_, ?_, rfl⟩
  · intro k hk
    simp [init] at hk
  · intro h
    exact absurd (h ⟨0, 0, 0⟩ (by simp [init])) (by decide)

/-- C169 is false: of two disposals that overlap the later one forgets a subscription that was made in between, so that no
later disposal finds it. -/
theorem C169_violated_overlap : ∃ (ls : List (Label Nat)) (s : State Nat), LTS.run step init ls = some s ∧ Abandoned ls ∧ Disposed s ∧
    (∀ k, .disposing k ∉ s.disposers) ∧ ¬ Released s ∧ s.subs = [⟨2, 2, 0⟩, ⟨0, 0, 0⟩] := by
  refine ⟨[.anext, .subscribed, .call (.next 1), .run, .run, .dispose, .dispose, .disposed 0, .anext, .subscribed, .disposed 1,
    .call (.next 2), .run, .run, .dispose], _, rfl, ⟨[.anext, .subscribed, .call (.next 1), .run, .run, .dispose, .dispose, .disposed 0, .anext,
    .subscribed, .disposed 1, .call (.next 2), .run, .run], [], rfl, by decide, by decide⟩, by rfl, ?_, ?_, by rfl⟩
  · intro k hk
    change Disposer.disposing k ∈ ([.returned, .returned, .returned] : List Disposer) at hk
    simp at hk
  · intro h
    exact absurd (h ⟨0, 0, 0⟩ (by decide)) (by decide)

/-- Disposed once, however often `dispose_async` has raised before that. -/
def Done (u : Sub) : Prop := u.released = 1 ∧ u.asked = 1 + u.raised

/-- The subscriptions, if disposals are careful: all but the current one are done. Either nobody disposes, or the last call of
`dispose_async` disposes the current one. -/
def Tidy (s : State α) : Prop := ∃ old, (∀ u ∈ old, Done u) ∧
  ((s.cur = none ∧ s.subs = old ∧ ∀ k, .disposing k ∉ s.disposers) ∨
   (∃ r, s.cur = some old.length ∧ s.subs = old ++ [⟨r, 0, r⟩] ∧ s.it.consumer ≠ .subscribing ∧ ∀ k, .disposing k ∉ s.disposers) ∨
   (∃ r ds, s.cur = some old.length ∧ s.subs = old ++ [⟨r + 1, 0, r⟩] ∧ s.it.consumer ≠ .subscribing ∧
    s.disposers = ds ++ [.disposing old.length] ∧ ∀ k, .disposing k ∉ ds))

theorem modify_last (old : List Sub) (u : Sub) (f : Sub → Sub) : (old ++ [u]).modify old.length f = old ++ [f u] := by
  induction old with
  | nil => rfl
  | cons a old ih => simp [ih]

theorem get_last {ds : List Disposer} {x : Disposer} {d k : Nat} (h : (ds ++ [x])[d]? = some (.disposing k))
    (hds : ∀ k, .disposing k ∉ ds) : d = ds.length ∧ x = .disposing k := by
  rcases Nat.lt_trichotomy d ds.length with hlt | heq | hgt
  · rw [List.getElem?_append_left hlt] at h
    exact absurd (List.mem_of_getElem? h) (hds k)
  · subst heq
    simpa using h
  · rw [List.getElem?_eq_none (by simp; omega)] at h
    cases h

/-- A step that leaves the subscriptions alone. -/
theorem tidy_inner {s : State α} {it : Iterator.State α} (h : Tidy s)
    (hc : it.consumer = .subscribing → s.it.consumer = .subscribing ∨ s.cur = none) : Tidy { s with it } := by
  obtain ⟨old, ho, h⟩ := h
  refine ⟨old, ho, ?_⟩
  rcases h with h | ⟨r, h1, h2, h3, h4⟩ | ⟨r, ds, h1, h2, h3, h4⟩
  · exact Or.inl h
  · refine Or.inr (Or.inl ⟨r, h1, h2, fun hh => ?_, h4⟩)
    rcases hc hh with h5 | h5
    · exact h3 h5
    · rw [h1] at h5; cases h5
  · refine Or.inr (Or.inr ⟨r, ds, h1, h2, fun hh => ?_, h4⟩)
    rcases hc hh with h5 | h5
    · exact h3 h5
    · rw [h1] at h5; cases h5

theorem tidy_step {s s' : State α} {l : Label α} (h : Tidy s) (hs : step s l = some s')
    (hd : l = .dispose → s.it.consumer ≠ .subscribing ∧ ∀ k, .disposing k ∉ s.disposers) : Tidy s' := by
  cases l with
  | call n =>
    simp only [step] at hs
    obtain ⟨it, h1, rfl⟩ := Option.map_eq_some_iff.mp hs
    exact tidy_inner h fun hh => Or.inl (call_consumer h1 ▸ hh)
  | run =>
    simp only [step] at hs
    obtain ⟨it, h1, rfl⟩ := Option.map_eq_some_iff.mp hs
    refine tidy_inner h fun hh => Or.inl ?_
    rcases run_consumer h1 with h2 | h2
    · exact h2 ▸ hh
    · rw [h2] at hh; cases hh
  | anext =>
    simp only [step] at hs
    split at hs
    · cases hs
    · split at hs
      · split at hs
        · next hcur => cases hs; exact tidy_inner h fun _ => Or.inr hcur
        · cases hs
          refine tidy_inner h fun hh => ?_
          rcases receive_consumer s.it with h2 | h2 <;> rw [h2] at hh <;> cases hh
      · cases hs
  | subscribed =>
    simp only [step] at hs
    split at hs
    · cases hs
    · split at hs
      · next hk =>
        cases hs
        obtain ⟨old, ho, h⟩ := h
        rcases h with ⟨h1, h2, h3⟩ | ⟨r, h1, h2, h3, h4⟩ | ⟨r, ds, h1, h2, h3, h4⟩
        · refine ⟨old, ho, Or.inr (Or.inl ⟨0, by rw [h2], by rw [h2], fun hh => ?_, h3⟩)⟩
          rcases receive_consumer s.it with h4 | h4 <;> rw [h4] at hh <;> cases hh
        · exact absurd hk h3
        · exact absurd hk h3
      · cases hs
  | dispose =>
    obtain ⟨hk, hds⟩ := hd rfl
    obtain ⟨old, ho, h⟩ := h
    rcases h with ⟨h1, h2, h3⟩ | ⟨r, h1, h2, h3, h4⟩ | ⟨r, ds, h1, h2, h3, h4, h5⟩
    · simp only [step, h1, Option.some.injEq] at hs
      subst hs
      refine ⟨old, ho, Or.inl ⟨rfl, h2, fun k hh => ?_⟩⟩
      rcases List.mem_append.mp hh with hh | hh
      · exact h3 k hh
      · simp at hh
    · simp only [step, h1, Option.some.injEq] at hs
      subst hs
      refine ⟨old, ho, Or.inr (Or.inr ⟨r, s.disposers, rfl, ?_, h3, rfl, h4⟩)⟩
      dsimp only
      rw [h2, modify_last]
    · exact absurd (h4 ▸ List.mem_append_right _ (List.mem_singleton.mpr rfl)) (hds old.length)
  | disposed d =>
    simp only [step] at hs
    split at hs
    · next k hget =>
      cases hs
      obtain ⟨old, ho, h⟩ := h
      rcases h with ⟨h1, h2, h3⟩ | ⟨r, h1, h2, h3, h4⟩ | ⟨r, ds, h1, h2, h3, h4, h5⟩
      · exact absurd (List.mem_of_getElem? hget) (h3 k)
      · exact absurd (List.mem_of_getElem? hget) (h4 k)
      · rw [h4] at hget
        obtain ⟨rfl, hx⟩ := get_last hget h5
        cases hx
        refine ⟨old ++ [⟨r + 1, 1, r⟩], ?_, Or.inl ⟨rfl, ?_, ?_⟩⟩
        · intro u hu
          rcases List.mem_append.mp hu with hu | hu
          · exact ho u hu
          · rw [List.mem_singleton.mp hu]; exact ⟨rfl, Nat.add_comm _ _⟩
        · dsimp only
          rw [h2, modify_last]
        · intro k hh
          dsimp only at hh
          rw [h4, List.set_append_right _ _ (Nat.le_refl _)] at hh
          simp at hh
          exact h5 k hh
    · cases hs
  | disposeRaises d =>
    simp only [step] at hs
    split at hs
    · next k hget =>
      cases hs
      obtain ⟨old, ho, h⟩ := h
      rcases h with ⟨h1, h2, h3⟩ | ⟨r, h1, h2, h3, h4⟩ | ⟨r, ds, h1, h2, h3, h4, h5⟩
      · exact absurd (List.mem_of_getElem? hget) (h3 k)
      · exact absurd (List.mem_of_getElem? hget) (h4 k)
      · rw [h4] at hget
        obtain ⟨rfl, hx⟩ := get_last hget h5
        cases hx
        refine ⟨old, ho, Or.inr (Or.inl ⟨r + 1, h1, ?_, h3, ?_⟩)⟩
        · dsimp only
          rw [h2, modify_last]
        · intro k hh
          dsimp only at hh
          rw [h4, List.set_append_right _ _ (Nat.le_refl _)] at hh
          simp at hh
          exact h5 k hh
    · cases hs

theorem careful_left {a b : List (Label α)} (h : Careful (a ++ b)) : Careful a := by
  intro p q s he hr
  exact h p (q ++ b) s (by rw [he]; simp) hr

theorem tidy {ls : List (Label α)} {s : State α} (hr : LTS.run step init ls = some s) (hc : Careful ls) : Tidy s := by
  refine LTS.inv_reach (step := step) (fun ls s => Careful ls → Tidy s) (s0 := init)
    (fun _ => ⟨[], by simp, Or.inl ⟨rfl, rfl, by simp [init]⟩⟩) ?_ hr hc
  intro ls s l s' h0 h hs hc
  refine tidy_step (h (careful_left hc)) hs ?_
  rintro rfl
  exact hc ls [] s rfl h0

/-- After the last call of `dispose_async`: if it has returned, there is no subscription, and nobody makes one. -/
theorem after_last : ∀ (q p : List (Label α)) (s s' : State α), LTS.run step init p = some s → Careful (p ++ q) →
    .dispose ∉ q → .anext ∉ q → s.it.consumer ≠ .subscribing → (Disposed s → s.cur = none) → LTS.run step s q = some s' →
    (Disposed s' → s'.cur = none) := by
  intro q
  induction q with
  | nil => intro p s s' _ _ _ _ _ h hr; cases hr; exact h
  | cons l q ih =>
    intro p s s' hp hc hnd hna hk h hr
    obtain ⟨s1, h1, h2⟩ := LTS.run_cons.mp hr
    have hp1 : LTS.run step init (p ++ [l]) = some s1 := LTS.run_append.mpr ⟨_, hp, LTS.run_cons.mpr ⟨_, h1, rfl⟩⟩
    refine ih (p ++ [l]) s1 s' hp1 (by simpa using hc) (fun hh => hnd (by simp [hh])) (fun hh => hna (by simp [hh])) ?_ ?_ h2
    · cases l with
      | call n =>
        simp only [step] at h1
        obtain ⟨it, h3, rfl⟩ := Option.map_eq_some_iff.mp h1
        exact (call_consumer h3).symm ▸ hk
      | run =>
        simp only [step] at h1
        obtain ⟨it, h3, rfl⟩ := Option.map_eq_some_iff.mp h1
        rcases run_consumer h3 with h4 | h4
        · exact h4.symm ▸ hk
        · show it.consumer ≠ _
          rw [h4]; simp
      | anext => exact absurd (by simp) hna
      | subscribed =>
        simp only [step] at h1
        split at h1
        · cases h1
        · cases h1
      | dispose => exact absurd (by simp) hnd
      | disposed d =>
        simp only [step] at h1
        split at h1
        · cases h1; exact hk
        · cases h1
      | disposeRaises d =>
        simp only [step] at h1
        split at h1
        · cases h1; exact hk
        · cases h1
    · cases l with
      | call n =>
        simp only [step] at h1
        obtain ⟨it, h3, rfl⟩ := Option.map_eq_some_iff.mp h1
        exact h
      | run =>
        simp only [step] at h1
        obtain ⟨it, h3, rfl⟩ := Option.map_eq_some_iff.mp h1
        exact h
      | anext => exact absurd (by simp) hna
      | subscribed =>
        simp only [step] at h1
        split at h1
        · cases h1
        · cases h1
      | dispose => exact absurd (by simp) hnd
      | disposed d =>
        simp only [step] at h1
        split at h1
        · cases h1; exact fun _ => rfl
        · cases h1
      | disposeRaises d =>
        simp only [step] at h1
        split at h1
        · next k hget =>
          cases h1
          obtain ⟨old, ho, ht⟩ := tidy hp (careful_left hc)
          rcases ht with ⟨_, _, h3⟩ | ⟨r, _, _, _, h4⟩ | ⟨r, ds, _, _, _, h4, h5⟩
          · exact absurd (List.mem_of_getElem? hget) (h3 k)
          · exact absurd (List.mem_of_getElem? hget) (h4 k)
          · rw [h4] at hget
            obtain ⟨rfl, hx⟩ := get_last hget h5
            intro hh
            unfold Disposed at hh
            dsimp only at hh
            rw [h4, List.set_append_right _ _ (Nat.le_refl _)] at hh
            simp at hh
        · cases h1

/-- C169 for careful disposals: when the last call of `dispose_async` has returned, and nobody iterates on, every subscription that
the observer ever made has been disposed, exactly once (more often its `dispose_async` is called only if it raised).
Missing from C169: disposals during `subscribe_async`, and disposals that overlap; with them it is false. -/
theorem C169_released_partial {ls : List (Label α)} {s : State α} (hr : LTS.run step init ls = some s) (hc : Careful ls)
    (ha : Abandoned ls) (hd : Disposed s) : Released s ∧ ∀ u ∈ s.subs, u.asked = 1 + u.raised := by
  obtain ⟨p, q, rfl, hnd, hna⟩ := ha
  obtain ⟨s0, h0, h1⟩ := LTS.run_append.mp hr
  obtain ⟨s1, h2, h3⟩ := LTS.run_cons.mp h1
  obtain ⟨hk, hds⟩ := hc p q s0 rfl h0
  have h4 : s1.it.consumer ≠ .subscribing ∧ (Disposed s1 → s1.cur = none) := by
    simp only [step] at h2
    split at h2
    · next hcur => cases h2; exact ⟨hk, fun _ => hcur⟩
    · cases h2; exact ⟨hk, fun hh => by simp [Disposed] at hh⟩
  have hcur := after_last q (p ++ [.dispose]) s1 s (LTS.run_append.mpr ⟨_, h0, LTS.run_cons.mpr ⟨_, h2, rfl⟩⟩) (by simpa using hc)
    hnd hna h4.1 h4.2 h3 hd
  obtain ⟨old, ho, ht⟩ := tidy hr hc
  rcases ht with ⟨_, h5, _⟩ | ⟨r, h5, _⟩ | ⟨r, ds, h5, _⟩
  · rw [h5.symm] at ho
    exact ⟨fun u hu => (ho u hu).1, fun u hu => (ho u hu).2⟩
  · rw [hcur] at h5; cases h5
  · rw [hcur] at h5; cases h5

/-- At any time at most one of them is not disposed. -/
theorem C169_one_at_a_time_partial {ls : List (Label α)} {s : State α} (hr : LTS.run step init ls = some s) (hc : Careful ls) :
    (s.subs.filter fun u => u.released = 0).length ≤ 1 := by
  obtain ⟨old, ho, ht⟩ := tidy hr hc
  have hold : old.filter (fun u => u.released = 0) = [] := by
    rw [List.filter_eq_nil_iff]
    intro u hu
    simp [(ho u hu).1]
  rcases ht with ⟨_, h5, _⟩ | ⟨r, _, h5, _⟩ | ⟨r, ds, _, h5, _⟩ <;> rw [h5] <;> simp [List.filter_append, hold]

/-- A loop that is left after one value, and a disposal, which raises at first; the hypotheses of C169_released_partial hold. -/
def left : List (Label Nat) :=
  [.anext, .subscribed, .call (.next 1), .run, .run, .dispose, .disposeRaises 0, .dispose, .disposed 1]

example : Careful left ∧ Abandoned left := by
  refine ⟨?_, ⟨[.anext, .subscribed, .call (.next 1), .run, .run, .dispose, .disposeRaises 0], [.disposed 1], rfl, by decide, by decide⟩⟩
  intro p q s he hr
  rcases p with _ | ⟨a, _ | ⟨b, _ | ⟨c, _ | ⟨d, _ | ⟨e, _ | ⟨f, _ | ⟨g, _ | ⟨h, p⟩⟩⟩⟩⟩⟩⟩⟩ <;> simp [left] at he
  · obtain ⟨rfl, rfl, rfl, rfl, rfl, _⟩ := he
    cases hr
    exact ⟨by decide, fun k hk => by
      change Disposer.disposing k ∈ ([] : List Disposer) at hk
      simp at hk⟩
  · obtain ⟨rfl, rfl, rfl, rfl, rfl, rfl, rfl, _⟩ := he
    cases hr
    exact ⟨by decide, fun k hk => by
      change Disposer.disposing k ∈ [Disposer.raised] at hk
      simp at hk⟩
  · obtain ⟨_, _, _, _, _, _, _, _, he⟩ := he
    rcases p with _ | ⟨i, _ | ⟨j, p⟩⟩ <;> simp at he

example : (LTS.run step init left).map (fun s => (s.it.taken, s.subs, s.disposers)) =
    some ([.value 1], [⟨2, 1, 1⟩], [.raised, .returned]) := by decide

/-! ## Sources that subscribe and dispose without suspending -/

/-- With sources whose `subscribe_async` and `dispose_async` do not suspend, such as the subjects, whoever disposes whenever and
however often: the subscriptions made before the last one have been disposed, once each. The last one is held until it is disposed. -/
theorem plain_shape {ls : List (Plain α)} {s : State α} (hr : LTS.run plain init ls = some s) :
    ∃ m, s.it.consumer ≠ .subscribing ∧ (∀ k, .disposing k ∉ s.disposers) ∧
    ((s.cur = none ∧ s.subs = List.replicate m ⟨1, 1, 0⟩) ∨
     (s.cur = some m ∧ s.subs = List.replicate m ⟨1, 1, 0⟩ ++ [⟨0, 0, 0⟩])) := by
  refine LTS.inv (step := plain) (fun s => ∃ m, s.it.consumer ≠ .subscribing ∧ (∀ k, .disposing k ∉ s.disposers) ∧
    ((s.cur = none ∧ s.subs = List.replicate m ⟨1, 1, 0⟩) ∨
     (s.cur = some m ∧ s.subs = List.replicate m ⟨1, 1, 0⟩ ++ [⟨0, 0, 0⟩]))) (s0 := init)
    ⟨0, by simp [init, Iterator.init], by simp [init], Or.inl ⟨rfl, rfl⟩⟩ ?_ hr
  rintro s l s' ⟨m, hk, hds, h⟩ hs
  cases l with
  | call n =>
    simp only [plain, step] at hs
    obtain ⟨it, h1, rfl⟩ := Option.map_eq_some_iff.mp hs
    exact ⟨m, (call_consumer h1).symm ▸ hk, hds, h⟩
  | run =>
    simp only [plain, step] at hs
    obtain ⟨it, h1, rfl⟩ := Option.map_eq_some_iff.mp hs
    refine ⟨m, ?_, hds, h⟩
    rcases run_consumer h1 with h4 | h4
    · exact h4.symm ▸ hk
    · show it.consumer ≠ _
      rw [h4]; simp
  | anext =>
    simp only [plain] at hs
    obtain ⟨s1, h1, h2⟩ := Option.bind_eq_some_iff.mp hs
    have hrc := receive_consumer s.it
    have hrn : s.it.receive.consumer ≠ .subscribing := by rcases hrc with hh | hh <;> rw [hh] <;> simp
    simp only [step] at h1
    split at h1
    · cases h1
    · next hturn =>
      split at h1
      · split at h1
        · next hcur =>
          cases h1
          rcases h with ⟨_, h⟩ | ⟨h, _⟩
          · simp only [if_true, step, if_neg hturn, Option.some.injEq] at h2
            subst h2
            refine ⟨m, ?_, hds, Or.inr ⟨?_, ?_⟩⟩
            · dsimp only
              rw [receive_as]; exact hrn
            · simp [h]
            · simp [h]
          · rw [hcur] at h; cases h
        · next j hcur =>
          cases h1
          rw [if_neg hrn] at h2
          cases h2
          exact ⟨m, hrn, hds, h⟩
      · cases h1
  | dispose =>
    simp only [plain] at hs
    obtain ⟨s1, h1, h2⟩ := Option.bind_eq_some_iff.mp hs
    rcases h with ⟨hcur, h⟩ | ⟨hcur, h⟩
    · rw [hcur] at h2
      simp only [step, hcur, Option.some.injEq] at h1 h2
      subst h1 h2
      refine ⟨m, hk, fun k hh => ?_, Or.inl ⟨rfl, h⟩⟩
      rcases List.mem_append.mp hh with hh | hh
      · exact hds k hh
      · simp at hh
    · rw [hcur] at h2
      simp only [step, hcur, Option.some.injEq] at h1
      subst h1
      simp only [step] at h2
      rw [List.getElem?_append_right (Nat.le_refl _)] at h2
      simp only [Nat.sub_self, List.getElem?_cons_zero, Option.some.injEq] at h2
      subst h2
      refine ⟨m + 1, hk, fun k hh => ?_, Or.inl ⟨rfl, ?_⟩⟩
      · dsimp only at hh
        rw [List.set_append_right _ _ (Nat.le_refl _)] at hh
        simp at hh
        exact hds k hh
      · have h3 := modify_last (List.replicate m ⟨1, 1, 0⟩)
        simp only [List.length_replicate] at h3
        dsimp only
        rw [h, h3, h3]
        exact List.replicate_succ'.symm

/-- C169 for such sources: after a call of `dispose_async`, as long as nobody iterates on, every subscription that the observer ever
made has been disposed, with exactly one call. -/
theorem C169_released_plain {p q : List (Plain α)} {s : State α} (hr : LTS.run plain init (p ++ .dispose :: q) = some s)
    (hq : .anext ∉ q) : Released s ∧ ∀ u ∈ s.subs, u = ⟨1, 1, 0⟩ := by
  obtain ⟨s0, h0, h1⟩ := LTS.run_append.mp hr
  obtain ⟨s1, h2, h3⟩ := LTS.run_cons.mp h1
  have hcur : s1.cur = none := by
    simp only [plain] at h2
    obtain ⟨s2, h4, h5⟩ := Option.bind_eq_some_iff.mp h2
    simp only [step] at h4
    split at h4
    · next hcur => cases h4; rw [hcur] at h5; cases h5; rfl
    · next k hcur =>
      cases h4
      rw [hcur] at h5
      simp only [step] at h5
      split at h5
      · cases h5; rfl
      · cases h5
  have key : s.cur = none := by
    refine LTS.inv_of (step := plain) (· ≠ .anext) (fun s => s.cur = none) hcur ?_ (fun l hl hh => hq (hh ▸ hl)) h3
    intro s l s' hl hc hs
    cases l with
    | call n =>
      simp only [plain, step] at hs
      obtain ⟨it, h1, rfl⟩ := Option.map_eq_some_iff.mp hs
      exact hc
    | run =>
      simp only [plain, step] at hs
      obtain ⟨it, h1, rfl⟩ := Option.map_eq_some_iff.mp hs
      exact hc
    | anext => exact absurd rfl hl
    | dispose =>
      simp only [plain, step, hc, Option.bind_some, Option.some.injEq] at hs
      subst hs
      rfl
  obtain ⟨m, _, _, h | h⟩ := plain_shape hr
  · have : ∀ u ∈ s.subs, u = ⟨1, 1, 0⟩ := fun u hu => by rw [h.2] at hu; exact (List.mem_replicate.mp hu).2
    exact ⟨fun u hu => by rw [this u hu], this⟩
  · rw [key] at h; cases h.1

/-- Two loops, each left and disposed (the second time twice). -/
def twice : List (Plain Nat) :=
  [.anext, .call (.next 1), .run, .run, .dispose, .anext, .call (.next 2), .run, .run, .dispose, .dispose]

example : (LTS.run plain init twice).map (fun s => (s.it.taken, s.cur, s.subs)) =
    some ([.value 1, .value 2], none, [⟨1, 1, 0⟩, ⟨1, 1, 0⟩]) := by decide

/-! ## The producers -/

theorem idle_run : ∀ (ls' ls : List (Iterator.Label α)) (s s' : Iterator.State α), LTS.run Iterator.step Iterator.init ls = some s →
    s.consumer = .idle → LTS.run Iterator.step s ls' = some s' → .anext ∉ ls' → s'.consumer = .idle ∧ s'.taken = s.taken := by
  intro ls'
  induction ls' with
  | nil => intro ls s s' _ hk h _; cases h; exact ⟨hk, rfl⟩
  | cons l ls' ih =>
    intro ls s s' hr hk h hl
    obtain ⟨s1, h1, h2⟩ := LTS.run_cons.mp h
    obtain ⟨h3, h4⟩ := Iterator.idle_step hr h1 (fun he => hl (by simp [he])) hk
    obtain ⟨h5, h6⟩ := ih (ls ++ [l]) s1 s' (LTS.run_append.mpr ⟨_, hr, LTS.run_cons.mpr ⟨_, h1, rfl⟩⟩) h3 h2 (fun he => hl (by simp [he]))
    exact ⟨h5, h6.trans h4⟩

/-- A run in which nobody calls `__anext__`, of an observer whose consumer is outside it: nothing but disposals happens that is not in
`Model.Iterator`, too. -/
theorem sim_idle : ∀ (ls : List (Label α)) (ls' : List (Iterator.Label α)) (s s' : State α),
    LTS.run Iterator.step Iterator.init ls' = some s.view → Started s → s.it.consumer = .idle → LTS.run step s ls = some s' → .anext ∉ ls →
    ∃ b, LTS.run Iterator.step s.view b = some s'.view ∧ .anext ∉ b ∧ s'.it.consumer = .idle := by
  intro ls
  induction ls with
  | nil => intro ls' s s' _ _ hk h _; cases h; exact ⟨[], rfl, by simp, hk⟩
  | cons l ls ih =>
    intro ls' s s' hr hst hk h hl
    obtain ⟨s1, h1, h2⟩ := LTS.run_cons.mp h
    have hla : l ≠ .anext := fun he => hl (by simp [he])
    have hls : l ≠ .subscribed := by
      rintro rfl
      simp [step, hk] at h1
    obtain ⟨b, hb, _, hst1, hnb⟩ := sim_step hr hst h1
    have hvk : s.view.consumer = .idle := by rw [view_of_ne (by rw [hk]; simp), hk]
    obtain ⟨hk1, _⟩ := idle_run b ls' _ _ hr hvk hb (hnb hla hls)
    have hk1' : s1.it.consumer = .idle := by
      cases l with
      | call n =>
        simp only [step] at h1
        obtain ⟨it, h3, rfl⟩ := Option.map_eq_some_iff.mp h1
        exact (call_consumer h3).trans hk
      | run =>
        simp only [step] at h1
        obtain ⟨it, h3, rfl⟩ := Option.map_eq_some_iff.mp h1
        rcases run_consumer h3 with h4 | h4
        · exact h4.trans hk
        · exact h4
      | anext => exact absurd rfl hla
      | subscribed => exact absurd rfl hls
      | dispose =>
        simp only [step] at h1
        split at h1 <;> cases h1 <;> exact hk
      | disposed d =>
        simp only [step] at h1
        split at h1 <;> cases h1
        exact hk
      | disposeRaises d =>
        simp only [step] at h1
        split at h1 <;> cases h1
        exact hk
    obtain ⟨b', hb', hn', hk'⟩ := ih (ls' ++ b) s1 s' (LTS.run_append.mpr ⟨_, hr, hb⟩) hst1 hk1' h2 (fun he => hl (by simp [he]))
    refine ⟨b ++ b', LTS.run_append.mpr ⟨_, hb, hb'⟩, ?_, hk'⟩
    intro hh
    rcases List.mem_append.mp hh with hh | hh
    · exact hnb hla hls hh
    · exact hn' hh

/-- In `Model.Iterator`: a call that waits, or whose event has not been taken, does not return if nobody calls `__anext__`. -/
theorem stuck {ls b : List (Iterator.Label α)} {s s' : Iterator.State α} (hr : LTS.run Iterator.step Iterator.init ls = some s)
    (hk : s.consumer = .idle) (hb : LTS.run Iterator.step s b = some s') (hn : .anext ∉ b) {c : Nat}
    (hc : (∃ n, s.calls[c]? = some (.blocked n)) ∨ ((∃ n, s.calls[c]? = some (.sending n)) ∧ s.push ≠ none)) :
    s'.calls[c]? ≠ some .returned := by
  intro hret
  obtain ⟨_, htk⟩ := idle_run b ls s s' hr hk hb hn
  obtain ⟨v, i, _, h2, h3⟩ := Iterator.C18_returns_after_taken (LTS.run_append.mpr ⟨s, hr, hb⟩) hret
  obtain ⟨r, he⟩ := Iterator.handed_run hb
  rw [htk] at h3
  obtain ⟨c', hc'⟩ := Iterator.C17_nth hr h3
  have hlt := (List.getElem?_eq_some_iff.mp hc').1
  rw [he, List.getElem?_append_left hlt, hc'] at h2
  cases h2
  obtain ⟨m, t, rest, vs, k, h⟩ := Iterator.inv_run hr
  have hmem : c ∈ s.handed.map (·.1) := List.mem_map.mpr ⟨_, List.mem_of_getElem? hc', rfl⟩
  rcases hc with ⟨n, hc⟩ | ⟨⟨n, hc⟩, hp⟩
  · exact (List.nodup_append.mp h.nodup).2.2 c (h.fits c _ hc).1 c hmem rfl
  · have hf : m.cur = some (c, n) := h.fits c _ hc
    obtain ⟨h0, hh⟩ := h.cur _ hf
    have hpush := h.push
    have hvals := h.vals
    obtain ⟨n', htook, hkk⟩ := h.took
    cases m with
    | free => cases hf
    | taken c' n' => exact hp hpush
    | full c' n'' =>
      cases hf
      have hlen : h0.length = vs.length := by
        have := congrArg List.length hvals
        rw [hh] at this
        simpa [Iterator.Mode.push] using this
      have hi : i = h0.length := by
        rcases Nat.lt_trichotomy i h0.length with hlt | heq | hgt
        · exfalso
          rw [hh, List.getElem?_append_left hlt] at hc'
          have hnd := (List.nodup_append.mp h.nodup).2.1
          rw [hh, List.map_append] at hnd
          exact (List.nodup_append.mp hnd).2.2 c (List.mem_map.mpr ⟨_, List.mem_of_getElem? hc', rfl⟩) c (by simp) rfl
        · exact heq
        · rw [hh, List.getElem?_eq_none (by simp; omega)] at hc'
          cases hc'
      rw [hi, hlen, htook, List.getElem?_append_right (by simp)] at h3
      have := List.mem_of_getElem? h3
      obtain ⟨hk0, hval⟩ := List.mem_replicate.mp this
      rcases hkk with hkk | ⟨_, hterm⟩
      · exact hk0 hkk
      · cases n' with
        | next v => cases hterm
        | error e => cases hval
        | completed => cases hval

/-- C170 is false, in every run: when the loop has been left, a call that waits in the observer does not return, whether, when and how
often the observer is disposed, unless somebody iterates on. -/
theorem C170_violated {ls ls' : List (Label α)} {s s' : State α} (hr : LTS.run step init ls = some s) (hk : s.it.consumer = .idle)
    (hr' : LTS.run step s ls' = some s') (hl : .anext ∉ ls') {c : Nat} (hc : Waits s c) : s'.it.calls[c]? ≠ some .returned := by
  obtain ⟨b0, h1, _, hst⟩ := sim hr
  obtain ⟨b, hb, hn, hk'⟩ := sim_idle ls' b0 s s' h1 hst hk hr' hl
  rw [view_of_ne (s := s) (by rw [hk]; simp)] at h1 hb
  rw [view_of_ne (s := s') (by rw [hk']; simp)] at hb
  exact stuck h1 hk hb hn hc

/-- C170, the example: a subject has sent 2 when the loop over its first value is left. The disposal is over, and `asend(2)` waits. -/
theorem C170_violated_example : ∃ s : State Nat, LTS.run step init
    [.anext, .subscribed, .call (.next 1), .run, .run, .call (.next 2), .dispose, .disposed 0] = some s ∧ Disposed s ∧ Released s ∧
    Waits s 1 ∧ ∀ l, l ≠ .anext → l ≠ .dispose → (∀ n, l ≠ .call n) → step s l = none := by
  refine ⟨_, rfl, rfl, ?_, Or.inr ⟨⟨.next 2, rfl⟩, (nofun : some (Notif.next 2) ≠ none)⟩, ?_⟩
  · intro u hu
    change u ∈ [(⟨1, 1, 0⟩ : Sub)] at hu
    rw [List.mem_singleton.mp hu]
  · intro l h1 h2 h3
    cases l with
    | call n => exact absurd rfl (h3 n)
    | anext => exact absurd rfl h1
    | dispose => exact absurd rfl h2
    | run => rfl
    | subscribed => rfl
    | disposed d =>
      simp only [step]
      rcases d with _ | d
      · rfl
      · simp [init]
    | disposeRaises d =>
      simp only [step]
      rcases d with _ | d
      · rfl
      · simp [init]

/-- C170, what holds: if no call waits when the loop is left, all calls made have returned as soon as the scheduled task has gone on.
Missing from C170: the calls that wait when the loop is left; they never return. -/
theorem C170_partial {ls : List (Label α)} {s : State α} (hr : LTS.run step init ls = some s) (hk : s.it.consumer = .idle)
    (hw : ∀ c, ¬ Waits s c) :
    (∀ (c : Nat) x, s.it.calls[c]? = some x → x = .returned) ∨
    ∃ s', step s .run = some s' ∧ ∀ (c : Nat) x, s'.it.calls[c]? = some x → x = .returned := by
  obtain ⟨b0, h1, _, _⟩ := sim hr
  rw [view_of_ne (s := s) (by rw [hk]; simp)] at h1
  obtain ⟨m, t, rest, vs, k, h⟩ := Iterator.inv_run h1
  have hfit : ∀ (c : Nat) x, s.it.calls[c]? = some x → x = .returned ∨ ∃ n, x = .sending n ∧ m = .taken c n := by
    intro c x hx
    cases x with
    | returned => exact Or.inl rfl
    | raised e => exact (h.fits c _ hx).elim
    | blocked n => exact absurd (Or.inl ⟨n, hx⟩) (hw c)
    | sending n =>
      refine Or.inr ⟨n, rfl, ?_⟩
      have hf : m.cur = some (c, n) := h.fits c _ hx
      cases m with
      | free => cases hf
      | taken c' n' => cases hf; rfl
      | full c' n' => exact absurd (Or.inr ⟨⟨n, hx⟩, by rw [h.push]; simp [Iterator.Mode.push]⟩) (hw c)
  by_cases hall : ∃ (c : Nat) (n : Notif α), s.it.calls[c]? = some (.sending n)
  · obtain ⟨c, n, hc⟩ := hall
    have hm : m = .taken c n := by
      rcases hfit c _ hc with hh | ⟨n', hh, hm⟩
      · cases hh
      · cases hh; exact hm
    subst hm
    have hrd : s.it.ready = .pull c :: (t.toList.map .turn ++ Iterator.Mode.wake (.taken c n) s.it.consumer) := by
      rw [h.ready]; simp [Iterator.Mode.pulls]
    refine Or.inr ⟨_, by simp only [step, Iterator.step, hrd]; rfl, ?_⟩
    intro c' x hx
    dsimp only at hx
    rw [List.getElem?_set] at hx
    split at hx
    · split at hx
      · cases hx; rfl
      · cases hx
    · next hne =>
      rcases hfit c' x hx with hh | ⟨n', rfl, hm⟩
      · exact hh
      · cases hm; exact absurd rfl hne
  · refine Or.inl fun c x hx => ?_
    rcases hfit c x hx with hh | ⟨n, rfl, _⟩
    · exact hh
    · exact absurd ⟨c, n, hx⟩ hall

example : (LTS.run step init [.anext, .subscribed, .call (.next 1), .run, .dispose, .disposed 0, .run]).map
    (fun s : State Nat => (s.it.consumer, s.it.calls, s.subs)) = some (.idle, [.returned], [⟨1, 1, 0⟩]) := by decide

end Aio.IterDispose
