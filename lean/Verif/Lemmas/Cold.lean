import Verif.Spec.Cold
import Verif.Props.C152_153_Hot
import Verif.Props.C106_TwoSources
/-!
# Lemmas about `AsyncSingleSubject`s behind merge_inner and switch_latest
-/

namespace Aio.Cold
open Spec
open Hot (inners heardBy inners_append heardBy_append merge_fits merge_gone)
variable {S α : Type}

section Any
variable {p : Producer S (Merge.Label Nat α) α} {started gone : S → List Nat} {base : Nat}

theorem act_some {s s' : State S α} {l : Merge.Label Nat α} (h : s.act p l = some s') :
    ∃ out, p.step s.prod l = some (s'.prod, out) ∧ s' = { s with prod := s'.prod, posts := s.posts ++ out, trace := s.trace ++ [l] } := by
  unfold State.act at h
  split at h
  · simp at h
  · rename_i prod out h1
    obtain rfl := (Option.some.inj h).symm
    exact ⟨out, h1, rfl⟩

theorem act_run {s s' : State S α} {l : Merge.Label Nat α} (h : s.act p l = some s')
    (hr : LTS.run p.solo (p.init, []) s.trace = some (s.prod, s.posts)) : LTS.run p.solo (p.init, []) s'.trace = some (s'.prod, s'.posts) := by
  obtain ⟨out, h1, h2⟩ := act_some h
  rw [h2]
  refine LTS.run_append.mpr ⟨_, hr, LTS.run_cons.mpr ⟨(s'.prod, s.posts ++ out), ?_, rfl⟩⟩
  simp [Producer.solo, h1]

@[simp] theorem set_get (s : State S α) (i : Nat) (x : Subject α) (j : Nat) : (s.set i x).subjects j = if j = i then x else s.subjects j := rfl

/-- What the subjects of the worker's subscriptions are after further subscriptions; the rest is as before. -/
theorem subscribe_rest : ∀ {is : List Nat} {s : State S α}, (s.subscribe base is).prod = s.prod ∧ (s.subscribe base is).posts = s.posts ∧
    (s.subscribe base is).stuck = s.stuck ∧ (s.subscribe base is).trace = s.trace ∧ (s.subscribe base is).calls = s.calls ∧
    (s.subscribe base is).refused = s.refused ∧ (s.subscribe base is).subs = s.subs ++ is := by
  intro is
  induction is with
  | nil => intro s; simp [State.subscribe]
  | cons i is ih =>
    intro s
    rw [State.subscribe]
    obtain ⟨h1, h2, h3, h4, h5, h6, h7⟩ := ih (s := if (s.subjects i).disposed then { s with subs := s.subs ++ [i], accepted := false }
      else { State.set { s with subs := s.subs ++ [i] } i { s.subjects i with observer := some (s.subs.length + base), opened := true } with accepted := true })
    refine ⟨h1.trans ?_, h2.trans ?_, h3.trans ?_, h4.trans ?_, h5.trans ?_, h6.trans ?_, h7.trans ?_⟩ <;> split <;> simp [State.set]

theorem unsubscribe_rest : ∀ {ks : List Nat} {s : State S α}, (s.unsubscribe base ks).prod = s.prod ∧ (s.unsubscribe base ks).posts = s.posts ∧
    (s.unsubscribe base ks).stuck = s.stuck ∧ (s.unsubscribe base ks).trace = s.trace ∧ (s.unsubscribe base ks).calls = s.calls ∧
    (s.unsubscribe base ks).refused = s.refused ∧ (s.unsubscribe base ks).subs = s.subs ∧ (s.unsubscribe base ks).accepted = s.accepted := by
  intro ks
  induction ks with
  | nil => intro s; simp [State.unsubscribe]
  | cons k ks ih =>
    intro s
    rw [State.unsubscribe]
    cases hk : s.subs[k - base]? with
    | none => exact ih
    | some i =>
      obtain ⟨h1, h2, h3, h4, h5, h6, h7, h8⟩ := ih (s := s.set i { s.subjects i with observer := none, disposed := true })
      exact ⟨h1, h2, h3, h4, h5, h6, h7, h8⟩

theorem attempt_rest {s s' : State S α} {i : Nat} {n : Notif α} (h : s.attempt p i n = some s') :
    s'.subs = s.subs ∧ s'.calls = s.calls ∧ s'.refused = s.refused ∧ s'.accepted = s.accepted := by
  unfold State.attempt at h
  split at h
  · split at h <;> (obtain rfl := (Option.some.inj h).symm; exact ⟨rfl, rfl, rfl, rfl⟩)
  · split at h
    · obtain rfl := (Option.some.inj h).symm; exact ⟨rfl, rfl, rfl, rfl⟩
    · obtain ⟨t, h1, rfl⟩ := Option.map_eq_some_iff.mp h
      obtain ⟨out, -, h2⟩ := act_some h1
      rw [h2]; exact ⟨rfl, rfl, rfl, rfl⟩

end Any

/-! ### merge_inner -/

theorem any_terminal_fin {ns : List (Notif α)} : ns.any Notif.isTerminal = false ↔ (story ns).fin = .running := by
  induction ns with
  | nil => simp [story]
  | cons n ns ih => cases n <;> simp_all [Notif.isTerminal, story]

theorem cut_snoc {ns : List (Notif α)} {n : Notif α} : cut (ns ++ [n]) = if ns.any Notif.isTerminal then cut ns else cut ns ++ [n] := by
  cases h : ns.any Notif.isTerminal with
  | false =>
    simp only [Bool.false_eq_true, if_false]
    rw [cut_append_of_running (any_terminal_fin.mp h), cut_of_grammar (ns := ns)]
    · cases n <;> rfl
    · have := any_terminal_fin.mp h
      clear h
      induction ns with
      | nil => exact ⟨⟨[], .running⟩, rfl⟩
      | cons m ns ih =>
        cases m with
        | next v => exact Hot.grammar_cons (ih (by simpa [story] using this))
        | _ => simp [story] at this
  | true =>
    simp only [if_true]
    exact cut_append_of_ended (fun h' => by rw [any_terminal_fin.mpr h'] at h; cases h)

structure Inv (mx : Int) (s : State (Merge.State Nat) α) : Prop where
  run : LTS.run (mergeInner mx).solo (Merge.State.initial, []) s.trace = some (s.prod, s.posts)
  subs : s.subs = s.prod.started
  calm : s.stuck = false ∧ s.accepted = true ∧ s.refused = []
  nofail : Merge.NoFailure s.trace ∧ ¬ Merge.Stopped s.trace
  fresh : ∀ i, i ∉ s.subs → s.subjects i = ⟨none, false, false, false, heardBy i s.calls⟩
  taken : ∀ (k i : Nat), s.subs[k]? = some i → ∃ done rest, heardBy i s.calls = done ++ rest ∧
    s.subjects i = ⟨some k, true, false, done.any Notif.isTerminal, rest⟩ ∧ heardBy k (inners s.trace) = cut done
  keys : ∀ c ∈ inners s.trace, c.1 < s.subs.length

theorem Inv.heard {mx : Int} {s : State (Merge.State Nat) α} (hi : Inv mx s) (k : Nat) : Grammar (heardBy k (inners s.trace)) := by
  by_cases h : k < s.subs.length
  · obtain ⟨done, rest, -, -, h3⟩ := hi.taken k _ (List.getElem?_eq_getElem h)
    rw [h3]; exact ⟨_, rfl⟩
  · have : heardBy k (inners s.trace) = [] := by
      simp only [heardBy, List.map_eq_nil_iff, List.filter_eq_nil_iff]
      intro c hc h2
      have := hi.keys c hc
      simp at h2; omega
    rw [this]; exact ⟨⟨[], .running⟩, rfl⟩

theorem inv_init (mx : Int) : Inv mx (init (mergeInner mx) : State (Merge.State Nat) α) :=
  ⟨rfl, rfl, ⟨rfl, rfl, rfl⟩, ⟨⟨by simp [init], by simp [init]⟩, by simp [Merge.Stopped, init]⟩, fun _ _ => rfl, by simp [init], by simp [init, inners]⟩

theorem Inv.disposed {mx : Int} {s : State (Merge.State Nat) α} (hi : Inv mx s) (i : Nat) : (s.subjects i).disposed = false := by
  by_cases h : i ∈ s.subs
  · obtain ⟨k, hk⟩ := List.getElem?_of_mem h
    obtain ⟨_, _, -, h2, -⟩ := hi.taken k i hk
    rw [h2]
  · rw [hi.fresh i h]

/-- A call, or one of those who were woken, gets through to the observer (or waits for it). -/
theorem inv_attempt {mx : Int} {s t s' : State (Merge.State Nat) α} {i : Nat} {n : Notif α} {done rest : List (Notif α)}
    (hi : Inv mx s) (hnd : s.subs.Nodup) {k : Nat} (hk : s.subs[k]? = some i) (hc : heardBy i t.calls = done ++ n :: rest)
    (hd : s.subjects i = ⟨some k, true, false, done.any Notif.isTerminal, (s.subjects i).waiting⟩) (hh : heardBy k (inners s.trace) = cut done)
    (ht : t = { s with subjects := t.subjects, calls := t.calls }) (hs : t.subjects i = { s.subjects i with waiting := rest })
    (ho : ∀ j, j ≠ i → t.subjects j = s.subjects j ∧ heardBy j t.calls = heardBy j s.calls)
    (h : t.attempt (mergeInner mx) i n = some s') : Inv mx s' := by
  have hne : ∀ {j k' : Nat}, j ≠ i → s.subs[k']? = some j → k' ≠ k := by
    rintro j k' hj h1 rfl
    exact hj (Option.some.inj (h1.symm.trans hk))
  have hmem : ∀ {j : Nat}, j ∉ s.subs → j ≠ i := by
    rintro j hj rfl
    exact hj (List.mem_of_getElem? hk)
  have huniq : ∀ {k' : Nat}, s.subs[k']? = some i → k' = k := by
    intro k' h1
    have l1 := (List.getElem?_eq_some_iff.mp h1).1
    exact (List.getElem?_inj l1 hnd).mp (h1.trans hk.symm)
  have hob : t.subjects i = ⟨some k, true, false, done.any Notif.isTerminal, rest⟩ := by rw [hs, hd]
  unfold State.attempt at h
  rw [hob] at h
  dsimp only at h
  have ht1 : t.trace = s.trace := by rw [ht]
  have ht2 : t.subs = s.subs := by rw [ht]
  have ht3 : t.prod = s.prod := by rw [ht]
  have ht4 : t.posts = s.posts := by rw [ht]
  have ht5 : t.stuck = s.stuck := by rw [ht]
  have ht6 : t.accepted = s.accepted := by rw [ht]
  have ht7 : t.refused = s.refused := by rw [ht]
  split at h
  · rename_i hst
    obtain rfl := (Option.some.inj h).symm
    refine ⟨?_, ?_, ?_, ?_, fun j hj => ?_, fun k' j hj => ?_, ?_⟩
    · rw [ht1, ht3, ht4]; exact hi.run
    · rw [ht2, ht3]; exact hi.subs
    · rw [ht5, ht6, ht7]; exact hi.calm
    · rw [ht1]; exact hi.nofail
    · rw [ht2] at hj
      rw [(ho j (hmem hj)).1, (ho j (hmem hj)).2]; exact hi.fresh j hj
    · rw [ht2] at hj
      rw [ht1]
      by_cases hji : j = i
      · subst hji
        obtain rfl := huniq hj
        refine ⟨done ++ [n], rest, by rw [hc]; simp, ?_, ?_⟩
        · rw [hob]; simp [hst]
        · rw [hh, cut_snoc, if_pos hst]
      · rw [(ho j hji).1, (ho j hji).2]; exact hi.taken k' j hj
    · rw [ht1, ht2]; exact hi.keys
  · rename_i hst
    obtain ⟨u, h1, rfl⟩ := Option.map_eq_some_iff.mp h
    have hrun := act_run h1 (by rw [ht1, ht3, ht4]; exact hi.run)
    obtain ⟨out, h2, h3⟩ := act_some h1
    have h4 := ((merge_fits mx).inner _ _ _ _ _ h2).1
    have u1 : u.trace = s.trace ++ [.inner k n] := by rw [h3, ← ht1]
    have u2 : u.subs = s.subs := by rw [h3, ← ht2]
    have u3 : u.subjects = t.subjects := by rw [h3]
    have u4 : u.calls = t.calls := by rw [h3]
    have hin : inners u.trace = inners s.trace ++ [(k, n)] := by rw [u1, inners_append]; rfl
    have hlt := (List.getElem?_eq_some_iff.mp hk).1
    refine ⟨hrun, ?_, ?_, ?_, fun j hj => ?_, fun k' j hj => ?_, fun c hc' => ?_⟩
    · show u.subs = _
      rw [u2, hi.subs, ← ht3]; exact h4.symm
    · have : u.stuck = s.stuck ∧ u.accepted = s.accepted ∧ u.refused = s.refused := by rw [h3]; exact ⟨ht5, ht6, ht7⟩
      show u.stuck = false ∧ u.accepted = true ∧ u.refused = []
      rw [this.1, this.2.1, this.2.2]; exact hi.calm
    · show Merge.NoFailure u.trace ∧ ¬ Merge.Stopped u.trace
      rw [u1]
      obtain ⟨⟨a1, a2⟩, a3⟩ := hi.nofail
      simp only [Merge.Stopped, not_or, not_exists] at a3
      refine ⟨⟨by simp [a1], by simp [a2]⟩, ?_⟩
      simp [Merge.Stopped, a3.1, a3.2]
    · have hj : j ∉ s.subs := by rw [← u2]; exact hj
      show (if j = i then _ else u.subjects j) = _
      rw [if_neg (hmem hj), u3, (ho j (hmem hj)).1]
      show _ = (⟨none, false, false, false, heardBy j u.calls⟩ : Subject α)
      rw [u4, (ho j (hmem hj)).2]; exact hi.fresh j hj
    · replace hj : s.subs[k']? = some j := by rw [← u2]; exact hj
      show ∃ done rest, heardBy j u.calls = _ ∧ (if j = i then _ else u.subjects j) = _ ∧ heardBy k' (inners u.trace) = _
      rw [u4, hin, heardBy_append]
      by_cases hji : j = i
      · subst hji
        obtain rfl := huniq hj
        refine ⟨done ++ [n], rest, by rw [hc]; simp, ?_, ?_⟩
        · rw [if_pos rfl, u3, hob]
          simp only [Subject.mk.injEq, true_and, and_true, List.any_append]
          simp only [Bool.not_eq_true] at hst
          rw [hst]; simp
        · rw [hh, cut_snoc, if_neg hst]; simp [heardBy]
      · rw [if_neg hji, u3, (ho j hji).1, (ho j hji).2]
        have : heardBy k' [(k, n)] = [] := by simp [heardBy, (hne hji hj).symm]
        rw [this, List.append_nil]
        exact hi.taken k' j hj
    · have hc' : c ∈ inners u.trace := hc'
      show _ < u.subs.length
      rw [hin] at hc'
      rw [u2]
      rcases List.mem_append.mp hc' with h5 | h5
      · exact hi.keys c h5
      · simp only [List.mem_singleton] at h5
        subst h5; exact hlt

theorem inv_outer {mx : Int} {s s' : State (Merge.State Nat) α} {n : Notif Nat} (hi : Inv mx s) (hn : ∀ e, n ≠ .error e)
    (h : s.act (mergeInner mx) (.outer n) = some s') : Inv mx s' := by
  obtain ⟨out, h1, h2⟩ := act_some h
  have hr := act_run h hi.run
  have h3 := ((merge_fits mx).outer _ _ _ _ h1).1
  have hin : inners s'.trace = inners s.trace := by rw [h2]; rw [inners_append]; simp [inners]
  have hsub : s'.subs = s.subs := by rw [h2]
  have hsu : s'.subjects = s.subjects := by rw [h2]
  have hca : s'.calls = s.calls := by rw [h2]
  refine ⟨hr, ?_, ?_, ?_, ?_, ?_, ?_⟩
  · rw [hsub, hi.subs]; exact h3.symm
  · rw [h2]; exact hi.calm
  · rw [h2]
    obtain ⟨⟨a1, a2⟩, a3⟩ := hi.nofail
    simp only [Merge.Stopped, not_or, not_exists] at a3
    refine ⟨⟨by simp [a1], by simp [a2]⟩, ?_⟩
    simp only [Merge.Stopped, not_or, not_exists, List.mem_append, List.mem_singleton]
    exact ⟨by simp [a3.1], fun e => by simp [a3.2 e, (hn e).symm]⟩
  · rw [hsub, hsu, hca]; exact hi.fresh
  · rw [hsub, hsu, hca, hin]; exact hi.taken
  · rw [hin, hsub]; exact hi.keys

theorem heardBy_none {k : Nat} {heard : List (Nat × Notif α)} (h : ∀ c ∈ heard, c.1 ≠ k) : heardBy k heard = [] := by
  simp only [heardBy, List.map_eq_nil_iff, List.filter_eq_nil_iff]
  intro c hc h2
  exact h c hc (by simpa using h2)

/-- The worker subscribes to subjects that it has not subscribed to before. -/
theorem subscribe_parts {inn : List (Nat × Notif α)} : ∀ {is : List Nat} {s : State (Merge.State Nat) α}, (s.subs ++ is).Nodup → s.accepted = true →
    (∀ i, i ∉ s.subs → s.subjects i = ⟨none, false, false, false, heardBy i s.calls⟩) →
    (∀ (k i : Nat), s.subs[k]? = some i → ∃ done rest, heardBy i s.calls = done ++ rest ∧
      s.subjects i = ⟨some k, true, false, done.any Notif.isTerminal, rest⟩ ∧ heardBy k inn = cut done) →
    (∀ c ∈ inn, c.1 < s.subs.length) →
    (s.subscribe 0 is).accepted = true ∧
    (∀ i, i ∉ s.subs ++ is → (s.subscribe 0 is).subjects i = ⟨none, false, false, false, heardBy i s.calls⟩) ∧
    ∀ (k i : Nat), (s.subs ++ is)[k]? = some i → ∃ done rest, heardBy i s.calls = done ++ rest ∧
      (s.subscribe 0 is).subjects i = ⟨some k, true, false, done.any Notif.isTerminal, rest⟩ ∧ heardBy k inn = cut done := by
  intro is
  induction is with
  | nil => intro s _ ha hf ht _; simp only [List.append_nil, State.subscribe]; exact ⟨ha, hf, ht⟩
  | cons i is ih =>
    intro s hn ha hf ht hk
    have hni : i ∉ s.subs := by
      have := List.nodup_append.mp hn
      exact fun h => this.2.2 i h i (by simp) rfl
    have hx := hf i hni
    rw [State.subscribe]
    simp only [hx, Bool.false_eq_true, if_false]
    have key := ih (s := { State.set { s with subs := s.subs ++ [i] } i ⟨some (s.subs.length + 0), true, false, false, heardBy i s.calls⟩ with accepted := true })
      (by simpa [State.set] using hn) rfl ?_ ?_ ?_
    · have e : s.subs ++ i :: is = (s.subs ++ [i]) ++ is := by simp
      rw [e]; exact key
    · intro j hj
      have hj : j ∉ s.subs ++ [i] := hj
      simp only [List.mem_append, List.mem_singleton, not_or] at hj
      show (if j = i then _ else s.subjects j) = _
      rw [if_neg hj.2]; exact hf j hj.1
    · intro k j hj
      have hj : (s.subs ++ [i])[k]? = some j := hj
      show ∃ done rest, heardBy j s.calls = _ ∧ (if j = i then _ else s.subjects j) = _ ∧ _
      rcases Nat.lt_or_ge k s.subs.length with hlt | hge
      · rw [List.getElem?_append_left hlt] at hj
        have hji : j ≠ i := fun h => hni (h ▸ List.mem_of_getElem? hj)
        rw [if_neg hji]; exact ht k j hj
      · have hk' : k = s.subs.length := by
          have := (List.getElem?_eq_some_iff.mp hj).1
          simp at this; omega
        subst hk'
        simp at hj
        subst hj
        refine ⟨[], heardBy i s.calls, rfl, by simp, ?_⟩
        rw [heardBy_none]
        · rfl
        · intro c hc; have := hk c hc; omega
    · intro c hc
      have := hk c hc
      show _ < (s.subs ++ [i]).length
      simp; omega

theorem lawful_of {mx : Int} {s t : State (Merge.State Nat) α} (hi : Inv mx s) (hin : inners t.trace = inners s.trace)
    (hg : Grammar (Merge.outerCalls t.trace)) : Merge.Lawful t.trace := by
  refine ⟨hg, fun k => ?_⟩
  rw [Hot.innerCalls_eq, hin]; exact hi.heard k

theorem allowed_calm {b : Bool} {l : Merge.Label Nat α} (h : allowed b l = true) : inners [l] = [] ∧ Merge.outerCalls [l] = [] ∧ l ≠ .disposeFails ∧
    (∀ e, l ≠ .outer (.error e)) ∧ (b = true → l ≠ .subscribeFails) := by
  cases l <;> simp_all [allowed, inners, Merge.outerCalls]

theorem inv_own {mx : Int} {s s' : State (Merge.State Nat) α} {l : Merge.Label Nat α} (hi : Inv mx s) (hl : l ≠ .cancel)
    (hg : Grammar (Merge.outerCalls s.trace)) (hnd : (Merge.sent s.trace).Nodup)
    (h : step (mergeInner mx) Merge.State.started Merge.State.disposed 0 s (.own l) = some s') : Inv mx s' := by
  simp only [step, hi.calm.1, Bool.false_eq_true, if_false] at h
  by_cases hal : allowed s.accepted l = true
  case neg => rw [if_neg hal] at h; cases h
  rw [if_pos hal] at h
  rw [hi.calm.2.1] at hal
  obtain ⟨t, h1, rfl⟩ := Option.map_eq_some_iff.mp h
  obtain ⟨out, h2, h3⟩ := act_some h1
  have hrun := act_run h1 hi.run
  have t1 : t.trace = s.trace ++ [l] := by rw [h3]
  have t2 : t.subs = s.subs := by rw [h3]
  have hin : inners t.trace = inners s.trace := by
    rw [t1, inners_append, (allowed_calm hal).1, List.append_nil]
  have hout : Merge.outerCalls t.trace = Merge.outerCalls s.trace := by
    rw [t1, Merge.outerCalls, List.filterMap_append]
    show Merge.outerCalls s.trace ++ Merge.outerCalls [l] = _
    rw [(allowed_calm hal).2.1, List.append_nil]
  have hns : Merge.NoFailure t.trace ∧ ¬ Merge.Stopped t.trace := by
    rw [t1]
    obtain ⟨⟨a1, a2⟩, a3⟩ := hi.nofail
    simp only [Merge.Stopped, not_or, not_exists] at a3
    obtain ⟨-, -, h5, h6, h7⟩ := allowed_calm hal
    refine ⟨⟨by simp [a1, (h7 rfl).symm], by simp [a2, h5.symm]⟩, ?_⟩
    simp only [Merge.Stopped, not_or, not_exists, List.mem_append, List.mem_singleton]
    exact ⟨⟨a3.1, hl.symm⟩, fun e => ⟨a3.2 e, (h6 e).symm⟩⟩
  have hgone : t.prod.disposed = [] := merge_gone hrun hns.2
  have hgrow := ((merge_fits mx).grows _ _ _ _ h2).1
  have hpre := Merge.started_prefix hrun (lawful_of hi hin (hout ▸ hg))
  have hsent : Merge.sent t.trace = Merge.sent s.trace := by rw [Merge.sent, Merge.sent, hout]
  have hst : s.subs ++ (t.prod.started.drop s.prod.started.length) = t.prod.started := by
    rw [hi.subs]
    obtain ⟨r, hr⟩ := hgrow
    rw [← hr]; simp
  rw [hgone]
  simp only [List.drop_nil, State.unsubscribe]
  obtain ⟨b1, b2, b3, b4, b5, b6, b7⟩ := subscribe_rest (base := 0) (is := t.prod.started.drop s.prod.started.length) (s := t)
  have hcalls : t.calls = s.calls := by rw [h3]
  have hsubj : t.subjects = s.subjects := by rw [h3]
  obtain ⟨c1, c2, c3⟩ := subscribe_parts (inn := inners s.trace) (is := t.prod.started.drop s.prod.started.length) (s := t)
    (by rw [t2, hst]; rw [hsent] at hpre; exact hnd.sublist hpre.sublist) (by rw [h3]; exact hi.calm.2.1)
    (by rw [t2, hcalls, hsubj]; exact hi.fresh) (by rw [t2, hcalls, hsubj]; exact hi.taken) (by rw [t2]; exact hi.keys)
  refine ⟨?_, ?_, ⟨?_, c1, ?_⟩, ?_, ?_, ?_, ?_⟩
  · rw [b4, b1, b2]; exact hrun
  · rw [b7, b1, t2]; exact hst
  · rw [b3, h3]; exact hi.calm.1
  · rw [b6, h3]; exact hi.calm.2.2
  · rw [b4]; exact hns
  · rw [b7, b5]; exact c2
  · rw [b7, b5, b4, hin]; exact c3
  · rw [b4, b7, hin]
    intro c hc
    have := hi.keys c hc
    rw [t2, List.length_append]; omega

/-- What the records say. -/
structure Records (ls : List (Label α)) (s : State (Merge.State Nat) α) : Prop where
  outer : Merge.outerCalls s.trace = outers ls
  calls : ∀ i, heardBy i s.calls = callsOn i ls

theorem attempt_trace {mx : Int} {s s' : State (Merge.State Nat) α} {i : Nat} {n : Notif α} (h : s.attempt (mergeInner mx) i n = some s') :
    Merge.outerCalls s'.trace = Merge.outerCalls s.trace := by
  unfold State.attempt at h
  split at h
  · split at h <;> (obtain rfl := (Option.some.inj h).symm; rfl)
  · split at h
    · obtain rfl := (Option.some.inj h).symm; rfl
    · obtain ⟨t, h1, rfl⟩ := Option.map_eq_some_iff.mp h
      obtain ⟨out, -, h2⟩ := act_some h1
      show Merge.outerCalls t.trace = _
      rw [h2]; simp [Merge.outerCalls]

theorem records_step {mx : Int} {ls : List (Label α)} {s s' : State (Merge.State Nat) α} {l : Label α} (hi : Records ls s)
    (h : (merge mx).step s l = some s') : Records (ls ++ [l]) s' := by
  have h : step (mergeInner mx) Merge.State.started Merge.State.disposed 0 s l = some s' := h
  unfold step at h
  split at h
  · cases h
  have ho : ∀ (ls : List (Label α)) l, outers (ls ++ [l]) = outers ls ++ outers [l] := fun _ _ => List.filterMap_append ..
  have hc : ∀ i (ls : List (Label α)) l, callsOn i (ls ++ [l]) = callsOn i ls ++ callsOn i [l] := fun _ _ _ => List.filterMap_append ..
  cases l with
  | outer n =>
    obtain ⟨out, h1, h2⟩ := act_some h
    refine ⟨?_, fun i => ?_⟩
    · rw [h2, ho, ← hi.outer]; simp [Merge.outerCalls, outers]
    · rw [h2, hc, ← hi.calls]; simp [callsOn]
  | call i n =>
    have hcall : ∀ j, heardBy j (s.calls ++ [(i, n)]) = callsOn j (ls ++ [.call i n]) := by
      intro j
      rw [heardBy_append, hc, ← hi.calls]
      by_cases hj : i = j
      · subst hj; simp [heardBy, callsOn]
      · simp [heardBy, callsOn, hj]
    have hout : outers (ls ++ [.call i n]) = outers ls := by rw [ho]; simp [outers]
    dsimp only at h
    split at h
    · obtain rfl := (Option.some.inj h).symm
      exact ⟨by rw [hout]; exact hi.outer, hcall⟩
    · refine ⟨?_, fun j => ?_⟩
      · rw [hout, attempt_trace h]; exact hi.outer
      · rw [(attempt_rest h).2.1]; exact hcall j
  | wake i =>
    have hout : outers (ls ++ [.wake i]) = outers ls := by rw [ho]; simp [outers]
    have hca : ∀ j, callsOn j (ls ++ [.wake i]) = callsOn j ls := fun j => by rw [hc]; simp [callsOn]
    dsimp only at h
    split at h
    · refine ⟨?_, fun j => ?_⟩
      · rw [hout, attempt_trace h]; exact hi.outer
      · rw [hca, (attempt_rest h).2.1]; exact hi.calls j
    · cases h
  | own l =>
    have hout : outers (ls ++ [.own l]) = outers ls := by rw [ho]; simp [outers]
    have hca : ∀ j, callsOn j (ls ++ [.own l]) = callsOn j ls := fun j => by rw [hc]; simp [callsOn]
    dsimp only at h
    split at h
    · rename_i hal
      obtain ⟨t, h1, rfl⟩ := Option.map_eq_some_iff.mp h
      obtain ⟨out, h2, h3⟩ := act_some h1
      obtain ⟨-, -, -, b4, b5, -⟩ := subscribe_rest (base := 0) (is := t.prod.started.drop s.prod.started.length)
        (s := t.unsubscribe 0 (t.prod.disposed.drop s.prod.disposed.length))
      obtain ⟨-, -, -, c4, c5, -⟩ := unsubscribe_rest (base := 0) (ks := t.prod.disposed.drop s.prod.disposed.length) (s := t)
      refine ⟨?_, fun j => ?_⟩
      · rw [b4, c4, hout, ← hi.outer, h3]
        show Merge.outerCalls (s.trace ++ [l]) = _
        rw [Merge.outerCalls, List.filterMap_append]
        show Merge.outerCalls s.trace ++ Merge.outerCalls [l] = _
        rw [(allowed_calm hal).2.1, List.append_nil]
      · rw [b5, c5, hca, ← hi.calls, h3]
    · cases h

theorem records_run {mx : Int} {ls : List (Label α)} {s : State (Merge.State Nat) α} (hr : LTS.run (merge mx).step (merge mx).init ls = some s) :
    Records ls s :=
  LTS.inv_hist (step := (merge mx).step) (s0 := (merge mx).init) Records ⟨rfl, fun _ => rfl⟩ (fun _ _ _ _ hi h => records_step hi h) hr

theorem inv_run {mx : Int} {ls : List (Label α)} {s : State (Merge.State Nat) α} (hr : LTS.run (merge mx).step (merge mx).init ls = some s)
    (hg : Grammar (outers ls)) (hd : (story (outers ls)).vals.Nodup) (hu : Undisturbed ls) (ht : InTurn (merge mx).step (merge mx).init ls) : Inv mx s := by
  revert hg hd hu ht
  refine LTS.inv_reach (s0 := (merge mx).init) (step := (merge mx).step) (fun ls (s : State (Merge.State Nat) α) => Grammar (outers ls) →
    (story (outers ls)).vals.Nodup → Undisturbed ls → InTurn (merge mx).step (merge mx).init ls → Inv mx s) (fun _ _ _ _ => inv_init mx) ?_ hr
  intro ls s l s' hr ih h hg hd hu ht
  have hpre : outers ls <+: outers (ls ++ [l]) := by rw [outers, outers, List.filterMap_append]; exact List.prefix_append ..
  have hg1 := grammar_prefix hpre hg
  have hd1 : (story (outers ls)).vals.Nodup := by
    exact hd.sublist (values_prefix hpre).sublist
  have hu1 : Undisturbed ls := ⟨fun h => hu.1 (by simp [h]), fun e h => hu.2 e (by simp [h])⟩
  have ht1 : InTurn (merge mx).step (merge mx).init ls := by
    intro a i n b hab
    exact ht a i n (b ++ [l]) (by rw [hab]; simp)
  have hi := ih hg1 hd1 hu1 ht1
  have hrec := records_run hr
  have hsent : Merge.sent s.trace = (story (outers ls)).vals := by rw [Merge.sent, hrec.outer]
  have hnd : s.subs.Nodup := by
    have := Merge.started_prefix hi.run (lawful_of hi rfl (by rw [hrec.outer]; exact hg1))
    rw [hsent] at this
    rw [hi.subs]; exact hd1.sublist this.sublist
  have hs := h
  change step (mergeInner mx) Merge.State.started Merge.State.disposed 0 s l = some s' at h
  cases l with
  | outer n =>
    simp only [step, hi.calm.1, Bool.false_eq_true, if_false] at h
    exact inv_outer hi (fun e he => hu.2 e (by simp [he])) h
  | call i n =>
    rw [step, if_neg (by simp [hi.calm.1])] at h
    simp only [hi.disposed, Bool.and_false, Bool.false_eq_true, if_false] at h
    have hoth : ∀ j, j ≠ i → heardBy j (s.calls ++ [(i, n)]) = heardBy j s.calls := by
      intro j hj; rw [heardBy_append]; simp [heardBy, Ne.symm hj]
    by_cases hm : i ∈ s.subs
    · obtain ⟨k, hk⟩ := List.getElem?_of_mem hm
      obtain ⟨done, rest, h1, h2, h3⟩ := hi.taken k i hk
      have hw := ht ls i n [] rfl s hr (by rw [h2])
      rw [h2] at hw
      dsimp only at hw
      subst hw
      refine inv_attempt (rest := []) (done := done) hi hnd hk (t := { s with calls := s.calls ++ [(i, n)] }) ?_ ?_ h3 rfl ?_ (fun j hj => ⟨rfl, hoth j hj⟩) h
      · rw [heardBy_append, h1]; simp [heardBy]
      · rw [h2]
      · show s.subjects i = _
        rw [h2]
    · have hf := hi.fresh i hm
      simp only [State.attempt, hf, Bool.false_eq_true, if_false] at h
      obtain rfl := (Option.some.inj h).symm
      refine ⟨hi.run, hi.subs, hi.calm, hi.nofail, fun j hj => ?_, fun k j hj => ?_, hi.keys⟩
      · show (if j = i then _ else s.subjects j) = _
        by_cases hji : j = i
        · subst hji
          rw [if_pos rfl]
          simp [State.set, heardBy_append]
          simp [heardBy]
        · rw [if_neg hji]
          show _ = (⟨none, false, false, false, heardBy j (s.calls ++ [(i, n)])⟩ : Subject α)
          rw [hoth j hji]; exact hi.fresh j hj
      · have hji : j ≠ i := fun h => hm (h ▸ List.mem_of_getElem? hj)
        show ∃ done rest, heardBy j (s.calls ++ [(i, n)]) = _ ∧ (if j = i then _ else s.subjects j) = _ ∧ _
        rw [if_neg hji, hoth j hji]; exact hi.taken k j hj
  | wake i =>
    rw [step, if_neg (by simp [hi.calm.1])] at h
    dsimp only at h
    by_cases hm : i ∈ s.subs
    · obtain ⟨k, hk⟩ := List.getElem?_of_mem hm
      obtain ⟨done, rest, h1, h2, h3⟩ := hi.taken k i hk
      rw [h2] at h
      cases rest with
      | nil => simp at h
      | cons n rest =>
        dsimp only at h
        refine inv_attempt (rest := rest) (done := done) (t := s.set i ⟨some k, true, false, done.any Notif.isTerminal, rest⟩) hi hnd hk h1 (by rw [h2]) h3 rfl ?_
          (fun j hj => ⟨?_, rfl⟩) h
        · rw [set_get, if_pos rfl, h2]
        · rw [set_get, if_neg hj]
    · rw [hi.fresh i hm] at h
      simp at h
  | own l =>
    exact inv_own hi (fun hl => hu.1 (by simp [hl])) (by rw [hrec.outer]; exact hg1) (by rw [hsent]; exact hd1) h

end Aio.Cold
