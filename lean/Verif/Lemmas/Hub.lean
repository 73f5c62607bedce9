import Verif.Spec.Hub
import Verif.Lemmas.Subject
import Verif.Lemmas.Chains
/-!
# Subscriptions of a chain to a subject: invariants
-/

namespace Aio.Hub
variable {α γ : Type} {c : Chain α γ} {guard : Bool}

/-- What the first observer of chain `o` was called with. -/
def logOf (o : Nat) (s : Subject.State α) : List (Notif α) := (s.log.filter (·.2.1 == o)).map (·.2.2)

/-- Only the chains that the subject calls do something. -/
theorem subject_spec {s s' : State c} {l : Subject.Label α} (h : s.subject guard l = some s') :
    Subject.step guard s.sub l = some s'.sub ∧ s'.num = s.num ∧
    ((s'.sub.log = s.sub.log ∧ s'.ps = s.ps ∧ s'.outs = s.outs) ∨
     ∃ k o n, s'.sub.log = s.sub.log ++ [(k, o, n)] ∧ s'.ps = (s.feed o n).ps ∧ s'.outs = (s.feed o n).outs) := by
  unfold State.subject at h
  obtain ⟨sub, hs, rfl⟩ := Option.map_eq_some_iff.mp h
  have two : sub.log = s.sub.log ∨ ∃ k o n, sub.log = s.sub.log ++ [(k, o, n)] := by
    rcases Subject.step_cases hs with ⟨n, rfl, rfl⟩ | ⟨c, n, o, rest, rfl, hc, rfl⟩ | ⟨c, e, n, o, rest, rfl, hc, rfl⟩ |
      ⟨o, rfl, hd, rfl⟩ | ⟨o, rfl, hd, rfl⟩ | ⟨k, o, rfl, hk, hg, rfl⟩ | ⟨k, o, g, rfl, hk, hg, rfl⟩ | ⟨rfl, rfl⟩
    · rcases Subject.begin_cases s.sub n with ⟨-, h⟩ | ⟨-, -, h⟩ | ⟨-, -, h⟩ <;> rw [h]
      · exact Or.inl rfl
      · exact Or.inl rfl
      · rw [Subject.loop_log]
        cases s.sub.observers with
        | nil => left; simp
        | cons o os => right; exact ⟨_, o, n, rfl⟩
    · rw [Subject.loop_log]
      cases rest with
      | nil => left; simp
      | cons o os => right; exact ⟨_, o, n, rfl⟩
    all_goals exact Or.inl rfl
  rcases two with he | ⟨k, o, n, he⟩
  · rw [he]
    simp only [List.drop_length, List.foldl_nil]
    exact ⟨hs, trivial, Or.inl ⟨he, trivial, trivial⟩⟩
  · have : sub.log.drop s.sub.log.length = [(k, o, n)] := by rw [he]; simp
    rw [this]
    exact ⟨hs, rfl, Or.inr ⟨k, o, n, he, rfl, rfl⟩⟩

/-- The chain of every subscription does a run of its own, on what the subject has sent to it. -/
def Own (s : State c) : Prop :=
  ∀ o, ∃ es, c.proc.exec c.proc.init es = some (s.ps o, s.outs o) ∧ Proc.inputs es = logOf o s.sub

theorem own_subject {s s' : State c} {l : Subject.Label α} (I : Own s) (h : s.subject guard l = some s') : Own s' := by
  obtain ⟨-, -, ⟨h1, h2, h3⟩ | ⟨k, o, n, h1, h2, h3⟩⟩ := subject_spec h
  · intro i
    obtain ⟨es, e1, e2⟩ := I i
    exact ⟨es, by rw [h2, h3]; exact e1, by rw [e2]; simp only [logOf, h1]⟩
  · intro i
    obtain ⟨es, e1, e2⟩ := I i
    by_cases hi : i = o
    · subst hi
      refine ⟨es ++ [.feed n], ?_, ?_⟩
      · rw [h2, h3]
        simp only [State.feed, if_true]
        refine Proc.exec_append _ e1 ?_
        have := Proc.exec_feed_intro (p := c.proc) (s := s.ps i) (i := n) (Proc.exec_nil c.proc _)
        simpa using this
      · rw [Proc.inputs_append, e2]
        simp [logOf, h1]
    · refine ⟨es, ?_, ?_⟩
      · rw [h2, h3]
        simp only [State.feed, if_neg hi]
        exact e1
      · rw [e2]
        have : (o == i) = false := by simp; exact fun h => hi h.symm
        simp [logOf, h1, this]

theorem own_step {s s' : State c} {l : Label c} (I : Own s) (h : step guard s l = some s') : Own s' := by
  cases l with
  | call n => exact own_subject I h
  | ret k => exact own_subject I h
  | raise k e => exact own_subject I h
  | dispose => exact own_subject I h
  | subscribe o =>
    simp only [step] at h
    split at h
    · cases h
    · obtain ⟨s1, h1, rfl⟩ := Option.map_eq_some_iff.mp h
      exact own_subject (s' := s1) I h1
  | unsubscribe o =>
    simp only [step] at h
    split at h
    · exact own_subject I h
    · cases h
  | inner o l =>
    simp only [step] at h
    split at h
    · next p out hp =>
      cases h
      intro i
      obtain ⟨es, e1, e2⟩ := I i
      by_cases hi : i = o
      · subst hi
        refine ⟨es ++ [.step l], ?_, ?_⟩
        · simp only [if_true]
          refine Proc.exec_append _ e1 ?_
          have := Proc.exec_step_intro (p := c.proc) hp (Proc.exec_nil c.proc _)
          simpa using this
        · rw [Proc.inputs_append, e2]; simp
      · exact ⟨es, by simp only [if_neg hi]; exact e1, e2⟩
    · cases h

theorem own_run {ls : List (Label c)} {s : State c} (hr : LTS.run (step guard) (init c) ls = some s) : Own s :=
  LTS.inv Own (fun _ => ⟨[], rfl, rfl⟩) (fun _ _ _ => own_step) hr

/-- The subject's list, and who is on it. -/
structure Base (s : State c) : Prop where
  nodup : s.sub.observers.Nodup
  known : ∀ o ∈ s.sub.observers, s.num o ≠ none
  num : ∀ o k, s.num o = some k → ∃ x, s.sub.subs[k]? = some x ∧
    (x = none ∧ o ∉ s.sub.observers ∨ ∃ g, x = some (o, g) ∧ (g = true → o ∉ s.sub.observers))

/-- How the labels act on the subject. -/
theorem step_sub {s s' : State c} {l : Label c} (h : step guard s l = some s') :
    (∃ n, l = .call n ∧ s'.sub = s.sub.begin n ∧ s'.num = s.num) ∨
    (∃ k n o rest, l = .ret k ∧ s.sub.calls[k]? = some (.running n o rest) ∧ s'.sub = s.sub.loop k n rest ∧ s'.num = s.num) ∨
    (∃ k e, l = .raise k e ∧ s'.sub = { s.sub with calls := s.sub.calls.set k (.raised e) } ∧ s'.num = s.num) ∨
    (∃ o, l = .subscribe o ∧ s.num o = none ∧ s.sub.isDisposed = true ∧ s'.sub = { s.sub with subs := s.sub.subs ++ [none] } ∧
      s'.num = fun i => if i = o then some s.sub.subs.length else s.num i) ∨
    (∃ o, l = .subscribe o ∧ s.num o = none ∧ s.sub.isDisposed = false ∧
      s'.sub = { s.sub with observers := s.sub.observers ++ [o], subs := s.sub.subs ++ [some (o, false)] } ∧
      s'.num = fun i => if i = o then some s.sub.subs.length else s.num i) ∨
    (∃ o k o', l = .unsubscribe o ∧ s.num o = some k ∧ s.sub.subs[k]? = some (some (o', true)) ∧ s'.sub = s.sub ∧ s'.num = s.num) ∨
    (∃ o k o' g, l = .unsubscribe o ∧ s.num o = some k ∧ s.sub.subs[k]? = some (some (o', g)) ∧
      s'.sub = { s.sub with observers := s.sub.observers.erase o', subs := s.sub.subs.set k (some (o', true)) } ∧ s'.num = s.num) ∨
    (l = .dispose ∧ s'.sub = { s.sub with isDisposed := true } ∧ s'.num = s.num) ∨
    (∃ o l', l = .inner o l' ∧ s'.sub = s.sub ∧ s'.num = s.num) := by
  cases l with
  | call n =>
    obtain ⟨h1, h2, -⟩ := subject_spec h
    simp only [Subject.step, Option.some.injEq] at h1
    exact .inl ⟨n, rfl, h1.symm, h2⟩
  | ret k =>
    obtain ⟨h1, h2, -⟩ := subject_spec h
    rcases Subject.step_cases h1 with ⟨n, h, -⟩ | ⟨k', n, o, rest, h, hc, he⟩ | ⟨_, _, _, _, _, h, -⟩ | ⟨_, h, -⟩ | ⟨_, h, -⟩ |
      ⟨_, _, h, -⟩ | ⟨_, _, _, h, -⟩ | ⟨h, -⟩ <;> cases h
    exact .inr (.inl ⟨k, n, o, rest, rfl, hc, he, h2⟩)
  | raise k e =>
    obtain ⟨h1, h2, -⟩ := subject_spec h
    rcases Subject.step_cases h1 with ⟨n, h, -⟩ | ⟨_, n, o, rest, h, -⟩ | ⟨_, _, _, _, _, h, -, he⟩ | ⟨_, h, -⟩ | ⟨_, h, -⟩ |
      ⟨_, _, h, -⟩ | ⟨_, _, _, h, -⟩ | ⟨h, -⟩ <;> cases h
    exact .inr (.inr (.inl ⟨k, e, rfl, he, h2⟩))
  | subscribe o =>
    simp only [step] at h
    split at h
    · cases h
    · next hn =>
      obtain ⟨s1, hs, rfl⟩ := Option.map_eq_some_iff.mp h
      have hn : s.num o = none := by cases hx : s.num o <;> simp_all
      obtain ⟨h1, h2, -⟩ := subject_spec hs
      rcases Subject.step_cases h1 with ⟨n, h, -⟩ | ⟨_, n, o, rest, h, -⟩ | ⟨_, _, _, _, _, h, -⟩ | ⟨_, h, hd, he⟩ | ⟨_, h, hd, he⟩ |
        ⟨_, _, h, -⟩ | ⟨_, _, _, h, -⟩ | ⟨h, -⟩ <;> cases h
      · exact .inr (.inr (.inr (.inl ⟨o, rfl, hn, hd, he, by simp only [h2]⟩)))
      · exact .inr (.inr (.inr (.inr (.inl ⟨o, rfl, hn, hd, he, by simp only [h2]⟩))))
  | unsubscribe o =>
    simp only [step] at h
    split at h
    · next k hk =>
      obtain ⟨h1, h2, -⟩ := subject_spec h
      rcases Subject.step_cases h1 with ⟨n, h, -⟩ | ⟨_, n, o, rest, h, -⟩ | ⟨_, _, _, _, _, h, -⟩ | ⟨_, h, -⟩ | ⟨_, h, -⟩ |
        ⟨_, o', h, hs, _, he⟩ | ⟨_, o', g, h, hs, _, he⟩ | ⟨h, -⟩ <;> cases h
      · exact .inr (.inr (.inr (.inr (.inr (.inl ⟨o, k, o', rfl, hk, hs, he, h2⟩)))))
      · exact .inr (.inr (.inr (.inr (.inr (.inr (.inl ⟨o, k, o', g, rfl, hk, hs, he, h2⟩))))))
    · cases h
  | dispose =>
    obtain ⟨h1, h2, -⟩ := subject_spec h
    simp only [Subject.step, Option.some.injEq] at h1
    exact .inr (.inr (.inr (.inr (.inr (.inr (.inr (.inl ⟨rfl, h1.symm, h2⟩)))))))
  | inner o l =>
    simp only [step] at h
    split at h
    · cases h
      exact .inr (.inr (.inr (.inr (.inr (.inr (.inr (.inr ⟨o, l, rfl, rfl, rfl⟩)))))))
    · cases h

theorem Base.same {s s' : State c} (I : Base s) (h1 : s'.sub.observers = s.sub.observers) (h2 : s'.sub.subs = s.sub.subs)
    (h3 : s'.num = s.num) : Base s' :=
  ⟨by rw [h1]; exact I.nodup, by rw [h1, h3]; exact I.known, by rw [h1, h2, h3]; exact I.num⟩

theorem base_step {s s' : State c} {l : Label c} (I : Base s) (h : step guard s l = some s') : Base s' := by
  have push : ∀ (y : Option (Nat × Bool)) (k : Nat) x, s.sub.subs[k]? = some x → (s.sub.subs ++ [y])[k]? = some x := by
    intro y k x hx
    rw [List.getElem?_append_left (List.getElem?_eq_some_iff.mp hx).1]; exact hx
  rcases step_sub h with ⟨n, rfl, e, en⟩ | ⟨k, n, o, rest, rfl, hc, e, en⟩ | ⟨k, x, rfl, e, en⟩ | ⟨o, rfl, hn, hd, e, en⟩ |
    ⟨o, rfl, hn, hd, e, en⟩ | ⟨o, k, o', rfl, hk, hs, e, en⟩ | ⟨o, k, o', g, rfl, hk, hs, e, en⟩ | ⟨rfl, e, en⟩ | ⟨o, l', rfl, e, en⟩
  · exact I.same (by rw [e]; simp) (by rw [e]; simp) en
  · exact I.same (by rw [e]; simp) (by rw [e]; simp) en
  · exact I.same (by rw [e]) (by rw [e]) en
  · refine ⟨by rw [e]; exact I.nodup, ?_, ?_⟩
    · intro i hi
      rw [e] at hi; rw [en]; dsimp only
      split
      · simp
      · exact I.known i hi
    · intro i k hk
      rw [en] at hk; dsimp only at hk
      rw [e]; dsimp only
      split at hk
      · next hi =>
        cases hk; subst hi
        exact ⟨none, by simp, .inl ⟨rfl, fun hm => I.known i hm hn⟩⟩
      · obtain ⟨x, x1, x2⟩ := I.num i k hk
        exact ⟨x, push _ k x x1, x2⟩
  · have hno : o ∉ s.sub.observers := fun hm => I.known o hm hn
    refine ⟨?_, ?_, ?_⟩
    · rw [e]; dsimp only
      refine List.nodup_append.mpr ⟨I.nodup, by simp, ?_⟩
      intro a ha b hb
      rw [List.mem_singleton.mp hb]
      exact fun he => hno (he ▸ ha)
    · intro i hi
      rw [e] at hi; rw [en]; dsimp only at hi ⊢
      split
      · simp
      · next hne =>
        rcases List.mem_append.mp hi with hi | hi
        · exact I.known i hi
        · exact absurd (List.mem_singleton.mp hi) hne
    · intro i k hk
      rw [en] at hk; dsimp only at hk
      rw [e]; dsimp only
      split at hk
      · next hi =>
        cases hk; subst hi
        exact ⟨some (i, false), by simp, .inr ⟨false, rfl, nofun⟩⟩
      · next hne =>
        obtain ⟨x, x1, x2⟩ := I.num i k hk
        have mem : ∀ {i}, i ≠ o → i ∉ s.sub.observers → i ∉ s.sub.observers ++ [o] := by
          intro i hi hx hm
          rcases List.mem_append.mp hm with hm | hm
          · exact hx hm
          · exact hi (List.mem_singleton.mp hm)
        refine ⟨x, push _ k x x1, ?_⟩
        rcases x2 with ⟨y1, y2⟩ | ⟨g, y1, y2⟩
        · exact .inl ⟨y1, mem hne y2⟩
        · exact .inr ⟨g, y1, fun hg => mem hne (y2 hg)⟩
  · exact I.same (by rw [e]) (by rw [e]) en
  · refine ⟨by rw [e]; exact I.nodup.erase _, ?_, ?_⟩
    · intro i hi
      rw [e] at hi; rw [en]
      exact I.known i (List.mem_of_mem_erase hi)
    · intro i m hm
      rw [en] at hm
      rw [e]; dsimp only
      obtain ⟨x, x1, x2⟩ := I.num i m hm
      by_cases hkm : k = m
      · subst hkm
        rw [hs] at x1; cases x1
        rcases x2 with ⟨y1, y2⟩ | ⟨g', y1, y2⟩
        · cases y1
        · cases y1
          refine ⟨some (o', true), by simp [(List.getElem?_eq_some_iff.mp hs).1], .inr ⟨true, rfl, fun _ => ?_⟩⟩
          intro hmem
          exact (List.Nodup.mem_erase_iff I.nodup).mp hmem |>.1 rfl
      · refine ⟨x, by rw [List.getElem?_set_ne hkm]; exact x1, ?_⟩
        rcases x2 with ⟨y1, y2⟩ | ⟨g', y1, y2⟩
        · exact .inl ⟨y1, fun hm => y2 (List.mem_of_mem_erase hm)⟩
        · exact .inr ⟨g', y1, fun hg hm => y2 hg (List.mem_of_mem_erase hm)⟩
  · exact I.same (by rw [e]) (by rw [e]) en
  · exact I.same (by rw [e]) (by rw [e]) en

theorem base_run {ls : List (Label c)} {s : State c} (hr : LTS.run (step guard) (init c) ls = some s) : Base s :=
  LTS.inv Base ⟨by simp [init, Subject.init], by simp [init, Subject.init], by simp [init]⟩ (fun _ _ _ => base_step) hr

/-- Disposing a subscription takes its observer off the list. -/
theorem unsubscribed {s s' : State c} {o : Nat} (I : Base s) (h : step guard s (.unsubscribe o) = some s') :
    o ∉ s'.sub.observers ∧ s'.num o ≠ none := by
  have I' := base_step I h
  rcases step_sub h with ⟨n, h, -⟩ | ⟨_, n, _, rest, h, -⟩ | ⟨k, x, h, -⟩ | ⟨_, h, -⟩ |
    ⟨_, h, -⟩ | ⟨_, k, o', h, hk, hs, e, en⟩ | ⟨_, k, o', g, h, hk, hs, e, en⟩ | ⟨h, -⟩ | ⟨_, l', h, -⟩ <;> cases h
  · have hn : s'.num o = some k := by rw [en]; exact hk
    refine ⟨?_, by rw [hn]; exact nofun⟩
    obtain ⟨x, x1, x2⟩ := I'.num o k hn
    rw [e, hs] at x1; cases x1
    rcases x2 with ⟨y1, -⟩ | ⟨g, y1, y2⟩
    · cases y1
    · cases y1; exact y2 rfl
  · have hn : s'.num o = some k := by rw [en]; exact hk
    refine ⟨?_, by rw [hn]; exact nofun⟩
    obtain ⟨x, x1, x2⟩ := I'.num o k hn
    have : s'.sub.subs[k]? = some (some (o', true)) := by
      rw [e]; simp [(List.getElem?_eq_some_iff.mp hs).1]
    rw [this] at x1; cases x1
    rcases x2 with ⟨y1, -⟩ | ⟨g, y1, y2⟩
    · cases y1
    · cases y1; exact y2 rfl

/-! ### what was sent -/

theorem sent_snoc (ls : List (Label c)) (l : Label c) : Spec.sent (ls ++ [l]) =
    Spec.sent ls ++ (match l with | .call n => [n] | _ => []) := by
  rw [Spec.sent, List.filterMap_append]; cases l <;> rfl

/-- The calls are numbered in order, and the deliveries of a call are of its notification. -/
structure Sent (ls : List (Label c)) (s : State c) : Prop where
  length : s.sub.calls.length = (Spec.sent ls).length
  running : ∀ (k : Nat) n o rest, s.sub.calls[k]? = some (.running n o rest) → (Spec.sent ls)[k]? = some n
  log : ∀ x ∈ s.sub.log, (Spec.sent ls)[x.1]? = some x.2.2

theorem Sent.same {ls : List (Label c)} {s s' : State c} {l : Label c} (I : Sent ls s) (h1 : s'.sub.calls = s.sub.calls)
    (h2 : s'.sub.log = s.sub.log) (h3 : Spec.sent (ls ++ [l]) = Spec.sent ls) : Sent (ls ++ [l]) s' :=
  ⟨by rw [h1, h3]; exact I.length, by rw [h1, h3]; exact I.running, by rw [h2, h3]; exact I.log⟩

theorem sent_step {ls : List (Label c)} {s s' : State c} {l : Label c} (I : Sent ls s) (h : step guard s l = some s') :
    Sent (ls ++ [l]) s' := by
  have push : ∀ (n : Notif α) (k : Nat) x, (Spec.sent ls)[k]? = some x → (Spec.sent ls ++ [n])[k]? = some x := by
    intro y k x hx
    rw [List.getElem?_append_left (List.getElem?_eq_some_iff.mp hx).1]; exact hx
  rcases step_sub h with ⟨n, rfl, e, en⟩ | ⟨k, n, o, rest, rfl, hc, e, en⟩ | ⟨k, x, rfl, e, en⟩ | ⟨o, rfl, hn, hd, e, en⟩ |
    ⟨o, rfl, hn, hd, e, en⟩ | ⟨o, k, o', rfl, hk, hs, e, en⟩ | ⟨o, k, o', g, rfl, hk, hs, e, en⟩ | ⟨rfl, e, en⟩ | ⟨o, l', rfl, e, en⟩
  · have hl : Spec.sent (ls ++ [Label.call n]) = Spec.sent ls ++ [n] := sent_snoc _ _
    have old : ∀ (y : Subject.Call α) (k : Nat) m o rest, (∀ a b d, y = .running a b d → a = n) →
        (s.sub.calls ++ [y])[k]? = some (.running m o rest) → (Spec.sent ls ++ [n])[k]? = some m := by
      intro y k m o rest hy hk
      rw [List.getElem?_append] at hk
      split at hk
      · exact push n k m (I.running k m o rest hk)
      · next hlt =>
        have hk0 : k = s.sub.calls.length := by
          have := (List.getElem?_eq_some_iff.mp hk).1
          simp at this; omega
        subst hk0
        simp at hk
        rw [hy _ _ _ hk, I.length]; simp
    rcases Subject.begin_cases s.sub n with ⟨-, hb⟩ | ⟨-, -, hb⟩ | ⟨-, -, hb⟩ <;> rw [hb] at e
    · refine ⟨by rw [e, hl]; simp [I.length], ?_, ?_⟩
      · intro k m o rest hk
        rw [e] at hk; rw [hl]
        refine old _ k m o rest ?_ hk; exact nofun
      · intro x hx
        rw [e] at hx; rw [hl]
        exact push n _ _ (I.log x hx)
    · refine ⟨by rw [e, hl]; simp [I.length], ?_, ?_⟩
      · intro k m o rest hk
        rw [e] at hk; rw [hl]
        refine old _ k m o rest ?_ hk; exact nofun
      · intro x hx
        rw [e] at hx; rw [hl]
        exact push n _ _ (I.log x hx)
    · refine ⟨by rw [e, hl, Subject.loop_calls]; simp [I.length], ?_, ?_⟩
      · intro k m o rest hk
        rw [e, Subject.loop_calls] at hk; rw [hl]
        dsimp only at hk
        rw [List.set_append_right _ _ (Nat.le_refl _)] at hk
        simp only [Nat.sub_self, List.set_cons_zero] at hk
        refine old _ k m o rest ?_ hk
        intro a b d
        split
        · exact nofun
        · intro h; cases h; rfl
      · intro x hx
        rw [e, Subject.loop_log] at hx; rw [hl]
        rcases List.mem_append.mp hx with hx | hx
        · exact push n _ _ (I.log x hx)
        · split at hx
          · cases hx
          · rw [List.mem_singleton.mp hx, I.length]; simp
  · have hl : Spec.sent (ls ++ [Label.ret k]) = Spec.sent ls := by rw [sent_snoc]; simp
    refine ⟨by rw [e, hl, Subject.loop_calls]; simp [I.length], ?_, ?_⟩
    · intro m n' o' rest' hm
      rw [e, Subject.loop_calls, List.getElem?_set] at hm; rw [hl]
      split at hm
      · next hkm =>
        subst hkm
        split at hm
        · next hx => 
          split at hm
          · cases hm
          · cases hm; exact I.running _ _ _ _ hc
        · cases hm
      · exact I.running m n' o' rest' hm
    · intro x hx
      rw [e, Subject.loop_log] at hx; rw [hl]
      rcases List.mem_append.mp hx with hx | hx
      · exact I.log x hx
      · split at hx
        · cases hx
        · rw [List.mem_singleton.mp hx]; exact I.running _ _ _ _ hc
  · have hl : Spec.sent (ls ++ [Label.raise k x]) = Spec.sent ls := by rw [sent_snoc]; simp
    refine ⟨by rw [e, hl]; simp [I.length], ?_, by rw [e, hl]; exact I.log⟩
    intro m n' o' rest' hm
    rw [e] at hm; dsimp only at hm; rw [hl]
    rw [List.getElem?_set] at hm
    split at hm
    · split at hm <;> cases hm
    · exact I.running m n' o' rest' hm
  all_goals exact I.same (by rw [e]) (by rw [e]) (by rw [sent_snoc]; simp)

theorem sent_run {ls : List (Label c)} {s : State c} (hr : LTS.run (step guard) (init c) ls = some s) : Sent ls s :=
  LTS.inv_hist Sent ⟨rfl, by simp [init, Subject.init], by simp [init, Subject.init]⟩ (fun _ _ _ _ => sent_step) hr

/-! ### after the disposal -/

/-- Subscription `o` is gone, and calls from number `m` on do not know it. -/
structure Gone (o m : Nat) (s : State c) : Prop where
  off : o ∉ s.sub.observers
  known : s.num o ≠ none
  len : m ≤ s.sub.calls.length
  running : ∀ (k : Nat) n p rest, s.sub.calls[k]? = some (.running n p rest) → m ≤ k → o ∉ rest
  log : ∀ x ∈ s.sub.log, x.2.1 = o → x.1 < m

theorem gone_step {o m : Nat} {s s' : State c} {l : Label c} (I : Gone o m s) (h : step guard s l = some s') : Gone o m s' := by
  rcases step_sub h with ⟨n, rfl, e, en⟩ | ⟨k, n, p, rest, rfl, hc, e, en⟩ | ⟨k, x, rfl, e, en⟩ | ⟨p, rfl, hn, hd, e, en⟩ |
    ⟨p, rfl, hn, hd, e, en⟩ | ⟨p, k, o', rfl, hk, hs, e, en⟩ | ⟨p, k, o', g, rfl, hk, hs, e, en⟩ | ⟨rfl, e, en⟩ | ⟨p, l', rfl, e, en⟩
  · have old : ∀ (y : Subject.Call α) (k : Nat) n p rest, (∀ a b d, y = .running a b d → o ∉ d) →
        (s.sub.calls ++ [y])[k]? = some (.running n p rest) → m ≤ k → o ∉ rest := by
      intro y k n p rest hy hk hm
      rw [List.getElem?_append] at hk
      split at hk
      · exact I.running k n p rest hk hm
      · next hlt =>
        have hk0 : k = s.sub.calls.length := by
          have := (List.getElem?_eq_some_iff.mp hk).1
          simp at this; omega
        subst hk0
        simp at hk
        exact hy _ _ _ hk
    rcases Subject.begin_cases s.sub n with ⟨-, hb⟩ | ⟨-, -, hb⟩ | ⟨-, -, hb⟩ <;> rw [hb] at e
    · refine ⟨by rw [e]; exact I.off, by rw [en]; exact I.known, by rw [e]; simp; have := I.len; omega, ?_, by rw [e]; exact I.log⟩
      intro k n p rest hk
      rw [e] at hk
      refine old _ k n p rest ?_ hk; exact nofun
    · refine ⟨by rw [e]; exact I.off, by rw [en]; exact I.known, by rw [e]; simp; have := I.len; omega, ?_, by rw [e]; exact I.log⟩
      intro k n p rest hk
      rw [e] at hk
      refine old _ k n p rest ?_ hk; exact nofun
    · refine ⟨by rw [e]; simpa using I.off, by rw [en]; exact I.known, by rw [e, Subject.loop_calls]; simp; have := I.len; omega, ?_, ?_⟩
      · intro k n' p rest hk
        rw [e, Subject.loop_calls] at hk
        dsimp only at hk
        rw [List.set_append_right _ _ (Nat.le_refl _)] at hk
        simp only [Nat.sub_self, List.set_cons_zero] at hk
        refine old _ k n' p rest ?_ hk
        intro a b d
        split
        · exact nofun
        · next q qs hq =>
          intro h; cases h
          exact fun hm => I.off (by rw [hq]; exact List.mem_cons_of_mem _ hm)
      · intro x hx hxo
        rw [e, Subject.loop_log] at hx
        rcases List.mem_append.mp hx with hx | hx
        · exact I.log x hx hxo
        · split at hx
          · cases hx
          · next q qs hq =>
            rw [List.mem_singleton.mp hx] at hxo
            exact absurd (by rw [hq, ← hxo]; simp) I.off
  · refine ⟨by rw [e]; simpa using I.off, by rw [en]; exact I.known, by rw [e, Subject.loop_calls]; simp; exact I.len, ?_, ?_⟩
    · intro j n' p' rest' hj hm
      rw [e, Subject.loop_calls, List.getElem?_set] at hj
      split at hj
      · next hkj =>
        subst hkj
        split at hj
        · split at hj
          · cases hj
          · cases hj
            exact fun hmem => I.running _ _ _ _ hc hm (List.mem_cons_of_mem _ hmem)
        · cases hj
      · exact I.running j n' p' rest' hj hm
    · intro x hx hxo
      rw [e, Subject.loop_log] at hx
      rcases List.mem_append.mp hx with hx | hx
      · exact I.log x hx hxo
      · split at hx
        · cases hx
        · rw [List.mem_singleton.mp hx] at hxo ⊢
          dsimp only at hxo ⊢
          subst hxo
          by_cases hkm : k < m
          · exact hkm
          · exact absurd (List.mem_cons_self ..) (I.running _ _ _ _ hc (by omega))
  · refine ⟨by rw [e]; exact I.off, by rw [en]; exact I.known, by rw [e]; simp; exact I.len, ?_, by rw [e]; exact I.log⟩
    intro j n' p' rest' hj hm
    rw [e] at hj; dsimp only at hj
    rw [List.getElem?_set] at hj
    split at hj
    · split at hj <;> cases hj
    · exact I.running j n' p' rest' hj hm
  · refine ⟨by rw [e]; exact I.off, ?_, by rw [e]; exact I.len, by rw [e]; exact I.running, by rw [e]; exact I.log⟩
    rw [en]; dsimp only
    split
    · simp
    · exact I.known
  · refine ⟨?_, ?_, by rw [e]; exact I.len, by rw [e]; exact I.running, by rw [e]; exact I.log⟩
    · rw [e]; dsimp only
      intro hm
      rcases List.mem_append.mp hm with hm | hm
      · exact I.off hm
      · rw [List.mem_singleton.mp hm] at I
        exact I.known hn
    · rw [en]; dsimp only
      split
      · simp
      · exact I.known
  · exact ⟨by rw [e]; exact I.off, by rw [en]; exact I.known, by rw [e]; exact I.len, by rw [e]; exact I.running, by rw [e]; exact I.log⟩
  · exact ⟨by rw [e]; exact fun hm => I.off (List.mem_of_mem_erase hm), by rw [en]; exact I.known, by rw [e]; exact I.len,
      by rw [e]; exact I.running, by rw [e]; exact I.log⟩
  · exact ⟨by rw [e]; exact I.off, by rw [en]; exact I.known, by rw [e]; exact I.len, by rw [e]; exact I.running, by rw [e]; exact I.log⟩
  · exact ⟨by rw [e]; exact I.off, by rw [en]; exact I.known, by rw [e]; exact I.len, by rw [e]; exact I.running, by rw [e]; exact I.log⟩

/-! ### what a subscription hears -/

theorem ear_snoc (o : Nat) (ls : List (Label c)) (l : Label c) : Spec.ear o (ls ++ [l]) = (Spec.ear o ls).next o l := by
  simp [Spec.ear, List.foldl_append]

def Idle (calls : List (Subject.Call α)) : Prop := ∀ (k : Nat) n p rest, calls[k]? ≠ some (.running n p rest)

/-- One call is in progress. -/
structure Busy (calls : List (Subject.Call α)) (k : Nat) (n : Notif α) (p : Nat) (rest : List Nat) : Prop where
  it : calls[k]? = some (.running n p rest)
  only : ∀ (k' : Nat) n' p' rest', calls[k']? = some (.running n' p' rest') → k' = k
  nodup : (p :: rest).Nodup

structure Hears (o : Nat) (ls : List (Label c)) (s : State c) : Prop where
  over : (Spec.ear o ls).over = (s.sub.isDisposed || s.sub.isStopped)
  listening : s.sub.isDisposed = false → ((Spec.ear o ls).listening = true ↔ o ∈ s.sub.observers)
  heard : (Idle s.sub.calls ∧ Spec.heard o ls = logOf o s.sub) ∨
    ∃ k n p rest, Busy s.sub.calls k n p rest ∧ Spec.heard o ls = logOf o s.sub ++ if o ∈ rest then [n] else []

theorem Hears.same {o : Nat} {ls : List (Label c)} {s s' : State c} {l : Label c} (I : Hears o ls s)
    (h0 : Spec.ear o (ls ++ [l]) = Spec.ear o ls) (h1 : s'.sub.isDisposed = s.sub.isDisposed)
    (h2 : s'.sub.isStopped = s.sub.isStopped) (h3 : o ∈ s'.sub.observers ↔ o ∈ s.sub.observers) (h4 : s'.sub.calls = s.sub.calls)
    (h5 : s'.sub.log = s.sub.log) : Hears o (ls ++ [l]) s' := by
  refine ⟨by rw [h0, h1, h2]; exact I.over, by rw [h0, h1, h3]; exact I.listening, ?_⟩
  have := I.heard
  simp only [Spec.heard, logOf, h0, h4, h5] at this ⊢
  exact this

theorem hears_listen {o : Nat} {ls : List (Label c)} {s s' : State c} {l : Label c} (I : Hears o ls s)
    (h0 : (Spec.ear o (ls ++ [l])).heard = (Spec.ear o ls).heard) (h0' : (Spec.ear o (ls ++ [l])).over = (Spec.ear o ls).over)
    (h1 : s'.sub.isDisposed = s.sub.isDisposed)
    (h2 : s'.sub.isStopped = s.sub.isStopped)
    (h3 : s.sub.isDisposed = false → ((Spec.ear o (ls ++ [l])).listening = true ↔ o ∈ s'.sub.observers)) (h4 : s'.sub.calls = s.sub.calls)
    (h5 : s'.sub.log = s.sub.log) : Hears o (ls ++ [l]) s' := by
  refine ⟨by rw [h0', h1, h2]; exact I.over, by rw [h1]; exact h3, ?_⟩
  have := I.heard
  simp only [Spec.heard, logOf, h0, h4, h5] at this ⊢
  exact this

theorem hears_call {o : Nat} {ls : List (Label c)} {s s' : State c} {n : Notif α} (B : Base s) (I : Hears o ls s)
    (idle : Idle s.sub.calls) (e : s'.sub = s.sub.begin n) : Hears o (ls ++ [.call n]) s' := by
  have hh : Spec.heard o ls = logOf o s.sub := by
    rcases I.heard with ⟨-, h⟩ | ⟨k, n, p, rest, hb, -⟩
    · exact h
    · exact absurd hb.it (idle _ _ _ _)
  have append : ∀ y : Subject.Call α, (∀ n p rest, y ≠ .running n p rest) → Idle (s.sub.calls ++ [y]) := by
    intro y hy k n p rest hk
    rw [List.getElem?_append] at hk
    split at hk
    · exact idle _ _ _ _ hk
    · next hlt =>
      have hk0 : k = s.sub.calls.length := by
        have := (List.getElem?_eq_some_iff.mp hk).1
        simp at this; omega
      subst hk0
      simp at hk
      exact hy _ _ _ hk
  rcases Subject.begin_cases s.sub n with ⟨hd, hb⟩ | ⟨hd, hst, hb⟩ | ⟨hd, hst, hb⟩ <;> rw [hb] at e
  · have ho : (Spec.ear o ls).over = true := by rw [I.over, hd]; rfl
    have he : Spec.ear o (ls ++ [Label.call n]) = Spec.ear o ls := by rw [ear_snoc]; simp [Spec.Ear.next, ho]
    refine ⟨by rw [he, e]; exact I.over, by rw [he, e]; exact I.listening, Or.inl ⟨?_, ?_⟩⟩
    · rw [e]; refine append _ ?_; exact nofun
    · rw [Spec.heard, he, e]; exact hh
  · have ho : (Spec.ear o ls).over = true := by rw [I.over, hst]; simp
    have he : Spec.ear o (ls ++ [Label.call n]) = Spec.ear o ls := by rw [ear_snoc]; simp [Spec.Ear.next, ho]
    refine ⟨by rw [he, e]; exact I.over, by rw [he, e]; exact I.listening, Or.inl ⟨?_, ?_⟩⟩
    · rw [e]; refine append _ ?_; exact nofun
    · rw [Spec.heard, he, e]; exact hh
  · have ho : (Spec.ear o ls).over = false := by rw [I.over, hd, hst]; rfl
    have he : Spec.ear o (ls ++ [Label.call n]) = { Spec.ear o ls with
        heard := if (Spec.ear o ls).listening then (Spec.ear o ls).heard ++ [n] else (Spec.ear o ls).heard
        over := n.isTerminal } := by
      rw [ear_snoc]; simp only [Spec.Ear.next, ho]
      cases n <;> rfl
    have hli := I.listening hd
    have hheard : Spec.heard o (ls ++ [Label.call n]) = logOf o s.sub ++ if o ∈ s.sub.observers then [n] else [] := by
      rw [Spec.heard, he]
      dsimp only
      by_cases hm : o ∈ s.sub.observers
      · rw [if_pos (hli.mpr hm), if_pos hm, ← hh]; rfl
      · rw [if_neg (fun h => hm (hli.mp h)), if_neg hm, List.append_nil, ← hh]; rfl
    refine ⟨?_, ?_, ?_⟩
    · rw [he, e]; simp [hd]
    · rw [he, e]; simpa using I.listening
    · rw [hheard, e, Subject.loop_calls]
      dsimp only
      rw [List.set_append_right _ _ (Nat.le_refl _)]
      simp only [Nat.sub_self, List.set_cons_zero, logOf, Subject.loop_log]
      have hnd := B.nodup
      cases ho : s.sub.observers with
      | nil => left; refine ⟨append _ (by exact nofun), by simp⟩
      | cons q qs =>
        right
        rw [ho] at hnd
        refine ⟨s.sub.calls.length, n, q, qs, ⟨by simp, ?_, hnd⟩, ?_⟩
        · intro k' n' p' rest' hk
          rw [List.getElem?_append] at hk
          split at hk
          · exact absurd hk (idle _ _ _ _)
          · have := (List.getElem?_eq_some_iff.mp hk).1
            simp at this; omega
        · have hq : q ∉ qs := (List.nodup_cons.mp hnd).1
          by_cases hoq : o = q
          · subst hoq; simp [hq]
          · have h1 : (q == o) = false := by simp; exact fun h => hoq h.symm
            simp [hoq, h1]

theorem hears_ret {o k : Nat} {ls : List (Label c)} {s s' : State c} {n : Notif α} {p : Nat} {rest : List Nat} (I : Hears o ls s)
    (hc : s.sub.calls[k]? = some (.running n p rest)) (e : s'.sub = s.sub.loop k n rest) : Hears o (ls ++ [.ret k]) s' := by
  have he : Spec.ear o (ls ++ [Label.ret k]) = Spec.ear o ls := by rw [ear_snoc]; rfl
  refine ⟨by rw [he, e]; simpa using I.over, by rw [he, e]; simpa using I.listening, ?_⟩
  obtain ⟨hb, hh⟩ : Busy s.sub.calls k n p rest ∧ Spec.heard o ls = logOf o s.sub ++ if o ∈ rest then [n] else [] := by
    rcases I.heard with ⟨hi, -⟩ | ⟨k', n', p', rest', hb, hh⟩
    · exact absurd hc (hi _ _ _ _)
    · have := hb.only _ _ _ _ hc; subst this
      have hi := hb.it
      rw [hc] at hi; cases hi
      exact ⟨hb, hh⟩
  have hlt := (List.getElem?_eq_some_iff.mp hc).1
  have hheard : Spec.heard o (ls ++ [Label.ret k]) = Spec.heard o ls := by rw [Spec.heard, he]; rfl
  rw [hheard, hh, e, Subject.loop_calls]
  simp only [logOf, Subject.loop_log]
  cases rest with
  | nil =>
    left
    refine ⟨?_, by simp⟩
    intro k' n' p' rest' hk
    rw [List.getElem?_set] at hk
    split at hk
    · split at hk <;> cases hk <;> contradiction
    · next hne => exact hne (hb.only _ _ _ _ hk).symm
  | cons q qs =>
    right
    have hnd : (q :: qs).Nodup := (List.nodup_cons.mp hb.nodup).2
    refine ⟨k, n, q, qs, ⟨by simp [hlt], ?_, hnd⟩, ?_⟩
    · intro k' n' p' rest' hk
      rw [List.getElem?_set] at hk
      split at hk
      · next hkk => exact hkk.symm
      · exact hb.only _ _ _ _ hk
    · have hq : q ∉ qs := (List.nodup_cons.mp hnd).1
      by_cases hoq : o = q
      · subst hoq; simp [hq]
      · have h1 : (q == o) = false := by simp; exact fun h => hoq h.symm
        simp [hoq, h1]

theorem hears_step {o : Nat} {ls : List (Label c)} {s s' : State c} {l : Label c} (B : Base s) (I : Hears o ls s)
    (hl : ∀ k e, l ≠ .raise k e) (hs : ∀ n, l = .call n → Idle s.sub.calls) (h : step guard s l = some s') :
    Hears o (ls ++ [l]) s' := by
  rcases step_sub h with ⟨n, rfl, e, en⟩ | ⟨k, n, p, rest, rfl, hc, e, en⟩ | ⟨k, x, rfl, e, en⟩ | ⟨p, rfl, hn, hd, e, en⟩ |
    ⟨p, rfl, hn, hd, e, en⟩ | ⟨p, k, o', rfl, hk, hs, e, en⟩ | ⟨p, k, o', g, rfl, hk, hs, e, en⟩ | ⟨rfl, e, en⟩ | ⟨p, l', rfl, e, en⟩
  · exact hears_call B I (hs n rfl) e
  · exact hears_ret I hc e
  · exact absurd rfl (hl k x)
  · refine hears_listen I ?_ ?_ (by rw [e]) (by rw [e]) ?_ (by rw [e]) (by rw [e])
    · rw [ear_snoc]; simp only [Spec.Ear.next]; split <;> rfl
    · rw [ear_snoc]; simp only [Spec.Ear.next]; split <;> rfl
    · rw [hd]; exact nofun
  · refine hears_listen I ?_ ?_ (by rw [e]) (by rw [e]) ?_ (by rw [e]) (by rw [e])
    · rw [ear_snoc]; simp only [Spec.Ear.next]; split <;> rfl
    · rw [ear_snoc]; simp only [Spec.Ear.next]; split <;> rfl
    · intro hd
      rw [ear_snoc, e]; simp only [Spec.Ear.next]
      split
      · next hp => simp [hp]
      · next hp =>
        rw [I.listening hd]
        simp only [List.mem_append, List.mem_singleton]
        exact ⟨Or.inl, fun h => h.resolve_right (fun h => hp h.symm)⟩
  · have hg := (unsubscribed B h).1
    refine hears_listen I ?_ ?_ (by rw [e]) (by rw [e]) ?_ (by rw [e]) (by rw [e])
    · rw [ear_snoc]; simp only [Spec.Ear.next]; split <;> rfl
    · rw [ear_snoc]; simp only [Spec.Ear.next]; split <;> rfl
    · intro hd
      rw [ear_snoc]; simp only [Spec.Ear.next]
      split
      · next hp => subst hp; simpa using hg
      · rw [e]; exact I.listening hd
  · have hg := (unsubscribed B h).1
    have hp' : o' = p := by
      obtain ⟨x, x1, x2⟩ := B.num p k hk
      rw [hs] at x1; cases x1
      rcases x2 with ⟨y, -⟩ | ⟨g', y, -⟩
      · cases y
      · cases y; rfl
    refine hears_listen I ?_ ?_ (by rw [e]) (by rw [e]) ?_ (by rw [e]) (by rw [e])
    · rw [ear_snoc]; simp only [Spec.Ear.next]; split <;> rfl
    · rw [ear_snoc]; simp only [Spec.Ear.next]; split <;> rfl
    · intro hd
      rw [ear_snoc]; simp only [Spec.Ear.next]
      split
      · next hp => subst hp; simpa using hg
      · next hp =>
        rw [e]
        dsimp only
        rw [hp', List.mem_erase_of_ne (fun h => hp h.symm)]
        exact I.listening hd
  · refine ⟨?_, ?_, ?_⟩
    · rw [ear_snoc, e]; simp [Spec.Ear.next]
    · rw [e]; exact nofun
    · have := I.heard
      rw [Spec.heard, ear_snoc, e]
      exact this
  · exact I.same (by rw [ear_snoc]; rfl) (by rw [e]) (by rw [e]) (by rw [e]) (by rw [e]) (by rw [e])

theorem hears_run {ls : List (Label c)} {s : State c} (o : Nat) (hr : LTS.run (step guard) (init c) ls = some s)
    (hq : Spec.Sequential guard ls) (hn : ∀ k e, Label.raise k e ∉ ls) : Hears o ls s := by
  refine (LTS.inv_reach (step := step guard) (s0 := init c) (fun ls s => Base s ∧ (Spec.Sequential guard ls →
    (∀ k e, Label.raise k e ∉ ls) → Hears o ls s)) ?_ ?_ hr).2 hq hn
  · refine ⟨base_run (guard := guard) (ls := []) rfl, fun _ _ => ⟨rfl, ?_, Or.inl ⟨?_, rfl⟩⟩⟩
    · simp [Spec.ear, init, Subject.init]
    · intro k n p rest; simp [init, Subject.init]
  · intro ls s l s' hr ⟨B, ih⟩ h
    refine ⟨base_step B h, fun hq hn => ?_⟩
    have I := ih (fun a n b s ha => hq a n (b ++ [l]) s (by rw [ha]; simp)) (fun k e hm => hn k e (by simp [hm]))
    refine hears_step B I (fun k e he => hn k e (by simp [he])) ?_ h
    intro n hl k n' p rest hk
    exact hq ls n [] s (by rw [hl]) hr _ (List.mem_of_getElem? hk) _ _ _ rfl

theorem ear_concerns (o : Nat) (ls : List (Label c)) : Spec.ear o (ls.filter (Spec.concerns o)) = Spec.ear o ls := by
  have : ∀ (ls : List (Label c)) e, (ls.filter (Spec.concerns o)).foldl (Spec.Ear.next o) e = ls.foldl (Spec.Ear.next o) e := by
    intro ls
    induction ls with
    | nil => intro e; rfl
    | cons l ls ih =>
      intro e
      rw [List.filter_cons]
      split
      · exact ih _
      · next hc =>
        rw [ih, List.foldl_cons]
        congr 1
        cases l <;> simp [Spec.concerns] at hc <;> simp [Spec.Ear.next, hc]
  exact this ls _

end Aio.Hub
