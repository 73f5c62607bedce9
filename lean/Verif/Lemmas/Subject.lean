import Verif.Spec.Subject
/-!
# Invariants of AsyncSubject
-/

namespace Aio.Subject
variable {α : Type} {guard : Bool}

theorem tally_snoc (ls : List (Label α)) (l : Label α) : tally (ls ++ [l]) = (tally ls).next l := by
  simp [tally, List.foldl_append]

theorem passed_snoc (ls : List (Label α)) (l : Label α) : passed (ls ++ [l]) =
    passed ls ++ (match l with | .subscribe o => [o] | _ => []) := by
  rw [passed, List.filterMap_append]; cases l <;> rfl

theorem made_snoc (ls : List (Label α)) (l : Label α) : made (ls ++ [l]) =
    made ls ++ (match l with | .call n => [n] | _ => []) := by
  rw [made, List.filterMap_append]; cases l <;> rfl

@[simp] theorem loop_observers (s : State α) (c n os) : (s.loop c n os).observers = s.observers := by
  cases os <;> rfl
@[simp] theorem loop_disposed (s : State α) (c n os) : (s.loop c n os).isDisposed = s.isDisposed := by
  cases os <;> rfl
@[simp] theorem loop_stopped (s : State α) (c n os) : (s.loop c n os).isStopped = s.isStopped := by
  cases os <;> rfl
@[simp] theorem loop_subs (s : State α) (c n os) : (s.loop c n os).subs = s.subs := by
  cases os <;> rfl
theorem loop_calls (s : State α) (c n os) : (s.loop c n os).calls =
    s.calls.set c (match os with | [] => .returned | o :: rest => .running n o rest) := by
  cases os <;> rfl
theorem loop_log (s : State α) (c n os) : (s.loop c n os).log =
    s.log ++ (match os with | [] => [] | o :: _ => [(c, o, n)]) := by
  cases os <;> simp [State.loop]

/-- `begin`, spelled out -/
theorem begin_cases (s : State α) (n : Notif α) :
    (s.isDisposed = true ∧ s.begin n = { s with calls := s.calls ++ [.raised .objectDisposed] }) ∨
    (s.isDisposed = false ∧ s.isStopped = true ∧ s.begin n = { s with calls := s.calls ++ [.returned] }) ∨
    (s.isDisposed = false ∧ s.isStopped = false ∧
      s.begin n = State.loop { s with isStopped := n.isTerminal, calls := s.calls ++ [.returned] }
        s.calls.length n s.observers) := by
  simp only [State.begin]
  cases hd : s.isDisposed with
  | true => left; simp
  | false =>
    right
    cases hs : s.isStopped with
    | true => left; simp
    | false =>
      right
      refine ⟨rfl, rfl, ?_⟩
      cases n <;> simp [Notif.isTerminal, hs, hd]

@[simp] theorem begin_observers (s : State α) (n) : (s.begin n).observers = s.observers := by
  rcases begin_cases s n with ⟨-, h⟩ | ⟨-, -, h⟩ | ⟨-, -, h⟩ <;> simp [h]
@[simp] theorem begin_disposed (s : State α) (n) : (s.begin n).isDisposed = s.isDisposed := by
  rcases begin_cases s n with ⟨-, h⟩ | ⟨-, -, h⟩ | ⟨-, -, h⟩ <;> simp [h]
@[simp] theorem begin_subs (s : State α) (n) : (s.begin n).subs = s.subs := by
  rcases begin_cases s n with ⟨-, h⟩ | ⟨-, -, h⟩ | ⟨-, -, h⟩ <;> simp [h]
@[simp] theorem begin_length (s : State α) (n) : (s.begin n).calls.length = s.calls.length + 1 := by
  rcases begin_cases s n with ⟨-, h⟩ | ⟨-, -, h⟩ | ⟨-, -, h⟩ <;> simp [h, loop_calls]

theorem step_cases {s s' : State α} {l : Label α} (h : step guard s l = some s') :
    (∃ n, l = .call n ∧ s' = s.begin n) ∨
    (∃ c n o rest, l = .ret c ∧ s.calls[c]? = some (.running n o rest) ∧ s' = s.loop c n rest) ∨
    (∃ c e n o rest, l = .raise c e ∧ s.calls[c]? = some (.running n o rest) ∧
      s' = { s with calls := s.calls.set c (.raised e) }) ∨
    (∃ o, l = .subscribe o ∧ s.isDisposed = true ∧ s' = { s with subs := s.subs ++ [none] }) ∨
    (∃ o, l = .subscribe o ∧ s.isDisposed = false ∧
      s' = { s with observers := s.observers ++ [o], subs := s.subs ++ [some (o, false)] }) ∨
    (∃ k o, l = .unsubscribe k ∧ s.subs[k]? = some (some (o, true)) ∧ guard = true ∧ s' = s) ∨
    (∃ k o g, l = .unsubscribe k ∧ s.subs[k]? = some (some (o, g)) ∧ (guard = true → g = false) ∧
      s' = { s with observers := s.observers.erase o, subs := s.subs.set k (some (o, true)) }) ∨
    (l = .dispose ∧ s' = { s with isDisposed := true }) := by
  cases l with
  | call n => simp only [step, Option.some.injEq] at h; exact .inl ⟨n, rfl, h.symm⟩
  | ret c =>
    simp only [step] at h
    split at h
    next n o rest hc => simp only [Option.some.injEq] at h; exact .inr (.inl ⟨c, n, o, rest, rfl, hc, h.symm⟩)
    next => cases h
  | raise c e =>
    simp only [step] at h
    split at h
    next n o rest hc => simp only [Option.some.injEq] at h; exact .inr (.inr (.inl ⟨c, e, n, o, rest, rfl, hc, h.symm⟩))
    next => cases h
  | subscribe o =>
    simp only [step] at h
    split at h
    next hd => simp only [Option.some.injEq] at h; exact .inr (.inr (.inr (.inl ⟨o, rfl, hd, h.symm⟩)))
    next hd => simp only [Option.some.injEq] at h; exact .inr (.inr (.inr (.inr (.inl ⟨o, rfl, by simpa using hd, h.symm⟩))))
  | unsubscribe k =>
    simp only [step] at h
    split at h
    next o g hk =>
      split at h
      next hg =>
        simp only [Option.some.injEq] at h
        refine .inr (.inr (.inr (.inr (.inr (.inl ⟨k, o, rfl, ?_, hg.1, h.symm⟩)))))
        rw [hk, hg.2]
      next hg =>
        simp only [Option.some.injEq] at h
        refine .inr (.inr (.inr (.inr (.inr (.inr (.inl ⟨k, o, g, rfl, hk, ?_, h.symm⟩))))))
        intro h1
        cases g with
        | false => rfl
        | true => exact absurd ⟨h1, rfl⟩ hg
    next => cases h
  | dispose => simp only [step, Option.some.injEq] at h; exact .inr (.inr (.inr (.inr (.inr (.inr (.inr ⟨rfl, h.symm⟩))))))

/-! ## the subscriptions -/

structure Inv (ls : List (Label α)) (s : State α) : Prop where
  count : s.subs.length = (tally ls).count
  disp : s.isDisposed = (tally ls).disposed
  plen : (passed ls).length = s.subs.length
  pass : ∀ (k o : Nat) (g : Bool), s.subs[k]? = some (some (o, g)) → (passed ls)[k]? = some o
  liveKey : ∀ (k o : Nat), (k, o) ∈ live ls ↔ s.subs[k]? = some (some (o, false))
  keys : ((live ls).map (·.1)).Nodup
  sub : ((live ls).map (·.2)).Sublist (passed ls)
  made : s.calls.length = (made ls).length

theorem mem_live_lt {ls : List (Label α)} {s : State α} (hi : Inv ls s) {k o : Nat} (h : (k, o) ∈ live ls) :
    k < s.subs.length := (List.getElem?_eq_some_iff.mp ((hi.liveKey k o).mp h)).1

theorem inv_step {ls : List (Label α)} {s s' : State α} {l : Label α} (hi : Inv ls s)
    (h : step guard s l = some s') : Inv (ls ++ [l]) s' := by
  have hlive : live (ls ++ [l]) = ((tally ls).next l).live := by rw [live, tally_snoc]
  rcases step_cases h with ⟨n, rfl, rfl⟩ | ⟨c, n, o, rest, rfl, hc, rfl⟩ | ⟨c, e, n, o, rest, rfl, hc, rfl⟩ |
    ⟨o, rfl, hd, rfl⟩ | ⟨o, rfl, hd, rfl⟩ | ⟨k, o, rfl, hk, hg, rfl⟩ | ⟨k, o, g, rfl, hk, hg, rfl⟩ | ⟨rfl, rfl⟩
  · refine ⟨?_, ?_, ?_, ?_, ?_, ?_, ?_, ?_⟩
    · rw [tally_snoc]; simpa [Tally.next] using hi.count
    · rw [tally_snoc]; simpa [Tally.next] using hi.disp
    · rw [passed_snoc]; simpa using hi.plen
    · rw [passed_snoc]; simpa using hi.pass
    · rw [show live (ls ++ [_]) = live ls from hlive]; simpa using hi.liveKey
    · rw [hlive]; exact hi.keys
    · rw [show live (ls ++ [_]) = live ls from hlive, passed_snoc]; simpa using hi.sub
    · rw [made_snoc]; simpa using hi.made
  · refine ⟨?_, ?_, ?_, ?_, ?_, ?_, ?_, ?_⟩
    · rw [tally_snoc]; simpa [Tally.next] using hi.count
    · rw [tally_snoc]; simpa [Tally.next] using hi.disp
    · rw [passed_snoc]; simpa using hi.plen
    · rw [passed_snoc]; simpa using hi.pass
    · rw [show live (ls ++ [_]) = live ls from hlive]; simpa using hi.liveKey
    · rw [hlive]; exact hi.keys
    · rw [show live (ls ++ [_]) = live ls from hlive, passed_snoc]; simpa using hi.sub
    · rw [made_snoc]; simpa [loop_calls] using hi.made
  · refine ⟨?_, ?_, ?_, ?_, ?_, ?_, ?_, ?_⟩
    · rw [tally_snoc]; simpa [Tally.next] using hi.count
    · rw [tally_snoc]; simpa [Tally.next] using hi.disp
    · rw [passed_snoc]; simpa using hi.plen
    · rw [passed_snoc]; simpa using hi.pass
    · rw [show live (ls ++ [_]) = live ls from hlive]; simpa using hi.liveKey
    · rw [hlive]; exact hi.keys
    · rw [show live (ls ++ [_]) = live ls from hlive, passed_snoc]; simpa using hi.sub
    · rw [made_snoc]; simpa using hi.made
  · have hd' : (tally ls).disposed = true := by rw [← hi.disp, hd]
    have hl' : live (ls ++ [Label.subscribe (α := α) o]) = live ls := by
      rw [hlive]; simp [Tally.next, hd', live]
    refine ⟨?_, ?_, ?_, ?_, ?_, ?_, ?_, ?_⟩
    · rw [tally_snoc]; simp [Tally.next, hi.count]
    · rw [tally_snoc]; simpa [Tally.next] using hi.disp
    · rw [passed_snoc]; simp [hi.plen]
    · intro k o' g hk
      dsimp only at hk
      have hlt : k < s.subs.length := by
        rcases Nat.lt_or_ge k s.subs.length with h1 | h1
        · exact h1
        · rw [List.getElem?_append_right h1] at hk
          cases hkk : k - s.subs.length <;> simp [hkk] at hk
      rw [List.getElem?_append_left hlt] at hk
      rw [passed_snoc, List.getElem?_append_left (by rw [hi.plen]; exact hlt)]
      exact hi.pass k o' g hk
    · intro k o'
      rw [hl', hi.liveKey]
      dsimp only
      rcases Nat.lt_or_ge k s.subs.length with h1 | h1
      · rw [List.getElem?_append_left h1]
      · rw [List.getElem?_append_right h1, List.getElem?_eq_none h1]
        cases hkk : k - s.subs.length <;> simp
    · rw [hl']; exact hi.keys
    · rw [hl', passed_snoc]; exact hi.sub.trans (List.sublist_append_left _ _)
    · rw [made_snoc]; simpa using hi.made
  · have hd' : (tally ls).disposed = false := by rw [← hi.disp, hd]
    have hl' : live (ls ++ [Label.subscribe (α := α) o]) = live ls ++ [(s.subs.length, o)] := by
      rw [hlive]; simp [Tally.next, hd', live, hi.count]
    refine ⟨?_, ?_, ?_, ?_, ?_, ?_, ?_, ?_⟩
    · rw [tally_snoc]; simp [Tally.next, hi.count]
    · rw [tally_snoc]; simpa [Tally.next] using hi.disp
    · rw [passed_snoc]; simp [hi.plen]
    · intro k o' g hk
      dsimp only at hk
      rw [passed_snoc]
      rcases Nat.lt_or_ge k s.subs.length with h1 | h1
      · rw [List.getElem?_append_left h1] at hk
        rw [List.getElem?_append_left (by rw [hi.plen]; exact h1)]
        exact hi.pass k o' g hk
      · rw [List.getElem?_append_right h1] at hk
        rw [List.getElem?_append_right (by rw [hi.plen]; exact h1), hi.plen]
        cases hkk : k - s.subs.length <;> simp [hkk] at hk ⊢
        exact hk.1
    · intro k o'
      rw [hl', List.mem_append, hi.liveKey]
      dsimp only
      rcases Nat.lt_or_ge k s.subs.length with h1 | h1
      · rw [List.getElem?_append_left h1]
        simp; intro h2; omega
      · rw [List.getElem?_append_right h1, List.getElem?_eq_none h1]
        cases hkk : k - s.subs.length with
        | zero => simp; constructor
                  · rintro ⟨-, rfl⟩; rfl
                  · rintro rfl; exact ⟨by omega, rfl⟩
        | succ m => simp; omega
    · rw [hl', List.map_append, List.nodup_append]
      refine ⟨hi.keys, by simp, ?_⟩
      intro a ha b hb
      simp only [List.map_cons, List.map_nil, List.mem_singleton] at hb
      simp only [List.mem_map] at ha
      obtain ⟨⟨k, o'⟩, hm, rfl⟩ := ha
      have := mem_live_lt hi hm
      dsimp only; omega
    · rw [hl', passed_snoc, List.map_append]
      exact hi.sub.append (List.Sublist.refl _)
    · rw [made_snoc]; simpa using hi.made
  · have hl' : live (ls ++ [Label.unsubscribe (α := α) k]) = live ls := by
      rw [hlive]
      show (live ls).filter _ = _
      rw [List.filter_eq_self]
      rintro ⟨k', o'⟩ hm
      rw [hi.liveKey] at hm
      simp only [decide_eq_true_eq]
      rintro rfl
      rw [hk] at hm; simp at hm
    refine ⟨?_, ?_, ?_, ?_, ?_, ?_, ?_, ?_⟩
    · rw [tally_snoc]; simpa [Tally.next] using hi.count
    · rw [tally_snoc]; simpa [Tally.next] using hi.disp
    · rw [passed_snoc]; simpa using hi.plen
    · rw [passed_snoc]; simpa using hi.pass
    · rw [hl']; exact hi.liveKey
    · rw [hl']; exact hi.keys
    · rw [hl', passed_snoc]; simpa using hi.sub
    · rw [made_snoc]; simpa using hi.made
  · have hl' : live (ls ++ [Label.unsubscribe (α := α) k]) = (live ls).filter (·.1 ≠ k) := hlive
    have hlt := (List.getElem?_eq_some_iff.mp hk).1
    refine ⟨?_, ?_, ?_, ?_, ?_, ?_, ?_, ?_⟩
    · rw [tally_snoc]; simpa [Tally.next] using hi.count
    · rw [tally_snoc]; simpa [Tally.next] using hi.disp
    · rw [passed_snoc]; simpa using hi.plen
    · intro k' o' g' hk'
      dsimp only at hk'
      rw [passed_snoc, List.append_nil]
      by_cases h1 : k' = k
      · subst h1
        rw [List.getElem?_set_self hlt] at hk'
        simp only [Option.some.injEq, Prod.mk.injEq] at hk'
        rw [← hk'.1]; exact hi.pass _ _ _ hk
      · rw [List.getElem?_set_ne (Ne.symm h1)] at hk'
        exact hi.pass k' o' g' hk'
    · intro k' o'
      rw [hl', List.mem_filter, hi.liveKey]
      dsimp only
      by_cases h1 : k' = k
      · subst h1
        rw [List.getElem?_set_self hlt]; simp
      · rw [List.getElem?_set_ne (Ne.symm h1)]; simp [h1]
    · rw [hl']; exact hi.keys.sublist (List.filter_sublist.map _)
    · rw [hl', passed_snoc, List.append_nil]; exact (List.filter_sublist.map _).trans hi.sub
    · rw [made_snoc]; simpa using hi.made
  · refine ⟨?_, ?_, ?_, ?_, ?_, ?_, ?_, ?_⟩
    · rw [tally_snoc]; simpa [Tally.next] using hi.count
    · rw [tally_snoc]; rfl
    · rw [passed_snoc]; simpa using hi.plen
    · rw [passed_snoc]; simpa using hi.pass
    · rw [hlive]; exact hi.liveKey
    · rw [hlive]; exact hi.keys
    · rw [show live (ls ++ [_]) = live ls from hlive, passed_snoc]; simpa using hi.sub
    · rw [made_snoc]; simpa using hi.made

theorem inv_run {ls : List (Label α)} {s : State α} (hr : LTS.run (step guard) init ls = some s) : Inv ls s := by
  refine LTS.inv_hist Inv ?_ (fun _ _ _ _ => inv_step) hr
  refine ⟨rfl, rfl, rfl, by simp [init], by simp [live, tally, init], by simp [live, tally], by simp [live, tally], rfl⟩

/-! ## the list of observers -/

/-- No observer object was subscribed twice, or no subscription was disposed. -/
theorem observers_step {ls : List (Label α)} {s s' : State α} {l : Label α} (hi : Inv ls s)
    (hu : (passed ls).Nodup ∨ ∀ k, l ≠ .unsubscribe k)
    (ho : s.observers = (live ls).map (·.2))
    (h : step guard s l = some s') : s'.observers = (live (ls ++ [l])).map (·.2) := by
  have hlive : live (ls ++ [l]) = ((tally ls).next l).live := by rw [live, tally_snoc]
  rcases step_cases h with ⟨n, rfl, rfl⟩ | ⟨c, n, o, rest, rfl, hc, rfl⟩ | ⟨c, e, n, o, rest, rfl, hc, rfl⟩ |
    ⟨o, rfl, hd, rfl⟩ | ⟨o, rfl, hd, rfl⟩ | ⟨k, o, rfl, hk, hg, rfl⟩ | ⟨k, o, g, rfl, hk, hg, rfl⟩ | ⟨rfl, rfl⟩
  · rw [show live (ls ++ [_]) = live ls from hlive]; simpa using ho
  · rw [show live (ls ++ [_]) = live ls from hlive]; simpa using ho
  · rw [hlive]; exact ho
  · have hd' : (tally ls).disposed = true := by rw [← hi.disp, hd]
    rw [hlive]; simp only [Tally.next, hd', if_true]; exact ho
  · have hd' : (tally ls).disposed = false := by rw [← hi.disp, hd]
    rw [hlive]; simp only [Tally.next, hd', Bool.false_eq_true, if_false, List.map_append, ho]; rfl
  · rw [hlive]
    show _ = List.map _ ((live ls).filter _)
    rw [List.filter_eq_self.mpr, ho]
    rintro ⟨k', o'⟩ hm
    rw [hi.liveKey] at hm
    simp only [decide_eq_true_eq]
    rintro rfl
    rw [hk] at hm; simp at hm
  · rcases hu with hu | hu
    · rw [hlive]
      show s.observers.erase o = List.map _ ((live ls).filter _)
      rw [ho, (hu.sublist hi.sub).erase_eq_filter, List.filter_map]
      congr 1
      apply List.filter_congr
      rintro ⟨k', o'⟩ hm
      have h1 := hi.pass _ _ _ ((hi.liveKey k' o').mp hm)
      have h2 := hi.pass _ _ _ hk
      obtain ⟨h3, h4⟩ := List.getElem?_eq_some_iff.mp h1
      obtain ⟨h5, h6⟩ := List.getElem?_eq_some_iff.mp h2
      have h7 : o' = o ↔ k' = k := by
        constructor
        · intro h8; exact (List.getElem_inj hu).mp (by rw [h4, h6, h8])
        · rintro rfl; rw [← h4, h6]
      by_cases h8 : k' = k
      · have := h7.mpr h8; simp [h8, this]
      · have h9 : o' ≠ o := fun h9 => h8 (h7.mp h9)
        simp [h8, h9]
    · exact absurd rfl (hu k)
  · rw [hlive]; exact ho

theorem passed_append (a b : List (Label α)) : passed (a ++ b) = passed a ++ passed b := by
  simp [passed]

theorem observers_run {ls : List (Label α)} {s : State α} (hr : LTS.run (step guard) init ls = some s)
    (hu : (passed ls).Nodup ∨ ∀ k, Label.unsubscribe k ∉ ls) : s.observers = (live ls).map (·.2) := by
  have key := LTS.inv_hist (step := step guard) (s0 := init)
    (fun (ls : List (Label α)) s => Inv ls s ∧ (((passed ls).Nodup ∨ ∀ k, Label.unsubscribe k ∉ ls) →
      s.observers = (live ls).map (·.2)))
    ⟨inv_run (guard := guard) rfl, fun _ => rfl⟩
    (fun a s l s' ⟨hi, ho⟩ h => ⟨inv_step hi h, fun hu => by
      refine observers_step hi ?_ (ho ?_) h
      · rcases hu with hu | hu
        · rw [passed_append] at hu; exact .inl (List.nodup_append.mp hu).1
        · right; rintro k rfl; exact hu k (by simp)
      · rcases hu with hu | hu
        · rw [passed_append] at hu; exact .inl (List.nodup_append.mp hu).1
        · right; intro k hk; exact hu k (by simp [hk])⟩) hr
  exact key.2 hu

/-- With the guard, whatever was subscribed and disposed, the right observers are in the list. -/
theorem observers_perm {ls : List (Label α)} {s : State α} (hr : LTS.run (step true) init ls = some s) :
    s.observers.Perm ((live ls).map (·.2)) := by
  have key := LTS.inv_hist (step := step true) (s0 := init)
    (fun (ls : List (Label α)) s => Inv ls s ∧ s.observers.Perm ((live ls).map (·.2)))
    ⟨inv_run (guard := true) rfl, .refl _⟩ ?_ hr
  · exact key.2
  rintro ls s l s' ⟨hi, ho⟩ h
  refine ⟨inv_step hi h, ?_⟩
  have hlive : live (ls ++ [l]) = ((tally ls).next l).live := by rw [live, tally_snoc]
  rcases step_cases h with ⟨n, rfl, rfl⟩ | ⟨c, n, o, rest, rfl, hc, rfl⟩ | ⟨c, e, n, o, rest, rfl, hc, rfl⟩ |
    ⟨o, rfl, hd, rfl⟩ | ⟨o, rfl, hd, rfl⟩ | ⟨k, o, rfl, hk, hg, rfl⟩ | ⟨k, o, g, rfl, hk, hg, rfl⟩ | ⟨rfl, rfl⟩
  · rw [show live (ls ++ [_]) = live ls from hlive]; simpa using ho
  · rw [show live (ls ++ [_]) = live ls from hlive]; simpa using ho
  · rw [hlive]; exact ho
  · have hd' : (tally ls).disposed = true := by rw [← hi.disp, hd]
    rw [hlive]; simp only [Tally.next, hd', if_true]; exact ho
  · have hd' : (tally ls).disposed = false := by rw [← hi.disp, hd]
    rw [hlive]; simp only [Tally.next, hd', Bool.false_eq_true, if_false, List.map_append]
    exact ho.append_right _
  · rw [hlive]
    show List.Perm _ (List.map _ ((live ls).filter _))
    rw [List.filter_eq_self.mpr]
    · exact ho
    rintro ⟨k', o'⟩ hm
    rw [hi.liveKey] at hm
    simp only [decide_eq_true_eq]
    rintro rfl
    rw [hk] at hm; simp at hm
  · rw [hlive]
    show List.Perm (s.observers.erase o) (List.map _ ((live ls).filter _))
    have hm : (k, o) ∈ live ls := (hi.liveKey k o).mpr (by rw [hk, hg rfl])
    refine (ho.erase o).trans ?_
    obtain ⟨a, b, hab⟩ := List.append_of_mem hm
    have hk' := hi.keys
    have hk1 : (live ls).filter (·.1 ≠ k) = a ++ b := by
      rw [hab] at hk' ⊢
      rw [List.filter_append, List.filter_cons]
      simp only [List.map_append, List.map_cons, List.nodup_append, List.nodup_cons, List.mem_map,
        List.mem_cons] at hk'
      rw [List.filter_eq_self.mpr, List.filter_eq_self.mpr]
      · simp
      · intro x hx; simp only [decide_eq_true_eq]; intro h1
        exact hk'.2.1.1 ⟨x, hx, h1⟩
      · intro x hx; simp only [decide_eq_true_eq]; intro h1
        exact hk'.2.2 x.1 ⟨x, hx, rfl⟩ k (.inl rfl) h1
    have hp : ((live ls).map (·.2)).Perm (o :: (a ++ b).map (·.2)) := by
      rw [hab, List.map_append, List.map_cons, List.map_append]
      exact List.perm_middle
    refine (hp.erase o).trans ?_
    rw [List.erase_cons_head]
    show List.Perm _ (List.map _ ((live ls).filter (·.1 ≠ k)))
    rw [hk1]
  · rw [hlive]; exact ho

/-- A disposed subscription is gone for good. -/
theorem tally_gone (b : List (Label α)) (k : Nat) (t : Tally) (h : k < t.count ∧ ∀ o, (k, o) ∉ t.live) :
    ∀ o, (k, o) ∉ (b.foldl Tally.next t).live := by
  induction b generalizing t with
  | nil => exact h.2
  | cons l b ih =>
    refine ih _ ?_
    obtain ⟨h1, h2⟩ := h
    cases l with
    | subscribe o =>
      refine ⟨by simp [Tally.next]; omega, fun o' => ?_⟩
      simp only [Tally.next]
      split
      · exact h2 o'
      · simp [h2 o']; omega
    | unsubscribe k' => exact ⟨h1, fun o' h3 => h2 o' (List.mem_filter.mp h3).1⟩
    | _ => exact ⟨h1, h2⟩

/-! ## flags -/

theorem disposed_iff {ls : List (Label α)} {s : State α} (hr : LTS.run (step guard) init ls = some s) :
    s.isDisposed = true ↔ Disposed ls := by
  refine LTS.inv_hist (step := step guard) (fun (ls : List (Label α)) s => s.isDisposed = true ↔ Disposed ls) ?_ ?_ hr
  · simp [init, Disposed]
  intro ls s l s' hi h
  rcases step_cases h with ⟨n, rfl, rfl⟩ | ⟨c, n, o, rest, rfl, hc, rfl⟩ | ⟨c, e, n, o, rest, rfl, hc, rfl⟩ |
    ⟨o, rfl, hd, rfl⟩ | ⟨o, rfl, hd, rfl⟩ | ⟨k, o, rfl, hk, hg, rfl⟩ | ⟨k, o, g, rfl, hk, hg, rfl⟩ | ⟨rfl, rfl⟩
  all_goals simp_all [Disposed]

theorem ended_snoc (ls : List (Label α)) (l : Label α) : Ended (ls ++ [l]) ↔
    Ended ls ∨ (¬ Disposed ls ∧ ∃ n, l = .call n ∧ ∀ v, n ≠ .next v) := by
  constructor
  · rintro ⟨a, n, b, h, hd, hn⟩
    rcases List.eq_nil_or_concat b with rfl | ⟨b', x, rfl⟩
    · obtain ⟨h1, h2⟩ := List.append_inj' h rfl
      simp only [List.cons.injEq, and_true] at h2
      exact .inr ⟨h1 ▸ hd, n, h2, hn⟩
    · left
      have h' : ls ++ [l] = (a ++ .call n :: b') ++ [x] := by simpa using h
      exact ⟨a, n, b', (List.append_inj' h' rfl).1, hd, hn⟩
  · rintro (⟨a, n, b, h, hd, hn⟩ | ⟨hd, n, rfl, hn⟩)
    · exact ⟨a, n, b ++ [l], by simp [h], hd, hn⟩
    · exact ⟨ls, n, [], rfl, hd, hn⟩

theorem terminal_iff (n : Notif α) : n.isTerminal = true ↔ ∀ v, n ≠ .next v := by
  cases n <;> simp [Notif.isTerminal]

theorem stopped_iff {ls : List (Label α)} {s : State α} (hr : LTS.run (step guard) init ls = some s) :
    s.isStopped = true ↔ Ended ls := by
  refine LTS.inv_reach (step := step guard) (fun (ls : List (Label α)) s => s.isStopped = true ↔ Ended ls) ?_ ?_ hr
  · simp [init, Ended]
  intro ls s l s' hr hi h
  have hd := disposed_iff hr
  rw [ended_snoc, ← hi, ← hd]
  rcases step_cases h with ⟨n, rfl, rfl⟩ | ⟨c, n, o, rest, rfl, hc, rfl⟩ | ⟨c, e, n, o, rest, rfl, hc, rfl⟩ |
    ⟨o, rfl, hd, rfl⟩ | ⟨o, rfl, hd, rfl⟩ | ⟨k, o, rfl, hk, hg, rfl⟩ | ⟨k, o, g, rfl, hk, hg, rfl⟩ | ⟨rfl, rfl⟩
  · rcases begin_cases s n with ⟨h1, h2⟩ | ⟨h1, h3, h2⟩ | ⟨h1, h3, h2⟩
    · simp [h2, h1]
    · simp [h2, h3]
    · simp only [h2, loop_stopped, terminal_iff, h3, h1]
      simp
  all_goals simp

/-! ## one call -/

theorem deliveries_append (c : Nat) (s : State α) (a b) (h : s.log = a ++ b) :
    deliveries c s = (a.filterMap fun x => if x.1 = c then some x.2 else none) ++
      (b.filterMap fun x => if x.1 = c then some x.2 else none) := by
  rw [deliveries, h, List.filterMap_append]

theorem deliveries_eq (c : Nat) (s : State α) :
    deliveries c s = s.log.filterMap fun x => if x.1 = c then some x.2 else none := rfl

theorem deliveries_congr {c : Nat} {s s' : State α} (h : s'.log = s.log) : deliveries c s' = deliveries c s := by
  rw [deliveries, h]; rfl

theorem deliveries_other {c c' : Nat} {s s' : State α} {o n} (hc : c' ≠ c) (h : s'.log = s.log ++ [(c', o, n)]) :
    deliveries c s' = deliveries c s := by
  rw [deliveries_append c s' _ _ h, deliveries_eq]; simp [hc]

theorem deliveries_self {c : Nat} {s s' : State α} {o n} (h : s'.log = s.log ++ [(c, o, n)]) :
    deliveries c s' = deliveries c s ++ [(o, n)] := by
  rw [deliveries_append c s' _ _ h, deliveries_eq]; simp

/-- Deliveries of a call that is not involved do not change, nor does the call. -/
theorem loop_other {c c' : Nat} {s : State α} {n os} (hc : c' ≠ c) :
    (s.loop c' n os).calls[c]? = s.calls[c]? ∧ deliveries c (s.loop c' n os) = deliveries c s := by
  refine ⟨by rw [loop_calls, List.getElem?_set_ne hc], ?_⟩
  cases os with
  | nil => exact deliveries_congr rfl
  | cons o rest => exact deliveries_other (o := o) (n := n) hc rfl

theorem begin_other {c : Nat} {s : State α} {n} (hc : c < s.calls.length) :
    (s.begin n).calls[c]? = s.calls[c]? ∧ deliveries c (s.begin n) = deliveries c s := by
  rcases begin_cases s n with ⟨h1, h2⟩ | ⟨h1, h3, h2⟩ | ⟨h1, h3, h2⟩
  · rw [h2]; exact ⟨List.getElem?_append_left hc, deliveries_congr rfl⟩
  · rw [h2]; exact ⟨List.getElem?_append_left hc, deliveries_congr rfl⟩
  · rw [h2]
    obtain ⟨h4, h5⟩ := loop_other (c := c) (c' := s.calls.length) (n := n) (os := s.observers)
      (s := { s with isStopped := n.isTerminal, calls := s.calls ++ [.returned] }) (by omega)
    exact ⟨h4.trans (List.getElem?_append_left hc), h5.trans (deliveries_congr rfl)⟩

/-- What holds of call number `c`, made with notification `n` when the observers were `os`. -/
def Track (c : Nat) (n : Notif α) (os : List Nat) (ls : List (Label α)) (s : State α) : Prop :=
  ∃ rest : List Nat, deliveries c s ++ rest.map (·, n) = os.map (·, n) ∧
    ((∃ o, s.calls[c]? = some (.running n o rest)) ∨ (s.calls[c]? = some .returned ∧ rest = []) ∨
     (∃ e, s.calls[c]? = some (.raised e) ∧ .raise c e ∈ ls))

theorem Track.lt {c : Nat} {n : Notif α} {os ls s} (h : Track c n os ls s) : c < s.calls.length := by
  obtain ⟨rest, -, h⟩ := h
  rcases h with ⟨o, h⟩ | ⟨h, -⟩ | ⟨e, h, -⟩ <;> exact (List.getElem?_eq_some_iff.mp h).1

theorem track_same {c : Nat} {n : Notif α} {os ls} {s s' : State α} (l) (h : Track c n os ls s)
    (h1 : s'.calls[c]? = s.calls[c]?) (h2 : deliveries c s' = deliveries c s) : Track c n os (ls ++ [l]) s' := by
  obtain ⟨rest, h3, h4⟩ := h
  refine ⟨rest, h2 ▸ h3, ?_⟩
  rw [h1]
  rcases h4 with h4 | h4 | ⟨e, h4, h5⟩
  · exact .inl h4
  · exact .inr (.inl h4)
  · exact .inr (.inr ⟨e, h4, by simp [h5]⟩)

theorem track_step {c : Nat} {n : Notif α} {os ls} {s s' : State α} {l} (hi : Track c n os ls s)
    (h : step guard s l = some s') : Track c n os (ls ++ [l]) s' := by
  rcases step_cases h with ⟨m, rfl, rfl⟩ | ⟨c', m, o, rest, rfl, hc, rfl⟩ | ⟨c', e, m, o, rest, rfl, hc, rfl⟩ |
    ⟨o, rfl, hd, rfl⟩ | ⟨o, rfl, hd, rfl⟩ | ⟨k, o, rfl, hk, hg, rfl⟩ | ⟨k, o, g, rfl, hk, hg, rfl⟩ | ⟨rfl, rfl⟩
  · exact track_same _ hi (begin_other hi.lt).1 (begin_other hi.lt).2
  · by_cases hcc : c' = c
    · subst hcc
      have hlt := hi.lt
      obtain ⟨rest', h3, h4⟩ := hi
      rw [hc] at h4
      rcases h4 with ⟨o', h4⟩ | ⟨h4, -⟩ | ⟨e, h4, -⟩
      · simp only [Option.some.injEq, Call.running.injEq] at h4
        obtain ⟨rfl, -, rfl⟩ := h4
        cases rest with
        | nil =>
          refine ⟨[], ?_, .inr (.inl ⟨?_, rfl⟩)⟩
          · exact h3
          · rw [loop_calls, List.getElem?_set_self hlt]
        | cons o2 rest =>
          refine ⟨rest, ?_, .inl ⟨o2, ?_⟩⟩
          · rw [deliveries_self (s := s) (c := c') (o := o2) (n := m) rfl, ← h3]; simp
          · rw [loop_calls, List.getElem?_set_self hlt]
      · simp at h4
      · simp at h4
    · exact track_same _ hi (loop_other hcc).1 (loop_other hcc).2
  · by_cases hcc : c' = c
    · subst hcc
      have hlt := hi.lt
      obtain ⟨rest', h3, h4⟩ := hi
      refine ⟨rest', h3, .inr (.inr ⟨e, ?_, by simp⟩)⟩
      exact List.getElem?_set_self hlt
    · exact track_same _ hi (List.getElem?_set_ne hcc) rfl
  all_goals exact track_same _ hi rfl rfl

theorem track_begin {s : State α} {n : Notif α} (h0 : deliveries s.calls.length s = [])
    (hd : s.isDisposed = false) (hs : s.isStopped = false) :
    Track s.calls.length n s.observers [] (s.begin n) := by
  rcases begin_cases s n with ⟨h1, -⟩ | ⟨-, h1, -⟩ | ⟨-, -, h2⟩
  · rw [hd] at h1; cases h1
  · rw [hs] at h1; cases h1
  · rw [h2]
    have hlt : s.calls.length < (s.calls ++ [(Call.returned : Call α)]).length := by simp
    cases hos : s.observers with
    | nil =>
      refine ⟨[], ?_, .inr (.inl ⟨?_, rfl⟩)⟩
      · rw [List.map_nil, List.append_nil]; exact h0
      · rw [loop_calls, List.getElem?_set_self hlt]
    | cons o rest =>
      refine ⟨rest, ?_, .inl ⟨o, ?_⟩⟩
      · rw [deliveries_self (s := s) (c := s.calls.length) (o := o) (n := n) rfl, h0]; rfl
      · rw [loop_calls, List.getElem?_set_self hlt]

/-- A call that is over stays as it is. -/
def Over (c : Nat) (x : Call α) (d : List (Nat × Notif α)) (s : State α) : Prop :=
  s.calls[c]? = some x ∧ (∀ n o rest, x ≠ .running n o rest) ∧ deliveries c s = d

theorem over_step {c : Nat} {x : Call α} {d} {s s' : State α} {l} (hi : Over c x d s)
    (h : step guard s l = some s') : Over c x d s' := by
  obtain ⟨h1, h2, h3⟩ := hi
  have hlt := (List.getElem?_eq_some_iff.mp h1).1
  rcases step_cases h with ⟨m, rfl, rfl⟩ | ⟨c', m, o, rest, rfl, hc, rfl⟩ | ⟨c', e, m, o, rest, rfl, hc, rfl⟩ |
    ⟨o, rfl, hd, rfl⟩ | ⟨o, rfl, hd, rfl⟩ | ⟨k, o, rfl, hk, hg, rfl⟩ | ⟨k, o, g, rfl, hk, hg, rfl⟩ | ⟨rfl, rfl⟩
  · exact ⟨(begin_other hlt).1.trans h1, h2, (begin_other hlt).2.trans h3⟩
  · have hcc : c' ≠ c := by
      rintro rfl; rw [hc] at h1; exact h2 _ _ _ (Option.some.inj h1).symm
    exact ⟨(loop_other hcc).1.trans h1, h2, (loop_other hcc).2.trans h3⟩
  · have hcc : c' ≠ c := by
      rintro rfl; rw [hc] at h1; exact h2 _ _ _ (Option.some.inj h1).symm
    exact ⟨(List.getElem?_set_ne hcc).trans h1, h2, h3⟩
  all_goals exact ⟨h1, h2, h3⟩

/-- Log entries belong to calls that were made. -/
theorem log_lt {ls : List (Label α)} {s : State α} (hr : LTS.run (step guard) init ls = some s) :
    ∀ x ∈ s.log, x.1 < s.calls.length := by
  refine LTS.inv (step := step guard) (fun (s : State α) => ∀ x ∈ s.log, x.1 < s.calls.length) ?_ ?_ hr
  · simp [init]
  intro s l s' hi h x hx
  have hloop : ∀ (s : State α) c n os, (∀ x ∈ s.log, x.1 < s.calls.length) → c < s.calls.length →
      ∀ x ∈ (s.loop c n os).log, x.1 < (s.loop c n os).calls.length := by
    intro s c n os h1 h2 x hx
    rw [loop_log] at hx
    rw [loop_calls, List.length_set]
    rcases List.mem_append.mp hx with hx | hx
    · exact h1 x hx
    · cases os <;> simp at hx; subst hx; exact h2
  rcases step_cases h with ⟨m, rfl, rfl⟩ | ⟨c', m, o, rest, rfl, hc, rfl⟩ | ⟨c', e, m, o, rest, rfl, hc, rfl⟩ |
    ⟨o, rfl, hd, rfl⟩ | ⟨o, rfl, hd, rfl⟩ | ⟨k, o, rfl, hk, hg, rfl⟩ | ⟨k, o, g, rfl, hk, hg, rfl⟩ | ⟨rfl, rfl⟩
  · rcases begin_cases s m with ⟨h1, h2⟩ | ⟨h1, h3, h2⟩ | ⟨h1, h3, h2⟩
    · rw [h2] at hx ⊢; have := hi x hx; simp; omega
    · rw [h2] at hx ⊢; have := hi x hx; simp; omega
    · rw [h2] at hx ⊢
      refine hloop _ _ _ _ ?_ ?_ x hx
      · intro y hy; have := hi y hy; simp; omega
      · simp
  · exact hloop s _ _ _ hi (List.getElem?_eq_some_iff.mp hc).1 x hx
  · simpa using hi x hx
  all_goals exact hi x hx

theorem fresh_deliveries {ls : List (Label α)} {s : State α} (hr : LTS.run (step guard) init ls = some s) :
    deliveries s.calls.length s = [] := by
  rw [deliveries_eq, List.filterMap_eq_nil_iff]
  intro x hx
  have := log_lt hr x hx
  rw [if_neg (by omega)]

/-- Call number `c` sends a terminal: it has delivered one, or is about to. -/
def Sends (c : Nat) (s : State α) : Prop :=
  (∃ o n, (c, o, n) ∈ s.log ∧ n.isTerminal = true) ∨
  (∃ n o rest, s.calls[c]? = some (.running n o rest) ∧ n.isTerminal = true)

def Sole (s : State α) : Prop :=
  (s.isStopped = false → ∀ c, ¬ Sends c s) ∧ ∀ c c', Sends c s → Sends c' s → c = c'

theorem sends_loop {s : State α} {c c' : Nat} {n : Notif α} {os} (hlt : c' < s.calls.length)
    (h : Sends c (s.loop c' n os)) : Sends c s ∨ (c = c' ∧ n.isTerminal = true) := by
  rcases h with ⟨o, m, h, ht⟩ | ⟨m, o, rest, h, ht⟩
  · rw [loop_log] at h
    rcases List.mem_append.mp h with h | h
    · exact .inl (.inl ⟨o, m, h, ht⟩)
    · cases os with
      | nil => cases h
      | cons o2 os =>
        simp only [List.mem_singleton, Prod.mk.injEq] at h
        obtain ⟨rfl, -, rfl⟩ := h
        exact .inr ⟨rfl, ht⟩
  · rw [loop_calls] at h
    by_cases hc : c' = c
    · subst hc
      rw [List.getElem?_set_self hlt] at h
      cases os with
      | nil => simp at h
      | cons o2 os =>
        simp only [Option.some.injEq, Call.running.injEq] at h
        exact .inr ⟨rfl, h.1 ▸ ht⟩
    · rw [List.getElem?_set_ne hc] at h
      exact .inl (.inr ⟨m, o, rest, h, ht⟩)

theorem sends_push {s : State α} {c : Nat} {x : Call α} (hx : ∀ n o rest, x ≠ .running n o rest) {b : Bool}
    (h : Sends c { s with calls := s.calls ++ [x], isStopped := b }) : Sends c s := by
  rcases h with h | ⟨m, o, rest, h, ht⟩
  · exact .inl h
  · dsimp only at h
    rcases Nat.lt_or_ge c s.calls.length with h1 | h1
    · rw [List.getElem?_append_left h1] at h; exact .inr ⟨m, o, rest, h, ht⟩
    · rw [List.getElem?_append_right h1] at h
      cases hk : c - s.calls.length with
      | zero => simp [hk] at h; exact absurd h (hx _ _ _)
      | succ k => simp [hk] at h

theorem sole_run {ls : List (Label α)} {s : State α} (hr : LTS.run (step guard) init ls = some s) : Sole s := by
  refine LTS.inv (step := step guard) (fun (s : State α) => Sole s) ?_ ?_ hr
  · simp [init, Sole, Sends]
  intro s l s' hi h
  have mono : ∀ s' : State α, (s'.isStopped = false → s.isStopped = false) → (∀ c, Sends c s' → Sends c s) → Sole s' :=
    fun s' h1 h2 => ⟨fun h3 c h4 => hi.1 (h1 h3) c (h2 c h4), fun c c' h3 h4 => hi.2 c c' (h2 c h3) (h2 c' h4)⟩
  rcases step_cases h with ⟨m, rfl, rfl⟩ | ⟨c', m, o, rest, rfl, hc, rfl⟩ | ⟨c', e, m, o, rest, rfl, hc, rfl⟩ |
    ⟨o, rfl, hd, rfl⟩ | ⟨o, rfl, hd, rfl⟩ | ⟨k, o, rfl, hk, hg, rfl⟩ | ⟨k, o, g, rfl, hk, hg, rfl⟩ | ⟨rfl, rfl⟩
  · rcases begin_cases s m with ⟨h1, h2⟩ | ⟨h1, h3, h2⟩ | ⟨h1, h3, h2⟩
    · rw [h2]; exact mono _ (fun h => h) (fun c => sends_push (b := s.isStopped) (by simp))
    · rw [h2]; exact mono _ (fun h => h) (fun c => sends_push (b := s.isStopped) (by simp))
    · rw [h2]
      have key : ∀ c, Sends c (State.loop { s with isStopped := m.isTerminal, calls := s.calls ++ [.returned] }
          s.calls.length m s.observers) → c = s.calls.length ∧ m.isTerminal = true := by
        intro c hc
        rcases sends_loop (by simp) hc with hc | hc
        · exact absurd (sends_push (by simp) hc) (hi.1 h3 c)
        · exact hc
      refine ⟨fun h4 c h5 => ?_, fun c c' h4 h5 => (key c h4).1.trans (key c' h5).1.symm⟩
      have := (key c h5).2
      rw [loop_stopped] at h4
      simp [this] at h4
  · refine mono _ (by simp) fun c h1 => ?_
    rcases sends_loop (List.getElem?_eq_some_iff.mp hc).1 h1 with h2 | ⟨rfl, h2⟩
    · exact h2
    · exact .inr ⟨m, o, rest, hc, h2⟩
  · refine mono _ (by simp) fun c h1 => ?_
    rcases h1 with h1 | ⟨m', o', rest', h1, h2⟩
    · exact .inl h1
    · dsimp only at h1
      by_cases hcc : c' = c
      · subst hcc; rw [List.getElem?_set_self (List.getElem?_eq_some_iff.mp hc).1] at h1; simp at h1
      · rw [List.getElem?_set_ne hcc] at h1; exact .inr ⟨m', o', rest', h1, h2⟩
  all_goals exact mono _ (fun h => h) (fun c h => h)

theorem split_made (ls : List (Label α)) (c : Nat) (h : c < (made ls).length) :
    ∃ a n b, ls = a ++ .call n :: b ∧ (made a).length = c := by
  induction ls generalizing c with
  | nil => simp [made] at h
  | cons l ls ih =>
    have skip : made (l :: ls) = made ls → ∃ a n b, l :: ls = a ++ .call n :: b ∧ (made a).length = c := by
      intro h1
      obtain ⟨a, n, b, h2, h3⟩ := ih c (h1 ▸ h)
      refine ⟨l :: a, n, b, by simp [h2], ?_⟩
      have h4 : made (l :: a) = made a := by
        cases l with
        | call m => have := congrArg List.length h1; simp [made] at this
        | _ => rfl
      rw [h4, h3]
    cases l with
    | call n =>
      cases c with
      | zero => exact ⟨[], n, ls, rfl, rfl⟩
      | succ c =>
        obtain ⟨a, m, b, h2, h3⟩ := ih c (by simpa [made] using h)
        exact ⟨.call n :: a, m, b, by simp [h2], by simpa [made] using h3⟩
    | _ => exact skip rfl

end Aio.Subject
