import Verif.Model.Detach
import Verif.Lemmas.Subject
import Verif.Lemmas.Safe
import Verif.Lemmas.Pipeline
import Verif.Props.C06_AutoDetach
/-!
# Lemmas about one subscription with `auto_detach` over a subject
-/

namespace Aio.AutoDetach

theorem step_disposed {k : Bool} {a a' : State} {l : Label} (h : step k a l = some a') :
    a'.disposed = a.disposed ∨ ∃ d, a'.disposed = a.disposed ++ [d] := by
  obtain ⟨inbox, pc, c, ds⟩ := a
  cases l with
  | register d => simp only [step, Option.some.injEq] at h; subst h; exact .inl rfl
  | cancel => simp only [step, Option.some.injEq] at h; subst h; exact .inl rfl
  | start => cases pc <;> simp [step] at h; subst h; exact .inl rfl
  | receive =>
    cases pc <;> simp [step] at h
    next l =>
      cases inbox with
      | nil => simp at h
      | cons m q =>
        cases m with
        | disposable d => simp at h; subst h; exact .inl rfl
        | dispose =>
          simp at h; subst h
          cases l with
          | nil => exact .inl rfl
          | cons d l => exact .inr ⟨d, rfl⟩
  | ret =>
    cases pc <;> simp [step] at h
    next cur l =>
      subst h
      cases l with
      | nil => exact .inl rfl
      | cons d l => exact .inr ⟨d, rfl⟩
  | raise => cases pc <;> simp [step] at h; subst h; exact .inl rfl

/-- Everything that the worker knows was registered. -/
def Knows (r : List Nat) (a : State) : Prop :=
  (∀ d, .disposable d ∈ a.inbox → d ∈ r) ∧ (∀ d ∈ a.disposed, d ∈ r) ∧
  (∀ ds, a.pc = .waiting ds → ∀ d ∈ ds, d ∈ r) ∧ (∀ c ds, a.pc = .disposing c ds → ∀ d ∈ ds, d ∈ r)

theorem knows_mono {r r' : List Nat} {a : State} (h : Knows r a) (hr : ∀ d ∈ r, d ∈ r') : Knows r' a :=
  ⟨fun d hd => hr d (h.1 d hd), fun d hd => hr d (h.2.1 d hd), fun ds hp d hd => hr d (h.2.2.1 ds hp d hd),
    fun c ds hp d hd => hr d (h.2.2.2 c ds hp d hd)⟩

theorem knows_loop {r : List Nat} {a : State} (h : Knows r a) {ds : List Nat} (hd : ∀ d ∈ ds, d ∈ r) :
    Knows r (disposeLoop a ds) := by
  cases ds with
  | nil => exact ⟨h.1, h.2.1, by simp [disposeLoop], by simp [disposeLoop]⟩
  | cons x ds =>
    refine ⟨h.1, ?_, by simp [disposeLoop], ?_⟩
    · intro d hm
      simp only [disposeLoop, List.mem_append, List.mem_singleton] at hm
      rcases hm with hm | rfl
      · exact h.2.1 d hm
      · exact hd d (by simp)
    · intro c ds' hp d hm
      simp only [disposeLoop, PC.disposing.injEq] at hp
      exact hd d (by simp [hp.2, hm])

theorem knows_step {k : Bool} {r : List Nat} {a a' : State} {l : Label} (hk : Knows r a)
    (hl : ∀ d, l = .register d → d ∈ r) (h : step k a l = some a') : Knows r a' := by
  obtain ⟨inbox, pc, c, ds⟩ := a
  obtain ⟨k1, k2, k3, k4⟩ := hk
  simp only at k1 k2 k3 k4
  cases l with
  | register d =>
    simp only [step, Option.some.injEq] at h; subst h
    refine ⟨fun x hx => ?_, k2, k3, k4⟩
    simp only [List.mem_append, List.mem_singleton, Msg.disposable.injEq] at hx
    rcases hx with hx | rfl
    · exact k1 x hx
    · exact hl x rfl
  | cancel =>
    simp only [step, Option.some.injEq] at h; subst h
    refine ⟨fun x hx => k1 x (by simpa using hx), k2, fun ds' hp => ?_, fun c ds' hp => ?_⟩
    · cases pc <;> cases k <;> simp at hp
      next l => exact k3 ds' (by simp [hp])
    · cases pc <;> cases k <;> simp at hp
      · exact k4 c ds' (by simp [hp])
      · exact k4 c ds' (by simp [hp])
  | start =>
    cases pc <;> simp [step] at h
    subst h
    refine ⟨k1, k2, fun ds' hp => ?_, fun c' ds' hp => ?_⟩ <;> cases c <;> simp [loopHead] at hp
    subst hp; simp
  | receive =>
    cases pc <;> simp [step] at h
    next l =>
      cases inbox with
      | nil => simp at h
      | cons m q =>
        cases m with
        | disposable d =>
          simp at h; subst h
          refine ⟨fun x hx => k1 x (by simp [hx]), k2, fun ds' hp => ?_, fun c' ds' hp => ?_⟩
          · cases c <;> simp [loopHead] at hp
            subst hp
            intro x hx
            simp only [List.mem_append, List.mem_singleton] at hx
            rcases hx with hx | rfl
            · exact k3 l rfl x hx
            · exact k1 x (by simp)
          · cases c <;> simp [loopHead] at hp
        | dispose =>
          simp at h; subst h
          exact knows_loop ⟨fun x hx => k1 x (List.mem_cons_of_mem _ hx), k2, k3, k4⟩ (k3 l rfl)
  | ret =>
    cases pc <;> simp [step] at h
    next cur l =>
      subst h
      exact knows_loop ⟨k1, k2, k3, k4⟩ (k4 cur l rfl)
  | raise =>
    cases pc <;> simp [step] at h
    subst h
    exact ⟨k1, k2, by simp, by simp⟩

end Aio.AutoDetach

namespace Aio.Detach
variable {α β : Type} {w : Wrap α β} {guard kill : Bool}

theorem mine_append (a b : List (Nat × Nat × Notif α)) : mine (a ++ b) = mine a ++ mine b := by
  simp [mine]

/-- The operator's observer as a message handler. -/
abbrev front (w : Wrap α β) : Agent (w.τ × Unit) (Notif α) (Notif β) := Agent.ofObserver (w.obs Observer.post) (w.init, ())

theorem feed_all (ns : List (Notif α)) : ∀ s : State w, ns.foldl State.feed s =
    { s with front := ((front w).run s.front ns).1, posts := s.posts ++ ((front w).run s.front ns).2,
             safe := { s.safe with inbox := s.safe.inbox ++ ((front w).run s.front ns).2 } } := by
  induction ns with
  | nil => intro s; simp [Agent.run]
  | cons n ns ih =>
    intro s
    rw [List.foldl_cons, ih, Agent.run_cons]
    simp [State.feed, Agent.ofObserver]

theorem moved_eq (s : State w) (sub : Subject.State α) : s.moved sub =
    let r := (front w).run s.front (mine (sub.log.drop s.sub.log.length))
    { s with sub := sub, front := r.1, posts := s.posts ++ r.2, safe := { s.safe with inbox := s.safe.inbox ++ r.2 } } := by
  rw [State.moved, feed_all]

theorem safe_inv_posts {p : List (Notif β)} {s : Safe.State β} (h : Safe.Inv p s) (o : List (Notif β)) :
    Safe.Inv (p ++ o) { s with inbox := s.inbox ++ o } := by
  obtain ⟨vs, c, t, rfl, hl, hs⟩ := h
  exact ⟨vs, c, t, by simp, hl, hs⟩

/-- What the subject knows of observer 0, whose subscription is `num`; `g`: that one was disposed. -/
structure Knows (num : Option Nat) (g : Bool) (sub : Subject.State α) : Prop where
  own : ∀ k, num = some k → sub.subs[k]? = some (some (0, g))
  only : ∀ k b, sub.subs[k]? = some (some (0, b)) → num = some k
  count : sub.observers.count 0 = if num.isSome && !g then 1 else 0

theorem log_grows {s s' : Subject.State α} {l : Subject.Label α} (h : Subject.step guard s l = some s') :
    ∃ d, s'.log = s.log ++ d := by
  rcases Subject.step_cases h with ⟨n, rfl, rfl⟩ | ⟨c, n, o, rest, rfl, hc, rfl⟩ | ⟨c, e, n, o, rest, rfl, hc, rfl⟩ |
    ⟨o, rfl, hd, rfl⟩ | ⟨o, rfl, hd, rfl⟩ | ⟨k, o, rfl, hk, hg, rfl⟩ | ⟨k, o, g, rfl, hk, hg, rfl⟩ | ⟨rfl, rfl⟩
  · rcases Subject.begin_cases s n with ⟨-, h⟩ | ⟨-, -, h⟩ | ⟨-, -, h⟩
    · exact ⟨[], by simp [h]⟩
    · exact ⟨[], by simp [h]⟩
    · exact ⟨_, by rw [h, Subject.loop_log]⟩
  · exact ⟨_, Subject.loop_log ..⟩
  all_goals exact ⟨[], by simp⟩

theorem knows_others {num : Option Nat} {g : Bool} {s s' : Subject.State α} {l : Subject.Label α} (hk : Knows num g s)
    (ho : others num l = true) (h : Subject.step guard s l = some s') : Knows num g s' := by
  obtain ⟨h1, h2, h3⟩ := hk
  have set_own : ∀ (k o : Nat), num ≠ some k → ∀ j, num = some j → (s.subs.set k (some (o, true)))[j]? = some (some (0, g)) := by
    intro k o hk j hj
    have : k ≠ j := by rintro rfl; exact hk hj
    rw [List.getElem?_set_ne this]; exact h1 j hj
  rcases Subject.step_cases h with ⟨n, rfl, rfl⟩ | ⟨c, n, o, rest, rfl, hc, rfl⟩ | ⟨c, e, n, o, rest, rfl, hc, rfl⟩ |
    ⟨o, rfl, hd, rfl⟩ | ⟨o, rfl, hd, rfl⟩ | ⟨k, o, rfl, hk, hg, rfl⟩ | ⟨k, o, g', rfl, hk, hg, rfl⟩ | ⟨rfl, rfl⟩
  · exact ⟨by simpa using h1, by simpa using h2, by simpa using h3⟩
  · exact ⟨by simpa using h1, by simpa using h2, by simpa using h3⟩
  · exact ⟨h1, h2, h3⟩
  · refine ⟨fun k hk => ?_, fun k b hk => ?_, h3⟩
    · have := h1 k hk
      rw [List.getElem?_append_left (List.getElem?_eq_some_iff.mp this).1]; exact this
    · rw [List.getElem?_append] at hk
      split at hk
      · exact h2 k b hk
      · rw [List.getElem?_singleton] at hk; split at hk <;> simp at hk
  · have ho' : o ≠ 0 := by simpa [others] using ho
    refine ⟨fun k hk => ?_, fun k b hk => ?_, ?_⟩
    · have := h1 k hk
      dsimp only
      rw [List.getElem?_append_left (List.getElem?_eq_some_iff.mp this).1]; exact this
    · dsimp only at hk
      rw [List.getElem?_append] at hk
      split at hk
      · exact h2 k b hk
      · rw [List.getElem?_singleton] at hk
        split at hk <;> simp at hk
        exact absurd hk.1 ho'
    · dsimp only
      rw [List.count_append, h3, List.count_singleton]; simp [ho']
  · exact ⟨h1, h2, h3⟩
  · have hne : num ≠ some k := by simpa [others] using ho
    have ho' : o ≠ 0 := by rintro rfl; exact hne (h2 k g' hk)
    refine ⟨set_own k o hne, fun j b hj => ?_, ?_⟩
    · dsimp only at hj
      rw [List.getElem?_set] at hj
      split at hj
      · split at hj
        · simp at hj; exact absurd hj.1 ho'
        · simp at hj
      · exact h2 j b hj
    · dsimp only
      rw [List.count_erase]; simp [ho', h3]
  · exact ⟨h1, h2, h3⟩

theorem knows_unsubscribe {k : Nat} {g : Bool} {s : Subject.State α} (hk : Knows (some k) g s) :
    Knows (some k) true (unsubscribe guard s k) := by
  obtain ⟨h1, h2, h3⟩ := hk
  have hs := h1 k rfl
  unfold unsubscribe
  simp only [Subject.step, hs]
  split
  next hg =>
    have : g = true := hg.2
    subst this
    exact ⟨h1, h2, h3⟩
  next hg =>
    refine ⟨fun j hj => ?_, fun j b hj => ?_, ?_⟩
    · cases hj
      simp only [Option.getD_some]
      rw [List.getElem?_set_self (List.getElem?_eq_some_iff.mp hs).1]
    · simp only [Option.getD_some] at hj
      rw [List.getElem?_set] at hj
      split at hj
      next he => rw [he]
      next => exact h2 j b hj
    · simp only [Option.getD_some]
      rw [List.count_erase, h3]; cases g <;> simp

theorem unsubscribe_log (s : Subject.State α) (k : Nat) : (unsubscribe guard s k).log = s.log := by
  unfold unsubscribe
  simp only [Subject.step]
  split
  · split <;> rfl
  · rfl

theorem unsubscribe_disposed (s : Subject.State α) (k : Nat) : (unsubscribe guard s k).isDisposed = s.isDisposed := by
  unfold unsubscribe
  simp only [Subject.step]
  split
  · split <;> rfl
  · rfl

/-! ## the subject and observer 0 -/

theorem unsubscribe_calls (s : Subject.State α) (k : Nat) : (unsubscribe guard s k).calls = s.calls := by
  unfold unsubscribe
  simp only [Subject.step]
  split
  · split <;> rfl
  · rfl

theorem unsubscribe_not_mem {s : Subject.State α} {k : Nat} (h : 0 ∉ s.observers) : 0 ∉ (unsubscribe guard s k).observers := by
  unfold unsubscribe
  simp only [Subject.step]
  split
  · split
    · exact h
    · exact fun h' => h (List.mem_of_mem_erase h')
  · exact h

/-- Observer 0 is out of the subject's list for calls from `N` on. -/
structure Off (N : Nat) (s : Subject.State α) : Prop where
  obs : 0 ∉ s.observers
  len : N ≤ s.calls.length
  run : ∀ (c : Nat) n o rest, N ≤ c → s.calls[c]? = some (.running n o rest) → 0 ∉ o :: rest
  log : ∀ x ∈ s.log, x.2.1 = 0 → x.1 < N

theorem off_loop {N c : Nat} {sub : Subject.State α} {n : Notif α} {os : List Nat} (hos : N ≤ c → 0 ∉ os)
    (h1 : ∀ (c : Nat) n o rest, N ≤ c → sub.calls[c]? = some (.running n o rest) → 0 ∉ o :: rest)
    (h2 : ∀ x ∈ sub.log, x.2.1 = 0 → x.1 < N) :
    (∀ (c' : Nat) n' o rest, N ≤ c' → (sub.loop c n os).calls[c']? = some (.running n' o rest) → 0 ∉ o :: rest) ∧
    (∀ x ∈ (sub.loop c n os).log, x.2.1 = 0 → x.1 < N) := by
  constructor
  · intro c' n' o rest hc' hx
    rw [Subject.loop_calls, List.getElem?_set] at hx
    split at hx
    next he =>
      subst he
      split at hx
      · cases os with
        | nil => simp at hx
        | cons a as => simp at hx; obtain ⟨-, rfl, rfl⟩ := hx; exact hos hc'
      · simp at hx
    next => exact h1 c' n' o rest hc' hx
  · intro x hx hx0
    rw [Subject.loop_log] at hx
    rcases List.mem_append.mp hx with hx | hx
    · exact h2 x hx hx0
    · cases os with
      | nil => simp at hx
      | cons a as =>
        simp at hx
        subst hx
        simp only at hx0 ⊢
        subst hx0
        apply Nat.lt_of_not_le
        intro hle
        exact hos hle (by simp)

theorem off_unsubscribe {N k : Nat} {s : Subject.State α} (h : Off N s) : Off N (unsubscribe guard s k) :=
  ⟨unsubscribe_not_mem h.obs, by rw [unsubscribe_calls]; exact h.len, by rw [unsubscribe_calls]; exact h.run,
    by rw [unsubscribe_log]; exact h.log⟩

theorem off_others {N : Nat} {num : Option Nat} {s s' : Subject.State α} {l : Subject.Label α} (hi : Off N s)
    (ho : others num l = true) (h1 : Subject.step guard s l = some s') : Off N s' := by
  suffices hh : 0 ∉ s'.observers ∧ N ≤ s'.calls.length ∧
      (∀ (c : Nat) n o rest, N ≤ c → s'.calls[c]? = some (.running n o rest) → 0 ∉ o :: rest) ∧
      (∀ x ∈ s'.log, x.2.1 = 0 → x.1 < N) from ⟨hh.1, hh.2.1, hh.2.2.1, hh.2.2.2⟩
  rcases Subject.step_cases h1 with ⟨n, rfl, rfl⟩ | ⟨c, n, o, rest, rfl, hc, rfl⟩ | ⟨c, e, n, o, rest, rfl, hc, rfl⟩ |
    ⟨o, rfl, hd, rfl⟩ | ⟨o, rfl, hd, rfl⟩ | ⟨k, o, rfl, hk, hg, rfl⟩ | ⟨k, o, g', rfl, hk, hg, rfl⟩ | ⟨rfl, rfl⟩
  · refine ⟨by simpa using hi.obs, by rw [Subject.begin_length]; have := hi.len; omega, ?_⟩
    have happ : ∀ x : Subject.Call α, (∀ n o rest, x ≠ .running n o rest) →
        ∀ (c : Nat) n o rest, N ≤ c → (s.calls ++ [x])[c]? = some (.running n o rest) → 0 ∉ o :: rest := by
      intro x hx c n o rest hc hcc
      rw [List.getElem?_append] at hcc
      split at hcc
      · exact hi.run c n o rest hc hcc
      · rw [List.getElem?_singleton] at hcc
        split at hcc
        · simp only [Option.some.injEq] at hcc; exact absurd hcc (hx _ _ _)
        · cases hcc
    rcases Subject.begin_cases s n with ⟨-, hb⟩ | ⟨-, -, hb⟩ | ⟨-, -, hb⟩
    · rw [hb]; exact ⟨happ _ (by simp), hi.log⟩
    · rw [hb]; exact ⟨happ _ (by simp), hi.log⟩
    · rw [hb]; exact off_loop (fun _ => hi.obs) (happ _ (by simp)) hi.log
  · refine ⟨by simpa using hi.obs, by rw [Subject.loop_calls]; simpa using hi.len, ?_⟩
    refine off_loop (fun hle => ?_) hi.run hi.log
    have := hi.run c n o rest hle hc
    exact fun hm => this (by simp [hm])
  · refine ⟨hi.obs, by simpa using hi.len, ?_, hi.log⟩
    intro c' n' o' rest' hc' hx
    dsimp only at hx
    rw [List.getElem?_set] at hx
    split at hx
    · split at hx <;> simp at hx
    · exact hi.run c' n' o' rest' hc' hx
  · exact ⟨hi.obs, hi.len, hi.run, hi.log⟩
  · have ho' : o ≠ 0 := by simpa [others] using ho
    refine ⟨?_, hi.len, hi.run, hi.log⟩
    simp only [List.mem_append, List.mem_singleton, not_or]
    exact ⟨hi.obs, Ne.symm ho'⟩
  · exact ⟨hi.obs, hi.len, hi.run, hi.log⟩
  · exact ⟨fun hm => hi.obs (List.mem_of_mem_erase hm), hi.len, hi.run, hi.log⟩
  · exact ⟨hi.obs, hi.len, hi.run, hi.log⟩

/-- Entries of the log are of calls that were made. -/
def Made (s : Subject.State α) : Prop := ∀ x ∈ s.log, x.1 < s.calls.length

theorem made_unsubscribe {s : Subject.State α} {k : Nat} (h : Made s) : Made (unsubscribe guard s k) := by
  unfold Made; rw [unsubscribe_log, unsubscribe_calls]; exact h

theorem made_step {s s' : Subject.State α} {l : Subject.Label α} (hi : Made s) (h1 : Subject.step guard s l = some s') :
    Made s' := by
  have hloop : ∀ (t : Subject.State α) (c : Nat) (n : Notif α) (os : List Nat), c < t.calls.length →
      (∀ x ∈ t.log, x.1 < t.calls.length) → ∀ x ∈ (t.loop c n os).log, x.1 < (t.loop c n os).calls.length := by
    intro t c n os hc ht x hx
    rw [Subject.loop_calls, List.length_set]
    rw [Subject.loop_log] at hx
    rcases List.mem_append.mp hx with hx | hx
    · exact ht x hx
    · cases os with
      | nil => simp at hx
      | cons a as => simp at hx; subst hx; exact hc
  have happ : ∀ y : Subject.Call α, ∀ x ∈ s.log, x.1 < (s.calls ++ [y]).length := by
    intro y x hx; have := hi x hx; simp; omega
  rcases Subject.step_cases h1 with ⟨n, rfl, rfl⟩ | ⟨c, n, o, rest, rfl, hc, rfl⟩ | ⟨c, e, n, o, rest, rfl, hc, rfl⟩ |
    ⟨o, rfl, hd, rfl⟩ | ⟨o, rfl, hd, rfl⟩ | ⟨k, o, rfl, hk, hg, rfl⟩ | ⟨k, o, g', rfl, hk, hg, rfl⟩ | ⟨rfl, rfl⟩
  · rcases Subject.begin_cases s n with ⟨-, hb⟩ | ⟨-, -, hb⟩ | ⟨-, -, hb⟩
    · rw [hb]; exact happ _
    · rw [hb]; exact happ _
    · rw [hb]; exact hloop _ _ _ _ (by simp) (happ _)
  · exact hloop _ _ _ _ (List.getElem?_eq_some_iff.mp hc).1 hi
  · intro x hx; simpa using hi x hx
  all_goals exact hi

theorem off_now {s : Subject.State α} (h : 0 ∉ s.observers) (hm : Made s) : Off s.calls.length s :=
  ⟨h, Nat.le_refl _, fun c n o rest hc hx => by have := (List.getElem?_eq_some_iff.mp hx).1; omega, fun x hx _ => hm x hx⟩

theorem rets_reach (n : Notif α) (c : Nat) : ∀ (rest : List Nat) (o : Nat) (s : Subject.State α),
    s.calls[c]? = some (.running n o rest) → 0 ∈ rest →
    ∃ ls s', (∀ l ∈ ls, ∃ c, l = .ret c) ∧ LTS.run (Subject.step guard) s ls = some s' ∧ (c, 0, n) ∈ s'.log := by
  intro rest
  induction rest with
  | nil => intro o s _ h; simp at h
  | cons o' rest ih =>
    intro o s hc h0
    have h1 : Subject.step guard s (.ret c) = some (s.loop c n (o' :: rest)) := by simp [Subject.step, hc]
    have hlen : c < s.calls.length := (List.getElem?_eq_some_iff.mp hc).1
    by_cases he : o' = 0
    · subst he
      exact ⟨[.ret c], _, by simp, LTS.run_cons.mpr ⟨_, h1, rfl⟩, by rw [Subject.loop_log]; simp⟩
    · have h0' : 0 ∈ rest := by
        rcases List.mem_cons.mp h0 with h | h
        · exact absurd h.symm he
        · exact h
      obtain ⟨ls, s', h2, h3, h4⟩ := ih o' (s.loop c n (o' :: rest))
        (by rw [Subject.loop_calls, List.getElem?_set_self hlen]) h0'
      exact ⟨.ret c :: ls, s', by simpa using h2, LTS.run_cons.mpr ⟨_, h1, h3⟩, h4⟩

/-- A call of the subject can get to observer 0 if it is in the list. -/
theorem calls_reach {s : Subject.State α} (n : Notif α) (hd : s.isDisposed = false) (hst : s.isStopped = false)
    (h : 0 ∈ s.observers) : ∃ ls s', (∀ l ∈ ls, ∃ c, l = .ret c) ∧
      LTS.run (Subject.step guard) s (.call n :: ls) = some s' ∧ (s.calls.length, 0, n) ∈ s'.log := by
  have h1 : Subject.step guard s (.call n) = some (s.begin n) := rfl
  rcases Subject.begin_cases s n with ⟨hd', -⟩ | ⟨-, hd', -⟩ | ⟨-, -, hb⟩
  · rw [hd] at hd'; cases hd'
  · rw [hst] at hd'; cases hd'
  · cases ho : s.observers with
    | nil => rw [ho] at h; simp at h
    | cons o rest =>
      by_cases he : o = 0
      · subst he
        refine ⟨[], _, by simp, LTS.run_cons.mpr ⟨_, h1, rfl⟩, ?_⟩
        rw [hb, Subject.loop_log, ho]; simp
      · have h0 : 0 ∈ rest := by
          rw [ho] at h
          rcases List.mem_cons.mp h with h | h
          · exact absurd h.symm he
          · exact h
        obtain ⟨ls, s', h2, h3, h4⟩ := rets_reach (guard := guard) n s.calls.length rest o (s.begin n)
          (by rw [hb, Subject.loop_calls, ho]; simp) h0
        exact ⟨ls, s', h2, LTS.run_cons.mpr ⟨_, h1, h3⟩, h4⟩

/-- Cancelled and still waiting: the message is on its way. -/
theorem auto_cancel_pending {als : List AutoDetach.Label} : ∀ {a : AutoDetach.State},
    AutoDetach.run false AutoDetach.init als = some a → a.cancelled = true → ∀ ds, a.pc = .waiting ds → .dispose ∈ a.inbox := by
  have key : ∀ (ls : List AutoDetach.Label) (a a' : AutoDetach.State),
      (a.cancelled = true → ∀ ds, a.pc = .waiting ds → .dispose ∈ a.inbox) → AutoDetach.run false a ls = some a' →
      (a'.cancelled = true → ∀ ds, a'.pc = .waiting ds → .dispose ∈ a'.inbox) := by
    intro ls
    induction ls with
    | nil => intro a a' h hr; simp only [AutoDetach.run, Option.some.injEq] at hr; subst hr; exact h
    | cons l ls ih =>
      intro a a' h hr
      simp only [AutoDetach.run, Option.bind_eq_some_iff] at hr
      obtain ⟨a1, h1, h2⟩ := hr
      refine ih a1 a' ?_ h2
      obtain ⟨inbox, pc, c, ds⟩ := a
      cases l with
      | register d =>
        simp only [AutoDetach.step, Option.some.injEq] at h1; subst h1
        intro hc ds' hp
        simp [h hc ds' hp]
      | cancel =>
        simp only [AutoDetach.step, Option.some.injEq] at h1; subst h1
        simp
      | start =>
        cases pc <;> simp [AutoDetach.step, AutoDetach.loopHead] at h1
        subst h1
        intro hc; simp only at hc; simp [hc]
      | receive =>
        cases pc <;> simp [AutoDetach.step] at h1
        next l =>
          cases inbox with
          | nil => simp at h1
          | cons m q =>
            cases m with
            | disposable d =>
              simp [AutoDetach.loopHead] at h1; subst h1
              intro hc; simp only at hc; simp [hc]
            | dispose => simp at h1; subst h1; cases l <;> simp [AutoDetach.disposeLoop]
      | ret => cases pc <;> simp [AutoDetach.step] at h1; next l => subst h1; cases l <;> simp [AutoDetach.disposeLoop]
      | raise => cases pc <;> simp [AutoDetach.step] at h1; subst h1; simp
  intro a hr
  exact key als _ a (by simp [AutoDetach.init]) hr

/-! ## the invariant -/

structure Inv (guard kill : Bool) (ls : List (Label α)) (s : State w) : Prop where
  front : (front w).run (w.init, ()) (mine s.sub.log) = (s.front, s.posts)
  safe : Safe.Inv s.posts s.safe
  quiet : (∀ e, .raise e ∉ ls) → Safe.Quiet s.safe
  canc : s.agent.cancelled = true ↔ .disposeStart ∈ s.safe.log
  agent : ∃ als, AutoDetach.run kill AutoDetach.init als = some s.agent ∧ AutoDetach.registered als = s.num.toList ∧
    .raise ∉ als ∧ (.cancel ∈ als ↔ s.agent.cancelled = true) ∧ als.count .cancel ≤ 1
  regs : AutoDetach.Knows s.num.toList s.agent
  subject : ∃ g, Knows s.num g s.sub ∧ (g = true → .dispose ∈ ls ∨ s.agent.disposed ≠ []) ∧ (s.agent.disposed ≠ [] → g = true)
  told : s.num.isSome = true ↔ .subscribe ∈ ls

theorem registered_append (a b : List AutoDetach.Label) :
    AutoDetach.registered (a ++ b) = AutoDetach.registered a ++ AutoDetach.registered b := by
  induction a with
  | nil => rfl
  | cons l a ih => cases l <;> simp [AutoDetach.registered, ih]

theorem auto_snoc {k : Bool} {als : List AutoDetach.Label} {a a' : AutoDetach.State} {l : AutoDetach.Label}
    (h : AutoDetach.run k AutoDetach.init als = some a) (hs : AutoDetach.step k a l = some a') :
    AutoDetach.run k AutoDetach.init (als ++ [l]) = some a' := by
  rw [AutoDetach.run_append, h]; simp [AutoDetach.run, hs]

theorem auto_cancelled {k : Bool} {a a' : AutoDetach.State} {l : AutoDetach.Label} (hl : l ≠ .cancel)
    (h : AutoDetach.step k a l = some a') : a'.cancelled = a.cancelled := by
  obtain ⟨inbox, pc, c, ds⟩ := a
  cases l with
  | register d => simp only [AutoDetach.step, Option.some.injEq] at h; subst h; rfl
  | cancel => exact absurd rfl hl
  | start => cases pc <;> simp [AutoDetach.step] at h; subst h; rfl
  | receive =>
    cases pc <;> simp [AutoDetach.step] at h
    next l =>
      cases inbox with
      | nil => simp at h
      | cons m q => cases m <;> simp at h <;> subst h <;> cases l <;> rfl
  | ret => cases pc <;> simp [AutoDetach.step] at h; next l => subst h; cases l <;> rfl
  | raise => cases pc <;> simp [AutoDetach.step] at h; subst h; rfl

/-- Steps of the agent's own. -/
theorem inv_agent {ls : List (Label α)} {s : State w} {t : AutoDetach.State} {l : Label α} {al : AutoDetach.Label}
    (hi : Inv guard kill ls s) (h : AutoDetach.step kill s.agent al = some t)
    (hal : al = .start ∨ al = .receive ∨ al = .ret) (hl : l = .agentStart ∨ l = .agentReceive ∨ l = .agentRet) :
    Inv guard kill (ls ++ [l]) (s.detached guard t) := by
  have hreg : AutoDetach.registered [al] = [] := by rcases hal with rfl | rfl | rfl <;> rfl
  have hnc : al ≠ .cancel := by rcases hal with rfl | rfl | rfl <;> simp
  have hnr : al ≠ .raise := by rcases hal with rfl | rfl | rfl <;> simp
  have hc := auto_cancelled hnc h
  have hk : AutoDetach.Knows s.num.toList t := AutoDetach.knows_step hi.regs
    (by rintro d rfl; rcases hal with h | h | h <;> cases h) h
  have hlog : (s.detached guard t).sub.log = s.sub.log := by
    rcases AutoDetach.step_disposed h with hd | ⟨d, hd⟩ <;> simp [State.detached, hd, unsubscribe_log]
  refine ⟨?_, hi.safe, fun hq => hi.quiet fun e he => hq e (by simp [he]), ?_, ?_, hk, ?_, ?_⟩
  · rw [hlog]; exact hi.front
  · show t.cancelled = true ↔ _
    rw [hc]; exact hi.canc
  · obtain ⟨als, a1, a2, a3, a4, a5⟩ := hi.agent
    refine ⟨als ++ [al], auto_snoc a1 h, ?_, ?_, ?_, ?_⟩
    · rw [registered_append, a2, hreg]; simp [State.detached]
    · simp [a3, Ne.symm hnr]
    · show _ ↔ t.cancelled = true
      rw [hc]; simp [a4, Ne.symm hnc]
    · rw [List.count_append]; simp [hnc]; exact a5
  · obtain ⟨g, g1, g2, g3⟩ := hi.subject
    rcases AutoDetach.step_disposed h with hd | ⟨d, hd⟩
    · refine ⟨g, ?_, ?_, ?_⟩
      · simpa [State.detached, hd] using g1
      · intro hg
        show _ ∨ t.disposed ≠ []
        rw [hd]
        rcases g2 hg with h | h
        · exact .inl (by simp [h])
        · exact .inr h
      · show t.disposed ≠ [] → _
        rw [hd]; exact g3
    · have hm : d ∈ s.num.toList := hk.2.1 d (by simp [hd])
      have hm' : s.num = some d := by simpa using hm
      refine ⟨true, ?_, ?_, fun _ => rfl⟩
      · have := knows_unsubscribe (guard := guard) (hm' ▸ g1)
        simpa [State.detached, hd, hm'] using this
      · intro _
        right
        show t.disposed ≠ []
        simp [hd]
  · have : Label.subscribe ∈ ls ++ [l] ↔ Label.subscribe ∈ ls := by
      rcases hl with rfl | rfl | rfl <;> simp
    rw [this]; exact hi.told

theorem safe_quiet {s t : Safe.State β} {l : Safe.Label β} (hl : ∀ e, l ≠ .raise e) (h : Safe.Quiet s)
    (hs : Safe.step s l = some t) : Safe.Quiet t := Safe.quiet_step hl h hs

/-- What the worker takes. -/
theorem safe_receive {p : List (Notif β)} {s t : Safe.State β} (hi : Safe.Inv p s) (h1 : Safe.step s .receive = some t) :
    (∃ v, t.pc = .sending v ∧ t.log = s.log ++ [.start (.next v)]) ∨
    (∃ n, t.pc = .disposing n ∧ t.log = s.log ++ [.disposeStart] ∧ .disposeStart ∉ s.log) := by
  obtain ⟨vs, c, tt, hp, hl, hsh⟩ := hi
  obtain ⟨inbox, pc, log⟩ := s
  simp only at hl hsh
  cases pc <;> simp [Safe.step] at h1
  cases inbox with
  | nil => simp at h1
  | cons m q =>
    have hno : .disposeStart ∉ log := by
      cases hsh
      rw [hl]; simp [Safe.blocks]
    cases m <;> simp at h1 <;> subst h1
    · exact .inl ⟨_, rfl, rfl⟩
    · exact .inr ⟨_, rfl, rfl, hno⟩
    · exact .inr ⟨_, rfl, rfl, hno⟩

/-- The safe worker has nothing left to do and a terminal notification was posted: it has disposed. -/
theorem safe_disposed {p : List (Notif β)} {s : Safe.State β} (hi : Safe.Inv p s) (hq : Safe.Quiet s) (hd : Safe.Drained s)
    (hf : (Spec.story p).fin ≠ .running) : .disposeStart ∈ s.log := by
  obtain ⟨vs, c, t, rfl, hl, hsh⟩ := hi
  obtain ⟨inbox, pc, log⟩ := s
  obtain ⟨q1, q2⟩ := hq
  simp only at hl hsh q1 q2 hf ⊢
  subst hl
  rcases hd with hp | ⟨hp, hin⟩ <;> simp only at hp
  · subst hp
    cases hsh <;> simp at q1 q2 ⊢
    · exact absurd rfl ((q1 _ _).2 rfl)
    · exact absurd rfl ((q1 _ _).2 rfl)
    · exact absurd rfl ((q1 _ _).2.1 rfl)
  · simp only at hin
    subst hp hin
    cases hsh
    have := Spec.story_map_next_append vs []
    exact absurd (by simp only [List.append_nil] at this ⊢; rw [this]; rfl) hf

theorem safe_no_dispose {s t : Safe.State β} {l : Safe.Label β} (hl : l ≠ .receive) (h1 : Safe.step s l = some t) :
    .disposeStart ∈ t.log ↔ .disposeStart ∈ s.log := by
  obtain ⟨inbox, pc, log⟩ := s
  cases l with
  | receive => exact absurd rfl hl
  | post n => simp [Safe.step] at h1; subst h1; rfl
  | ret => cases pc <;> simp [Safe.step] at h1 <;> subst h1 <;> simp
  | raise e =>
    cases pc <;> simp [Safe.step] at h1
    · split at h1 <;> simp at h1 <;> subst h1 <;> simp
    all_goals subst h1; simp

theorem inv_step {ls : List (Label α)} {s s' : State w} {l : Label α} (hi : Inv guard kill ls s)
    (h : step guard kill s l = some s') : Inv guard kill (ls ++ [l]) s' := by
  cases l with
  | subject l =>
    simp only [step] at h
    split at h
    next ho =>
      simp only [Option.map_eq_some_iff] at h
      obtain ⟨sub, h1, rfl⟩ := h
      obtain ⟨d, hd⟩ := log_grows h1
      rw [moved_eq]
      refine ⟨?_, safe_inv_posts hi.safe _, fun hq => ?_, hi.canc, hi.agent, hi.regs, ?_, ?_⟩
      · show (front w).run (w.init, ()) (mine sub.log) = _
        rw [hd, mine_append, Agent.run_append, hi.front]
        simp
      · exact hi.quiet fun e he => hq e (by simp [he])
      · obtain ⟨g, g1, g2, g3⟩ := hi.subject
        refine ⟨g, knows_others g1 ho h1, fun hg => ?_, g3⟩
        rcases g2 hg with h | h
        · exact .inl (by simp [h])
        · exact .inr h
      · simpa using hi.told
    next => cases h
  | subscribe =>
    simp only [step] at h
    split at h
    next => cases h
    next hn =>
      simp only [Bool.or_eq_true, not_or, Bool.not_eq_true, Option.isSome_eq_false_iff, Option.isNone_iff_eq_none] at hn
      obtain ⟨hn, hd⟩ := hn
      simp only [Subject.step, AutoDetach.step, hd, Bool.false_eq_true, if_false, Option.some.injEq] at h
      subst h
      refine ⟨hi.front, hi.safe, fun hq => hi.quiet fun e he => hq e (by simp [he]), hi.canc, ?_, ?_, ?_, ?_⟩
      · obtain ⟨als, a1, a2, a3, a4, a5⟩ := hi.agent
        refine ⟨als ++ [.register s.sub.subs.length], auto_snoc a1 rfl, ?_, by simp [a3], by simpa using a4, ?_⟩
        · rw [registered_append, a2, hn]; simp [AutoDetach.registered]
        · rw [List.count_append]; simpa using a5
      · refine AutoDetach.knows_step (k := kill) (l := .register s.sub.subs.length) (a := s.agent)
          (AutoDetach.knows_mono hi.regs (by simp [hn])) ?_ rfl
        intro d hd
        cases hd
        simp
      · obtain ⟨g, g1, g2, g3⟩ := hi.subject
        refine ⟨false, ⟨?_, ?_, ?_⟩, by simp, fun hx => ?_⟩
        · intro k hk
          simp only [Option.some.injEq] at hk
          subst hk
          simp
        · intro k b hk
          dsimp only at hk ⊢
          rw [List.getElem?_append] at hk
          split at hk
          · have := g1.only k b hk; rw [hn] at this; cases this
          · next hlt =>
            rw [List.getElem?_singleton] at hk
            split at hk <;> simp at hk
            next he => simp only [Option.some.injEq]; omega
        · have := g1.count
          simp only [hn, Option.isSome_none, Bool.false_and, Bool.false_eq_true, if_false] at this
          simp [this]
        · exfalso
          obtain ⟨d, hd⟩ := List.exists_mem_of_ne_nil _ hx
          have := hi.regs.2.1 d hd
          simp [hn] at this
      · simp
  | dispose =>
    simp only [step] at h
    split at h
    next k hk =>
      simp only [Option.some.injEq] at h
      subst h
      refine ⟨?_, hi.safe, fun hq => hi.quiet fun e he => hq e (by simp [he]), hi.canc, hi.agent, hi.regs, ?_, ?_⟩
      · dsimp only; rw [unsubscribe_log]; exact hi.front
      · obtain ⟨g, g1, g2, g3⟩ := hi.subject
        refine ⟨true, ?_, by simp, by simp⟩
        have := knows_unsubscribe (guard := guard) (hk ▸ g1)
        simpa [hk] using this
      · simpa using hi.told
    next => cases h
  | receive =>
    simp only [step, Option.map_eq_some_iff] at h
    obtain ⟨t, h1, rfl⟩ := h
    have hs := Safe.inv_step hi.safe h1
    simp only [Safe.posted, List.append_nil] at hs
    have hq : (∀ e, .raise e ∉ ls ++ [Label.receive (α := α)]) → Safe.Quiet t := fun hq =>
      safe_quiet (by simp) (hi.quiet fun e he => hq e (by simp [he])) h1
    -- what the worker took
    have hcase := safe_receive hi.safe h1
    rcases hcase with ⟨v, hpc, hlog⟩ | ⟨n, hpc, hlog, hno⟩
    · have hcan : cancelled kill t s.agent = s.agent := by simp [cancelled, hpc]
      rw [hcan]
      refine ⟨hi.front, hs, hq, ?_, hi.agent, hi.regs, ?_, by simpa using hi.told⟩
      · dsimp only; rw [hlog, hi.canc]; simp
      · obtain ⟨g, g1, g2, g3⟩ := hi.subject
        refine ⟨g, g1, fun hg => ?_, g3⟩
        rcases g2 hg with h | h
        · exact .inl (by simp [h])
        · exact .inr h
    · obtain ⟨a, ha⟩ : ∃ a, AutoDetach.step kill s.agent .cancel = some a := ⟨_, rfl⟩
      have hcan : cancelled kill t s.agent = a := by simp only [cancelled, hpc, ha, Option.getD_some]
      have hnc : s.agent.cancelled = false := by
        cases hx : s.agent.cancelled with
        | false => rfl
        | true => exact absurd (hi.canc.mp hx) hno
      have hac : a.cancelled = true := by
        simp only [AutoDetach.step, Option.some.injEq] at ha; subst ha; rfl
      have had : a.disposed = s.agent.disposed := by
        simp only [AutoDetach.step, Option.some.injEq] at ha; subst ha; rfl
      rw [hcan]
      refine ⟨hi.front, hs, hq, ?_, ?_, AutoDetach.knows_step hi.regs (by simp) ha, ?_, by simpa using hi.told⟩
      · dsimp only; rw [hlog, hac]; simp
      · obtain ⟨als, a1, a2, a3, a4, a5⟩ := hi.agent
        have hnm : .cancel ∉ als := by rw [a4, hnc]; simp
        refine ⟨als ++ [.cancel], auto_snoc a1 ha, ?_, by simp [a3], by simp [hac], ?_⟩
        · rw [registered_append, a2]; simp [AutoDetach.registered]
        · rw [List.count_append, List.count_eq_zero.mpr hnm]; simp
      · obtain ⟨g, g1, g2, g3⟩ := hi.subject
        refine ⟨g, g1, fun hg => ?_, fun hx => g3 (by rwa [← had])⟩
        rcases g2 hg with h | h
        · exact .inl (by simp [h])
        · exact .inr (by dsimp only; rwa [had])
  | ret =>
    simp only [step, Option.map_eq_some_iff] at h
    obtain ⟨t, h1, rfl⟩ := h
    have hs := Safe.inv_step hi.safe h1
    simp only [Safe.posted, List.append_nil] at hs
    have hlog := safe_no_dispose (by simp) h1
    refine ⟨hi.front, hs, fun hq => safe_quiet (by simp) (hi.quiet fun e he => hq e (by simp [he])) h1, ?_, hi.agent, hi.regs, ?_,
      by simpa using hi.told⟩
    · dsimp only; rw [hlog]; exact hi.canc
    · obtain ⟨g, g1, g2, g3⟩ := hi.subject
      refine ⟨g, g1, fun hg => ?_, g3⟩
      rcases g2 hg with h | h
      · exact .inl (by simp [h])
      · exact .inr h
  | raise e =>
    simp only [step, Option.map_eq_some_iff] at h
    obtain ⟨t, h1, rfl⟩ := h
    have hs := Safe.inv_step hi.safe h1
    simp only [Safe.posted, List.append_nil] at hs
    have hlog := safe_no_dispose (by simp) h1
    refine ⟨hi.front, hs, fun hq => absurd (by simp) (hq e), ?_, hi.agent, hi.regs, ?_,
      by simpa using hi.told⟩
    · dsimp only; rw [hlog]; exact hi.canc
    · obtain ⟨g, g1, g2, g3⟩ := hi.subject
      refine ⟨g, g1, fun hg => ?_, g3⟩
      rcases g2 hg with h | h
      · exact .inl (by simp [h])
      · exact .inr h
  | agentStart =>
    simp only [step, Option.map_eq_some_iff] at h
    obtain ⟨t, h1, rfl⟩ := h
    exact inv_agent hi h1 (by simp) (by simp)
  | agentReceive =>
    simp only [step, Option.map_eq_some_iff] at h
    obtain ⟨t, h1, rfl⟩ := h
    exact inv_agent hi h1 (by simp) (by simp)
  | agentRet =>
    simp only [step, Option.map_eq_some_iff] at h
    obtain ⟨t, h1, rfl⟩ := h
    exact inv_agent hi h1 (by simp) (by simp)

theorem inv_run {ls : List (Label α)} {s : State w} (hr : LTS.run (step guard kill) (init w) ls = some s) :
    Inv guard kill ls s := by
  refine LTS.inv_hist (Inv guard kill) ?_ (fun _ _ _ _ => inv_step) hr
  refine ⟨rfl, Safe.inv_init, fun _ => ⟨by simp [init, Safe.init], by simp [init, Safe.init]⟩, by simp [init, Safe.init, AutoDetach.init],
    ⟨[], rfl, rfl, by simp, by simp [init, AutoDetach.init], by simp⟩,
    ⟨by simp [init, AutoDetach.init], by simp [init, AutoDetach.init], by simp [init, AutoDetach.init], by simp [init, AutoDetach.init]⟩,
    ⟨false, ⟨by simp [init], by simp [init, Subject.init], by simp [init, Subject.init]⟩, by simp, by simp [init, AutoDetach.init]⟩,
    by simp [init]⟩

end Aio.Detach
