import Verif.Spec.HotCatch
import Verif.Lemmas.Hot
/-!
# C156, C157: `catch` and `retry` over subjects
-/

namespace Aio
open Spec
variable {C α γ : Type}

namespace HotCatch

/-- Subject `cur` is listened to, `calls` have been made. -/
structure Inv (c : C) (cur : Nat) (calls : List (Nat × Notif α)) (s : State C Nat α) : Prop where
  cat : ∃ pre disposed, s.cat = ⟨c, some pre.length, [], true, pre ++ [cur], disposed⟩
  obs : ∀ j, (s.subjects j).observers = if j = cur then [s.cat.started.length - 1] else []
  stopped : ∀ j, (s.subjects j).stopped = Hot.ended j calls

theorem inv_init (c : C) (x : Nat) : Inv c x [] (init c some x : State C Nat α) := by
  refine ⟨⟨[], [], rfl⟩, fun j => ?_, fun j => ?_⟩
  · simp only [init, State.subscribe, Catch.start, Option.some.injEq]
    by_cases h : x = j <;> simp [h, eq_comm]
  · simp only [init, State.subscribe, Catch.start, Option.some.injEq]
    by_cases h : x = j <;> simp [h, Hot.ended]

theorem ended_snoc (i j : Nat) (n : Notif α) (calls : List (Nat × Notif α)) :
    Hot.ended j (calls ++ [(i, n)]) = (Hot.ended j calls || (i == j && n.isTerminal)) := by simp [Hot.ended]

/-- One call. -/
theorem call_step (h : Catch.Handler C Nat) {c : C} {cur : Nat} {calls : List (Nat × Notif α)} {s s' : State C Nat α} (hi : Inv c cur calls s)
    {i : Nat} {n : Notif α} (hs : step h some s (.call i n) = some s') : ∃ c' cur', Inv c' cur' (calls ++ [(i, n)]) s' ∧
      (∀ cs, s.out ++ heard h c cur calls ((i, n) :: cs) = s'.out ++ heard h c' cur' (calls ++ [(i, n)]) cs) ∧
      ((∀ e, (i, n) ≠ (cur, .error e)) → c' = c ∧ cur' = cur ∧ s'.cat.started = s.cat.started) ∧
      s.cat.started.length ≤ s'.cat.started.length ∧
      (∀ e x, (i, n) = (cur, .error e) → Hot.ended i calls = false → (h c e).2 = .ok x → s.cat.started.length < s'.cat.started.length) := by
  obtain ⟨⟨pre, dis, hc⟩, ho, hst⟩ := hi
  rcases s with ⟨cat, subjects, out⟩
  dsimp only at hc ho hst
  subst hc
  simp only [step] at hs
  rw [hst i] at hs
  by_cases he : Hot.ended i calls = true
  · rw [if_pos he] at hs
    obtain rfl := (Option.some.inj hs).symm
    refine ⟨c, cur, ⟨⟨pre, dis, rfl⟩, ho, fun j => ?_⟩, fun cs => ?_, fun _ => ⟨rfl, rfl, rfl⟩, Nat.le_refl _, fun _ _ _ h1 => by rw [he] at h1; cases h1⟩
    · rw [ended_snoc, hst j]
      by_cases hj : i = j
      · subst hj; simp [he]
      · simp [hj]
    · rw [heard.eq_def]; dsimp only; rw [if_neg (by simp [he])]
  rw [if_neg he] at hs
  have he : Hot.ended i calls = false := by simpa using he
  have hst' : ∀ j, ((fun j => if j = i then ({ subjects i with stopped := n.isTerminal } : Hot.Subject) else subjects j) j).stopped = Hot.ended j (calls ++ [(i, n)]) := by
    intro j
    rw [ended_snoc]
    by_cases hj : j = i
    · subst hj; simp [he]
    · simp [hj, hst j, Ne.symm hj]
  have ho' : ∀ j, ((fun j => if j = i then ({ subjects i with stopped := n.isTerminal } : Hot.Subject) else subjects j) j).observers = if j = cur then [pre.length] else [] := by
    intro j
    by_cases hj : j = i
    · subst hj; simpa using ho j
    · simpa [hj] using ho j
  generalize (fun j => if j = i then ({ subjects i with stopped := n.isTerminal } : Hot.Subject) else subjects j) = subj at hs hst' ho'
  rw [ho i] at hs
  by_cases hcur : i = cur
  · rw [if_pos hcur] at hs
    simp only [State.tell] at hs
    obtain ⟨t, hs, ht⟩ := Option.bind_eq_some_iff.mp hs
    obtain rfl := Option.some.inj ht
    cases n with
    | next v =>
      simp [State.deliver, State.act, Catch.step, State.unsubscribe, State.subscribe, State.finish] at hs
      subst hs
      exact ⟨c, cur, ⟨⟨pre, dis, rfl⟩, by simpa using ho', hst'⟩, fun cs => by rw [heard.eq_def]; dsimp only; rw [if_pos ⟨hcur, he⟩]; simp,
        fun _ => ⟨rfl, rfl, rfl⟩, Nat.le_refl _, fun _ _ h1 => by simp at h1⟩
    | completed =>
      simp [State.deliver, State.act, Catch.step, State.unsubscribe, State.subscribe, State.finish] at hs
      subst hs
      exact ⟨c, cur, ⟨⟨pre, dis, rfl⟩, by simpa using ho', hst'⟩, fun cs => by rw [heard.eq_def]; dsimp only; rw [if_pos ⟨hcur, he⟩]; simp,
        fun _ => ⟨rfl, rfl, rfl⟩, Nat.le_refl _, fun _ _ h1 => by simp at h1⟩
    | error e =>
      rcases hh : h c e with ⟨c', r⟩
      cases r with
      | error e' =>
        simp [State.deliver, State.act, Catch.step, hh, State.unsubscribe, State.subscribe, State.finish] at hs
        subst hs
        exact ⟨c', cur, ⟨⟨pre, dis, rfl⟩, by simpa using ho', hst'⟩, fun cs => by rw [heard.eq_def]; dsimp only; rw [if_pos ⟨hcur, he⟩]; simp [hh],
          fun h1 => absurd (by rw [hcur]) (h1 e), Nat.le_refl _, fun e2 x h1 _ h2 => by
            simp only [Prod.mk.injEq, Notif.error.injEq] at h1
            rw [← h1.2, hh] at h2; cases h2⟩
      | ok x =>
        simp [State.deliver, State.act, Catch.step, hh, Catch.action, State.unsubscribe, State.subscribe, State.finish] at hs
        subst hs
        refine ⟨c', x, ⟨⟨pre ++ [cur], dis ++ [pre.length], by simp⟩, fun j => ?_, fun j => ?_⟩, fun cs => by rw [heard.eq_def]; dsimp only; rw [if_pos ⟨hcur, he⟩]; simp [hh],
          fun h1 => absurd (by rw [hcur]) (h1 e), by simp, fun _ _ _ _ _ => by simp⟩
        · have h1 : (subj j).observers.erase pre.length = [] := by rw [ho' j]; split <;> simp
          by_cases hj : x = j
          · subst hj; simp [h1]
          · simp [hj, h1, Ne.symm hj]
        · rw [← hst' j]
          by_cases hj : x = j <;> simp [hj]
  · rw [if_neg hcur] at hs
    obtain rfl := (Option.some.inj hs).symm
    exact ⟨c, cur, ⟨⟨pre, dis, rfl⟩, by simpa using ho', hst'⟩, fun cs => by rw [heard.eq_def]; dsimp only; rw [if_neg (by simp [hcur])],
      fun _ => ⟨rfl, rfl, rfl⟩, Nat.le_refl _, fun _ _ h1 => by simp only [Prod.mk.injEq] at h1; exact absurd h1.1 hcur⟩

theorem run_heard (h : Catch.Handler C Nat) : ∀ {ls : List (Label α)} {c : C} {cur : Nat} {calls : List (Nat × Notif α)} {s s' : State C Nat α},
    Inv c cur calls s → LTS.run (step h some) s ls = some s' → .cancel ∉ ls → s'.out = s.out ++ heard h c cur calls (made ls) := by
  intro ls
  induction ls with
  | nil => intro c cur calls s s' hi hr _; obtain rfl := Option.some.inj hr; simp [made, heard]
  | cons l ls ih =>
    intro c cur calls s s' hi hr hc
    obtain ⟨t, h1, h2⟩ := LTS.run_cons.mp hr
    simp only [List.mem_cons, not_or] at hc
    cases l with
    | call i n =>
      obtain ⟨c', cur', h3, h4, -⟩ := call_step h hi h1
      rw [ih h3 h2 hc.2, show made (.call i n :: ls) = (i, n) :: made ls from rfl, h4]
    | other k n =>
      simp only [step] at h1
      split at h1
      · simp at h1
      · cases h1
    | cancel => exact absurd rfl hc.1

/-- Each method of each subject can be called at any time. -/
theorem call_isSome (h : Catch.Handler C Nat) {c : C} {cur : Nat} {calls : List (Nat × Notif α)} {s : State C Nat α} (hi : Inv c cur calls s)
    (i : Nat) (n : Notif α) : (step h some s (.call i n)).isSome := by
  obtain ⟨⟨pre, dis, hc⟩, ho, hst⟩ := hi
  rcases s with ⟨cat, subjects, out⟩
  dsimp only at hc ho hst
  subst hc
  simp only [step]
  split
  · rfl
  · generalize (fun j => if j = i then ({ subjects i with stopped := n.isTerminal } : Hot.Subject) else subjects j) = subj
    rw [ho i]
    split
    · cases n with
      | next v => simp [State.tell, State.deliver, State.act, Catch.step, State.unsubscribe, State.subscribe, State.finish]
      | completed => simp [State.tell, State.deliver, State.act, Catch.step, State.unsubscribe, State.subscribe, State.finish]
      | error e =>
        rcases hh : h c e with ⟨c', r⟩
        cases r <;> simp [State.tell, State.deliver, State.act, Catch.step, hh, Catch.action, State.unsubscribe, State.subscribe, State.finish]
    · rfl

theorem run_exists (h : Catch.Handler C Nat) {c : C} {cur : Nat} {calls : List (Nat × Notif α)} {s : State C Nat α} (hi : Inv c cur calls s)
    (cs : List (Nat × Notif α)) : ∃ s', LTS.run (step h some) s (cs.map fun c => .call c.1 c.2) = some s' := by
  induction cs generalizing c cur calls s with
  | nil => exact ⟨s, rfl⟩
  | cons d cs ih =>
    obtain ⟨t, ht⟩ := Option.isSome_iff_exists.mp (call_isSome h hi d.1 d.2)
    obtain ⟨_, _, h1, -⟩ := call_step h hi ht
    obtain ⟨s', hs⟩ := ih h1
    exact ⟨s', LTS.run_cons.mpr ⟨t, ht, hs⟩⟩

theorem made_append (a b : List (Label α)) : made (a ++ b) = made a ++ made b := List.filterMap_append ..

theorem other_none {h : Catch.Handler C Nat} {s s' : State C Nat α} {k : Nat} {n : Notif α} (hs : step h some s (.other k n) = some s') : False := by
  simp only [step] at hs
  split at hs
  · simp at hs
  · cases hs

/-- The invariant, after any calls. -/
theorem run_inv (h : Catch.Handler C Nat) {c : C} {cur : Nat} {calls : List (Nat × Notif α)} {s s' : State C Nat α} (hi : Inv c cur calls s)
    {ls : List (Label α)} (hr : LTS.run (step h some) s ls = some s') (hc : .cancel ∉ ls) : ∃ c' cur', Inv c' cur' (calls ++ made ls) s' ∧
      (∀ cs, s.out ++ heard h c cur calls (made ls ++ cs) = s'.out ++ heard h c' cur' (calls ++ made ls) cs) ∧
      s.cat.started.length ≤ s'.cat.started.length ∧
      ((∀ e, (cur, .error e) ∉ made ls) → c' = c ∧ cur' = cur ∧ s'.cat.started = s.cat.started) := by
  induction ls generalizing c cur calls s with
  | nil => obtain rfl := Option.some.inj hr; exact ⟨c, cur, by simpa [made] using hi, by simp [made], Nat.le_refl _, fun _ => ⟨rfl, rfl, rfl⟩⟩
  | cons l ls ih =>
    obtain ⟨t, h1, h2⟩ := LTS.run_cons.mp hr
    simp only [List.mem_cons, not_or] at hc
    cases l with
    | call i n =>
      obtain ⟨c1, cur1, h3, h4, h5, h6, -⟩ := call_step h hi h1
      obtain ⟨c', cur', h7, h8, h9, h10⟩ := ih h3 h2 hc.2
      rw [show made (.call i n :: ls) = (i, n) :: made ls from rfl]
      refine ⟨c', cur', by simpa using h7, fun cs => ?_, Nat.le_trans h6 h9, fun hn => ?_⟩
      · have := h8 cs
        rw [List.cons_append, h4, this]; simp
      · simp only [List.mem_cons, not_or] at hn
        obtain ⟨rfl, rfl, h11⟩ := h5 fun e he => (hn e).1 he.symm
        obtain ⟨h12, h13, h14⟩ := h10 fun e => (hn e).2
        exact ⟨h12, h13, h14.trans h11⟩
    | other k n => exact (other_none h1).elim
    | cancel => exact absurd rfl hc.1

/-- Nobody is listening any more. -/
theorem run_silent (h : Catch.Handler C Nat) {ls : List (Label α)} {s s' : State C Nat α} (hr : LTS.run (step h some) s ls = some s')
    (ho : ∀ j, (s.subjects j).observers = []) : s'.out = s.out ∧ ∀ j, (s'.subjects j).observers = [] := by
  refine LTS.inv (s0 := s) (step := step h some) (fun s' => s'.out = s.out ∧ ∀ j, (s'.subjects j).observers = []) ⟨rfl, ho⟩ ?_ hr
  rintro t l t' ⟨h1, h2⟩ hs
  cases l with
  | call i n =>
    simp only [step] at hs
    split at hs
    · obtain rfl := (Option.some.inj hs).symm; exact ⟨h1, h2⟩
    · rw [h2 i] at hs
      obtain rfl := (Option.some.inj hs).symm
      refine ⟨h1, fun j => ?_⟩
      dsimp only
      split
      · rfl
      · exact h2 j
  | other k n => exact (other_none hs).elim
  | cancel =>
    simp only [step, State.act, Catch.step] at hs
    split at hs
    · cases hs
    · rename_i hc
      split at hc
      · simp only [Option.some.injEq, Prod.mk.injEq] at hc
        obtain ⟨rfl, rfl⟩ := hc
        simp [State.unsubscribe, State.subscribe] at hs
        subst hs
        exact ⟨by simpa using h1, fun j => by simp [h2 j]⟩
      · cases hc

/-- Disposing once the source has failed changes nothing. -/
theorem cancel_inv {h : Catch.Handler C Nat} {c : C} {cur : Nat} {calls : List (Nat × Notif α)} {s s' : State C Nat α} (hi : Inv c cur calls s)
    (hl : 1 < s.cat.started.length) (hs : step h some s .cancel = some s') : Inv c cur calls s' ∧ s'.out = s.out ∧ s'.cat.started = s.cat.started := by
  obtain ⟨⟨pre, dis, hc⟩, ho, hst⟩ := hi
  rcases s with ⟨cat, subjects, out⟩
  dsimp only at hc ho hst hl
  subst hc
  simp [step, State.act, Catch.step, State.unsubscribe, State.subscribe] at hs
  subst hs
  refine ⟨⟨⟨pre, dis ++ [0], rfl⟩, fun j => ?_, hst⟩, rfl, rfl⟩
  dsimp only
  rw [ho j]
  simp only [List.length_append, List.length_cons, List.length_nil] at hl
  split
  · simp only [List.length_append, List.length_cons, List.length_nil, Nat.add_sub_cancel]
    rw [List.erase_of_not_mem]
    simp only [List.mem_singleton]; omega
  · rfl

/-- Disposing before that. -/
theorem cancel_first {h : Catch.Handler C Nat} {c : C} {cur : Nat} {calls : List (Nat × Notif α)} {s s' : State C Nat α} (hi : Inv c cur calls s)
    (hl : s.cat.started.length = 1) (hs : step h some s .cancel = some s') : s'.out = s.out ∧ ∀ j, (s'.subjects j).observers = [] := by
  obtain ⟨⟨pre, dis, hc⟩, ho, hst⟩ := hi
  rcases s with ⟨cat, subjects, out⟩
  dsimp only at hc ho hst hl
  subst hc
  simp [step, State.act, Catch.step, State.unsubscribe, State.subscribe] at hs
  subst hs
  refine ⟨rfl, fun j => ?_⟩
  dsimp only
  rw [ho j]
  simp only [List.length_append, List.length_cons, List.length_nil] at hl
  split
  · simp; exact List.eq_nil_of_length_eq_zero (by omega)
  · rfl

end HotCatch
open HotCatch

/-! ## C156: `catch` over subjects -/

/-- C156: each method of each subject can be called in each state. -/
theorem C156_any_call (h : Catch.Handler C Nat) (c : C) (x : Nat) {ls : List (HotCatch.Label α)} {s : HotCatch.State C Nat α}
    (hr : LTS.run (caught h c x).step (caught h c x).init ls = some s) (hc : .cancel ∉ ls) (i : Nat) (n : Notif α) :
    ((caught h c x).step s (.call i n)).isSome := by
  obtain ⟨_, _, hi, -⟩ := run_inv h (inv_init c x) hr hc
  exact call_isSome h hi i n

/-- C156: what comes is what is sent to the source until it fails, then what is sent to the subject that the handler has named, from the failing call on,
and so on. -/
theorem C156_exact (h : Catch.Handler C Nat) (c : C) (x : Nat) {ls : List (HotCatch.Label α)} {s : HotCatch.State C Nat α}
    (hr : LTS.run (caught h c x).step (caught h c x).init ls = some s) (hc : .cancel ∉ ls) : s.out = heard h c x [] (HotCatch.made ls) := by
  rw [run_heard h (inv_init c x) hr hc]; rfl

namespace HotCatch
variable {ω : Type}

theorem unsubscribe_same : ∀ {ks : List Nat} {s : State C ω α}, (s.unsubscribe ks).out = s.out ∧ (s.unsubscribe ks).cat = s.cat ∧
    ∀ j, ((s.unsubscribe ks).subjects j).stopped = (s.subjects j).stopped := by
  intro ks
  induction ks with
  | nil => intro s; exact ⟨rfl, rfl, fun _ => rfl⟩
  | cons k ks ih => intro s; rw [State.unsubscribe]; exact ih

theorem subscribe_same {place : ω → Option Nat} : ∀ {xs : List ω} {k : Nat} {s : State C ω α}, (s.subscribe place k xs).out = s.out ∧
    (s.subscribe place k xs).cat = s.cat ∧ ∀ j, ((s.subscribe place k xs).subjects j).stopped = (s.subjects j).stopped := by
  intro xs
  induction xs with
  | nil => intro k s; exact ⟨rfl, rfl, fun _ => rfl⟩
  | cons x xs ih =>
    intro k s
    rw [State.subscribe]
    obtain ⟨h1, h2, h3⟩ := ih (k := k + 1) (s := { s with
      subjects := fun j => if place x = some j then { s.subjects j with observers := (s.subjects j).observers ++ [k] } else s.subjects j })
    refine ⟨h1, h2, fun j => ?_⟩
    rw [h3 j]; dsimp only; split <;> rfl

theorem act_same {h : Catch.Handler C ω} {place : ω → Option Nat} {s s' : State C ω α} {l : Catch.Label α} (hs : s.act h place l = some s') :
    ∃ o, Catch.step h false s.cat l = some (s'.cat, o) ∧ s'.out = s.out ++ o ∧ ∀ j, (s'.subjects j).stopped = (s.subjects j).stopped := by
  simp only [State.act] at hs
  split at hs
  · cases hs
  · rename_i cat o hc
    obtain rfl := (Option.some.inj hs).symm
    obtain ⟨h1, h2, h3⟩ := subscribe_same (place := place) (xs := cat.started.drop s.cat.started.length) (k := s.cat.started.length)
      (s := State.unsubscribe (cat.disposed.drop s.cat.disposed.length) { s with cat := cat, out := s.out ++ o })
    obtain ⟨h4, h5, h6⟩ := unsubscribe_same (ks := cat.disposed.drop s.cat.disposed.length) (s := { s with cat := cat, out := s.out ++ o })
    exact ⟨o, by rw [hc, h2, h5], by rw [h1, h4], fun j => by rw [h3, h6]⟩

theorem grows_act {h : Catch.Handler C ω} {place : ω → Option Nat} {s s' : State C ω α} {l : Catch.Label α} (hs : s.act h place l = some s') : s.out <+: s'.out := by
  obtain ⟨o, -, h1, -⟩ := act_same hs
  rw [h1]; exact List.prefix_append ..

theorem grows_deliver {h : Catch.Handler C ω} {place : ω → Option Nat} {s s' : State C ω α} {k : Nat} {n : Notif α} (hs : s.deliver h place n k = some s') :
    s.out <+: s'.out := by
  obtain ⟨t, h1, h2⟩ := Option.bind_eq_some_iff.mp hs
  refine (grows_act h1).trans ?_
  simp only [State.finish] at h2
  split at h2
  · obtain rfl := Option.some.inj h2; exact List.prefix_refl _
  · obtain ⟨u, h3, h4⟩ := Option.bind_eq_some_iff.mp h2
    exact (grows_act h3).trans (grows_act h4)
  · exact grows_act h2

theorem grows_tell {h : Catch.Handler C ω} {place : ω → Option Nat} {n : Notif α} : ∀ {ks : List Nat} {s s' : State C ω α},
    s.tell h place n ks = some s' → s.out <+: s'.out := by
  intro ks
  induction ks with
  | nil => intro s s' hs; obtain rfl := Option.some.inj hs; exact List.prefix_refl _
  | cons k ks ih =>
    intro s s' hs
    obtain ⟨t, h1, h2⟩ := Option.bind_eq_some_iff.mp hs
    exact (grows_deliver h1).trans (ih h2)

theorem grows_step {h : Catch.Handler C ω} {place : ω → Option Nat} {s s' : State C ω α} {l : Label α} (hs : step h place s l = some s') : s.out <+: s'.out := by
  cases l with
  | call i n =>
    simp only [step] at hs
    split at hs
    · obtain rfl := Option.some.inj hs; exact List.prefix_refl _
    · have := grows_tell hs; exact this
  | other k n =>
    simp only [step] at hs
    split at hs
    · split at hs
      · exact grows_deliver hs
      · cases hs
    · cases hs
  | cancel => exact grows_act hs

theorem caught_grows (h : Catch.Handler C Nat) (c : C) (x : Nat) : (caught h c x : Source _ (Label α) α).Grows := ⟨rfl, fun _ _ _ h => grows_step h⟩

end HotCatch

/-- C156 for the final observer behind any operators. -/
theorem C156_observed (h : Catch.Handler C Nat) (c : C) (x : Nat) {op : Operator α γ} {G : Story α → Story γ} (hG : op.Computes G) :
    ((caught h c x : Source _ (HotCatch.Label α) α).pipe op.protected).Sends
      (fun ls _ => .cancel ∉ Piped.sources ls) (fun _ s => op.protected.slowProc.Quiescent s.ps)
      (fun ls => G (story (heard h c x [] (HotCatch.made (Piped.sources ls))))) := by
  have key := C101_pipe (caught_grows h c x) hG.guarded (fun _ _ => trivial)
    (ok := fun ls _ => .cancel ∉ ls) (quiet := fun _ _ => True) (T := fun ls => story (heard h c x [] (HotCatch.made ls)))
    ⟨fun _ _ hr hok => by show (story _).events <+: _; rw [show (caught h c x).out _ = _ from C156_exact h c x hr hok]; exact List.prefix_refl _,
      fun _ _ hr hok _ => by rw [show (caught h c x).out _ = _ from C156_exact h c x hr hok]⟩ (fun _ _ _ _ => trivial)
  exact ⟨key.1, fun ls s hr hok hq => key.2 ls s hr hok ⟨trivial, hq⟩⟩

/-- Subject 0 is replaced by 1, and 1 by 2. -/
def HotCatch.nextOne : Catch.Handler Nat Nat := fun c _ => (c + 1, .ok (c + 1))

/-- C156: subject 0 fails; what is sent to subject 1 right afterwards comes, what was sent to it before does not; subject 1 fails in turn. -/
def HotCatch.twoFail (e : Err) : List (HotCatch.Label Nat) :=
  [.call 1 (.next 5), .call 0 (.next 7), .call 0 (.error e), .call 1 (.next 8), .call 1 (.error e), .call 1 (.next 6), .call 2 (.next 9), .call 2 .completed]

example (e : Err) : ∃ s, LTS.run (caught nextOne 0 0).step (caught nextOne 0 0).init (twoFail e) = some s ∧ .cancel ∉ twoFail e ∧
    s.out = [.next 7, .next 8, .next 9, .completed] := by
  have hc : .cancel ∉ twoFail e := by simp [twoFail]
  obtain ⟨s, hs⟩ := run_exists nextOne (inv_init 0 0) (HotCatch.made (twoFail e))
  exact ⟨s, hs, hc, by rw [C156_exact nextOne 0 0 hs hc]; rfl⟩

/-- C156: the handler names a subject that has ended: nothing comes any more. -/
example (e : Err) : heard (Catch.pure fun _ => .ok 1) () 0 [] [(1, .completed), (0, .next 7), (0, .error e), (1, .next 8), (1, (.completed : Notif Nat))] = [.next 7] := rfl

/-! ## C70 for subjects -/

/-- C70 over subjects: disposed before the source has failed, nothing more comes and no subject holds an observer. -/
theorem C70_subjects_partial (h : Catch.Handler C Nat) (c : C) (x : Nat) {a b : List (HotCatch.Label α)} {s : HotCatch.State C Nat α}
    (hr : LTS.run (caught h c x).step (caught h c x).init (a ++ .cancel :: b) = some s) (ha : .cancel ∉ a) (he : ∀ e, (x, .error e) ∉ HotCatch.made a) :
    s.out = heard h c x [] (HotCatch.made a) ∧ ∀ j, (s.subjects j).observers = [] := by
  obtain ⟨s1, h1, h2⟩ := LTS.run_append.mp hr
  obtain ⟨s2, h3, h4⟩ := LTS.run_cons.mp h2
  obtain ⟨c', cur', h5, -, -, h6⟩ := run_inv h (inv_init c x) h1 ha
  obtain ⟨rfl, rfl, h7⟩ := h6 he
  obtain ⟨h8, h9⟩ := cancel_first h5 (by rw [h7]; rfl) h3
  obtain ⟨h10, h11⟩ := run_silent h h4 h9
  exact ⟨by rw [h10, h8, run_heard h (inv_init c' cur') h1 ha]; rfl, h11⟩

/-- C70 is false over subjects: once the source has failed and the handler's subject is listened to, disposing has no effect at all, however often it is done. -/
theorem C70_subjects_violated (h : Catch.Handler C Nat) (c : C) (x : Nat) {a a' b : List (HotCatch.Label α)} {e : Err} {j : Nat} {s : HotCatch.State C Nat α}
    (hr : LTS.run (caught h c x).step (caught h c x).init (a ++ .call x (.error e) :: a' ++ .cancel :: b) = some s) (ha : .cancel ∉ a)
    (he : Hot.ended x (HotCatch.made a) = false) (hj : (h c e).2 = .ok j) :
    s.out = heard h c x [] (HotCatch.made (a ++ .call x (.error e) :: a' ++ b)) := by
  have key : ∀ (ls : List (HotCatch.Label α)) (c : C) (cur : Nat) (calls : List (Nat × Notif α)) (s s' : HotCatch.State C Nat α), Inv c cur calls s →
      1 < s.cat.started.length → LTS.run (HotCatch.step h some) s ls = some s' → s'.out = s.out ++ heard h c cur calls (HotCatch.made ls) := by
    intro ls
    induction ls with
    | nil => intro c cur calls s s' hi _ hr; obtain rfl := Option.some.inj hr; simp [HotCatch.made, heard]
    | cons l ls ih =>
      intro c cur calls s s' hi hl hr
      obtain ⟨t, h1, h2⟩ := LTS.run_cons.mp hr
      cases l with
      | call i n =>
        obtain ⟨c', cur', h3, h4, -, h5, -⟩ := call_step h hi h1
        rw [ih c' cur' _ t s' h3 (by omega) h2, show HotCatch.made (.call i n :: ls) = (i, n) :: HotCatch.made ls from rfl, h4]
      | other k n => exact (other_none h1).elim
      | cancel =>
        obtain ⟨h3, h4, h5⟩ := cancel_inv hi hl h1
        rw [ih c cur _ t s' h3 (by rw [h5]; exact hl) h2, h4]; rfl
  rw [List.append_assoc] at hr
  obtain ⟨s1, h1, h2⟩ := LTS.run_append.mp hr
  obtain ⟨s2, h3, h4⟩ := LTS.run_cons.mp h2
  obtain ⟨c1, cur1, h5, h6, -, h7⟩ := run_inv h (inv_init c x) h1 ha
  have hne : ∀ e, (x, .error e) ∉ HotCatch.made a := fun e hm => by
    have : Hot.ended x (HotCatch.made a) = true := List.any_eq_true.mpr ⟨_, hm, by simp [Notif.isTerminal]⟩
    rw [he] at this; cases this
  obtain ⟨rfl, rfl, h8⟩ := h7 hne
  rw [List.nil_append] at h5 h6
  obtain ⟨c2, cur2, h9, h10, -, -, h11⟩ := call_step h h5 h3
  have hl : 1 < s2.cat.started.length := by
    have := h11 e j rfl he hj
    rw [h8] at this
    exact this
  have h12 := key _ c2 cur2 _ s2 s h9 hl h4
  rw [h12]
  show s2.out ++ heard h c2 cur2 _ (HotCatch.made (a' ++ .cancel :: b)) = _
  rw [← h10]
  have h13 := h6 ((cur1, .error e) :: HotCatch.made (a' ++ .cancel :: b))
  rw [← h13]
  simp [HotCatch.made, HotCatch.init, HotCatch.State.subscribe]

/-- C70: subject 0 fails, the subscription is disposed, subject 1 is still heard. -/
example (e : Err) : ∃ s, LTS.run (caught nextOne 0 0).step (caught nextOne 0 0).init
      ([] ++ .call 0 (.error e) :: [] ++ .cancel :: [.call 1 (.next 9)]) = some s ∧ s.out = [.next 9] ∧ (s.subjects 1).observers = [1] := by
  simp [caught, LTS.run, HotCatch.step, HotCatch.init, HotCatch.State.subscribe, HotCatch.State.unsubscribe, HotCatch.State.tell, HotCatch.State.deliver, HotCatch.State.act,
    HotCatch.State.finish, Catch.step, Catch.action, Catch.start, nextOne]

/-! ## C157: `retry` over a subject

In full: if the subject fails, `retry(count)` subscribes again, and when that has failed `count` times, the observer gets the error. That is false, for
every `count`: the subject has ended, and to its new observer it says nothing. -/

namespace HotCatch

/-- The subject has not ended. -/
structure Alive (s : State Int Catch.Attempt α) : Prop where
  cat : ∃ count disposed, s.cat = ⟨count, some 0, [], true, [.source], disposed⟩
  zero : s.subjects 0 = ⟨[0], false⟩
  obs : ∀ j, j ≠ 0 → (s.subjects j).observers = []

/-- The subject has ended. -/
structure Over (s : State Int Catch.Attempt α) : Prop where
  frames : s.cat.frames = []
  zero : (s.subjects 0).stopped = true
  obs : ∀ j, j ≠ 0 → (s.subjects j).observers = []

theorem unsubscribe_obs {ω : Type} {j : Nat} : ∀ {ks : List Nat} {s : State C ω α}, (s.subjects j).observers = [] → ((s.unsubscribe ks).subjects j).observers = [] := by
  intro ks
  induction ks with
  | nil => intro s h; exact h
  | cons k ks ih => intro s h; rw [State.unsubscribe]; exact ih (by simp [h])

theorem subscribe_obs {j : Nat} (hj : j ≠ 0) : ∀ {xs : List Catch.Attempt} {k : Nat} {s : State C Catch.Attempt α}, (s.subjects j).observers = [] →
    ((s.subscribe attempt k xs).subjects j).observers = [] := by
  intro xs
  induction xs with
  | nil => intro k s h; exact h
  | cons x xs ih =>
    intro k s h
    rw [State.subscribe]
    refine ih ?_
    dsimp only
    rw [if_neg]
    · exact h
    · cases x <;> simp [attempt]; exact Ne.symm hj

theorem act_obs {h : Catch.Handler C Catch.Attempt} {s s' : State C Catch.Attempt α} {l : Catch.Label α} (hs : s.act h attempt l = some s') {j : Nat} (hj : j ≠ 0)
    (ho : (s.subjects j).observers = []) : (s'.subjects j).observers = [] := by
  simp only [State.act] at hs
  split at hs
  · cases hs
  · obtain rfl := (Option.some.inj hs).symm
    exact subscribe_obs hj (unsubscribe_obs ho)

/-- An error of something else is not heard. -/
theorem over_error {s s' : State Int Catch.Attempt α} {k : Nat} {e : Err} (hi : Over s) (hs : s.deliver Catch.factory attempt (.error e) k = some s') :
    Over s' ∧ s'.out = s.out := by
  obtain ⟨t, h1, h2⟩ := Option.bind_eq_some_iff.mp hs
  obtain ⟨o, h3, h4, h5⟩ := act_same h1
  have ho := fun j (hj : j ≠ 0) => act_obs h1 hj (hi.obs j hj)
  have hc : ∃ x, (Catch.factory s.cat.c e).2 = .ok x := by
    simp only [Catch.factory]; split <;> exact ⟨_, rfl⟩
  obtain ⟨x, hx⟩ := hc
  rcases hf : Catch.factory s.cat.c e with ⟨c', r⟩
  rw [hf] at hx
  dsimp only at hx
  subst hx
  simp only [Catch.step, hf] at h3
  split at h3
  case isFalse => cases h3
  simp only [Option.some.injEq, Prod.mk.injEq] at h3
  obtain ⟨h3, rfl⟩ := h3
  rw [List.append_nil] at h4
  simp only [State.finish] at h2
  have hfr : t.cat.frames = [.subscribing s.cat.started.length] ∨ ∃ d, t.cat.frames = [.disposing x d] := by
    rw [← h3]
    simp only [Catch.action]
    split
    · left; simp [hi.frames]
    · right; simp [hi.frames]
  rcases hfr with hfr | ⟨d, hfr⟩
  · rw [hfr] at h2
    dsimp only at h2
    obtain ⟨o, h6, h7, h8⟩ := act_same h2
    simp only [Catch.step, hfr, List.getElem?_cons_zero, Option.some.injEq, Prod.mk.injEq] at h6
    obtain ⟨h6, rfl⟩ := h6
    exact ⟨⟨by rw [← h6]; rfl, by rw [h8, h5]; exact hi.zero, fun j hj => act_obs h2 hj (ho j hj)⟩, by rw [h7, h4]; simp⟩
  · rw [hfr] at h2
    dsimp only at h2
    obtain ⟨u, h6, h9⟩ := Option.bind_eq_some_iff.mp h2
    obtain ⟨o, h7, h8, h10⟩ := act_same h6
    simp only [Catch.step, hfr, List.getElem?_cons_zero, Option.some.injEq, Prod.mk.injEq] at h7
    obtain ⟨h7, rfl⟩ := h7
    have hu : u.cat.frames = [.subscribing t.cat.started.length] := by rw [← h7]; rfl
    obtain ⟨o, h11, h12, h13⟩ := act_same h9
    simp only [Catch.step, hu, List.getElem?_cons_zero, Option.some.injEq, Prod.mk.injEq] at h11
    obtain ⟨h11, rfl⟩ := h11
    exact ⟨⟨by rw [← h11]; rfl, by rw [h13, h10, h5]; exact hi.zero, fun j hj => act_obs h9 hj (act_obs h6 hj (ho j hj))⟩, by rw [h12, h8, h4]; simp⟩

theorem over_run {ls : List (Label α)} {s s' : State Int Catch.Attempt α} (hi : Over s)
    (hr : LTS.run (step Catch.factory attempt) s ls = some s') (hl : ∀ l ∈ ls, l ≠ .cancel ∧ ∀ k n, l = .other k n → ∃ e, n = .error e) :
    s'.out = s.out := by
  refine (LTS.inv_of (s0 := s) (step := step Catch.factory attempt) (fun l => l ≠ .cancel ∧ ∀ k n, l = .other k n → ∃ e, n = .error e)
    (fun s' => Over s' ∧ s'.out = s.out) ⟨hi, rfl⟩ ?_ hl hr).2
  rintro t l t' ⟨hl1, hl2⟩ ⟨ht, ho⟩ hs
  cases l with
  | call i n =>
    simp only [step] at hs
    split at hs
    · obtain rfl := Option.some.inj hs; exact ⟨ht, ho⟩
    · rename_i hst
      have hi0 : i ≠ 0 := by rintro rfl; exact hst ht.zero
      rw [ht.obs i hi0] at hs
      obtain rfl := (Option.some.inj hs).symm
      refine ⟨⟨ht.frames, ?_, fun j hj => ?_⟩, ho⟩
      · show (if 0 = i then _ else _ : Hot.Subject).stopped = true
        rw [if_neg (Ne.symm hi0)]; exact ht.zero
      · dsimp only
        split
        · rfl
        · exact ht.obs j hj
  | other k n =>
    obtain ⟨e, rfl⟩ := hl2 k n rfl
    simp only [step] at hs
    split at hs
    · split at hs
      · obtain ⟨h1, h2⟩ := over_error ht hs
        exact ⟨h1, h2.trans ho⟩
      · cases hs
    · cases hs
  | cancel => exact absurd rfl hl1

theorem alive_run {ls : List (Label α)} {s s' : State Int Catch.Attempt α} (hi : Alive s)
    (hr : LTS.run (step Catch.factory attempt) s ls = some s') (hl : ∀ l ∈ ls, l ≠ .cancel ∧ ∀ k n, l = .other k n → ∃ e, n = .error e) :
    s'.out = s.out ++ hushed (callsOn 0 (made ls)) := by
  induction ls generalizing s with
  | nil => obtain rfl := Option.some.inj hr; simp [made, callsOn, hushed]
  | cons l ls ih =>
    obtain ⟨t, h1, h2⟩ := LTS.run_cons.mp hr
    have hl' := fun m (hm : m ∈ ls) => hl m (List.mem_cons_of_mem _ hm)
    obtain ⟨⟨count, dis, hc⟩, hz, ho⟩ := hi
    rcases s with ⟨cat, subjects, out⟩
    dsimp only at hc hz ho
    subst hc
    cases l with
    | call i n =>
      by_cases h0 : i = 0
      · subst h0
        rw [show callsOn 0 (made (.call 0 n :: ls)) = n :: callsOn 0 (made ls) from rfl]
        simp only [step, hz, Bool.false_eq_true, if_false] at h1
        have hsub : ∀ j, j ≠ 0 → ((fun j => if j = 0 then (⟨[0], n.isTerminal⟩ : Hot.Subject) else subjects j) j).observers = [] := fun j hj => by
          simp only [if_neg hj]; exact ho j hj
        cases n with
        | next v =>
          simp [State.tell, State.deliver, State.act, Catch.step, State.unsubscribe, State.subscribe, State.finish] at h1
          subst h1
          rw [ih ⟨⟨count, dis, rfl⟩, rfl, hsub⟩ h2 hl']
          simp [hushed]
        | completed =>
          simp [State.tell, State.deliver, State.act, Catch.step, State.unsubscribe, State.subscribe, State.finish] at h1
          subst h1
          rw [over_run ⟨rfl, rfl, hsub⟩ h2 hl']
          simp [hushed]
        | error e =>
          obtain ⟨u, h3, h4⟩ := Option.bind_eq_some_iff.mp h1
          obtain rfl := Option.some.inj h4
          obtain ⟨h5, h6⟩ := over_error (s := ⟨_, fun j => if j = 0 then ⟨[0], (.error e : Notif α).isTerminal⟩ else subjects j, out⟩) ⟨rfl, rfl, hsub⟩ h3
          rw [over_run h5 h2 hl', h6]
          simp [hushed]
      · rw [show callsOn 0 (made (.call i n :: ls)) = callsOn 0 (made ls) by simp [made, callsOn, h0]]
        simp only [step] at h1
        split at h1
        · obtain rfl := Option.some.inj h1
          exact ih ⟨⟨count, dis, rfl⟩, hz, ho⟩ h2 hl'
        · rw [ho i h0] at h1
          obtain rfl := (Option.some.inj h1).symm
          have hal : Alive (⟨⟨count, some 0, [], true, [.source], dis⟩, fun j => if j = i then ⟨[], n.isTerminal⟩ else subjects j, out⟩ : State Int Catch.Attempt α) := by
            refine ⟨⟨count, dis, rfl⟩, ?_, fun j hj => ?_⟩
            · dsimp only
              rw [if_neg (Ne.symm h0)]; exact hz
            · dsimp only
              split
              · rfl
              · exact ho j hj
          have := ih hal h2 hl'
          exact this
    | other k n =>
      exfalso
      simp only [step] at h1
      cases k with
      | zero => simp [attempt] at h1
      | succ k => simp at h1
    | cancel => exact absurd rfl (hl _ List.mem_cons_self).1

end HotCatch

/-- C157 is false for every `count`: when the subject fails, nothing comes any more, whatever is called afterwards: no value, no completion, and no error. (`other`: the
calls of the `fail(exn)` that `retry` may subscribe to, which are errors.) -/
theorem C157_violated (count : Int) {ls : List (HotCatch.Label α)} {s : HotCatch.State Int Catch.Attempt α}
    (hr : LTS.run (retried count).step (retried count).init ls = some s) (hc : .cancel ∉ ls) (hf : ∀ k n, .other k n ∈ ls → ∃ e, n = .error e) :
    s.out = hushed (callsOn 0 (HotCatch.made ls)) ∧ ∀ e, .error e ∉ s.out := by
  have key : s.out = hushed (callsOn 0 (HotCatch.made ls)) := by
    rw [alive_run (s := HotCatch.init count attempt .source) ⟨⟨count, [], rfl⟩, by simp [HotCatch.init, HotCatch.State.subscribe, attempt], fun j hj => by
      simp [HotCatch.init, HotCatch.State.subscribe, attempt, Ne.symm hj]⟩ hr fun l hl => ⟨by rintro rfl; exact hc hl, by rintro k n rfl; exact hf k n hl⟩]
    rfl
  refine ⟨key, fun e => ?_⟩
  rw [key]
  generalize callsOn 0 (HotCatch.made ls) = ns
  induction ns with
  | nil => simp [hushed]
  | cons n ns ih => cases n <;> simp [hushed, ih]

/-- C157, as long as the subject does not fail: what is sent to it comes. -/
theorem C157_partial (count : Int) {ls : List (HotCatch.Label α)} {s : HotCatch.State Int Catch.Attempt α}
    (hr : LTS.run (retried count).step (retried count).init ls = some s) (hc : .cancel ∉ ls) (hf : ∀ k n, .other k n ∈ ls → ∃ e, n = .error e)
    (he : ∀ e, .error e ∉ callsOn 0 (HotCatch.made ls)) : s.out = (story (callsOn 0 (HotCatch.made ls))).events := by
  rw [(C157_violated count hr hc hf).1]
  revert he
  generalize callsOn 0 (HotCatch.made ls) = ns
  induction ns with
  | nil => intro _; rfl
  | cons n ns ih =>
    intro he
    cases n with
    | next v =>
      rw [hushed, ih fun e h => he e (List.mem_cons_of_mem _ h)]
      simp [story, Story.events]
    | completed => simp [hushed, story, Story.events]
    | error e => exact absurd List.mem_cons_self (he e)

/-- C157: `retry(3)`: the subject sends 7 and fails; an attempt to send 8 follows. -/
example (e : Err) : ∃ s, LTS.run (retried 3).step (retried 3).init [.call 0 (.next 7), .call 0 (.error e), .call 0 (.next 8)] = some s ∧
    s.out = [.next 7] ∧ s.cat.started = [.source, .source] := by
  simp [retried, LTS.run, HotCatch.step, HotCatch.init, HotCatch.State.subscribe, HotCatch.State.unsubscribe, HotCatch.State.tell, HotCatch.State.deliver, HotCatch.State.act,
    HotCatch.State.finish, Catch.step, Catch.action, Catch.start, Catch.factory, attempt, Notif.isTerminal]

end Aio
