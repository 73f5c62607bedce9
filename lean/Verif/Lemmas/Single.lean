import Verif.Spec.Single
import Verif.Lemmas.Lists
/-!
# Invariants of AsyncSingleSubject
-/

namespace Aio.Single
variable {α : Type}

/-! ## the steps, spelled out -/

/-- How an attempt to get through the `while` loop ends: what becomes of the call, and what is delivered. -/
inductive Outcome (s : State α) (c : Nat) (n : Notif α) : Call α → List (Nat × Nat × Notif α) → Prop
  | sent (o : Nat) : s.observer = some o → s.isStopped = false → Outcome s c n (.sending n) [(c, o, n)]
  | dropped : s.isStopped = true → Outcome s c n .returned []
  | disposed : s.isDisposed = true → Outcome s c n (.raised .objectDisposed) []
  | wait : s.observer = none → s.wait = .pending → Outcome s c n (.waiting n) []
  | spin : s.observer = none → s.wait = .done → Outcome s c n .spinning []
  | cancelled : s.observer = none → s.wait = .cancelled → Outcome s c n (.raised .cancelled) []

theorem attempt_outcome (s : State α) (c : Nat) (n : Notif α) : ∃ x lg, Outcome s c n x lg ∧
    s.attempt c n = { s with calls := s.calls.set c x, log := s.log ++ lg } := by
  unfold State.attempt
  cases ho : s.observer with
  | some o =>
    dsimp only
    unfold State.forward
    cases hs : s.isStopped with
    | true =>
      cases hd : s.isDisposed with
      | true =>
        cases n with
        | next v => exact ⟨_, _, .dropped hs, by simp [ho, hs, hd]⟩
        | _ => exact ⟨_, _, .disposed hd, by simp [ho, hs, hd]⟩
      | false =>
        cases n <;> exact ⟨_, _, .dropped hs, by simp [ho, hs, hd]⟩
    | false =>
      cases hd : s.isDisposed with
      | true =>
        cases n with
        | next v => exact ⟨_, _, .sent o ho hs, by simp [ho, hs, hd]⟩
        | _ => exact ⟨_, _, .disposed hd, by simp [ho, hs, hd]⟩
      | false =>
        cases n <;> exact ⟨_, _, .sent o ho hs, by simp [ho, hs, hd]⟩
  | none =>
    dsimp only
    cases hw : s.wait with
    | pending => exact ⟨_, _, .wait ho hw, by simp [ho, hw]⟩
    | done => exact ⟨_, _, .spin ho hw, by simp [ho, hw]⟩
    | cancelled => exact ⟨_, _, .cancelled ho hw, by simp [ho, hw]⟩

theorem Outcome.congr {s s' : State α} {c : Nat} {n : Notif α} {x lg} (h : Outcome s c n x lg)
    (h1 : s'.observer = s.observer) (h2 : s'.isStopped = s.isStopped) (h3 : s'.isDisposed = s.isDisposed)
    (h4 : s'.wait = s.wait) : Outcome s' c n x lg := by
  cases h with
  | sent o a b => exact .sent o (h1 ▸ a) (h2 ▸ b)
  | dropped a => exact .dropped (h2 ▸ a)
  | disposed a => exact .disposed (h3 ▸ a)
  | wait a b => exact .wait (h1 ▸ a) (h4 ▸ b)
  | spin a b => exact .spin (h1 ▸ a) (h4 ▸ b)
  | cancelled a b => exact .cancelled (h1 ▸ a) (h4 ▸ b)

theorem begin_outcome (s : State α) (n : Notif α) : ∃ x lg, Outcome s s.calls.length n x lg ∧
    s.begin n = { s with calls := s.calls ++ [x], log := s.log ++ lg } := by
  have key : ∃ x lg, Outcome s s.calls.length n x lg ∧
      State.attempt { s with calls := s.calls ++ [.returned] } s.calls.length n =
        { s with calls := s.calls ++ [x], log := s.log ++ lg } := by
    obtain ⟨x, lg, h1, h2⟩ := attempt_outcome { s with calls := s.calls ++ [.returned] } s.calls.length n
    refine ⟨x, lg, h1.congr rfl rfl rfl rfl, ?_⟩
    rw [h2]; simp
  unfold State.begin
  cases hd : s.isDisposed with
  | true =>
    cases n with
    | next v => exact ⟨_, _, .disposed hd, by simp [hd]⟩
    | _ => simpa [hd] using key
  | false => cases n <;> simpa [hd] using key

theorem step_cases {s s' : State α} {l : Label α} (h : step s l = some s') :
    s.calls.any Call.isSpinning = false ∧
    ((∃ n x lg, l = .call n ∧ Outcome s s.calls.length n x lg ∧
      s' = { s with calls := s.calls ++ [x], log := s.log ++ lg }) ∨
    (∃ c rd n x lg, l = .wake ∧ s.ready = c :: rd ∧ s.calls[c]? = some (.woken n) ∧ Outcome s c n x lg ∧
      s' = { s with ready := rd, calls := s.calls.set c x, log := s.log ++ lg }) ∨
    (∃ c n, l = .ret c ∧ s.calls[c]? = some (.sending n) ∧
      s' = { s with calls := s.calls.set c .returned, isStopped := s.isStopped || n.isTerminal }) ∨
    (∃ c n e, l = .raise c e ∧ s.calls[c]? = some (.sending n) ∧
      s' = { s with calls := s.calls.set c (.raised e) }) ∨
    (∃ c n, l = .cancel c ∧ s.calls[c]? = some (.waiting n) ∧
      s' = { s with wait := .cancelled, calls := s.calls.map Call.abort }) ∨
    (∃ c n, l = .cancel c ∧ s.calls[c]? = some (.woken n) ∧
      s' = { s with calls := s.calls.set c (.raised .cancelled), ready := s.ready.erase c }) ∨
    (∃ o, l = .subscribe o ∧ s.isDisposed = true ∧ s' = { s with subs := s.subs ++ [false] }) ∨
    (∃ o, l = .subscribe o ∧ s.isDisposed = false ∧ s.wait = .pending ∧
      s' = { s with observer := some o, subs := s.subs ++ [true], wait := .done, calls := s.calls.map Call.wake,
                    ready := s.ready ++ s.waiters }) ∨
    (∃ o, l = .subscribe o ∧ s.isDisposed = false ∧ s.wait ≠ .pending ∧
      s' = { s with observer := some o, subs := s.subs ++ [true] }) ∨
    (l = .dispose ∧ s' = { s with observer := none, isDisposed := true })) := by
  unfold step at h
  split at h
  · cases h
  next hsp =>
  refine ⟨by simpa using hsp, ?_⟩
  cases l with
  | call n =>
    simp only [Option.some.injEq] at h
    obtain ⟨x, lg, h1, h2⟩ := begin_outcome s n
    exact .inl ⟨n, x, lg, rfl, h1, by rw [← h, h2]⟩
  | wake =>
    right; left
    dsimp only at h
    split at h
    · cases h
    next c rd hrd =>
    split at h
    next n hc =>
      simp only [Option.some.injEq] at h
      obtain ⟨x, lg, h1, h2⟩ := attempt_outcome { s with ready := rd } c n
      exact ⟨c, rd, n, x, lg, rfl, hrd, hc, h1.congr rfl rfl rfl rfl, by rw [← h, h2]⟩
    next => cases h
  | ret c =>
    right; right; left
    dsimp only at h
    split at h
    next v hc =>
      simp only [Option.some.injEq] at h
      exact ⟨c, _, rfl, hc, by rw [← h]; simp [Notif.isTerminal]⟩
    next n hn hc =>
      simp only [Option.some.injEq] at h
      refine ⟨c, _, rfl, hc, ?_⟩
      rw [← h]
      cases n with
      | next v => exact absurd rfl (hn v)
      | _ => simp [Notif.isTerminal]
    next => cases h
  | raise c e =>
    right; right; right; left
    dsimp only at h
    split at h
    next n hc =>
      simp only [Option.some.injEq] at h
      exact ⟨c, n, e, rfl, hc, h.symm⟩
    next => cases h
  | cancel c =>
    right; right; right; right
    dsimp only at h
    split at h
    next n hc =>
      simp only [Option.some.injEq] at h
      exact .inl ⟨c, n, rfl, hc, h.symm⟩
    next n hc =>
      simp only [Option.some.injEq] at h
      exact .inr (.inl ⟨c, n, rfl, hc, h.symm⟩)
    next => cases h
  | subscribe o =>
    right; right; right; right; right; right
    dsimp only at h
    split at h
    next hd =>
      simp only [Option.some.injEq] at h
      exact .inl ⟨o, rfl, hd, h.symm⟩
    next hd =>
      have hd : s.isDisposed = false := by simpa using hd
      split at h
      next hw =>
        simp only [Option.some.injEq] at h
        exact .inr (.inl ⟨o, rfl, hd, hw, h.symm⟩)
      next hw =>
        simp only [Option.some.injEq] at h
        exact .inr (.inr (.inl ⟨o, rfl, hd, hw, h.symm⟩))
  | dispose =>
    simp only [Option.some.injEq] at h
    exact .inr (.inr (.inr (.inr (.inr (.inr (.inr (.inr (.inr ⟨rfl, h.symm⟩))))))))

/-! ## the spec's functions, one label at a time -/

theorem made_snoc (ls : List (Label α)) (l : Label α) : made (ls ++ [l]) =
    made ls ++ (match l with | .call n => [n] | _ => []) := by
  rw [made, List.filterMap_append]; cases l <;> rfl

theorem takeWhile_all {β : Type} {p : β → Bool} {a : List β} (h : ∀ x ∈ a, p x = true) (b : List β) :
    (a ++ b).takeWhile p = a ++ b.takeWhile p := by
  induction a with
  | nil => rfl
  | cons x a ih => simp [h x (by simp), ih (fun y hy => h y (by simp [hy]))]

theorem takeWhile_stop {β : Type} {p : β → Bool} {a : List β} {x : β} (hx : x ∈ a) (hp : p x = false) (b : List β) :
    (a ++ b).takeWhile p = a.takeWhile p := by
  induction a with
  | nil => cases hx
  | cons y a ih =>
    cases hy : p y with
    | false => simp [hy]
    | true =>
      rcases List.mem_cons.mp hx with rfl | hx
      · rw [hp] at hy; cases hy
      · simp [hy, ih hx]

theorem not_subscribed {ls : List (Label α)} (h : ¬ Subscribed ls) : ∀ l ∈ ls, (!l.isSubscribe) = true := by
  intro l hl
  cases l with
  | subscribe o => exact absurd ⟨o, hl⟩ h
  | _ => rfl

theorem early_before {ls : List (Label α)} (h : ¬ Subscribed ls) : early ls = made ls := by
  rw [early, ← List.append_nil ls, takeWhile_all (not_subscribed h)]; simp

theorem early_after {a : List (Label α)} (h : Subscribed a) (b : List (Label α)) : early (a ++ b) = early a := by
  obtain ⟨o, ho⟩ := h
  rw [early, takeWhile_stop ho rfl]; rfl

theorem early_prefix (ls : List (Label α)) : early ls <+: made ls := by
  obtain ⟨t, ht⟩ := List.takeWhile_prefix (fun l : Label α => !l.isSubscribe) (l := ls)
  refine ⟨made t, ?_⟩
  rw [early, made, made, ← List.filterMap_append, ht]; rfl

theorem subscribed_snoc (ls : List (Label α)) (l : Label α) :
    Subscribed (ls ++ [l]) ↔ Subscribed ls ∨ ∃ o, l = .subscribe o := by
  simp [Subscribed, exists_or, eq_comm]

/-! ## the calls -/

/-- The notification of a call that is not over. -/
def Call.notif : Call α → Option (Notif α)
  | .waiting n => some n
  | .woken n => some n
  | .sending n => some n
  | _ => none

structure Inv (ls : List (Label α)) (s : State α) : Prop where
  len : s.calls.length = (made ls).length
  notif : ∀ (c : Nat) x n, s.calls[c]? = some x → x.notif = some n → (made ls)[c]? = some n
  logged : ∀ x ∈ s.log, (made ls)[x.1]? = some x.2.2
  once : (s.log.map (·.1)).Nodup
  unsent : ∀ (c : Nat) n, (s.calls[c]? = some (.waiting n) ∨ s.calls[c]? = some (.woken n)) → c ∉ s.log.map (·.1)
  ready : ∀ c, c ∈ s.ready ↔ ∃ n, s.calls[c]? = some (.woken n)
  pending : s.wait = .pending → s.ready = [] ∧ s.log = [] ∧ s.observer = none
  waits : ∀ (c : Nat) n, s.calls[c]? = some (.waiting n) → s.wait = .pending
  unsub : s.wait = .pending → s.isDisposed = false → ¬ Subscribed ls
  gone : s.isDisposed = true → s.observer = none
  fresh : ¬ Subscribed ls → s.log = [] ∧ s.ready = [] ∧ s.observer = none
  order : (((s.log.map (·.1)).filter (· < (early ls).length)) ++ s.ready).Pairwise (· < ·)
  early : ∀ c ∈ s.ready, c < (early ls).length

theorem mem_waiters {s : State α} {c : Nat} : c ∈ s.waiters ↔ ∃ n, s.calls[c]? = some (.waiting n) := by
  simp only [State.waiters, List.mem_filter, List.mem_range]
  constructor
  · rintro ⟨h1, h2⟩
    rw [List.getElem?_eq_getElem h1] at h2 ⊢
    simp only [Option.map_some, Option.getD_some] at h2
    cases hx : s.calls[c] <;> simp [hx, Call.isWaiting] at h2 ⊢
  · rintro ⟨n, hn⟩
    exact ⟨(List.getElem?_eq_some_iff.mp hn).1, by simp [hn, Call.isWaiting]⟩

theorem waiters_sorted (s : State α) : s.waiters.Pairwise (· < ·) :=
  List.pairwise_lt_range.sublist List.filter_sublist

theorem Outcome.log {s : State α} {c n x lg} (h : Outcome s c n x lg) :
    lg = [] ∨ ∃ o, s.observer = some o ∧ s.isStopped = false ∧ x = .sending n ∧ lg = [(c, o, n)] := by
  cases h with
  | sent o a b => exact .inr ⟨o, a, b, rfl, rfl⟩
  | _ => exact .inl rfl

theorem Outcome.notif {s : State α} {c n m x lg} (h : Outcome s c n x lg) (hx : x.notif = some m) : m = n := by
  cases h <;> simp [Call.notif] at hx <;> exact hx.symm

theorem Outcome.ne_woken {s : State α} {c n x lg} (h : Outcome s c n x lg) (m) : x ≠ .woken m := by
  cases h <;> simp

theorem Outcome.waiting {s : State α} {c n x lg} (h : Outcome s c n x lg) {m} (hx : x = .waiting m) :
    s.observer = none ∧ s.wait = .pending ∧ lg = [] := by
  cases h <;> simp at hx <;> simp_all

theorem early_snoc (ls : List (Label α)) (l : Label α) :
    early (ls ++ [l]) = early ls ∨ (¬ Subscribed ls ∧ ∃ n, l = .call n ∧ early (ls ++ [l]) = made ls ++ [n]) := by
  by_cases hs : Subscribed ls
  · exact .inl (early_after hs _)
  · by_cases hl : ∃ o, l = .subscribe o
    · left
      obtain ⟨o, rfl⟩ := hl
      rw [early_before hs, early, takeWhile_all (not_subscribed hs)]
      simp [Label.isSubscribe]
    · have h1 : ¬ Subscribed (ls ++ [l]) := by rw [subscribed_snoc]; simp only [hs, hl]; simp
      rw [early_before hs, early_before h1, made_snoc]
      cases l with
      | call n => exact .inr ⟨hs, n, rfl, rfl⟩
      | _ => left; simp

theorem early_le (ls : List (Label α)) : (early ls).length ≤ (made ls).length := (early_prefix ls).length_le

theorem inv_call {ls : List (Label α)} {s : State α} {n x lg} (hi : Inv ls s)
    (ho : Outcome s s.calls.length n x lg) :
    Inv (ls ++ [.call n]) { s with calls := s.calls ++ [x], log := s.log ++ lg } := by
  have hm : made (ls ++ [Label.call n]) = made ls ++ [n] := by rw [made_snoc]
  have hsub : Subscribed (ls ++ [Label.call n]) ↔ Subscribed ls := by rw [subscribed_snoc]; simp
  have hnew : s.calls.length ∉ s.log.map (·.1) := by
    intro h
    obtain ⟨y, h1, h2⟩ := List.mem_map.mp h
    have := (List.getElem?_eq_some_iff.mp (hi.logged y h1)).1
    rw [← hi.len] at this; omega
  have hlogd : ∀ o, s.observer = some o → Subscribed ls := by
    intro o h
    by_cases hs : Subscribed ls
    · exact hs
    · rw [(hi.fresh hs).2.2] at h; cases h
  refine ⟨?_, ?_, ?_, ?_, ?_, ?_, ?_, ?_, ?_, ?_, ?_, ?_, ?_⟩
  · simp [hm, hi.len]
  · intro c y m h1 h2
    rw [hm]
    rcases get_push.mp h1 with h1 | ⟨h3, rfl⟩
    · exact prefix_get (hi.notif c y m h1 h2)
    · rw [ho.notif h2, h3, hi.len]; simp
  · intro y hy
    rw [hm]
    rcases List.mem_append.mp hy with hy | hy
    · exact prefix_get (hi.logged y hy)
    · rcases ho.log with h | ⟨o, -, -, -, h⟩
      · rw [h] at hy; cases hy
      · rw [h, List.mem_singleton] at hy; subst hy; simp [hi.len]
  · rw [List.map_append]
    rcases ho.log with h | ⟨o, -, -, -, h⟩
    · rw [h]; simpa using hi.once
    · rw [h, List.nodup_append]
      refine ⟨hi.once, by simp, ?_⟩
      intro a ha b hb
      simp only [List.map_cons, List.map_nil, List.mem_singleton] at hb
      rintro rfl; subst hb; exact hnew ha
  · intro c m h
    have h' : s.calls[c]? = some (.waiting m) ∨ s.calls[c]? = some (.woken m) ∨ (c = s.calls.length ∧ x = .waiting m) := by
      rcases h with h | h
      · rcases get_push.mp h with h | h
        · exact .inl h
        · exact .inr (.inr h)
      · rcases get_push.mp h with h | ⟨-, h⟩
        · exact .inr (.inl h)
        · exact absurd h (ho.ne_woken _)
    rw [List.map_append, List.mem_append, not_or]
    rcases h' with h' | h' | ⟨rfl, h'⟩
    · refine ⟨hi.unsent c m (.inl h'), ?_⟩
      have := (List.getElem?_eq_some_iff.mp h').1
      rcases ho.log with h | ⟨o, -, -, -, h⟩ <;> rw [h] <;> simp
      omega
    · refine ⟨hi.unsent c m (.inr h'), ?_⟩
      have := (List.getElem?_eq_some_iff.mp h').1
      rcases ho.log with h | ⟨o, -, -, -, h⟩ <;> rw [h] <;> simp
      omega
    · refine ⟨hnew, ?_⟩
      rw [(ho.waiting h').2.2]; simp
  · intro c
    rw [hi.ready]
    constructor
    · rintro ⟨m, h⟩; exact ⟨m, get_push.mpr (.inl h)⟩
    · rintro ⟨m, h⟩
      rcases get_push.mp h with h | ⟨-, h⟩
      · exact ⟨m, h⟩
      · exact absurd h (ho.ne_woken _)
  · intro h
    obtain ⟨h1, h2, h3⟩ := hi.pending h
    refine ⟨h1, ?_, h3⟩
    rcases ho.log with h4 | ⟨o, h4, -⟩
    · simp [h2, h4]
    · rw [h3] at h4; cases h4
  · intro c m h
    rcases get_push.mp h with h | ⟨-, h⟩
    · exact hi.waits c m h
    · exact (ho.waiting h).2.1
  · intro h1 h2; rw [hsub]; exact hi.unsub h1 h2
  · exact hi.gone
  · intro h
    rw [hsub] at h
    obtain ⟨h1, h2, h3⟩ := hi.fresh h
    refine ⟨?_, h2, h3⟩
    rcases ho.log with h4 | ⟨o, h4, -⟩
    · simp [h1, h4]
    · rw [h3] at h4; cases h4
  · by_cases hs : Subscribed ls
    · rw [early_after hs]
      have : (List.map (·.1) (s.log ++ lg)).filter (· < (early ls).length) =
          (List.map (·.1) s.log).filter (· < (early ls).length) := by
        rcases ho.log with h4 | ⟨o, h4, -, -, h⟩
        · simp [h4]
        · rw [h, List.map_append, List.filter_append]
          have := early_le ls
          rw [← hi.len] at this
          simp; omega
      show List.Pairwise _ (List.filter _ (List.map _ (s.log ++ lg)) ++ s.ready)
      rw [this]; exact hi.order
    · obtain ⟨h1, h2, h3⟩ := hi.fresh hs
      rcases ho.log with h4 | ⟨o, h4, -⟩
      · simp [h1, h2, h4]
      · rw [h3] at h4; cases h4
  · intro c hc
    have := hi.early c hc
    rcases early_snoc ls (.call n) with h | ⟨h, m, -, h1⟩
    · rw [h]; exact this
    · rw [(hi.fresh h).2.1] at hc; cases hc

theorem inv_wake {ls : List (Label α)} {s : State α} {c rd n x lg} (hi : Inv ls s) (hr : s.ready = c :: rd)
    (hc : s.calls[c]? = some (.woken n)) (ho : Outcome s c n x lg) :
    Inv (ls ++ [.wake]) { s with ready := rd, calls := s.calls.set c x, log := s.log ++ lg } := by
  have hm : made (ls ++ [Label.wake]) = made ls := by rw [made_snoc]; simp
  have hsub : Subscribed (ls ++ [Label.wake]) ↔ Subscribed ls := by rw [subscribed_snoc]; simp
  have hea : early (ls ++ [Label.wake]) = early ls := by
    rcases early_snoc ls .wake with h | ⟨-, m, h, -⟩
    · exact h
    · cases h
  have hlt := (List.getElem?_eq_some_iff.mp hc).1
  have hnew := hi.unsent c n (.inr hc)
  have hnp : s.wait ≠ .pending := fun h => by rw [(hi.pending h).1] at hr; cases hr
  have hcE : c < (early ls).length := hi.early c (by rw [hr]; simp)
  have hnotrd : c ∉ rd := by
    have := hi.order
    rw [hr, List.pairwise_append] at this
    intro h; have := (List.pairwise_cons.mp this.2.1).1 c h; omega
  have hm' : (made ls)[c]? = some n := hi.notif c _ n hc rfl
  refine ⟨?_, ?_, ?_, ?_, ?_, ?_, ?_, ?_, ?_, ?_, ?_, ?_, ?_⟩
  · simp [hm, hi.len]
  · intro c' y m h1 h2
    rw [hm]
    rcases (get_set hlt).mp h1 with ⟨rfl, rfl⟩ | ⟨-, h1⟩
    · rw [ho.notif h2]; exact hm'
    · exact hi.notif c' y m h1 h2
  · intro y hy
    rw [hm]
    rcases List.mem_append.mp hy with hy | hy
    · exact hi.logged y hy
    · rcases ho.log with h | ⟨o, -, -, -, h⟩
      · rw [h] at hy; cases hy
      · rw [h, List.mem_singleton] at hy; subst hy; exact hm'
  · rw [List.map_append]
    rcases ho.log with h | ⟨o, -, -, -, h⟩
    · rw [h]; simpa using hi.once
    · rw [h, List.nodup_append]
      refine ⟨hi.once, by simp, ?_⟩
      intro a ha b hb
      simp only [List.map_cons, List.map_nil, List.mem_singleton] at hb
      rintro rfl; subst hb; exact hnew ha
  · intro c' m h
    have h' : c' ≠ c ∧ (s.calls[c']? = some (.waiting m) ∨ s.calls[c']? = some (.woken m)) := by
      rcases h with h | h
      · rcases (get_set hlt).mp h with ⟨rfl, h2⟩ | ⟨h1, h⟩
        · exact absurd (ho.waiting h2).2.1 hnp
        · exact ⟨h1, .inl h⟩
      · rcases (get_set hlt).mp h with ⟨rfl, h2⟩ | ⟨h1, h⟩
        · exact absurd h2 (ho.ne_woken _)
        · exact ⟨h1, .inr h⟩
    rw [List.map_append, List.mem_append, not_or]
    refine ⟨hi.unsent c' m h'.2, ?_⟩
    rcases ho.log with h | ⟨o, -, -, -, h⟩ <;> rw [h] <;> simp
    exact h'.1
  · intro c'
    have := hi.ready c'
    rw [hr, List.mem_cons] at this
    constructor
    · intro h
      obtain ⟨m, h1⟩ := this.mp (.inr h)
      exact ⟨m, (get_set hlt).mpr (.inr ⟨fun h2 => hnotrd (h2 ▸ h), h1⟩)⟩
    · rintro ⟨m, h⟩
      rcases (get_set hlt).mp h with ⟨-, h⟩ | ⟨h1, h⟩
      · exact absurd h (ho.ne_woken _)
      · exact (this.mpr ⟨m, h⟩).resolve_left h1
  · intro h; exact absurd h hnp
  · intro c' m h
    rcases (get_set hlt).mp h with ⟨-, h⟩ | ⟨h1, h⟩
    · exact (ho.waiting h).2.1
    · exact hi.waits c' m h
  · intro h1 h2; exact absurd h1 hnp
  · exact hi.gone
  · intro h
    rw [hsub] at h
    rw [(hi.fresh h).2.1] at hr; cases hr
  · rw [hea]
    have h0 := hi.order
    show List.Pairwise _ (List.filter _ (List.map _ (s.log ++ lg)) ++ rd)
    rw [hr] at h0
    rcases ho.log with h4 | ⟨o, h4, -, -, h⟩
    · rw [h4, List.append_nil]
      exact h0.sublist ((List.Sublist.refl _).append (List.sublist_cons_self _ _))
    · rw [h, List.map_append, List.filter_append]
      simpa [hcE] using h0
  · intro c' hc'
    rw [hea]; exact hi.early c' (by rw [hr]; simp [hc'])

/-- Steps that only finish a call, or refuse a subscription. -/
theorem inv_plain {ls : List (Label α)} {s s' : State α} {l : Label α} (hi : Inv ls s)
    (hl : ∀ n, l ≠ .call n) (hl' : ∀ o, l ≠ .subscribe o)
    (h1 : s'.log = s.log) (h2 : s'.calls.length = s.calls.length)
    (h3 : ∀ (c : Nat) x, s'.calls[c]? = some x → x.notif ≠ none → s.calls[c]? = some x)
    (h4 : s'.ready.Sublist s.ready) (h5 : ∀ c, c ∈ s'.ready ↔ ∃ n, s'.calls[c]? = some (.woken n))
    (h6 : s'.wait = .pending → s.wait = .pending)
    (h7 : ∀ (c : Nat) n, s'.calls[c]? = some (.waiting n) → s'.wait = .pending)
    (h8 : s'.isDisposed = false → s.isDisposed = false) (h9 : s'.observer = none ∨ s'.observer = s.observer)
    (h10 : s'.isDisposed = true → s'.observer = none) : Inv (ls ++ [l]) s' := by
  have hm : made (ls ++ [l]) = made ls := by
    rw [made_snoc]
    cases l with
    | call n => exact absurd rfl (hl n)
    | _ => simp
  have hsub : Subscribed (ls ++ [l]) ↔ Subscribed ls := by
    rw [subscribed_snoc]
    constructor
    · rintro (h | ⟨o, h⟩)
      · exact h
      · exact absurd h (hl' o)
    · exact .inl
  have hea : early (ls ++ [l]) = early ls := by
    rcases early_snoc ls l with h | ⟨-, m, h, -⟩
    · exact h
    · exact absurd h (hl m)
  have hobs : s.observer = none → s'.observer = none := fun h => by
    rcases h9 with h9 | h9
    · exact h9
    · rw [h9, h]
  refine ⟨?_, ?_, ?_, ?_, ?_, h5, ?_, h7, ?_, h10, ?_, ?_, ?_⟩
  · rw [h2, hm, hi.len]
  · intro c x n h11 h12
    rw [hm]; exact hi.notif c x n (h3 c x h11 (by rw [h12]; simp)) h12
  · rw [h1, hm]; exact hi.logged
  · rw [h1]; exact hi.once
  · intro c n h
    rw [h1]
    rcases h with h | h
    · exact hi.unsent c n (.inl (h3 _ _ h (by simp [Call.notif])))
    · exact hi.unsent c n (.inr (h3 _ _ h (by simp [Call.notif])))
  · intro h
    obtain ⟨h11, h12, h13⟩ := hi.pending (h6 h)
    refine ⟨?_, by rw [h1, h12], hobs h13⟩
    rw [h11] at h4; exact List.sublist_nil.mp h4
  · intro h11 h12; rw [hsub]; exact hi.unsub (h6 h11) (h8 h12)
  · intro h
    rw [hsub] at h
    obtain ⟨h11, h12, h13⟩ := hi.fresh h
    refine ⟨by rw [h1, h11], ?_, hobs h13⟩
    rw [h12] at h4; exact List.sublist_nil.mp h4
  · rw [hea, h1]
    exact hi.order.sublist ((List.Sublist.refl _).append h4)
  · intro c hc
    rw [hea]; exact hi.early c (h4.subset hc)

theorem notif_set {s : State α} {c0 : Nat} {x : Call α} (hlt : c0 < s.calls.length) (hx : x.notif = none) :
    ∀ (c : Nat) y, (s.calls.set c0 x)[c]? = some y → y.notif ≠ none → s.calls[c]? = some y := by
  intro c y h1 h2
  rcases (get_set hlt).mp h1 with ⟨-, rfl⟩ | ⟨-, h1⟩
  · exact absurd hx h2
  · exact h1

theorem ready_set {ls : List (Label α)} {s : State α} (hi : Inv ls s) {c0 : Nat} {x y : Call α}
    (hy : s.calls[c0]? = some y) (hy' : ∀ n, y ≠ .woken n) (hx : x.notif = none) :
    ∀ c, c ∈ s.ready ↔ ∃ n, (s.calls.set c0 x)[c]? = some (.woken n) := by
  intro c
  have hlt := (List.getElem?_eq_some_iff.mp hy).1
  rw [hi.ready]
  constructor
  · rintro ⟨n, h⟩
    refine ⟨n, (get_set hlt).mpr (.inr ⟨?_, h⟩)⟩
    rintro rfl
    rw [hy] at h; exact hy' n (Option.some.inj h)
  · rintro ⟨n, h⟩
    exact ⟨n, notif_set hlt hx c _ h (by simp [Call.notif])⟩

theorem inv_step {ls : List (Label α)} {s s' : State α} {l : Label α} (hi : Inv ls s)
    (h : step s l = some s') : Inv (ls ++ [l]) s' := by
  obtain ⟨-, h⟩ := step_cases h
  rcases h with ⟨n, x, lg, rfl, ho, rfl⟩ | ⟨c, rd, n, x, lg, rfl, hr, hc, ho, rfl⟩ | ⟨c, n, rfl, hc, rfl⟩ |
    ⟨c, n, e, rfl, hc, rfl⟩ | ⟨c, n, rfl, hc, rfl⟩ | ⟨c, n, rfl, hc, rfl⟩ | ⟨o, rfl, hd, rfl⟩ |
    ⟨o, rfl, hd, hw, rfl⟩ | ⟨o, rfl, hd, hw, rfl⟩ | ⟨rfl, rfl⟩
  · exact inv_call hi ho
  · exact inv_wake hi hr hc ho
  · have hlt := (List.getElem?_eq_some_iff.mp hc).1
    refine inv_plain hi (by simp) (by simp) rfl (by simp) (notif_set hlt rfl) (List.Sublist.refl _)
      (ready_set hi hc (by simp) rfl) (fun h => h) ?_ (fun h => h) (.inr rfl) hi.gone
    intro c' m h1
    exact hi.waits c' m (notif_set hlt rfl _ _ h1 (by simp [Call.notif]))
  · have hlt := (List.getElem?_eq_some_iff.mp hc).1
    refine inv_plain hi (by simp) (by simp) rfl (by simp) (notif_set hlt rfl) (List.Sublist.refl _)
      (ready_set hi hc (by simp) rfl) (fun h => h) ?_ (fun h => h) (.inr rfl) hi.gone
    intro c' m h1
    exact hi.waits c' m (notif_set hlt rfl _ _ h1 (by simp [Call.notif]))
  · have hp := hi.waits c n hc
    refine inv_plain hi (by simp) (by simp) rfl (by simp) ?_ (List.Sublist.refl _)
      ?_ (by simp) ?_ (fun h => h) (.inr rfl) hi.gone
    · intro c' x h1 h2
      obtain ⟨y, h3, rfl⟩ := get_map.mp h1
      cases y <;> simp_all [Call.abort, Call.notif]
    · intro c'
      rw [hi.ready]
      constructor
      · rintro ⟨m, h1⟩; exact ⟨m, get_map.mpr ⟨_, h1, rfl⟩⟩
      · rintro ⟨m, h1⟩
        obtain ⟨y, h3, h4⟩ := get_map.mp h1
        cases y <;> simp [Call.abort] at h4
        exact ⟨_, h3⟩
    · intro c' m h1
      obtain ⟨y, h3, h4⟩ := get_map.mp h1
      cases y <;> simp [Call.abort] at h4
  · have hlt := (List.getElem?_eq_some_iff.mp hc).1
    have hnd : s.ready.Nodup := by
      have := (List.pairwise_append.mp hi.order).2.1
      exact this.imp (fun h => Nat.ne_of_lt h)
    refine inv_plain hi (by simp) (by simp) rfl (by simp) (notif_set hlt rfl) List.erase_sublist
      ?_ (fun h => h) ?_ (fun h => h) (.inr rfl) hi.gone
    · intro c'
      show c' ∈ s.ready.erase c ↔ _
      rw [hnd.mem_erase_iff, hi.ready]
      constructor
      · rintro ⟨h1, m, h2⟩; exact ⟨m, (get_set hlt).mpr (.inr ⟨h1, h2⟩)⟩
      · rintro ⟨m, h1⟩
        rcases (get_set hlt).mp h1 with ⟨-, h1⟩ | ⟨h1, h2⟩
        · cases h1
        · exact ⟨h1, m, h2⟩
    · intro c' m h1
      exact hi.waits c' m (notif_set hlt rfl _ _ h1 (by simp [Call.notif]))
  · have hm : made (ls ++ [Label.subscribe o]) = made ls := by rw [made_snoc]; simp
    have hsub : Subscribed (ls ++ [Label.subscribe o]) := (subscribed_snoc _ _).mpr (.inr ⟨o, rfl⟩)
    have hea : early (ls ++ [Label.subscribe o]) = early ls := (early_snoc ls _).resolve_right (by simp)
    exact ⟨by rw [hm]; exact hi.len, by rw [hm]; exact hi.notif, by rw [hm]; exact hi.logged, hi.once, hi.unsent,
      hi.ready, hi.pending, hi.waits, fun _ h => (by rw [hd] at h; cases h), hi.gone, fun h => absurd hsub h,
      by rw [hea]; exact hi.order, by rw [hea]; exact hi.early⟩
  · have hm : made (ls ++ [Label.subscribe o]) = made ls := by rw [made_snoc]; simp
    have hsub : Subscribed (ls ++ [Label.subscribe o]) := (subscribed_snoc _ _).mpr (.inr ⟨o, rfl⟩)
    have hea : early (ls ++ [Label.subscribe o]) = early ls := (early_snoc ls _).resolve_right (by simp)
    obtain ⟨hr0, hl0, ho0⟩ := hi.pending hw
    have hns := hi.unsub hw hd
    refine ⟨?_, ?_, by rw [hm]; exact hi.logged, hi.once, ?_, ?_, by simp, ?_, by simp, ?_, fun h => absurd hsub h,
      ?_, ?_⟩
    · simp [hm, hi.len]
    · intro c x n h1 h2
      rw [hm]
      obtain ⟨y, h3, rfl⟩ := get_map.mp h1
      refine hi.notif c y n h3 ?_
      cases y <;> simpa [Call.wake, Call.notif] using h2
    · rw [hl0]; simp
    · intro c
      show c ∈ s.ready ++ s.waiters ↔ _
      rw [hr0, List.nil_append, mem_waiters]
      constructor
      · rintro ⟨n, h1⟩; exact ⟨n, get_map.mpr ⟨_, h1, rfl⟩⟩
      · rintro ⟨n, h1⟩
        obtain ⟨y, h3, h4⟩ := get_map.mp h1
        cases y <;> simp [Call.wake] at h4
        · exact ⟨_, h3⟩
        · have := (hi.ready c).mpr ⟨_, h3⟩
          rw [hr0] at this; cases this
    · intro c n h1
      obtain ⟨y, h3, h4⟩ := get_map.mp h1
      cases y <;> simp [Call.wake] at h4
    · intro h; rw [hd] at h; cases h
    · show List.Pairwise _ (List.filter _ (List.map _ s.log) ++ (s.ready ++ s.waiters))
      rw [hl0, hr0]; simpa using waiters_sorted s
    · intro c hc
      have hc : c ∈ s.ready ++ s.waiters := hc
      rw [hr0, List.nil_append, mem_waiters] at hc
      obtain ⟨n, hn⟩ := hc
      rw [hea, early_before hns, ← hi.len]
      exact (List.getElem?_eq_some_iff.mp hn).1
  · have hm : made (ls ++ [Label.subscribe o]) = made ls := by rw [made_snoc]; simp
    have hsub : Subscribed (ls ++ [Label.subscribe o]) := (subscribed_snoc _ _).mpr (.inr ⟨o, rfl⟩)
    have hea : early (ls ++ [Label.subscribe o]) = early ls := (early_snoc ls _).resolve_right (by simp)
    exact ⟨by rw [hm]; exact hi.len, by rw [hm]; exact hi.notif, by rw [hm]; exact hi.logged, hi.once, hi.unsent,
      hi.ready, fun h => absurd h hw, hi.waits, fun h => absurd h hw, fun h => (by dsimp only at h; rw [hd] at h; cases h),
      fun h => absurd hsub h, by rw [hea]; exact hi.order, by rw [hea]; exact hi.early⟩
  · exact inv_plain hi (by simp) (by simp) rfl rfl (fun _ _ h _ => h) (List.Sublist.refl _) hi.ready
      (fun h => h) hi.waits (by simp) (.inl rfl) (fun _ => rfl)

theorem inv_run {ls : List (Label α)} {s : State α} (hr : LTS.run step init ls = some s) : Inv ls s := by
  refine LTS.inv_hist Inv ?_ (fun _ _ _ _ => inv_step) hr
  refine ⟨rfl, by simp [init], by simp [init], by simp [init], by simp [init], by simp [init], by simp [init],
    by simp [init], by simp [Subscribed], by simp [init], by simp [init], by simp [init], by simp [init]⟩

/-! ## flags -/

theorem disposed_iff {ls : List (Label α)} {s : State α} (hr : LTS.run step init ls = some s) :
    s.isDisposed = true ↔ Disposed ls := by
  refine LTS.inv_hist (step := step) (fun (ls : List (Label α)) s => s.isDisposed = true ↔ Disposed ls) ?_ ?_ hr
  · simp [init, Disposed]
  intro ls s l s' hi h
  obtain ⟨-, h⟩ := step_cases h
  rcases h with ⟨n, x, lg, rfl, ho, rfl⟩ | ⟨c, rd, n, x, lg, rfl, hr, hc, ho, rfl⟩ | ⟨c, n, rfl, hc, rfl⟩ |
    ⟨c, n, e, rfl, hc, rfl⟩ | ⟨c, n, rfl, hc, rfl⟩ | ⟨c, n, rfl, hc, rfl⟩ | ⟨o, rfl, hd, rfl⟩ |
    ⟨o, rfl, hd, hw, rfl⟩ | ⟨o, rfl, hd, hw, rfl⟩ | ⟨rfl, rfl⟩
  all_goals simp_all [Disposed]

/-- Without `dispose`, the observer stays, and no call spins. -/
structure Calm (ls : List (Label α)) (s : State α) : Prop where
  obs : Subscribed ls → s.observer ≠ none
  wait : s.wait = .done → s.observer ≠ none
  quiet : s.calls.any Call.isSpinning = false

theorem calm_run {ls : List (Label α)} {s : State α} (hr : LTS.run step init ls = some s) (hd : ¬ Disposed ls) :
    Calm ls s := by
  refine LTS.inv_reach (step := step) (fun (ls : List (Label α)) s => ¬ Disposed ls → Calm ls s) ?_ ?_ hr hd
  · intro _; exact ⟨by simp [Subscribed], by simp [init], rfl⟩
  intro ls s l s' hr hi h hd
  have hd0 : ¬ Disposed ls := fun h1 => hd (by simp [Disposed] at h1 ⊢; exact .inl h1)
  have hi := hi hd0
  obtain ⟨hq, h⟩ := step_cases h
  have hsp : ∀ {x : Call α} {c n lg}, Outcome s c n x lg → x.isSpinning = false := by
    intro x c n lg h
    cases h with
    | spin h1 h2 => exact absurd h1 (hi.wait h2)
    | _ => rfl
  have hset : ∀ {c : Nat} {x : Call α}, x.isSpinning = false → (s.calls.set c x).any Call.isSpinning = false := by
    intro c x hx
    rw [List.any_eq_false] at hq ⊢
    intro y hy
    rcases List.mem_or_eq_of_mem_set hy with hy | rfl
    · exact hq y hy
    · simp [hx]
  rcases h with ⟨n, x, lg, rfl, ho, rfl⟩ | ⟨c, rd, n, x, lg, rfl, hr, hc, ho, rfl⟩ | ⟨c, n, rfl, hc, rfl⟩ |
    ⟨c, n, e, rfl, hc, rfl⟩ | ⟨c, n, rfl, hc, rfl⟩ | ⟨c, n, rfl, hc, rfl⟩ | ⟨o, rfl, hd, rfl⟩ |
    ⟨o, rfl, hd, hw, rfl⟩ | ⟨o, rfl, hd, hw, rfl⟩ | ⟨rfl, rfl⟩
  · refine ⟨?_, hi.wait, ?_⟩
    · rw [subscribed_snoc]; simpa using hi.obs
    · simp [List.any_append, hq, hsp ho]
  · refine ⟨?_, hi.wait, hset (hsp ho)⟩
    rw [subscribed_snoc]; simpa using hi.obs
  · refine ⟨?_, hi.wait, hset rfl⟩
    rw [subscribed_snoc]; simpa using hi.obs
  · refine ⟨?_, hi.wait, hset rfl⟩
    rw [subscribed_snoc]; simpa using hi.obs
  · refine ⟨?_, by simp, ?_⟩
    · rw [subscribed_snoc]; simpa using hi.obs
    · rw [List.any_eq_false] at hq ⊢
      intro y hy
      obtain ⟨z, hz, rfl⟩ := List.mem_map.mp hy
      have := hq z hz
      cases z <;> simp_all [Call.abort, Call.isSpinning]
  · refine ⟨?_, hi.wait, hset rfl⟩
    rw [subscribed_snoc]; simpa using hi.obs
  · exact absurd ((disposed_iff hr).mp ‹_›) hd0
  · refine ⟨by simp, by simp, ?_⟩
    rw [List.any_eq_false] at hq ⊢
    intro y hy
    obtain ⟨z, hz, rfl⟩ := List.mem_map.mp hy
    have := hq z hz
    cases z <;> simp_all [Call.wake, Call.isSpinning]
  · exact ⟨by simp, by simp, hq⟩
  · exact absurd (by simp [Disposed]) hd

/-- Without `dispose` and without cancelled senders: where the early calls are. -/
def Placed (E : Nat) (s : State α) : Prop :=
  ∀ c, c < E → (∃ n, s.calls[c]? = some (.waiting n)) ∨ c ∈ s.ready ∨ c ∈ s.log.map (·.1) ∨ s.isStopped = true

theorem placed_run {ls : List (Label α)} {s : State α} (hr : LTS.run step init ls = some s) (hd : ¬ Disposed ls)
    (hc : ¬ Cancelled ls) : Placed (early ls).length s ∧ s.wait ≠ .cancelled ∧ (Subscribed ls → s.wait = .done) := by
  refine LTS.inv_reach (step := step) (fun (ls : List (Label α)) s => ¬ Disposed ls → ¬ Cancelled ls →
    Placed (early ls).length s ∧ s.wait ≠ .cancelled ∧ (Subscribed ls → s.wait = .done)) ?_ ?_ hr hd hc
  · intro _ _; exact ⟨by intro c h; simp [early, made] at h, by simp [init], by simp [Subscribed]⟩
  intro ls s l s' hr hi h hd hcn
  have hd0 : ¬ Disposed ls := fun h1 => hd (by simp [Disposed] at h1 ⊢; exact .inl h1)
  have hc0 : ¬ Cancelled ls := fun ⟨c, h1⟩ => hcn ⟨c, by simp [h1]⟩
  obtain ⟨hp, hwc, hsw⟩ := hi hd0 hc0
  have hinv := inv_run hr
  have calm := calm_run hr hd0
  have hnd : s.isDisposed = false := by
    cases h : s.isDisposed with
    | false => rfl
    | true => exact absurd ((disposed_iff hr).mp h) hd0
  have hout : ∀ {x : Call α} {c n lg}, Outcome s c n x lg → Placed (early ls).length s →
      (x = .waiting n) ∨ c ∈ lg.map (·.1) ∨ s.isStopped = true := by
    intro x c n lg h _
    cases h with
    | sent o a b => right; left; simp
    | dropped a => exact .inr (.inr a)
    | disposed a => rw [hnd] at a; cases a
    | wait a b => exact .inl rfl
    | spin a b => exact absurd a (calm.wait b)
    | cancelled a b => exact absurd b hwc
  obtain ⟨-, h⟩ := step_cases h
  rcases h with ⟨n, x, lg, rfl, ho, rfl⟩ | ⟨c, rd, n, x, lg, rfl, hr, hc, ho, rfl⟩ | ⟨c, n, rfl, hc, rfl⟩ |
    ⟨c, n, e, rfl, hc, rfl⟩ | ⟨c, n, rfl, hc, rfl⟩ | ⟨c, n, rfl, hc, rfl⟩ | ⟨o, rfl, hd, rfl⟩ |
    ⟨o, rfl, hd, hw, rfl⟩ | ⟨o, rfl, hd, hw, rfl⟩ | ⟨rfl, rfl⟩
  · refine ⟨?_, hwc, ?_⟩
    · intro c hc
      rcases Nat.lt_or_ge c s.calls.length with hlt | hge
      · have : c < (early ls).length := by
          rcases early_snoc ls (.call n) with h | ⟨h, -⟩
          · rw [← h]; exact hc
          · rw [early_before h, ← hinv.len]; exact hlt
        rcases hp c this with ⟨m, h⟩ | h | h | h
        · exact .inl ⟨m, get_push.mpr (.inl h)⟩
        · exact .inr (.inl h)
        · exact .inr (.inr (.inl (by rw [List.map_append]; exact List.mem_append_left _ h)))
        · exact .inr (.inr (.inr h))
      · have hce : c = s.calls.length := by
          have h1 := early_le (ls ++ [Label.call n])
          rw [made_snoc, List.length_append, ← hinv.len] at h1
          simp at h1; omega
        subst hce
        rcases hout ho hp with h | h | h
        · exact .inl ⟨n, get_push.mpr (.inr ⟨rfl, h⟩)⟩
        · exact .inr (.inr (.inl (by rw [List.map_append]; exact List.mem_append_right _ h)))
        · exact .inr (.inr (.inr h))
    · rw [subscribed_snoc]; simpa using hsw
  · have hlt := (List.getElem?_eq_some_iff.mp hc).1
    have hea : early (ls ++ [Label.wake]) = early ls := (early_snoc ls _).resolve_right (by simp)
    refine ⟨?_, hwc, by rw [subscribed_snoc]; simpa using hsw⟩
    rw [hea]
    intro c' hc'
    by_cases hcc : c' = c
    · subst hcc
      rcases hout ho hp with h | h | h
      · have := (hinv.pending (ho.waiting h).2.1).1
        rw [hr] at this; cases this
      · exact .inr (.inr (.inl (by rw [List.map_append]; exact List.mem_append_right _ h)))
      · exact .inr (.inr (.inr h))
    · rcases hp c' hc' with ⟨m, h⟩ | h | h | h
      · exact .inl ⟨m, (get_set hlt).mpr (.inr ⟨hcc, h⟩)⟩
      · rw [hr, List.mem_cons] at h; exact .inr (.inl (h.resolve_left hcc))
      · exact .inr (.inr (.inl (by rw [List.map_append]; exact List.mem_append_left _ h)))
      · exact .inr (.inr (.inr h))
  · have hlt := (List.getElem?_eq_some_iff.mp hc).1
    have hea : early (ls ++ [Label.ret c]) = early ls := (early_snoc ls _).resolve_right (by simp)
    refine ⟨?_, hwc, by rw [subscribed_snoc]; simpa using hsw⟩
    rw [hea]
    intro c' hc'
    rcases hp c' hc' with ⟨m, h2⟩ | h | h | h
    · refine .inl ⟨m, (get_set hlt).mpr (.inr ⟨?_, h2⟩)⟩
      rintro rfl; rw [hc] at h2; cases h2
    · exact .inr (.inl h)
    · exact .inr (.inr (.inl h))
    · exact .inr (.inr (.inr (by simp [h])))
  · have hlt := (List.getElem?_eq_some_iff.mp hc).1
    have hea : early (ls ++ [Label.raise c e]) = early ls := (early_snoc ls _).resolve_right (by simp)
    refine ⟨?_, hwc, by rw [subscribed_snoc]; simpa using hsw⟩
    rw [hea]
    intro c' hc'
    rcases hp c' hc' with ⟨m, h2⟩ | h | h | h
    · refine .inl ⟨m, (get_set hlt).mpr (.inr ⟨?_, h2⟩)⟩
      rintro rfl; rw [hc] at h2; cases h2
    · exact .inr (.inl h)
    · exact .inr (.inr (.inl h))
    · exact .inr (.inr (.inr h))
  · exact absurd ⟨c, by simp⟩ hcn
  · exact absurd ⟨c, by simp⟩ hcn
  · rw [hnd] at hd; cases hd
  · have hea : early (ls ++ [Label.subscribe o]) = early ls := (early_snoc ls _).resolve_right (by simp)
    refine ⟨?_, by simp, fun _ => rfl⟩
    rw [hea]
    intro c' hc'
    rcases hp c' hc' with ⟨m, h⟩ | h | h | h
    · exact .inr (.inl (List.mem_append_right _ (mem_waiters.mpr ⟨m, h⟩)))
    · exact .inr (.inl (List.mem_append_left _ h))
    · exact .inr (.inr (.inl h))
    · exact .inr (.inr (.inr h))
  · have hea : early (ls ++ [Label.subscribe o]) = early ls := (early_snoc ls _).resolve_right (by simp)
    refine ⟨?_, hwc, fun _ => ?_⟩
    · rw [hea]; exact hp
    · cases h : s.wait with
      | pending => exact absurd h hw
      | done => rfl
      | cancelled => exact absurd h hwc
  · exact absurd (by simp [Disposed]) hd

end Aio.Single
