import Verif.Spec.Deadline
import Verif.Lemmas.Clocked
import Verif.Base.LTS
/-!
# `run` with a timeout
-/

namespace Aio.Deadline
open Spec.Deadline
variable {α : Type}

/-- What `wait_for` makes of the future. -/
def says : Awaitable.Fut α → Option (RunUntil.Outcome α)
  | .pending => none
  | .result v => some (.value v)
  | .exception e => some (.raised e)
  | .cancelled => some .cancelled

theorem pending_iff {f : Awaitable.Fut α} : pending f = true ↔ says f = none := by cases f <;> simp [pending, says]

/-- The future after some calls. -/
def futOf (ns : List (Notif α)) : Awaitable.State α := Awaitable.run Awaitable.init (ns.map .call)

private theorem stopped : ∀ (ns : List (Notif α)) (s : Awaitable.State α), s.isStopped = true → Awaitable.run s (ns.map .call) = s := by
  intro ns
  induction ns with
  | nil => intros; rfl
  | cons n ns ih =>
    intro s h
    simp only [Awaitable.run, List.map_cons, List.foldl_cons] at ih ⊢
    have : Awaitable.step s (.call n) = s := by simp [Awaitable.step, Awaitable.State.call, h]
    rw [this]; exact ih s h

private theorem says_from : ∀ (cs : List (Notif α × Nat)) (l : Option α),
    says (Awaitable.run ⟨.pending, l, false, l.isSome⟩ ((cs.map (·.1)).map .call)).fut = (outcomeFrom l cs).map (·.1) := by
  intro cs
  induction cs with
  | nil => intro l; rfl
  | cons c cs ih =>
    intro l
    obtain ⟨n, t⟩ := c
    cases n with
    | next v =>
      simp only [outcomeFrom]
      rw [← ih (some v)]
      rfl
    | error e =>
      simp only [outcomeFrom]
      have := stopped (cs.map (·.1)) (Awaitable.State.mk (.exception e) l true l.isSome) rfl
      simp only [Awaitable.run, List.map_cons, List.foldl_cons] at this ⊢
      simp only [Awaitable.step, Awaitable.State.call, Awaitable.State.settle, Bool.false_eq_true, if_false]
      rw [this]; rfl
    | completed =>
      cases l with
      | none =>
        have := stopped (cs.map (·.1)) (Awaitable.State.mk .cancelled (none : Option α) true false) rfl
        simp only [Awaitable.run, List.map_cons, List.foldl_cons] at this ⊢
        simp only [Awaitable.step, Awaitable.State.call, Awaitable.State.cancel, Option.isSome, Bool.false_eq_true, if_false]
        rw [this]; rfl
      | some v =>
        have := stopped (cs.map (·.1)) (Awaitable.State.mk (.result (some v)) (some v) true true) rfl
        simp only [Awaitable.run, List.map_cons, List.foldl_cons] at this ⊢
        simp only [Awaitable.step, Awaitable.State.call, Awaitable.State.settle, Option.isSome, Bool.false_eq_true, if_false, if_true]
        rw [this]; rfl

theorem says_futOf (cs : List (Notif α × Nat)) : says (futOf (cs.map (·.1))).fut = (outcome cs).map (·.1) := says_from cs none

theorem futOf_snoc (ns : List (Notif α)) (n : Notif α) : futOf (ns ++ [n]) = Awaitable.step (futOf ns) (.call n) := by
  simp [futOf, Awaitable.run]

theorem outcome_snoc {cs : List (Notif α × Nat)} {n : Notif α} {t : Nat} {x : RunUntil.Outcome α × Nat} (h : outcome (cs ++ [(n, t)]) = some x) :
    outcome cs = some x ∨ (outcome cs = none ∧ x.2 = t) := by
  unfold outcome at h ⊢
  generalize (none : Option α) = l at h ⊢
  induction cs generalizing l with
  | nil =>
    right
    refine ⟨rfl, ?_⟩
    cases n <;> cases l <;> simp [outcomeFrom] at h <;> rw [← h]
  | cons c cs ih =>
    obtain ⟨m, u⟩ := c
    cases m with
    | next v => exact ih _ h
    | error e => left; exact h
    | completed => left; cases l <;> exact h

theorem outcome_append {cs : List (Notif α × Nat)} (ds : List (Notif α × Nat)) {x : RunUntil.Outcome α × Nat} (h : outcome cs = some x) :
    outcome (cs ++ ds) = some x := by
  unfold outcome at h ⊢
  generalize (none : Option α) = l at h ⊢
  induction cs generalizing l with
  | nil => cases l <;> cases h
  | cons c cs ih =>
    obtain ⟨m, u⟩ := c
    cases m with
    | next v => exact ih _ h
    | error e => exact h
    | completed => cases l <;> exact h

theorem clock_append (a b : List (Label α)) : clock (a ++ b) = clock a + clock b := by
  induction a with
  | nil => simp [clock]
  | cons l a ih => cases l <;> simp [clock, ih] <;> omega

theorem arrivalsFrom_append (a b : List (Label α)) (t : Nat) : arrivalsFrom t (a ++ b) = arrivalsFrom t a ++ arrivalsFrom (t + clock a) b := by
  induction a generalizing t with
  | nil => simp [arrivalsFrom, clock]
  | cons l a ih => cases l <;> simp only [List.cons_append, arrivalsFrom, clock, ih, Nat.add_assoc]

theorem stage_step {prompt : Bool} {timeout : Int} {s t : State α} {l : Label α} (h : (stage prompt timeout).step s l = some t) :
    step timeout s l = some t := by
  cases prompt with
  | false => exact h
  | true =>
    simp only [stage, if_true, promptStep] at h
    split at h
    · exact h
    · cases h

theorem stage_prompt {timeout : Int} {s t : State α} {l : Label α} (h : (stage true timeout).step s l = some t) : prompt s l = true := by
  simp only [stage, if_true, promptStep] at h
  split at h
  · assumption
  · cases h

theorem stage_reads (prompt : Bool) (timeout : Int) : (stage prompt timeout : Stage (State α) (Label α) α _).Reads arrivalsFrom clock := by
  refine ⟨fun t => ⟨rfl, rfl⟩, fun t ms n => ⟨?_, ?_⟩, fun t ms d => ⟨?_, ?_⟩, fun t ms m hm => ?_⟩
  · rw [arrivalsFrom_append]; rfl
  · rw [clock_append]; rfl
  · rw [arrivalsFrom_append]; exact List.append_nil _
  · rw [clock_append]; rfl
  · rw [arrivalsFrom_append, clock_append]
    cases m <;> first | exact ⟨List.append_nil _, rfl⟩ | simp [stage] at hm

theorem goOn_calls (s : State α) (r : RunUntil.State α) : (s.goOn r).now = s.now ∧
    ∃ ns : List (Notif (RunUntil.Outcome α)), (s.goOn r).over = s.over ++ ns.map fun n => (n, s.now) := by
  refine ⟨rfl, ?_⟩
  unfold State.goOn
  cases r.phase with
  | done o => exact ⟨[.next o], rfl⟩
  | _ => exact ⟨[], (List.append_nil _).symm⟩

theorem stage_lawful (prompt : Bool) (timeout : Int) : (stage prompt timeout : Stage (State α) (Label α) α _).Lawful := by
  refine ⟨fun t => ⟨rfl, rfl⟩, ?_, ?_, ?_⟩
  · intro s n t h
    have h := stage_step h
    simp only [stage, step, Option.some.injEq] at h
    subst h
    exact ⟨rfl, rfl⟩
  · intro s d t h
    have h := stage_step h
    simp only [stage, step, Option.some.injEq] at h
    subst h
    exact ⟨rfl, rfl⟩
  · intro s m t hm h
    have h := stage_step h
    have go : ∀ {l r}, (RunUntil.step r l).map s.goOn = some t → t.now = s.now ∧
        ∃ ns : List (Notif (RunUntil.Outcome α)), t.over = s.over ++ ns.map fun n => (n, s.now) := by
      intro l r h
      obtain ⟨r', -, rfl⟩ := Option.map_eq_some_iff.mp h
      exact goOn_calls s r'
    cases m with
    | event n => simp [stage] at hm
    | tick d => simp [stage] at hm
    | main l =>
      cases l with
      | subscribed =>
        simp only [step] at h
        split at h
        · cases h
        · split at h
          · exact go h
          · cases h; exact ⟨rfl, [], (List.append_nil _).symm⟩
      | timeout =>
        simp only [step] at h
        split at h
        · cases h
        · split at h
          · exact go h
          · cases h
      | obv l => cases h
      | subscribeRaises | resume | cancel | disposed | disposeRaises => exact go h

/-- How `run` may end. -/
def Good (prompt : Bool) (D : Nat) (cs : List (Notif α × Nat)) (o : RunUntil.Outcome α) (t : Nat) : Prop :=
  (∃ t', outcome cs = some (o, t') ∧ t' ≤ t ∧ (prompt = true → t' = t ∧ t ≤ D)) ∨
  (o = .timedOut ∧ D ≤ t ∧ (prompt = true → t = D ∧ ∀ x, outcome cs = some x → D ≤ x.2))

theorem Good.snoc {prompt : Bool} {D t u : Nat} {cs : List (Notif α × Nat)} {o : RunUntil.Outcome α} (h : Good prompt D cs o t) (n : Notif α)
    (hu : t ≤ u) : Good prompt D (cs ++ [(n, u)]) o t := by
  rcases h with ⟨t', h1, h2, h3⟩ | ⟨h1, h2, h3⟩
  · exact .inl ⟨t', outcome_append _ h1, h2, h3⟩
  · refine .inr ⟨h1, h2, fun hp => ⟨(h3 hp).1, fun x hx => ?_⟩⟩
    rcases outcome_snoc hx with hx | ⟨-, hx⟩
    · exact (h3 hp).2 x hx
    · omega

/-- What holds at any time. -/
structure Inv (prompt : Bool) (timeout : Int) (t0 : Nat) (ms : List (Label α)) (s : State α) : Prop where
  now : s.now = t0 + clock ms
  stamps : ∀ x, outcome (arrivalsFrom t0 ms) = some x → x.2 ≤ s.now
  obv : s.run.phase = .subscribing ∨ s.run.phase = .waiting → s.over = [] ∧ s.run.obv = futOf ((arrivalsFrom t0 ms).map (·.1)) ∧
    (prompt = true → ∀ x, outcome (arrivalsFrom t0 ms) = some x → x.2 = s.now)
  sub : s.run.phase = .subscribing → prompt = true → s.now = t0
  wait : s.run.phase = .waiting → 0 < timeout ∧ ∃ w, s.deadline = some w ∧ t0 + timeout.toNat ≤ w ∧
    (prompt = true → w = t0 + timeout.toNat ∧ s.now ≤ w)
  disposing : ∀ o, s.run.phase = .disposing o → s.over = [] ∧ Good prompt (t0 + timeout.toNat) (arrivalsFrom t0 ms) o s.now
  done : ∀ o, s.run.phase = .done o → ∃ t, s.over = [(.next o, t)] ∧ t ≤ s.now ∧ Good prompt (t0 + timeout.toNat) (arrivalsFrom t0 ms) o t

theorem inv_init (prompt : Bool) (timeout : Int) (t0 : Nat) : Inv prompt timeout t0 [] (init t0 : State α) where
  now := rfl
  stamps := nofun
  obv _ := ⟨rfl, rfl, fun _ => nofun⟩
  sub _ _ := rfl
  wait := nofun
  disposing := nofun
  done := nofun

/-- `run` leaves its `async with`. -/
private theorem left {prompt : Bool} {timeout : Int} {t0 : Nat} {ms : List (Label α)} {s : State α} (I : Inv prompt timeout t0 ms s) {r : RunUntil.State α}
    {o : RunUntil.Outcome α} (ho : s.over = []) (hr : r.phase = .disposing o)
    (hg : Good prompt (t0 + timeout.toNat) (arrivalsFrom t0 ms) o s.now) : Inv prompt timeout t0 ms (s.goOn r) where
  now := I.now
  stamps := I.stamps
  obv h := by rcases h with h | h <;> simp [State.goOn, hr] at h
  sub h := by simp [State.goOn, hr] at h
  wait h := by simp [State.goOn, hr] at h
  disposing o' h := by
    obtain rfl : o = o' := by simpa [State.goOn, hr] using h
    exact ⟨by simp [State.goOn, hr, ho], hg⟩
  done o' h := by simp [State.goOn, hr] at h

/-- What happens when the future is done and `run` goes on. -/
theorem resume_spec {r r' : RunUntil.State α} (h : RunUntil.step r .resume = some r') :
    r.phase = .waiting ∧ ∃ o, says r.obv.fut = some o ∧ r'.phase = .disposing o := by
  simp only [RunUntil.step] at h
  cases hp : r.phase <;> cases hf : r.obv.fut <;> rw [hp, hf] at h <;> cases h <;> exact ⟨rfl, _, rfl, rfl⟩

theorem timeout_spec {r r' : RunUntil.State α} (h : RunUntil.step r .timeout = some r') : r.phase = .waiting ∧ r'.phase = .disposing .timedOut := by
  simp only [RunUntil.step] at h
  cases hp : r.phase <;> rw [hp] at h <;> cases h <;> exact ⟨rfl, rfl⟩

theorem inv_step {prompt : Bool} {timeout : Int} {t0 : Nat} {ms : List (Label α)} {s s' : State α} {l : Label α} (I : Inv prompt timeout t0 ms s)
    (hl : ∀ m, l = .main m → Undisturbed m) (h : (stage prompt timeout).step s l = some s') : Inv prompt timeout t0 (ms ++ [l]) s' := by
  have hp : prompt = true → Deadline.prompt s l = true := fun hp => by subst hp; exact stage_prompt h
  have h := stage_step h
  cases l with
  | event n =>
    simp only [step, Option.some.injEq] at h
    subst h
    have hc : clock (ms ++ [.event n]) = clock ms := by rw [clock_append]; rfl
    have ha : arrivalsFrom t0 (ms ++ [.event n]) = arrivalsFrom t0 ms ++ [(n, s.now)] := by rw [arrivalsFrom_append, I.now]; rfl
    refine ⟨by rw [hc]; exact I.now, ?_, ?_, I.sub, I.wait, ?_, ?_⟩
    · intro x hx
      rw [ha] at hx
      rcases outcome_snoc hx with hx | ⟨-, hx⟩
      · exact I.stamps x hx
      · exact Nat.le_of_eq hx
    · intro hs
      obtain ⟨h1, h2, h3⟩ := I.obv hs
      refine ⟨h1, ?_, fun hp x hx => ?_⟩
      · rw [ha, List.map_append, List.map_singleton, futOf_snoc, ← h2]
      · rw [ha] at hx
        rcases outcome_snoc hx with hx | ⟨-, hx⟩
        · exact h3 hp x hx
        · exact hx
    · intro o ho
      obtain ⟨h1, h2⟩ := I.disposing o ho
      exact ⟨h1, by rw [ha]; exact h2.snoc n (Nat.le_refl _)⟩
    · intro o ho
      obtain ⟨t, h1, h2, h3⟩ := I.done o ho
      exact ⟨t, h1, h2, by rw [ha]; exact h3.snoc n h2⟩
  | tick d =>
    simp only [step, Option.some.injEq] at h
    subst h
    have hc : clock (ms ++ [.tick d]) = clock ms + d := by rw [clock_append]; rfl
    have ha : arrivalsFrom t0 (ms ++ [.tick d]) = arrivalsFrom t0 ms := by rw [arrivalsFrom_append]; exact List.append_nil _
    refine ⟨?_, ?_, ?_, ?_, ?_, ?_, ?_⟩
    · have := I.now; show s.now + d = _; omega
    · intro x hx
      rw [ha] at hx
      exact Nat.le_trans (I.stamps x hx) (Nat.le_add_right ..)
    · intro hs
      obtain ⟨h1, h2, h3⟩ := I.obv hs
      refine ⟨h1, by rw [ha]; exact h2, fun hpr x hx => ?_⟩
      rw [ha] at hx
      have hp := hp hpr
      simp only [Deadline.prompt] at hp
      rcases hs with hs | hs <;> rw [hs] at hp
      · cases hp
      · simp only [Bool.and_eq_true] at hp
        have := pending_iff.mp hp.1
        rw [h2, says_futOf, hx] at this
        cases this
    · intro hs hpr
      have hp := hp hpr
      simp only [Deadline.prompt] at hp
      rw [show s.run.phase = _ from hs] at hp
      cases hp
    · intro hs
      obtain ⟨h1, w, h2, h3, h4⟩ := I.wait hs
      refine ⟨h1, w, h2, h3, fun hpr => ⟨(h4 hpr).1, ?_⟩⟩
      have hp := hp hpr
      simp only [Deadline.prompt] at hp
      rw [show s.run.phase = _ from hs, h2] at hp
      simp only [Bool.and_eq_true, decide_eq_true_eq] at hp
      exact hp.2
    · intro o ho
      obtain ⟨h1, h2⟩ := I.disposing o ho
      refine ⟨h1, ?_⟩
      rw [ha]
      cases prompt with
      | true =>
        have hp := hp rfl
        simp only [Deadline.prompt] at hp
        rw [show s.run.phase = _ from ho] at hp
        cases hp
      | false =>
        rcases h2 with ⟨t', h2, h3, -⟩ | ⟨h2, h3, -⟩
        · exact .inl ⟨t', h2, Nat.le_trans h3 (Nat.le_add_right ..), nofun⟩
        · exact .inr ⟨h2, Nat.le_trans h3 (Nat.le_add_right ..), nofun⟩
    · intro o ho
      obtain ⟨t, h1, h2, h3⟩ := I.done o ho
      exact ⟨t, h1, Nat.le_trans h2 (Nat.le_add_right ..), by rw [ha]; exact h3⟩
  | main m =>
    have hc : clock (ms ++ [.main m]) = clock ms := by rw [clock_append]; rfl
    have ha : arrivalsFrom t0 (ms ++ [.main m]) = arrivalsFrom t0 ms := by rw [arrivalsFrom_append]; exact List.append_nil _
    have key : Inv prompt timeout t0 ms s' → Inv prompt timeout t0 (ms ++ [.main m]) s' := by
      rintro ⟨a, b, c, d, e, f, g⟩
      exact ⟨by rw [hc]; exact a, by rw [ha]; exact b, by rw [ha]; exact c, d, e, by rw [ha]; exact f, by rw [ha]; exact g⟩
    apply key
    have resumed : ∀ {r' : RunUntil.State α}, s.run.phase = .waiting → RunUntil.step s.run .resume = some r' → Inv prompt timeout t0 ms (s.goOn r') := by
      intro r' hw hr
      obtain ⟨-, o, h1, h2⟩ := resume_spec hr
      obtain ⟨g1, g2, g3⟩ := I.obv (.inr hw)
      obtain ⟨k1, w, k2, k3, k4⟩ := I.wait hw
      rw [g2, says_futOf] at h1
      obtain ⟨x, hx, rfl⟩ := Option.map_eq_some_iff.mp h1
      refine left I g1 h2 (.inl ⟨x.2, hx, I.stamps x hx, fun hpr => ⟨g3 hpr x hx, ?_⟩⟩)
      have := k4 hpr
      omega
    rcases hl m rfl with rfl | rfl | rfl | rfl
    · simp only [step] at h
      split at h
      · cases h
      · next r hr =>
        have hph : s.run.phase = .subscribing ∧ r = { s.run with phase := .waiting } := by
          simp only [RunUntil.step] at hr
          cases hp : s.run.phase <;> rw [hp] at hr <;> cases hr
          exact ⟨rfl, rfl⟩
        obtain ⟨hph, rfl⟩ := hph
        obtain ⟨g1, g2, g3⟩ := I.obv (.inl hph)
        split at h
        · next hT =>
          have hD : timeout.toNat = 0 := by omega
          have := I.now
          split at h
          · next hpend =>
            obtain ⟨r', hr', rfl⟩ := Option.map_eq_some_iff.mp h
            refine left I g1 (timeout_spec hr').2 (.inr ⟨rfl, by omega, fun hpr => ⟨?_, fun x hx => ?_⟩⟩)
            · have := I.sub hph hpr; omega
            · have := pending_iff.mp hpend
              rw [show (({ s.run with phase := .waiting } : RunUntil.State α)).obv = s.run.obv from rfl, g2, says_futOf, hx] at this
              cases this
          · next hpend =>
            obtain ⟨r', hr', rfl⟩ := Option.map_eq_some_iff.mp h
            obtain ⟨-, o, h1, h2⟩ := resume_spec hr'
            rw [show (({ s.run with phase := .waiting } : RunUntil.State α)).obv = s.run.obv from rfl, g2, says_futOf] at h1
            obtain ⟨x, hx, rfl⟩ := Option.map_eq_some_iff.mp h1
            refine left I g1 h2 (.inl ⟨x.2, hx, I.stamps x hx, fun hpr => ⟨g3 hpr x hx, ?_⟩⟩)
            have := I.sub hph hpr
            omega
        · next hT =>
          cases h
          refine ⟨I.now, I.stamps, fun _ => ⟨g1, g2, g3⟩, nofun, fun _ => ⟨by omega, _, rfl, ?_, fun hpr => ⟨?_, ?_⟩⟩, nofun, nofun⟩
          · have := I.now; omega
          · have := I.sub hph hpr; omega
          · have := I.sub hph hpr; dsimp only; omega
    · obtain ⟨r', hr', rfl⟩ := Option.map_eq_some_iff.mp (show (RunUntil.step s.run .resume).map s.goOn = some s' from h)
      exact resumed (resume_spec hr').1 hr'
    · simp only [step] at h
      split at h
      · cases h
      · next w hw =>
        split at h
        · next hle =>
          obtain ⟨r', hr', rfl⟩ := Option.map_eq_some_iff.mp h
          obtain ⟨hph, hph'⟩ := timeout_spec hr'
          obtain ⟨g1, g2, g3⟩ := I.obv (.inr hph)
          obtain ⟨k1, w', k2, k3, k4⟩ := I.wait hph
          rw [hw] at k2; cases k2
          refine left I g1 hph' (.inr ⟨rfl, by omega, fun hpr => ?_⟩)
          have := k4 hpr
          refine ⟨by omega, fun x hx => ?_⟩
          have := g3 hpr x hx
          omega
        · cases h
    · obtain ⟨r', hr', rfl⟩ := Option.map_eq_some_iff.mp (show (RunUntil.step s.run .disposed).map s.goOn = some s' from h)
      simp only [RunUntil.step] at hr'
      cases hph : s.run.phase with
      | disposing o =>
        rw [hph] at hr'; cases hr'
        obtain ⟨g1, g2⟩ := I.disposing o hph
        refine ⟨I.now, I.stamps, fun h => (by rcases h with h | h <;> cases h), nofun, nofun, nofun, fun o' ho' => ?_⟩
        cases ho'
        exact ⟨s.now, by simp [State.goOn, g1], Nat.le_refl _, g2⟩
      | _ => rw [hph] at hr'; cases hr'

theorem inv_run {prompt : Bool} {timeout : Int} {t0 : Nat} {ms : List (Label α)} {s : State α}
    (hr : LTS.run (stage prompt timeout).step (init t0) ms = some s) (hl : ∀ m, Label.main m ∈ ms → Undisturbed m) :
    Inv prompt timeout t0 ms s := by
  refine LTS.inv_hist (step := (stage prompt timeout).step) (fun ms s => (∀ m, Label.main m ∈ ms → Undisturbed m) → Inv prompt timeout t0 ms s)
    (s0 := init t0) (fun _ => inv_init ..) ?_ hr hl
  intro ms s l s' ih h hl
  exact inv_step (ih fun m hm => hl m (List.mem_append_left _ hm)) (fun m he => hl m (by simp [he])) h

end Aio.Deadline
