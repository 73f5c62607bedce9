import Verif.Lemmas.Deadline
import Verif.Lemmas.Nested
import Verif.Props.C109_111_Timed
import Verif.Props.C112_114_Timers
/-!
# C118: `run` with a timeout

`run(source, timeout=T)`, started at `t0`, has the deadline `t0 + T`. `Spec.Deadline.outcome` says what `run` makes of a stream, and when.
-/

namespace Aio.Deadline
open Spec Spec.Deadline Spec.Timed
variable {S L α β P W : Type}

/-- The spec agrees with the one of C96 and C102. -/
theorem outcome_verdict (cs : List (Notif α × Nat)) : (outcome cs).map (·.1) = verdict (story (cs.map (·.1))) := by
  have : ∀ (cs : List (Notif α × Nat)) (l : Option α), (outcomeFrom l cs).map (·.1) = match story (cs.map (·.1)) with
      | ⟨_, .running⟩ => none
      | ⟨_, .failed e⟩ => some (.raised e)
      | ⟨vs, .done⟩ => some (match vs.getLast?.or l with | none => .cancelled | some v => .value (some v)) := by
    intro cs
    induction cs with
    | nil => intro l; simp [outcomeFrom, story]
    | cons c cs ih =>
      intro l
      obtain ⟨n, t⟩ := c
      cases n with
      | next v =>
        simp only [outcomeFrom, List.map_cons, story]
        rw [ih (some v)]
        generalize story (cs.map (·.1)) = st
        rcases st with ⟨vs, _ | e | _⟩
        · rfl
        · rfl
        · have : (v :: vs).getLast?.or l = vs.getLast?.or (some v) := by
            rw [List.getLast?_cons]
            cases vs.getLast? <;> rfl
          simp only [this]
      | error e => simp [outcomeFrom, story]
      | completed => cases l <;> simp [outcomeFrom, story]
  rw [outcome, this cs none]
  generalize story (cs.map (·.1)) = st
  rcases st with ⟨vs, _ | e | _⟩
  · rfl
  · rfl
  · simp only [verdict, Option.or_none]
    cases vs.getLast? <;> rfl

variable {q : Clocked S L α}

theorem stage_run (hq : q.Lawful) {prompt : Bool} {timeout : Int} {ls s} (hr : LTS.run (q.through (stage prompt timeout)).step (q.through (stage prompt timeout)).init ls = some s)
    (hl : ∀ m, Time.act (.inr (.main m)) ∈ ls → Undisturbed m) :
    ∃ ms, Inv prompt timeout (q.now q.init) ms s.2 ∧ arrivalsFrom (q.now q.init) ms = q.calls s.1 ∧ s.2.now = q.now s.1 := by
  obtain ⟨-, ms, h1, h2, h3, h4⟩ := Clocked.split hq (stage_reads prompt timeout) hr
  have I := inv_run h1 fun m hm => by
    rcases h4 _ hm with ⟨-, h⟩ | ⟨n, h⟩ | ⟨d, h⟩
    · exact hl m h
    · cases h
    · cases h
  exact ⟨ms, I, h2, I.now.trans h3⟩

/-- C118, any source, any schedule: `run` ends with what the stream ends with, not before it, or with a TimeoutError, not before the deadline. -/
theorem C118_never_early (hq : q.Lawful) (timeout : Int) {ls s}
    (hr : LTS.run (q.through (stage false timeout)).step (q.through (stage false timeout)).init ls = some s)
    (hl : ∀ m, Time.act (.inr (.main m)) ∈ ls → Undisturbed m) : s.2.over = [] ∨ ∃ o t, s.2.over = [(.next o, t)] ∧ t ≤ q.now s.1 ∧
      ((∃ t', outcome (q.calls s.1) = some (o, t') ∧ t' ≤ t) ∨ (o = .timedOut ∧ q.now q.init + timeout.toNat ≤ t)) := by
  obtain ⟨ms, I, h1, h2⟩ := stage_run hq hr hl
  rw [← h1, ← h2]
  cases hp : s.2.run.phase with
  | subscribing => exact .inl (I.obv (.inl hp)).1
  | waiting => exact .inl (I.obv (.inr hp)).1
  | disposing o => exact .inl (I.disposing o hp).1
  | done o =>
    obtain ⟨t, g1, g2, g3⟩ := I.done o hp
    refine .inr ⟨o, t, g1, g2, ?_⟩
    rcases g3 with ⟨t', a, b, -⟩ | ⟨a, b, -⟩
    · exact .inl ⟨t', a, b⟩
    · exact .inr ⟨a, b⟩

/-- C118, any source, on a loop that is not overloaded: `run` ends with what the stream ends with, when the stream ends, if that is by the deadline; or
with a TimeoutError exactly at the deadline, if the stream has not ended before it. If it is not over, the deadline is not past and the stream has not ended before now. -/
theorem C118_exact (hq : q.Lawful) (timeout : Int) {ls s}
    (hr : LTS.run (q.through (stage true timeout)).step (q.through (stage true timeout)).init ls = some s)
    (hl : ∀ m, Time.act (.inr (.main m)) ∈ ls → Undisturbed m) :
    (s.2.over = [] ∧ q.now s.1 ≤ q.now q.init + timeout.toNat ∧ ∀ x, outcome (q.calls s.1) = some x → x.2 = q.now s.1) ∨
    ∃ o t, s.2.over = [(.next o, t)] ∧ t ≤ q.now q.init + timeout.toNat ∧ (outcome (q.calls s.1) = some (o, t) ∨
      (o = .timedOut ∧ t = q.now q.init + timeout.toNat ∧ ∀ x, outcome (q.calls s.1) = some x → t ≤ x.2)) := by
  obtain ⟨ms, I, h1, h2⟩ := stage_run hq hr hl
  rw [← h1, ← h2]
  cases hp : s.2.run.phase with
  | subscribing =>
    obtain ⟨g1, -, g2⟩ := I.obv (.inl hp)
    have := I.sub hp rfl
    exact .inl ⟨g1, by omega, g2 rfl⟩
  | waiting =>
    obtain ⟨g1, -, g2⟩ := I.obv (.inr hp)
    obtain ⟨-, w, -, -, g3⟩ := I.wait hp
    have := g3 rfl
    exact .inl ⟨g1, by omega, g2 rfl⟩
  | disposing o =>
    obtain ⟨g1, g2⟩ := I.disposing o hp
    rcases g2 with ⟨t', a, b, c⟩ | ⟨a, b, c⟩
    · have c := c rfl
      exact .inl ⟨g1, c.2, fun x hx => by rw [a] at hx; cases hx; exact c.1⟩
    · obtain ⟨c, d⟩ := c rfl
      refine .inl ⟨g1, Nat.le_of_eq c, fun x hx => ?_⟩
      have := I.stamps x hx
      have := d x hx
      omega
  | done o =>
    obtain ⟨t, g1, g2, g3⟩ := I.done o hp
    refine .inr ⟨o, t, g1, ?_⟩
    rcases g3 with ⟨t', a, b, c⟩ | ⟨a, b, c⟩
    · obtain ⟨rfl, c⟩ := c rfl
      exact ⟨c, .inl a⟩
    · obtain ⟨rfl, d⟩ := c rfl
      exact ⟨Nat.le_refl _, .inr ⟨a, rfl, d⟩⟩

/-- C118: a stream that ends before the deadline. -/
theorem C118_in_time (hq : q.Lawful) (timeout : Int) {ls s}
    (hr : LTS.run (q.through (stage true timeout)).step (q.through (stage true timeout)).init ls = some s)
    (hl : ∀ m, Time.act (.inr (.main m)) ∈ ls → Undisturbed m) {o t} (ho : outcome (q.calls s.1) = some (o, t)) (ht : t < q.now q.init + timeout.toNat)
    (hn : t < q.now s.1) : s.2.over = [(.next o, t)] := by
  rcases C118_exact hq timeout hr hl with ⟨-, -, h⟩ | ⟨o', t', h1, -, h2 | ⟨-, h2, h3⟩⟩
  · have := h _ ho; dsimp only at this; omega
  · rw [ho] at h2; cases h2; exact h1
  · have := h3 _ ho; dsimp only at this; omega

/-- C118: a stream that has not ended by the deadline. -/
theorem C118_timeout (hq : q.Lawful) (timeout : Int) {ls s}
    (hr : LTS.run (q.through (stage true timeout)).step (q.through (stage true timeout)).init ls = some s)
    (hl : ∀ m, Time.act (.inr (.main m)) ∈ ls → Undisturbed m) (ho : ∀ x, outcome (q.calls s.1) = some x → q.now q.init + timeout.toNat < x.2)
    (hn : q.now q.init + timeout.toNat < q.now s.1) : s.2.over = [(.next .timedOut, q.now q.init + timeout.toNat)] := by
  rcases C118_exact hq timeout hr hl with ⟨-, h, -⟩ | ⟨o', t', h1, h0, h2 | ⟨rfl, rfl, h3⟩⟩
  · omega
  · have := ho _ h2; dsimp only at this; omega
  · exact h1

theorem outcome_mem {cs : List (Notif α × Nat)} {x} (h : outcome cs = some x) : ∃ n : Notif α, n.isTerminal = true ∧ (n, x.2) ∈ cs := by
  unfold outcome at h
  generalize (none : Option α) = l at h
  induction cs generalizing l with
  | nil => cases l <;> cases h
  | cons c cs ih =>
    obtain ⟨m, u⟩ := c
    cases m with
    | next v => obtain ⟨n, h1, h2⟩ := ih _ h; exact ⟨n, h1, List.mem_cons_of_mem _ h2⟩
    | error e => cases l <;> cases h <;> exact ⟨_, rfl, List.mem_cons_self⟩
    | completed => cases l <;> cases h <;> exact ⟨_, rfl, List.mem_cons_self⟩

end Aio.Deadline

namespace Aio
open Spec Spec.Deadline Spec.Timed
variable {S L T M α β P W : Type}

/-- Time that passes for source and stage passes for the source. -/
theorem Clocked.Prompt.before {q : Clocked S L α} (hq : q.Lawful) {o : Stage T M α β} (ho : o.Lawful) {rest : S → Prop} {ls : List (Time (L ⊕ M))} {s : S × T}
    (hr : LTS.run (q.through o).step (q.through o).init ls = some s) (hp : (q.through o).Prompt (fun s => rest s.1) ls) : q.Prompt rest (sources ls) := by
  intro a d b s0 he ha
  obtain ⟨as, r, rfl, h1, h2⟩ := List.filterMap_eq_append_iff.mp he
  obtain ⟨c, x, e, rfl, h3, h4, h5⟩ := List.filterMap_eq_cons_iff.mp h2
  have hx : x = .pass d := by
    rcases x with d' | (l | m)
    · cases h4; rfl
    · cases h4
    · cases h4
  subst hx
  have hr' := hr
  rw [show as ++ (c ++ Time.pass d :: e) = (as ++ c) ++ Time.pass d :: e by simp] at hr
  obtain ⟨s1, h6, -⟩ := LTS.run_append.mp hr
  have h7 := hp (as ++ c) d e s1 (by simp) h6
  have h8 := (Clocked.clocks hq ho h6).1
  have h9 : sources (as ++ c) = a := by
    rw [sources, List.filterMap_append]
    rw [h1, List.filterMap_eq_nil_iff.mpr h3]
    simp
  rw [h9, ha] at h8
  cases h8
  exact h7

theorem Clocked.Lawful.grows {q : Clocked S L α} (hq : q.Lawful) {ls₁ s₁} (h1 : LTS.run q.step q.init ls₁ = some s₁) : ∀ {ls₂ s₂},
    LTS.run q.step s₁ ls₂ = some s₂ → q.calls s₁ <+: q.calls s₂ := by
  intro ls₂
  induction ls₂ generalizing ls₁ s₁ with
  | nil => intro s₂ h; simp only [LTS.run] at h; cases h; exact List.prefix_refl _
  | cons l ls ih =>
    intro s₂ h
    obtain ⟨u, hu, h⟩ := LTS.run_cons.mp h
    refine List.IsPrefix.trans ?_ (ih (ls₁ := ls₁ ++ [l]) (LTS.run_append.mpr ⟨_, h1, LTS.run_cons.mpr ⟨u, hu, rfl⟩⟩) h)
    cases l with
    | pass d => rw [(hq.pass h1 hu).2]; exact List.prefix_refl _
    | act l => obtain ⟨-, ns, h3⟩ := hq.act h1 hu; rw [h3]; exact List.prefix_append ..

namespace Interval
open Deadline (Undisturbed C118_in_time C118_timeout outcome_mem outcome_append)
variable {t0 : Nat} {seconds period timeout : Int}

/-- C118: `run(timer(s), timeout=T)` returns 0 after `s` if `s < T`, and raises TimeoutError after `T` if `T < s`. -/
theorem C118_timer {ls s} (hr : LTS.run ((clocked true t0 seconds 0).through (Deadline.stage true timeout)).step
      ((clocked true t0 seconds 0).through (Deadline.stage true timeout)).init ls = some s)
    (hl : ∀ m, Time.act (.inr (.main m)) ∈ ls → Undisturbed m) (hd : Time.act (.inl .dispose) ∉ ls) (hx : ∀ e, Time.act (.inl (.raise e)) ∉ ls) :
    (seconds.toNat < timeout.toNat → t0 + seconds.toNat < s.1.now → s.2.over = [(.next (.value (some 0)), t0 + seconds.toNat)]) ∧
    (timeout.toNat < seconds.toNat → t0 + timeout.toNat < s.1.now → s.2.over = [(.next .timedOut, t0 + timeout.toNat)]) := by
  have hq := clocked_lawful true t0 seconds 0
  have hs := (Clocked.clocks hq (Deadline.stage_lawful true timeout) hr).1
  have mem : ∀ l, Time.act l ∈ Clocked.sources ls → Time.act (.inl l) ∈ ls := by
    intro l h
    obtain ⟨x, hx, hxe⟩ := List.mem_filterMap.mp h
    split at hxe <;> cases hxe <;> exact hx
  constructor
  · intro h1 h2
    have := timer_done hs (fun h => hd (mem _ h)) (fun e h => hx e (mem _ h)) h2
    exact C118_in_time hq timeout hr hl (by rw [this]; rfl) (show t0 + seconds.toNat < t0 + timeout.toNat by omega) h2
  · intro h1 h2
    refine C118_timeout hq timeout hr hl (fun x hx => ?_) h2
    obtain ⟨n, -, h3⟩ := outcome_mem hx
    have := (timer_exact hs).1.subset h3
    have : x.2 = t0 + seconds.toNat := by
      simp only [List.mem_cons, Prod.mk.injEq, List.not_mem_nil, or_false] at this
      rcases this with h | h <;> exact h.2
    show t0 + timeout.toNat < x.2
    omega

/-- C118: `run(interval(s, p), timeout=T)` raises TimeoutError after `T`. -/
theorem C118_interval (hp : period ≠ 0) {ls s} (hr : LTS.run ((clocked true t0 seconds period).through (Deadline.stage true timeout)).step
      ((clocked true t0 seconds period).through (Deadline.stage true timeout)).init ls = some s)
    (hl : ∀ m, Time.act (.inr (.main m)) ∈ ls → Undisturbed m) (hn : t0 + timeout.toNat < s.1.now) :
    s.2.over = [(.next .timedOut, t0 + timeout.toNat)] := by
  have hq := clocked_lawful true t0 seconds period
  have hs := (Clocked.clocks hq (Deadline.stage_lawful true timeout) hr).1
  refine C118_timeout hq timeout hr hl (fun x hx => ?_) hn
  obtain ⟨n, h1, h2⟩ := outcome_mem hx
  obtain ⟨k, h3, -⟩ := clocked_exact hp hs
  rw [h3] at h2
  obtain ⟨j, -, h4⟩ := List.mem_map.mp h2
  rw [← (Prod.mk.inj h4).1] at h1
  cases h1

/-- C118: `run(pipe(interval(s, p), take(n)), timeout=T)` returns `n - 1` when the interval sends it, if that is before the deadline, and raises TimeoutError
at the deadline if it would be later. -/
theorem C118_interval_take (hp : period ≠ 0) (n : Nat) (hn : 0 < n) {ls s}
    (hr : LTS.run (((clocked true t0 seconds period).operate (takeOp (n : Int) : Operator Nat Nat).direct.slowProc).through (Deadline.stage true timeout)).step
      (((clocked true t0 seconds period).operate (takeOp (n : Int) : Operator Nat Nat).direct.slowProc).through (Deadline.stage true timeout)).init ls = some s)
    (hl : ∀ m, Time.act (.inr (.main m)) ∈ ls → Undisturbed m)
    (hpr : (((clocked true t0 seconds period).operate (takeOp (n : Int) : Operator Nat Nat).direct.slowProc).through (Deadline.stage true timeout)).Prompt
      (fun s => (takeOp (n : Int) : Operator Nat Nat).direct.slowProc.Quiescent s.1.2.ps) ls)
    (hd : Time.act (.inl (.inl .dispose)) ∉ ls) (hx : ∀ e, Time.act (.inl (.inl (.raise e))) ∉ ls) :
    (due t0 seconds period (n - 1) < t0 + timeout.toNat → due t0 seconds period (n - 1) < s.1.1.now →
      s.2.over = [(.next (.value (some (n - 1))), due t0 seconds period (n - 1))]) ∧
    (t0 + timeout.toNat < due t0 seconds period (n - 1) → t0 + timeout.toNat < s.1.1.now →
      s.2.over = [(.next .timedOut, t0 + timeout.toNat)]) := by
  have hq0 := clocked_lawful true t0 seconds period
  have hq := Clocked.operate_lawful hq0 (takeOp (n : Int) : Operator Nat Nat).direct.slowProc
  have hs := (Clocked.clocks hq (Deadline.stage_lawful true timeout) hr).1
  have hps := Clocked.Prompt.before (rest := fun s => (takeOp (n : Int) : Operator Nat Nat).direct.slowProc.Quiescent s.2.ps) hq (Deadline.stage_lawful true timeout) hr hpr
  have mem : ∀ l, Time.act l ∈ Clocked.sources ls → Time.act (.inl l) ∈ ls := by
    intro l h
    obtain ⟨x, hx, hxe⟩ := List.mem_filterMap.mp h
    split at hxe <;> cases hxe <;> exact hx
  constructor
  · intro h1 h2
    obtain ⟨ls₁, s₁, d, ls₂, g1, g2, g3, g4, g5⟩ := Clocked.Prompt.split hq hs hps (t := due t0 seconds period (n - 1))
      (show t0 ≤ _ by simp only [due]; omega) h2
    rw [g5] at hs hps
    obtain ⟨s', k1, k2⟩ := LTS.run_append.mp hs
    rw [g1] at k1; cases k1
    obtain ⟨s₂, k3, k4⟩ := LTS.run_cons.mp k2
    have r2 : LTS.run ((clocked true t0 seconds period).operate (takeOp (n : Int) : Operator Nat Nat).direct.slowProc).step
        ((clocked true t0 seconds period).operate (takeOp (n : Int) : Operator Nat Nat).direct.slowProc).init (ls₁ ++ [.pass d]) = some s₂ :=
      LTS.run_append.mpr ⟨_, g1, LTS.run_cons.mpr ⟨_, k3, rfl⟩⟩
    have hqu : (takeOp (n : Int) : Operator Nat Nat).direct.slowProc.Quiescent s₂.2.ps := by
      simp only [Clocked.step, Clocked.operate, Option.map_eq_some_iff] at k3
      obtain ⟨v, -, rfl⟩ := k3
      exact g2
    have hnow := (hq.pass g1 k3).1
    obtain ⟨m, h3, h4⟩ := clocked_exact hp (Clocked.operate_source hq0 r2).1
    have mem' : ∀ l, Time.act l ∈ Clocked.sources (ls₁ ++ [.pass d]) → Time.act (.inl (.inl l)) ∈ ls := by
      intro l h
      obtain ⟨x, hx, hxe⟩ := List.mem_filterMap.mp h
      have : x ∈ Clocked.sources ls := by
        rw [g5]
        rcases List.mem_append.mp hx with h | h
        · exact List.mem_append_left _ h
        · exact List.mem_append_right _ (by simp at h; simp [h])
      split at hxe <;> cases hxe <;> exact mem _ this
    have h5 := h4 (fun h => hd (mem' _ h)) (fun e h => hx e (mem' _ h)) (n - 1) (by
      have : s₂.1.now = s₁.1.now + d := hnow
      have : due t0 seconds period (n - 1) < s₁.1.now + d := g4
      omega)
    have hc := C109_interval_take hp n hn r2 (fun a d' b s he ha => hps a d' (b ++ ls₂) s (by
      have := congrArg (· ++ ls₂) he
      simpa using this) ha) hqu (by rw [h3]; simp; omega)
    have hpre := hq.grows r2 k4
    rw [hc] at hpre
    obtain ⟨r, hr'⟩ := hpre
    refine C118_in_time hq timeout hr hl ?_ (show _ < t0 + timeout.toNat from h1) h2
    rw [← hr']
    refine outcome_append _ ?_
    have : ∀ (k : Nat) (l : Option Nat) (t : Nat), outcomeFrom l ((List.range k).map (fun k => ((.next k, due t0 seconds period k) : Notif Nat × Nat)) ++ [(.completed, t)]) =
        some (match (if k = 0 then l else some (k - 1)) with | none => .cancelled | some v => .value (some v), t) := by
      intro k
      have gen : ∀ (cs : List Nat) (l : Option Nat) (t : Nat), outcomeFrom l (cs.map (fun k => ((.next k, due t0 seconds period k) : Notif Nat × Nat)) ++ [(.completed, t)]) =
          some (match cs.getLast?.or l with | none => .cancelled | some v => .value (some v), t) := by
        intro cs
        induction cs with
        | nil => intro l t; cases l <;> rfl
        | cons c cs ih =>
          intro l t
          simp only [List.map_cons, List.cons_append, outcomeFrom]
          rw [ih]
          have : (c :: cs).getLast?.or l = cs.getLast?.or (some c) := by
            rw [List.getLast?_cons]
            cases cs.getLast? <;> rfl
          rw [this]
      intro l t
      rw [gen]
      cases k with
      | zero => simp
      | succ k => simp [List.range_succ, List.getLast?_append]
    rw [outcome, this n none, if_neg (by omega)]
  · intro h1 h2
    refine C118_timeout hq timeout hr hl (fun x hx => ?_) h2
    show t0 + timeout.toNat < x.2
    apply Classical.byContradiction
    intro hle
    obtain ⟨e, h3, h4⟩ := outcome_mem hx
    have hG : (takeOp (n : Int) : Operator Nat Nat).Computes (Spec.take n) := (take_acts _).computes (take_calm _)
    have hgr : ∀ ls s, LTS.run (clocked true t0 seconds period).step (clocked true t0 seconds period).init ls = some s →
        Grammar (((clocked true t0 seconds period).calls s).map (·.1)) := by
      intro ls s h
      obtain ⟨m, hm, -⟩ := clocked_exact hp h
      refine ⟨⟨List.range m, .running⟩, ?_⟩
      rw [hm]
      simp [Story.events, Function.comp_def]
    obtain ⟨-, g2, -⟩ := C109_operator hq0 hG.direct.slow (by
      simp only [Spec.take, List.take_nil, List.length_nil, Story.events]; rw [if_neg (by omega)]; rfl) hgr hs hps
    have g2 := g2 _ h2
    obtain ⟨m, h5, -⟩ := clocked_exact hp (Clocked.operate_source hq0 hs).1
    have he : e ∈ upto (t0 + timeout.toNat) (((clocked true t0 seconds period).operate (takeOp (n : Int) : Operator Nat Nat).direct.slowProc).calls s.1) :=
      List.mem_map.mpr ⟨(e, x.2), List.mem_filter.mpr ⟨h4, by simp; omega⟩, rfl⟩
    rw [g2, h5] at he
    have hst : ∀ l : List Nat, story (l.map (Notif.next : Nat → Notif Nat)) = ⟨l, .running⟩ := fun l => by
      simpa [Story.events] using story_events (⟨l, .running⟩ : Story Nat)
    have hup : upto (t0 + timeout.toNat) ((List.range m).map fun k => ((.next k, due t0 seconds period k) : Notif Nat × Nat)) =
        ((List.range m).filter fun k => due t0 seconds period k ≤ t0 + timeout.toNat).map .next := by
      simp [upto, List.filter_map, Function.comp_def]
    have hlen : ∀ m, ((List.range m).filter fun k => due t0 seconds period k ≤ t0 + timeout.toNat).length ≤ n - 1 := by
      intro m
      induction m with
      | zero => simp
      | succ m ih =>
        by_cases hm : m + 1 ≤ n - 1
        · have := List.length_filter_le (fun k => decide (due t0 seconds period k ≤ t0 + timeout.toNat)) (List.range (m + 1))
          rw [List.length_range] at this
          omega
        · have h6 : due t0 seconds period (n - 1) ≤ due t0 seconds period m := by
            simp only [due]
            exact Nat.add_le_add_left (Nat.mul_le_mul_right _ (by omega)) _
          rw [List.range_succ, List.filter_append]
          simp only [List.filter_cons, List.filter_nil]
          rw [if_neg (by simp; omega)]
          simpa using ih
    rw [hup, hst, Spec.take] at he
    have := hlen m
    rw [if_neg (by dsimp only; omega)] at he
    simp only [Story.events, List.mem_append, List.mem_map] at he
    rcases he with ⟨k, -, rfl⟩ | he
    · cases h3
    · cases he

end Interval
end Aio

/-! ## Examples -/

namespace Aio
open Spec Spec.Deadline

/-- `run(timer(3), timeout=5)` -/
abbrev demoInTime := (Interval.clocked true 0 3 0).through (Deadline.stage true 5)
abbrev demoInTimeRun : List (Time (Interval.Label ⊕ Deadline.Label Nat)) :=
  [.act (.inl .start), .act (.inr (.main .subscribed)), .pass 3, .act (.inl .wake), .act (.inl .ret), .act (.inr (.main .resume)),
    .act (.inr (.main .disposed)), .act (.inl .ret), .pass 7]
def demoInTimeSeen : Option (List (Notif (RunUntil.Outcome Nat) × Nat) × Nat) :=
  (LTS.run demoInTime.step demoInTime.init demoInTimeRun).map fun s => (s.2.over, s.1.now)

example : demoInTimeSeen = some ([(.next (.value (some 0)), 3)], 10) := by decide +kernel
example : ∀ m, Time.act (.inr (.main m)) ∈ demoInTimeRun → Deadline.Undisturbed m := by
  intro m h; simp at h; rcases h with rfl | rfl | rfl <;> simp [Deadline.Undisturbed]

/-- `run(timer(3), timeout=2)` -/
abbrev demoTooLate := (Interval.clocked true 0 3 0).through (Deadline.stage true 2)
abbrev demoTooLateRun : List (Time (Interval.Label ⊕ Deadline.Label Nat)) :=
  [.act (.inl .start), .act (.inr (.main .subscribed)), .pass 2, .act (.inr (.main .timeout)), .act (.inr (.main .disposed)), .pass 1, .act (.inl .wake)]
def demoTooLateSeen : Option (List (Notif (RunUntil.Outcome Nat) × Nat) × Nat) :=
  (LTS.run demoTooLate.step demoTooLate.init demoTooLateRun).map fun s => (s.2.over, s.1.now)

example : demoTooLateSeen = some ([(.next .timedOut, 2)], 3) := by decide +kernel
/-- The loop cannot sleep beyond the deadline, nor `run` end before it. -/
example : LTS.run demoTooLate.step demoTooLate.init (demoTooLateRun.take 2 ++ [.pass 3]) = none ∧
    LTS.run demoTooLate.step demoTooLate.init (demoTooLateRun.take 2 ++ [.pass 1, .act (.inr (.main .timeout))]) = none := ⟨rfl, rfl⟩

/-- `run(timer(3), timeout=3)`: either may happen. -/
example : (LTS.run ((Interval.clocked true 0 3 0).through (Deadline.stage true 3)).step ((Interval.clocked true 0 3 0).through (Deadline.stage true 3)).init
    [.act (.inl .start), .act (.inr (.main .subscribed)), .pass 3, .act (.inl .wake), .act (.inl .ret), .act (.inr (.main .resume)),
      .act (.inr (.main .disposed))]).map (fun s => s.2.over) = some [(.next (.value (some 0)), 3)] ∧
    (LTS.run ((Interval.clocked true 0 3 0).through (Deadline.stage true 3)).step ((Interval.clocked true 0 3 0).through (Deadline.stage true 3)).init
    [.act (.inl .start), .act (.inr (.main .subscribed)), .pass 3, .act (.inr (.main .timeout)), .act (.inr (.main .disposed))]).map (fun s => s.2.over) =
      some [(.next .timedOut, 3)] := ⟨rfl, rfl⟩

/-- `run(pipe(interval(1, 2), take(2)), timeout=5)`, and with `timeout=2` -/
abbrev demoRunTake (timeout : Int) := demoTake.through (Deadline.stage true timeout)
abbrev DemoTakeLabel := (Interval.Label ⊕ (takeOp 2 : Operator Nat Nat).direct.compileSlow.SlowLab) ⊕ Deadline.Label Nat
abbrev runTakeA : Time DemoTakeLabel := .act (.inl (.inr (.inl ())))
abbrev runTakeB : Time DemoTakeLabel := .act (.inl (.inr (.inr ())))
abbrev demoRunTakeRun : List (Time DemoTakeLabel) :=
  [.act (.inl (.inl .start)), .act (.inr (.main .subscribed)), .pass 1, .act (.inl (.inl .wake)), runTakeA, runTakeA, runTakeB, runTakeB, .act (.inl (.inl .ret)), .pass 2,
    .act (.inl (.inl .wake)), runTakeA, runTakeA, runTakeA, runTakeB, runTakeB, runTakeB, runTakeB, .act (.inl (.inl .ret)), .act (.inr (.main .resume)),
    .act (.inr (.main .disposed)), .pass 1]
abbrev demoRunTakeLate : List (Time DemoTakeLabel) :=
  [.act (.inl (.inl .start)), .act (.inr (.main .subscribed)), .pass 1, .act (.inl (.inl .wake)), runTakeA, runTakeA, runTakeB, runTakeB, .act (.inl (.inl .ret)), .pass 1,
    .act (.inr (.main .timeout)), .act (.inr (.main .disposed)), .pass 1]
def demoRunTakeSeen (timeout : Int) (ls : List (Time DemoTakeLabel)) : Option (List (Notif (RunUntil.Outcome Nat) × Nat) × Nat) :=
  (LTS.run (demoRunTake timeout).step (demoRunTake timeout).init ls).map fun s => (s.2.over, s.1.1.now)

example : demoRunTakeSeen 5 demoRunTakeRun = some ([(.next (.value (some 1)), 3)], 4) := by decide +kernel
example : demoRunTakeSeen 2 demoRunTakeLate = some ([(.next .timedOut, 2)], 3) := by decide +kernel
example : (demoRunTake 5).Prompt (fun s => (takeOp 2 : Operator Nat Nat).direct.slowProc.Quiescent s.1.2.ps) demoRunTakeRun := by
  refine Clocked.Prompt.of_rests (idle := fun s => ((takeOp 2 : Operator Nat Nat).direct.slowProc.step s.1.2.ps (.inl ())).isNone && ((takeOp 2 : Operator Nat Nat).direct.slowProc.step s.1.2.ps (.inr ())).isNone) (fun s h l => ?_) (by decide +kernel)
  simp only [Bool.and_eq_true, Option.isNone_iff_eq_none] at h
  match l with
  | .inl () => exact h.1
  | .inr () => exact h.2

end Aio
