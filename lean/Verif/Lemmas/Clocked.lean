import Verif.Model.Clocked
import Verif.Spec.Delay
import Verif.Spec.Debounce
/-!
# Runs of pipelines in which time passes
-/

namespace Aio
variable {S L T M α β : Type}

/-- What a clocked source has to satisfy: it takes no call back, the calls of a segment are stamped with the time, time passes as told. -/
structure Clocked.Lawful (q : Clocked S L α) : Prop where
  init : q.calls q.init = []
  act : ∀ {ls s l t}, LTS.run q.step q.init ls = some s → q.act s l = some t →
    q.now t = q.now s ∧ ∃ ns : List (Notif α), q.calls t = q.calls s ++ ns.map fun n => (n, q.now s)
  pass : ∀ {ls s d t}, LTS.run q.step q.init ls = some s → q.pass s d = some t → q.now t = q.now s + d ∧ q.calls t = q.calls s

/-- The same for a stage. -/
structure Stage.Lawful (o : Stage T M α β) : Prop where
  init : ∀ t, o.now (o.init t) = t ∧ o.calls (o.init t) = []
  event : ∀ {s n t}, o.step s (o.event n) = some t → o.now t = o.now s ∧ o.calls t = o.calls s
  tick : ∀ {s d t}, o.step s (o.tick d) = some t → o.now t = o.now s + d ∧ o.calls t = o.calls s
  own : ∀ {s m t}, o.own m = true → o.step s m = some t →
    o.now t = o.now s ∧ ∃ ns : List (Notif β), o.calls t = o.calls s ++ ns.map fun n => (n, o.now s)

/-- `arr t ms`, `clk ms`: the calls that a stage gets in a schedule that starts at time `t`, with their times, and how long it takes. -/
structure Stage.Reads (o : Stage T M α β) (arr : Nat → List M → List (Notif α × Nat)) (clk : List M → Nat) : Prop where
  nil : ∀ t, arr t [] = [] ∧ clk [] = 0
  event : ∀ t ms n, arr t (ms ++ [o.event n]) = arr t ms ++ [(n, t + clk ms)] ∧ clk (ms ++ [o.event n]) = clk ms
  tick : ∀ t ms d, arr t (ms ++ [o.tick d]) = arr t ms ∧ clk (ms ++ [o.tick d]) = clk ms + d
  own : ∀ t ms m, o.own m = true → arr t (ms ++ [m]) = arr t ms ∧ clk (ms ++ [m]) = clk ms

theorem Stage.Reads.events {o : Stage T M α β} {arr clk} (h : o.Reads arr clk) (t : Nat) (ns : List (Notif α)) : ∀ ms,
    arr t (ms ++ ns.map o.event) = arr t ms ++ (ns.map fun n => (n, t + clk ms)) ∧ clk (ms ++ ns.map o.event) = clk ms := by
  induction ns with
  | nil => intro ms; simp
  | cons n ns ih =>
    intro ms
    obtain ⟨h1, h2⟩ := ih (ms ++ [o.event n])
    obtain ⟨h3, h4⟩ := h.event t ms n
    simp only [List.append_assoc, List.singleton_append] at h1 h2
    rw [List.map_cons, h1, h2, h3, h4]
    simp

namespace Clocked

/-- A run of a source and a stage: a run of the source, and a run of the stage that gets the source's calls at their times. -/
theorem split {q : Clocked S L α} (hq : q.Lawful) {o : Stage T M α β} {arr clk} (ho : o.Reads arr clk) {ls : List (Time (L ⊕ M))} {s : S × T}
    (hr : LTS.run (q.through o).step (q.through o).init ls = some s) :
    LTS.run q.step q.init (sources ls) = some s.1 ∧
    ∃ ms : List M, LTS.run o.step (o.init (q.now q.init)) ms = some s.2 ∧ arr (q.now q.init) ms = q.calls s.1 ∧ q.now q.init + clk ms = q.now s.1 ∧
      ∀ m ∈ ms, (o.own m = true ∧ Time.act (Sum.inr m) ∈ ls) ∨ (∃ n, m = o.event n) ∨ ∃ d, m = o.tick d := by
  refine LTS.inv_hist (step := (q.through o).step) (fun ls s => LTS.run q.step q.init (sources ls) = some s.1 ∧
    ∃ ms : List M, LTS.run o.step (o.init (q.now q.init)) ms = some s.2 ∧ arr (q.now q.init) ms = q.calls s.1 ∧ q.now q.init + clk ms = q.now s.1 ∧
      ∀ m ∈ ms, (o.own m = true ∧ Time.act (Sum.inr m) ∈ ls) ∨ (∃ n, m = o.event n) ∨ ∃ d, m = o.tick d) (s0 := (q.through o).init) ?_ ?_ hr
  · exact ⟨rfl, [], rfl, by rw [(ho.nil _).1]; exact hq.init.symm, by rw [(ho.nil 0).2]; rfl, by simp⟩
  rintro ls ⟨s, t⟩ l ⟨s', t'⟩ ⟨h1, ms, h2, h3, h4, h5⟩ h
  have hap : sources (ls ++ [l]) = sources ls ++ sources [l] := List.filterMap_append ..
  have h5' : ∀ m ∈ ms, (o.own m = true ∧ Time.act (Sum.inr m) ∈ ls ++ [l]) ∨ (∃ n, m = o.event n) ∨ ∃ d, m = o.tick d := fun m hm =>
    (h5 m hm).imp (fun h => ⟨h.1, List.mem_append_left _ h.2⟩) (fun h => h)
  rw [hap]
  dsimp only at h1 h2 h3 h4 ⊢
  cases l with
  | pass d =>
    simp only [step, through] at h
    split at h
    · cases h
    · next u hu =>
      simp only [Option.map_eq_some_iff, Prod.mk.injEq] at h
      obtain ⟨v, hv, rfl, rfl⟩ := h
      obtain ⟨g1, g2⟩ := hq.pass h1 hu
      refine ⟨LTS.run_append.mpr ⟨_, h1, LTS.run_cons.mpr ⟨u, hu, rfl⟩⟩, ms ++ [o.tick d], LTS.run_append.mpr ⟨_, h2, LTS.run_cons.mpr ⟨v, hv, rfl⟩⟩,
        by rw [(ho.tick _ ms d).1, g2, h3], by rw [(ho.tick 0 ms d).2, g1]; omega, ?_⟩
      intro m hm
      rcases List.mem_append.mp hm with hm | hm
      · exact h5' m hm
      · exact .inr (.inr ⟨d, by simpa using hm⟩)
  | act l =>
    cases l with
    | inl l =>
      simp only [step, through] at h
      split at h
      · cases h
      · next u hu =>
        simp only [Option.map_eq_some_iff, Prod.mk.injEq] at h
        obtain ⟨v, hv, rfl, rfl⟩ := h
        obtain ⟨g1, ns, g2⟩ := hq.act h1 hu
        rw [g2, List.drop_left, List.map_map] at hv
        have he := ho.events (q.now q.init) ns ms
        refine ⟨LTS.run_append.mpr ⟨_, h1, LTS.run_cons.mpr ⟨u, hu, rfl⟩⟩, ms ++ ns.map o.event, LTS.run_append.mpr ⟨_, h2, hv⟩,
          by rw [he.1, h3, h4, g2], by rw [he.2, g1, h4], ?_⟩
        intro m hm
        rcases List.mem_append.mp hm with hm | hm
        · exact h5' m hm
        · obtain ⟨n, -, rfl⟩ := List.mem_map.mp hm
          exact .inr (.inl ⟨n, rfl⟩)
    | inr m =>
      simp only [step, through] at h
      split at h
      · next hm =>
        simp only [Option.map_eq_some_iff, Prod.mk.injEq] at h
        obtain ⟨v, hv, rfl, rfl⟩ := h
        obtain ⟨g1, g2⟩ := ho.own (q.now q.init) ms m hm
        refine ⟨LTS.run_append.mpr ⟨_, h1, rfl⟩, ms ++ [m], LTS.run_append.mpr ⟨_, h2, LTS.run_cons.mpr ⟨v, hv, rfl⟩⟩, by rw [g1, h3], by rw [g2, h4], ?_⟩
        intro m' hm'
        rcases List.mem_append.mp hm' with hm' | hm'
        · exact h5' m' hm'
        · obtain rfl : m' = m := by simpa using hm'
          exact .inl ⟨hm, by simp⟩
      · cases h

theorem _root_.Aio.Stage.Lawful.events {o : Stage T M α β} (ho : o.Lawful) : ∀ (ns : List (Notif α)) {s t}, LTS.run o.step s (ns.map o.event) = some t →
    o.now t = o.now s ∧ o.calls t = o.calls s := by
  intro ns
  induction ns with
  | nil => intro s t h; simp [LTS.run] at h; subst h; exact ⟨rfl, rfl⟩
  | cons n ns ih =>
    intro s t h
    obtain ⟨u, h1, h2⟩ := LTS.run_cons.mp h
    obtain ⟨g1, g2⟩ := ih h2
    obtain ⟨g3, g4⟩ := ho.event h1
    exact ⟨g1.trans g3, g2.trans g4⟩

/-- The clocks agree. -/
theorem clocks {q : Clocked S L α} (hq : q.Lawful) {o : Stage T M α β} (ho : o.Lawful) {ls : List (Time (L ⊕ M))} {s : S × T}
    (hr : LTS.run (q.through o).step (q.through o).init ls = some s) :
    LTS.run q.step q.init (sources ls) = some s.1 ∧ o.now s.2 = q.now s.1 := by
  refine LTS.inv_hist (step := (q.through o).step) (fun ls s => LTS.run q.step q.init (sources ls) = some s.1 ∧ o.now s.2 = q.now s.1)
    (s0 := (q.through o).init) ⟨rfl, (ho.init _).1⟩ ?_ hr
  rintro ls ⟨s, t⟩ l ⟨s', t'⟩ ⟨h1, h2⟩ h
  have hap : sources (ls ++ [l]) = sources ls ++ sources [l] := List.filterMap_append ..
  rw [hap]
  dsimp only at h1 h2 ⊢
  cases l with
  | pass d =>
    simp only [step, through] at h
    split at h
    · cases h
    · next u hu =>
      simp only [Option.map_eq_some_iff, Prod.mk.injEq] at h
      obtain ⟨v, hv, rfl, rfl⟩ := h
      exact ⟨LTS.run_append.mpr ⟨_, h1, LTS.run_cons.mpr ⟨u, hu, rfl⟩⟩, by rw [(ho.tick hv).1, (hq.pass h1 hu).1, h2]⟩
  | act l =>
    cases l with
    | inl l =>
      simp only [step, through] at h
      split at h
      · cases h
      · next u hu =>
        simp only [Option.map_eq_some_iff, Prod.mk.injEq] at h
        obtain ⟨v, hv, rfl, rfl⟩ := h
        obtain ⟨g1, ns, g2⟩ := hq.act h1 hu
        rw [g2, List.drop_left, List.map_map] at hv
        exact ⟨LTS.run_append.mpr ⟨_, h1, LTS.run_cons.mpr ⟨u, hu, rfl⟩⟩, by rw [(ho.events ns hv).1, g1, h2]⟩
    | inr m =>
      simp only [step, through] at h
      split at h
      · next hm =>
        simp only [Option.map_eq_some_iff, Prod.mk.injEq] at h
        obtain ⟨v, hv, rfl, rfl⟩ := h
        exact ⟨LTS.run_append.mpr ⟨_, h1, rfl⟩, by rw [(ho.own hm hv).1, h2]⟩
      · cases h

/-- So stages can be put behind each other. -/
theorem through_lawful {q : Clocked S L α} (hq : q.Lawful) {o : Stage T M α β} (ho : o.Lawful) : (q.through o).Lawful := by
  refine ⟨(ho.init _).2, ?_, ?_⟩
  · rintro ls ⟨s, t⟩ l ⟨s', t'⟩ hr h
    obtain ⟨h1, h2⟩ := clocks hq ho hr
    dsimp only at h1 h2
    cases l with
    | inl l =>
      simp only [through] at h ⊢
      split at h
      · cases h
      · next u hu =>
        simp only [Option.map_eq_some_iff, Prod.mk.injEq] at h
        obtain ⟨v, hv, rfl, rfl⟩ := h
        obtain ⟨g1, ns, g2⟩ := hq.act h1 hu
        rw [g2, List.drop_left, List.map_map] at hv
        exact ⟨g1, [], by rw [(ho.events ns hv).2]; simp⟩
    | inr m =>
      simp only [through] at h ⊢
      split at h
      · next hm =>
        simp only [Option.map_eq_some_iff, Prod.mk.injEq] at h
        obtain ⟨v, hv, rfl, rfl⟩ := h
        obtain ⟨-, g⟩ := ho.own hm hv
        rw [h2] at g
        exact ⟨rfl, g⟩
      · cases h
  · rintro ls ⟨s, t⟩ d ⟨s', t'⟩ hr h
    obtain ⟨h1, h2⟩ := clocks hq ho hr
    dsimp only at h1 h2
    simp only [through] at h ⊢
    split at h
    · cases h
    · next u hu =>
      simp only [Option.map_eq_some_iff, Prod.mk.injEq] at h
      obtain ⟨v, hv, rfl, rfl⟩ := h
      exact ⟨(hq.pass h1 hu).1, (ho.tick hv).2⟩

end Clocked

/-! ## the parts -/

namespace Interval

theorem clocked_lawful (prompt : Bool) (t0 : Nat) (seconds period : Int) : (clocked prompt t0 seconds period).Lawful := by
  have hp : ∀ {s l t}, promptStep seconds period s l = some t → step seconds period s l = some t := by
    intro s l t h
    simp only [promptStep] at h
    split at h
    · cases h
    · exact h
  refine ⟨rfl, ?_, ?_⟩
  · rintro - ⟨now, pc, c, calls⟩ l t - h
    simp only [clocked] at h ⊢
    split at h
    · cases h
    · cases l <;> cases pc <;> simp only [step, afterSend, reduceCtorEq, Option.some.injEq] at h
      all_goals try split at h
      all_goals try simp only [reduceCtorEq, Option.some.injEq] at h
      all_goals try split at h
      all_goals try subst h
      all_goals first
        | (refine ⟨rfl, [], ?_⟩; exact (List.append_nil _).symm)
        | exact ⟨rfl, [.next _], List.map_append ..⟩
        | exact ⟨rfl, [.completed], List.map_append ..⟩
        | contradiction
  · intro _ s d t hr
    clear hr
    revert t
    induction d generalizing s with
    | zero => intro t h; simp [clocked, LTS.run] at h; subst h; exact ⟨rfl, rfl⟩
    | succ d ih =>
      intro t h
      simp only [clocked, List.replicate_succ] at h
      obtain ⟨u, h1, h2⟩ := LTS.run_cons.mp h
      have h1 : step seconds period s .tick = some u := by
        cases prompt
        · exact h1
        · exact hp h1
      obtain ⟨g1, g2⟩ := ih (s := u) h2
      simp only [step, Option.some.injEq] at h1
      subst h1
      simp only [clocked] at g1 g2 ⊢
      exact ⟨by rw [g1]; omega, g2⟩

end Interval

namespace Delay
open Aio.Spec.Delay

theorem stage_step {prompt : Bool} {seconds : Nat} {s t : State α} {m : Label α} (h : (stage prompt seconds).step s m = some t) :
    step seconds s m = some t := by
  simp only [stage] at h
  cases prompt
  · exact h
  · simp only [if_true, promptStep] at h
    split at h
    · exact h
    · cases h

theorem calls_upd (s : State α) (b c : Sub α) (h : s.subs[0]? = some b) : (stage (α := α) true 0).calls (s.upd 0 c) = c.delivered := by
  obtain ⟨hl, -⟩ := List.getElem?_eq_some_iff.mp h
  simp [stage, State.upd, List.getElem?_set, hl]

theorem stage_lawful (prompt : Bool) (seconds : Nat) : (stage prompt seconds : Stage (State α) (Label α) α α).Lawful := by
  refine ⟨fun t => ⟨rfl, rfl⟩, ?_, ?_, ?_⟩
  · intro s n t h
    have h := stage_step h
    simp only [stage, step, subStep] at h
    split at h
    · cases h
    · next b hb =>
      simp only [Option.map_some, Option.some.injEq] at h
      subst h
      exact ⟨rfl, (calls_upd s b _ hb).trans (by simp [stage, hb])⟩
  · intro s d t h
    have h := stage_step h
    simp only [stage, step, Option.some.injEq] at h
    subst h
    exact ⟨rfl, rfl⟩
  · intro s m t hm h
    have h := stage_step h
    have key : ∀ {b : Sub α}, s.subs[0]? = some b → ∀ {c : Sub α} {t : State α}, t.loop = s.loop → t.subs = s.subs.set 0 c →
        ∀ ns : List (Notif α), c.delivered = b.delivered ++ ns.map (fun n => (n, s.loop)) →
        (stage prompt seconds).now t = (stage prompt seconds).now s ∧
        ∃ ns : List (Notif α), (stage prompt seconds).calls t = (stage prompt seconds).calls s ++ ns.map fun n => (n, (stage prompt seconds).now s) := by
      intro b hb c t h1 h2 ns h3
      obtain ⟨hl, -⟩ := List.getElem?_eq_some_iff.mp hb
      have hc : (s.subs.set 0 c)[0]? = some c := by simp [hl]
      refine ⟨h1, ns, ?_⟩
      simp only [stage, h2, hc, hb, h3]
    simp only [stage] at hm
    split at hm
    case h_8 => cases hm
    all_goals
      simp only [step] at h
      split at h
      · cases h
      · next b hb =>
        simp only [Option.map_eq_some_iff] at h
        obtain ⟨c, hc, rfl⟩ := h
        simp only [subStep] at hc
        try split at hc
        all_goals try simp only [reduceCtorEq, Option.some.injEq] at hc
        all_goals try split at hc
        all_goals try simp only [reduceCtorEq, Option.some.injEq] at hc
        all_goals try subst hc
        all_goals try simp only [Sub.handle]
        all_goals try split
        all_goals first
          | (refine key hb rfl rfl [] ?_; exact (List.append_nil _).symm)
          | exact key hb rfl rfl [_] (rfl : _ = _)

theorem stage_reads (prompt : Bool) (seconds : Nat) : (stage prompt seconds : Stage (State α) (Label α) α α).Reads (arrivalsFrom 0) clock := by
  have hc : ∀ (a b : List (Label α)), clock (a ++ b) = clock a + clock b := by
    intro a b
    induction a with
    | nil => simp [clock]
    | cons l a ih => cases l <;> simp [clock, ih] <;> omega
  have ha : ∀ (a b : List (Label α)) (t : Nat), arrivalsFrom 0 t (a ++ b) = arrivalsFrom 0 t a ++ arrivalsFrom 0 (t + clock a) b := by
    intro a b
    induction a with
    | nil => intro t; simp [arrivalsFrom, clock]
    | cons l a ih =>
      intro t
      cases l <;> simp only [List.cons_append, arrivalsFrom, clock, ih, Nat.add_assoc]
      split <;> rfl
  refine ⟨fun t => ⟨rfl, rfl⟩, fun t ms n => ⟨?_, ?_⟩, fun t ms d => ⟨?_, ?_⟩, fun t ms m hm => ?_⟩
  · rw [ha]; rfl
  · rw [hc]; rfl
  · rw [ha]; exact List.append_nil _
  · rw [hc]; rfl
  · rw [ha, hc]
    simp only [stage] at hm
    split at hm <;> first | exact ⟨List.append_nil _, rfl⟩ | cases hm

end Delay

namespace Debounce
open Aio.Spec.Debounce

theorem stage_step {prompt : Bool} {seconds : Nat} {s t : State α} {m : Label α} (h : (stage prompt seconds).step s m = some t) :
    step seconds s m = some t := by
  simp only [stage] at h
  cases prompt
  · exact h
  · simp only [if_true, promptStep] at h
    split at h
    · exact h
    · cases h

theorem stage_lawful (prompt : Bool) (seconds : Nat) : (stage prompt seconds : Stage (State α) (Label α) α α).Lawful := by
  refine ⟨fun t => ⟨rfl, rfl⟩, ?_, ?_, ?_⟩
  · intro s n t h
    have h := stage_step h
    simp only [stage, step, Option.some.injEq] at h
    subst h
    exact ⟨rfl, rfl⟩
  · intro s d t h
    have h := stage_step h
    simp only [stage, step, Option.some.injEq] at h
    subst h
    exact ⟨rfl, rfl⟩
  · intro s m t hm h
    have h := stage_step h
    cases m <;> simp only [step] at h
    all_goals try split at h
    all_goals try split at h
    all_goals try simp only [reduceCtorEq, Option.some.injEq] at h
    all_goals try subst h
    all_goals first
      | exact ⟨rfl, [], (List.append_nil _).symm⟩
      | exact ⟨rfl, _, rfl⟩
      | simp [stage] at hm

theorem stage_reads (prompt : Bool) (seconds : Nat) : (stage prompt seconds : Stage (State α) (Label α) α α).Reads arrivalsFrom clock := by
  have hc : ∀ (a b : List (Label α)), clock (a ++ b) = clock a + clock b := by
    intro a b
    induction a with
    | nil => simp [clock]
    | cons l a ih => cases l <;> simp [clock, ih] <;> omega
  have ha : ∀ (a b : List (Label α)) (t : Nat), arrivalsFrom t (a ++ b) = arrivalsFrom t a ++ arrivalsFrom (t + clock a) b := by
    intro a b
    induction a with
    | nil => intro t; simp [arrivalsFrom, clock]
    | cons l a ih => intro t; cases l <;> simp only [List.cons_append, arrivalsFrom, clock, ih, Nat.add_assoc]
  refine ⟨fun t => ⟨rfl, rfl⟩, fun t ms n => ⟨?_, ?_⟩, fun t ms d => ⟨?_, ?_⟩, fun t ms m hm => ?_⟩
  · rw [ha]; rfl
  · rw [hc]; rfl
  · rw [ha]; exact List.append_nil _
  · rw [hc]; rfl
  · rw [ha, hc]
    cases m <;> first | exact ⟨List.append_nil _, rfl⟩ | simp [stage] at hm

end Debounce

end Aio
