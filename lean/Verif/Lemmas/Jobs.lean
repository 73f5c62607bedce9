import Verif.Model.Jobs
import Verif.Props.C20_26_Create
import Verif.Props.C112_114_Nested
/-! The life of one job. -/

namespace Aio
open Spec Spec.Timed Producer
variable {S L ω α : Type}

theorem Safe.calls_step {s s' : Safe.State α} {l : Safe.Label α} (h : Safe.step s l = some s') : Safe.calls s.log <+: Safe.calls s'.log := by
  cases l <;> simp only [Safe.step] at h <;> (repeat' split at h) <;> cases h <;>
    first | exact List.prefix_refl _ | (rw [Safe.calls_append]; exact List.prefix_append ..)

theorem Producer.received_next {p : Producer S L α} {s t : State S α} {l : Producer.Label L} (h : p.next s l = some t) : s.received <+: t.received := by
  cases l with
  | own l =>
    simp only [next] at h
    split at h
    · cases h
    · cases h; exact List.prefix_refl _
  | dispose => cases h; exact List.prefix_refl _
  | receive =>
    simp only [next] at h
    split at h
    · cases h
    · next t' ht => cases h; exact Safe.calls_step ht
  | ret => obtain ⟨t', ht, rfl⟩ := Option.map_eq_some_iff.mp h; exact Safe.calls_step ht
  | raise e => obtain ⟨t', ht, rfl⟩ := Option.map_eq_some_iff.mp h; exact Safe.calls_step ht

namespace Job

theorem move_eq {s t : State α} {l} (h : move s l = some t) : (ofAsync true).next s.sub l = some t.sub ∧ t.now = s.now ∧ t.due = s.due ∧
    ∃ ns, t.sub.received = s.sub.received ++ ns ∧ t.sent = s.sent ++ ns.map fun n => (n, s.now) := by
  simp only [move] at h
  split at h
  · cases h
  next t' ht =>
    cases h
    obtain ⟨ns, hns⟩ := received_next ht
    exact ⟨ht, rfl, rfl, ns, hns.symm, by rw [← hns]; simp⟩


structure Inv (dur : Nat) (r : Except Err α) (t0 : Nat) (s : State α) : Prop where
  run : ∃ ms, LTS.run (ofAsync true).next (ofAsync true).start ms = some s.sub ∧ Producer.NoRaise ms ∧ (s.sub.src.pc = .finished → outcomes ms = [r])
  early : s.sub.src.pc ≠ .finished → s.sub = ⟨⟨s.sub.src.pc, false⟩, [], Safe.init⟩
  fresh : s.sub.src.pc = .fresh → s.now = t0
  awaiting : s.sub.src.pc = .awaiting → s.due = t0 + dur ∧ t0 ≤ s.now ∧ s.now ≤ t0 + dur
  finished : s.sub.src.pc = .finished → t0 + dur ≤ s.now ∧ (busy s = true → s.now = t0 + dur)
  sent : s.sent = s.sub.received.map fun n => (n, t0 + dur)

theorem not_busy {s : State α} (h : busy s = false) : s.sub.src.pc ≠ .fresh ∧ Safe.Drained s.sub.safe := by
  simp only [busy, Bool.or_eq_false_iff, decide_eq_false_iff_not] at h
  refine ⟨h.1, ?_⟩
  have h2 := h.2
  split at h2
  next hp => exact .inl hp
  next hp => exact .inr ⟨hp, by simpa using h2⟩
  next => cases h2

theorem busy_of {s : State α} (h : ¬ Safe.Drained s.sub.safe) : busy s = true := by
  cases hb : busy s with
  | true => rfl
  | false => exact absurd (not_busy hb).2 h

theorem inv_worker {dur : Nat} {r : Except Err α} {t0 : Nat} {s t : State α} (hi : Inv dur r t0 s) {l : Producer.Label (OfAsync.Lab α)}
    (hl : l = .receive ∨ l = .ret) (h : move s l = some t) : Inv dur r t0 t := by
  obtain ⟨h1, h2, h3, ns, h4, h5⟩ := move_eq h
  have hnd : ¬ Safe.Drained s.sub.safe := by
    intro hd
    rcases hl with rfl | rfl
    · simp only [next] at h1
      rcases hd with hd | ⟨hd, hd'⟩
      · simp [Safe.step, hd] at h1
      · simp [Safe.step, hd, hd'] at h1
    · simp only [next] at h1
      rcases hd with hd | ⟨hd, hd'⟩
      · simp [Safe.step, hd] at h1
      · simp [Safe.step, hd] at h1
  have hpc : s.sub.src.pc = .finished := by
    apply Classical.byContradiction
    intro hn
    rw [hi.early hn] at hnd
    exact hnd (.inr ⟨rfl, rfl⟩)
  have hpc' : t.sub.src.pc = .finished := by
    rcases hl with rfl | rfl
    · simp only [next] at h1
      split at h1
      · cases h1
      · rw [← Option.some.inj h1]
        dsimp only
        split
        · exact hpc
        · exact hpc
    · obtain ⟨t', -, ht⟩ := Option.map_eq_some_iff.mp h1
      rw [← ht]; exact hpc
  have hnow : s.now = t0 + dur := (hi.finished hpc).2 (busy_of hnd)
  obtain ⟨ms, m1, m2, m3⟩ := hi.run
  refine ⟨⟨ms ++ [l], LTS.run_append.mpr ⟨_, m1, LTS.run_cons.mpr ⟨_, h1, rfl⟩⟩, ?_, fun _ => ?_⟩, fun hn => absurd hpc' hn, fun hn => ?_, fun hn => ?_, fun _ => ?_, ?_⟩
  · intro e he
    rcases List.mem_append.mp he with he | he
    · exact m2 e he
    · rcases hl with rfl | rfl <;> simp at he
  · rw [outcomes_append, m3 hpc]
    rcases hl with rfl | rfl <;> rfl
  · rw [hpc'] at hn; cases hn
  · rw [hpc'] at hn; cases hn
  · rw [h2, hnow]; exact ⟨Nat.le_refl _, fun _ => rfl⟩
  · rw [h5, h4, List.map_append, hi.sent, hnow]

theorem inv_run {dur : Nat} {r : Except Err α} {t0 : Nat} {ls s} (hr : LTS.run (clocked dur r t0).step (clocked dur r t0).init ls = some s) :
    Inv dur r t0 s := by
  refine LTS.inv (step := (clocked dur r t0).step) (fun s => Inv dur r t0 s) (s0 := (clocked dur r t0).init) ?_ ?_ hr
  · refine ⟨⟨[], rfl, fun e he => (by cases he), fun h => (by cases h)⟩, fun _ => rfl, fun _ => rfl, fun h => (by cases h), fun h => (by cases h), rfl⟩
  · intro s l t hi h
    obtain ⟨ms, m1, m2, m3⟩ := hi.run
    cases l with
    | pass d =>
      simp only [Clocked.step, clocked] at h
      split at h
      · cases h
      next hc =>
        cases h
        simp only [Bool.or_eq_true, Bool.and_eq_true, decide_eq_true_eq, not_or, Bool.not_eq_true] at hc
        obtain ⟨hb, hc⟩ := hc
        obtain ⟨g1, g2⟩ := not_busy hb
        refine ⟨⟨ms, m1, m2, m3⟩, hi.early, fun h => absurd h g1, fun h => ?_, fun h => ?_, hi.sent⟩
        · obtain ⟨a1, a2, a3⟩ := hi.awaiting h
          dsimp only at h ⊢
          have hh : ¬ s.due < s.now + d := fun hh => hc ⟨h, hh⟩
          omega
        · obtain ⟨a1, a2⟩ := hi.finished h
          refine ⟨by dsimp only; omega, fun hb' => ?_⟩
          have : busy s = true := hb'
          rw [hb] at this; cases this
    | act l =>
      cases l with
      | receive => exact inv_worker hi (.inl rfl) h
      | ret => exact inv_worker hi (.inr rfl) h
      | start =>
        have h : move { s with due := s.now + dur } (.own .start) = some t := h
        obtain ⟨h1, h2, h3, ns, h4, h5⟩ := move_eq h
        dsimp only at h1 h2 h3 h4 h5
        cases hpc : s.sub.src.pc with
        | awaiting => simp [next, ofAsync, hpc] at h1
        | finished => simp [next, ofAsync, hpc] at h1
        | fresh =>
          have he := hi.early (by rw [hpc]; simp)
          rw [hpc] at he
          have hsub : t.sub = ⟨⟨.awaiting, false⟩, [], Safe.init⟩ := by
            rw [he] at h1
            simp [next, ofAsync, Safe.init] at h1
            rw [← h1]; rfl
          have hn := hi.fresh hpc
          have hns : ns = [] := by
            rw [hsub, he] at h4
            simpa [State.received, Safe.init, Safe.calls] using h4.symm
          refine ⟨⟨ms ++ [.own .start], LTS.run_append.mpr ⟨_, m1, LTS.run_cons.mpr ⟨_, h1, rfl⟩⟩, fun e he => ?_, fun h => ?_⟩, fun _ => ?_, fun h => ?_, fun _ => ?_, fun h => ?_, ?_⟩
          · rcases List.mem_append.mp he with he | he
            · exact m2 e he
            · simp at he
          · rw [hsub] at h; cases h
          · rw [hsub]
          · rw [hsub] at h; cases h
          · omega
          · rw [hsub] at h; cases h
          · rw [h5, h4, hns, hi.sent, List.append_nil, List.map_nil, List.append_nil]
      | wake =>
        have h : (if s.due ≤ s.now then move s (.own (.outcome r)) else none) = some t := h
        split at h
        next hdue =>
          obtain ⟨h1, h2, h3, ns, h4, h5⟩ := move_eq h
          cases hpc : s.sub.src.pc with
          | fresh => simp [next, ofAsync, hpc] at h1
          | finished => simp [next, ofAsync, hpc] at h1
          | awaiting =>
            have he := hi.early (by rw [hpc]; simp)
            rw [hpc] at he
            obtain ⟨a1, a2, a3⟩ := hi.awaiting hpc
            have hsub : t.sub.src.pc = .finished ∧ t.sub.received = [] := by
              rw [he] at h1
              simp [next, ofAsync, Safe.init] at h1
              rw [← h1]; exact ⟨rfl, rfl⟩
            have hns : ns = [] ∧ s.sub.received = [] := by
              rw [hsub.2] at h4
              have := List.append_eq_nil_iff.mp h4.symm
              exact ⟨this.2, this.1⟩
            have ho : outcomes ms = [] := by
              rcases ofAsync_posts true m1 with ⟨-, -, ho⟩ | ⟨hf, -⟩
              · exact ho
              · rw [hpc] at hf; cases hf
            refine ⟨⟨ms ++ [.own (.outcome r)], LTS.run_append.mpr ⟨_, m1, LTS.run_cons.mpr ⟨_, h1, rfl⟩⟩, fun e he => ?_, fun _ => ?_⟩, fun hn => absurd hsub.1 hn,
              fun h => ?_, fun h => ?_, fun _ => ?_, ?_⟩
            · rcases List.mem_append.mp he with he | he
              · exact m2 e he
              · simp at he
            · rw [outcomes_append, ho]; rfl
            · rw [hsub.1] at h; cases h
            · rw [hsub.1] at h; cases h
            · rw [h2]; exact ⟨by omega, fun _ => by omega⟩
            · rw [h5, h4, hns.1, hi.sent, List.append_nil, List.map_nil, List.append_nil]
        next => cases h

theorem act_calls {dur : Nat} {r : Except Err α} {t0 : Nat} {s t : State α} {l} (h : (clocked dur r t0).act s l = some t) :
    t.now = s.now ∧ ∃ ns : List (Notif α), t.sent = s.sent ++ ns.map fun n => (n, s.now) := by
  cases l with
  | start => obtain ⟨-, h2, -, ns, -, h5⟩ := move_eq (show move { s with due := s.now + dur } (.own .start) = some t from h); exact ⟨h2, ns, h5⟩
  | wake =>
    have h : (if s.due ≤ s.now then move s (.own (.outcome r)) else none) = some t := h
    split at h
    · obtain ⟨-, h2, -, ns, -, h5⟩ := move_eq h; exact ⟨h2, ns, h5⟩
    · cases h
  | receive => obtain ⟨-, h2, -, ns, -, h5⟩ := move_eq (show move s .receive = some t from h); exact ⟨h2, ns, h5⟩
  | ret => obtain ⟨-, h2, -, ns, -, h5⟩ := move_eq (show move s .ret = some t from h); exact ⟨h2, ns, h5⟩

theorem lawful (dur : Nat) (r : Except Err α) (t0 : Nat) : (clocked dur r t0).Lawful where
  init := rfl
  act {ls s l t} _ h := act_calls h
  pass {ls s d t} _ h := by
    simp only [clocked] at h
    split at h
    · cases h
    · cases h; exact ⟨rfl, rfl⟩

/-- What a job sends is its result, when it is due; later than that all of it has been sent. -/
theorem exact_ {dur : Nat} {r : Except Err α} {t0 : Nat} {ls s} (hr : LTS.run (clocked dur r t0).step (clocked dur r t0).init ls = some s) :
    (clocked dur r t0).calls s <+: (asyncResult r).map (fun n => (n, t0 + dur)) ∧
    (t0 + dur < s.now → (clocked dur r t0).calls s = (asyncResult r).map fun n => (n, t0 + dur)) := by
  have hi := inv_run hr
  obtain ⟨ms, m1, m2, m3⟩ := hi.run
  have hc : (clocked dur r t0).calls s = s.sub.received.map fun n => (n, t0 + dur) := hi.sent
  rw [hc]
  by_cases hf : s.sub.src.pc = .finished
  · obtain ⟨h1, h2⟩ := C22_of_async_partial true m1 m2 r (by rw [m3 hf]; simp)
    refine ⟨h1.map _, fun hlt => ?_⟩
    rw [h2]
    have hb : busy s = false := by
      cases hb : busy s with
      | false => rfl
      | true => have := (hi.finished hf).2 hb; omega
    exact (not_busy hb).2
  · have he := hi.early hf
    have : s.sub.received = [] := by rw [he]; rfl
    rw [this]
    refine ⟨List.nil_prefix, fun hlt => ?_⟩
    cases hpc : s.sub.src.pc with
    | fresh => have := hi.fresh hpc; omega
    | awaiting => have := hi.awaiting hpc; omega
    | finished => exact absurd hpc hf

theorem result_grammar (r : Except Err α) : Grammar (asyncResult r) := by
  cases r with
  | ok v => exact ⟨⟨[v], .done⟩, rfl⟩
  | error e =>
    by_cases h : e = .cancelled
    · subst h; exact ⟨⟨[], .done⟩, rfl⟩
    · refine ⟨⟨[], .failed e⟩, ?_⟩
      cases e <;> first | rfl | exact absurd rfl h

end Job

theorem jobs_proper {SO LO : Type} {o : Clocked SO LO ω} (dur : ω → Nat) (res : ω → Except Err α) (ho : o.Lawful)
    (hg : ∀ ls s, LTS.run o.step o.init ls = some s → Grammar ((o.calls s).map (·.1))) : Nested.Proper o (jobs dur res) where
  source := ho
  sourceGrammar := hg
  inner x t := ⟨Job.lawful _ _ _, rfl⟩
  innerGrammar x t ls s hr := by
    have := ((Job.exact_ hr).1).map (·.1)
    rw [List.map_map] at this
    exact grammar_prefix this (by simpa [Function.comp_def] using Job.result_grammar (res x))

end Aio
