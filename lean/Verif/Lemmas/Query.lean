import Verif.Model.Query
import Verif.Props.C132_HostedSwitch
/-! One subscription to `of_async` that may be disposed. -/

namespace Aio
open Spec Spec.Timed Producer
variable {ω α : Type}

namespace Query
variable {dur t0 : Nat} {r : Except Err α}

/-- How the task ended: cancelled before it began, cancelled while it awaited the workflow, or with the workflow. -/
inductive Ended (dur : Nat) (r : Except Err α) (t0 : Nat) (s : State α) (os : List (Except Err α)) : Prop where
  | killed (h : os = []) (hs : s.since = some t0) (hq : s.job.sent = []) (hd : Safe.Drained s.job.sub.safe) (hr : s.job.sub.received = [])
  | cancelled (h : os = [.error .cancelled]) (c : Nat) (hs : s.since = some c) (h1 : c ≤ t0 + dur) (h2 : c ≤ s.job.now) (h3 : ¬ Safe.Drained s.job.sub.safe → s.job.now = c)
      (h4 : s.job.sent = s.job.sub.received.map fun n => (n, c))
  | done (h : os = [r]) (hs : ∀ c, s.since = some c → t0 + dur ≤ c) (h2 : t0 + dur ≤ s.job.now) (h3 : ¬ Safe.Drained s.job.sub.safe → s.job.now = t0 + dur)
      (h4 : s.job.sent = s.job.sub.received.map fun n => (n, t0 + dur))

structure Inv (dur : Nat) (r : Except Err α) (t0 : Nat) (s : State α) : Prop where
  run : ∃ ms, LTS.run (ofAsync true).next (ofAsync true).start ms = some s.job.sub ∧ Producer.NoRaise ms ∧ (s.job.sub.src.pc = .finished → Ended dur r t0 s (outcomes ms)) ∧
    (s.job.sub.src.pc ≠ .finished → outcomes ms = [])
  early : s.job.sub.src.pc ≠ .finished → s.job.sub = ⟨⟨s.job.sub.src.pc, s.since.isSome⟩, [], Safe.init⟩ ∧ s.job.sent = []
  fresh : s.job.sub.src.pc = .fresh → s.job.now = t0 ∧ ∀ c, s.since = some c → c = t0
  awaiting : s.job.sub.src.pc = .awaiting → s.job.due = t0 + dur ∧ t0 ≤ s.job.now ∧ s.job.now ≤ t0 + dur ∧ ∀ c, s.since = some c → c = s.job.now

theorem worker_src {s t : Producer.State OfAsync.St α} {l : Producer.Label (OfAsync.Lab α)} (hl : l = .receive ∨ l = .ret) (h : (ofAsync true).next s l = some t) :
    t.src.pc = s.src.pc ∧ ¬ Safe.Drained s.safe := by
  constructor
  · rcases hl with rfl | rfl
    · simp only [next] at h
      split at h
      · cases h
      · rw [← Option.some.inj h]
        dsimp only
        split <;> rfl
    · obtain ⟨t', -, ht⟩ := Option.map_eq_some_iff.mp h
      rw [← ht]
  · intro hd
    rcases hl with rfl | rfl
    · simp only [next] at h
      rcases hd with hd | ⟨hd, hd'⟩
      · simp [Safe.step, hd] at h
      · simp [Safe.step, hd, hd'] at h
    · simp only [next] at h
      rcases hd with hd | ⟨hd, hd'⟩
      · simp [Safe.step, hd] at h
      · simp [Safe.step, hd] at h

theorem inv_worker {s : State α} {j : Job.State α} (hi : Inv dur r t0 s) {l : Producer.Label (OfAsync.Lab α)}
    (hl : l = .receive ∨ l = .ret) (h : Job.move s.job l = some j) : Inv dur r t0 { s with job := j } := by
  obtain ⟨h1, h2, h3, ns, h4, h5⟩ := Job.move_eq h
  obtain ⟨g1, hnd⟩ := worker_src hl h1
  have hpc : s.job.sub.src.pc = .finished := by
    apply Classical.byContradiction
    intro hn
    rw [(hi.early hn).1] at hnd
    exact hnd (.inr ⟨rfl, rfl⟩)
  have hpc' : j.sub.src.pc = .finished := g1.trans hpc
  obtain ⟨ms, m1, m2, m3, -⟩ := hi.run
  have ho : outcomes (ms ++ [l]) = outcomes ms := by
    rw [outcomes_append]
    rcases hl with rfl | rfl <;> simp [outcomes]
  refine ⟨⟨ms ++ [l], LTS.run_append.mpr ⟨_, m1, LTS.run_cons.mpr ⟨_, h1, rfl⟩⟩, ?_, fun _ => ?_, fun hn => absurd hpc' hn⟩, fun hn => absurd hpc' hn, fun hn => ?_, fun hn => ?_⟩
  · intro e he
    rcases List.mem_append.mp he with he | he
    · exact m2 e he
    · rcases hl with rfl | rfl <;> simp at he
  · rw [ho]
    rcases m3 hpc with ⟨a1, a2, a3, a4, a5⟩ | ⟨a1, c, a2, a3, a4, a5, a6⟩ | ⟨a1, a2, a3, a4, a5⟩
    · exact absurd a4 hnd
    · have := a5 hnd
      exact .cancelled a1 c a2 a3 (by dsimp only; omega) (fun _ => by dsimp only; omega) (by dsimp only; rw [h5, h4, List.map_append, a6, this])
    · have := a4 hnd
      exact .done a1 a2 (by dsimp only; omega) (fun _ => by dsimp only; omega) (by dsimp only; rw [h5, h4, List.map_append, a5, this])
  · have hn : j.sub.src.pc = .fresh := hn
    rw [hpc'] at hn; cases hn
  · have hn : j.sub.src.pc = .awaiting := hn
    rw [hpc'] at hn; cases hn

theorem inv_step {s t : State α} (hi : Inv dur r t0 s) {l} (h : (clocked dur r t0).step s l = some t) : Inv dur r t0 t := by
  obtain ⟨ms, m1, m2, m3, m4⟩ := hi.run
  have noraise : ∀ l, (∀ e, l ≠ Producer.Label.raise e) → Producer.NoRaise (ms ++ [l]) := by
    intro l hl e he
    rcases List.mem_append.mp he with he | he
    · exact m2 e he
    · exact hl e (List.mem_singleton.mp he).symm
  cases l with
  | pass d =>
    simp only [Clocked.step, clocked] at h
    split at h
    · cases h
    next hca =>
      obtain ⟨j, h, rfl⟩ := Option.map_eq_some_iff.mp h
      simp only [Job.clocked] at h
      split at h
      · cases h
      next hc =>
        cases h
        simp only [Bool.or_eq_true, Bool.and_eq_true, decide_eq_true_eq, not_or, Bool.not_eq_true] at hc
        obtain ⟨hb, hc⟩ := hc
        obtain ⟨g1, g2⟩ := Job.not_busy hb
        refine ⟨⟨ms, m1, m2, fun hf => ?_, m4⟩, hi.early, fun h => absurd h g1, fun h => ?_⟩
        · rcases m3 hf with ⟨a1, a2, a3, a4, a5⟩ | ⟨a1, c, a2, a3, a4, a5, a6⟩ | ⟨a1, a2, a3, a4, a5⟩
          · exact .killed a1 a2 a3 a4 a5
          · exact .cancelled a1 c a2 a3 (by dsimp only; omega) (fun h => absurd g2 h) a6
          · exact .done a1 a2 (by dsimp only; omega) (fun h => absurd g2 h) a5
        · obtain ⟨a1, a2, a3, a4⟩ := hi.awaiting h
          dsimp only at h ⊢
          have hh : ¬ s.job.due < s.job.now + d := fun hh => hc ⟨h, hh⟩
          refine ⟨a1, by omega, by omega, fun c hc' => ?_⟩
          exfalso
          apply hca
          refine ⟨h, ?_⟩
          have he := (hi.early (by rw [h]; simp)).1
          rw [he, hc']; rfl
  | act l =>
    cases l with
    | dispose =>
      have h : (Job.move s.job .dispose).map (fun j => (⟨j, some (s.since.getD s.job.now)⟩ : State α)) = some t := h
      obtain ⟨j, hj, rfl⟩ := Option.map_eq_some_iff.mp h
      obtain ⟨h1, h2, h3, ns, h4, h5⟩ := Job.move_eq hj
      have h1' := h1
      simp only [next, Option.some.injEq] at h1
      have hns : ns = [] := by
        rw [← h1] at h4
        have : s.job.sub.received = s.job.sub.received ++ ns := h4
        simpa using this
      subst hns
      have hsub : j.sub = { s.job.sub with src := { s.job.sub.src with cancelled := true } } := h1.symm
      have hpc : j.sub.src.pc = s.job.sub.src.pc := by rw [hsub]
      have hrec : j.sub.received = s.job.sub.received := by rw [hsub]; rfl
      have hsafe : j.sub.safe = s.job.sub.safe := by rw [hsub]
      have hsent : j.sent = s.job.sent := by rw [h5]; simp
      refine ⟨⟨ms ++ [.dispose], LTS.run_append.mpr ⟨_, m1, LTS.run_cons.mpr ⟨_, h1', rfl⟩⟩, noraise _ (by simp), fun hf => ?_, fun hf => ?_⟩, fun hn => ?_, fun hn => ?_, fun hn => ?_⟩
      · rw [outcomes_append]
        simp only [outcomes, List.append_nil]
        dsimp only at hf
        rw [hpc] at hf
        rcases m3 hf with ⟨a1, a2, a3, a4, a5⟩ | ⟨a1, c, a2, a3, a4, a5, a6⟩ | ⟨a1, a2, a3, a4, a5⟩
        · exact .killed a1 (by simp [a2]) (by dsimp only; rw [hsent, a3]) (by dsimp only; rw [hsafe]; exact a4) (by dsimp only; rw [hrec]; exact a5)
        · exact .cancelled a1 c (by simp [a2]) a3 (by dsimp only; omega) (by dsimp only; rw [hsafe, h2]; exact a5) (by dsimp only; rw [hsent, hrec, a6])
        · refine .done a1 (fun c hc => ?_) (by dsimp only; omega) (by dsimp only; rw [hsafe, h2]; exact a4) (by dsimp only; rw [hsent, hrec, a5])
          dsimp only at hc
          cases hs : s.since with
          | none => rw [hs] at hc; cases hc; exact a3
          | some c' => rw [hs] at hc; cases hc; exact a2 _ hs
      · rw [outcomes_append, m4 (by dsimp only at hf; rw [hpc] at hf; exact hf)]; rfl
      · dsimp only at hn ⊢
        rw [hpc] at hn
        obtain ⟨e1, e2⟩ := hi.early hn
        rw [hpc, hsent]
        refine ⟨?_, e2⟩
        rw [hsub, e1]; rfl
      · dsimp only at hn ⊢
        rw [hpc] at hn
        obtain ⟨e1, e2⟩ := hi.fresh hn
        refine ⟨by omega, fun c hc => ?_⟩
        cases hs : s.since with
        | none => rw [hs] at hc; cases hc; exact e1
        | some c' => rw [hs] at hc; cases hc; exact e2 _ hs
      · dsimp only at hn ⊢
        rw [hpc] at hn
        obtain ⟨e1, e2, e3, e4⟩ := hi.awaiting hn
        refine ⟨by omega, by omega, by omega, fun c hc => ?_⟩
        cases hs : s.since with
        | none => rw [hs] at hc; cases hc; exact h2.symm
        | some c' => rw [hs] at hc; cases hc; rw [h2]; exact e4 _ hs
    | thrown =>
      have h : (if s.job.sub.src.cancelled then (Job.move s.job (.own (.outcome (.error .cancelled)))).map fun j => { s with job := j } else none) = some t := h
      split at h
      next hca =>
        obtain ⟨j, hj, rfl⟩ := Option.map_eq_some_iff.mp h
        obtain ⟨h1, h2, h3, ns, h4, h5⟩ := Job.move_eq hj
        cases hpc : s.job.sub.src.pc with
        | fresh => simp [next, ofAsync, hpc] at h1
        | finished => simp [next, ofAsync, hpc] at h1
        | awaiting =>
          obtain ⟨he, hsent⟩ := hi.early (by rw [hpc]; simp)
          rw [hpc] at he
          obtain ⟨a1, a2, a3, a4⟩ := hi.awaiting hpc
          have hsub : j.sub.src.pc = .finished ∧ j.sub.received = [] := by
            rw [he] at h1
            simp [next, ofAsync, Safe.init] at h1
            rw [← h1]; exact ⟨rfl, rfl⟩
          have hns : ns = [] := by
            rw [hsub.2] at h4
            exact (List.append_eq_nil_iff.mp h4.symm).2
          obtain ⟨c, hc⟩ : ∃ c, s.since = some c := by
            rw [he] at hca
            exact Option.isSome_iff_exists.mp hca
          have := a4 c hc
          refine ⟨⟨ms ++ [.own (.outcome (.error .cancelled))], LTS.run_append.mpr ⟨_, m1, LTS.run_cons.mpr ⟨_, h1, rfl⟩⟩, noraise _ (by simp), fun _ => ?_, fun hn => absurd hsub.1 hn⟩,
            fun hn => absurd hsub.1 hn, fun hn => ?_, fun hn => ?_⟩
          · rw [outcomes_append, m4 (by rw [hpc]; simp)]
            exact .cancelled rfl c hc (by omega) (by dsimp only; omega) (fun _ => by dsimp only; omega) (by dsimp only; rw [h5, hns, hsent, hsub.2]; rfl)
          · have hn : j.sub.src.pc = .fresh := hn
            rw [hsub.1] at hn; cases hn
          · have hn : j.sub.src.pc = .awaiting := hn
            rw [hsub.1] at hn; cases hn
      next => cases h
    | job l =>
      have h : (if l = .wake ∧ s.job.sub.src.cancelled then none else ((Job.clocked dur r t0).act s.job l).map fun j => { s with job := j }) = some t := h
      split at h
      · cases h
      next hw =>
      obtain ⟨j, hj, rfl⟩ := Option.map_eq_some_iff.mp h
      clear h
      cases l with
      | receive => exact inv_worker hi (.inl rfl) hj
      | ret => exact inv_worker hi (.inr rfl) hj
      | start =>
        have h : Job.move { s.job with due := s.job.now + dur } (.own .start) = some j := hj
        obtain ⟨h1, h2, h3, ns, h4, h5⟩ := Job.move_eq h
        dsimp only at h1 h2 h3 h4 h5
        cases hpc : s.job.sub.src.pc with
        | awaiting => simp [next, ofAsync, hpc] at h1
        | finished => simp [next, ofAsync, hpc] at h1
        | fresh =>
          obtain ⟨he, hsent⟩ := hi.early (by rw [hpc]; simp)
          rw [hpc] at he
          obtain ⟨f1, f2⟩ := hi.fresh hpc
          have hrun : LTS.run (ofAsync true).next (ofAsync true).start (ms ++ [.own .start]) = some j.sub := LTS.run_append.mpr ⟨_, m1, LTS.run_cons.mpr ⟨_, h1, rfl⟩⟩
          have ho : outcomes (ms ++ [Producer.Label.own (OfAsync.Lab.start (α := α))]) = [] := by rw [outcomes_append, m4 (by rw [hpc]; simp)]; rfl
          cases hs : s.since with
          | none =>
            rw [hs] at he
            have hsub : j.sub = ⟨⟨.awaiting, false⟩, [], Safe.init⟩ := by
              rw [he] at h1
              simp [next, ofAsync, Safe.init] at h1
              rw [← h1]; rfl
            have hns : ns = [] := by
              rw [hsub, he] at h4
              simpa [State.received, Safe.init, Safe.calls] using h4.symm
            refine ⟨⟨ms ++ [.own .start], hrun, noraise _ (by simp), fun h => ?_, fun _ => ho⟩, fun _ => ⟨?_, ?_⟩, fun h => ?_, fun _ => ?_⟩
            · dsimp only at h; rw [hsub] at h; cases h
            · dsimp only; rw [hsub]; rfl
            · dsimp only; rw [h5, hns, hsent]; rfl
            · dsimp only at h; rw [hsub] at h; cases h
            · dsimp only; exact ⟨by omega, by omega, by omega, fun c hc => by cases hc⟩
          | some c =>
            rw [hs] at he
            have hsub : j.sub = ⟨⟨.finished, true⟩, [], Safe.init⟩ := by
              rw [he] at h1
              simp [next, ofAsync, Safe.init] at h1
              rw [← h1]; rfl
            have hns : ns = [] := by
              rw [hsub, he] at h4
              simpa [State.received, Safe.init, Safe.calls] using h4.symm
            refine ⟨⟨ms ++ [.own .start], hrun, noraise _ (by simp), fun h => ?_, fun _ => ho⟩, fun h => ?_, fun h => ?_, fun h => ?_⟩
            · exact .killed ho (by dsimp only; rw [f2 c hs]) (by dsimp only; rw [h5, hns, hsent]; rfl) (by dsimp only; rw [hsub]; exact .inr ⟨rfl, rfl⟩) (by dsimp only; rw [hsub]; rfl)
            · dsimp only at h; rw [hsub] at h; exact absurd rfl h
            · dsimp only at h; rw [hsub] at h; cases h
            · dsimp only at h; rw [hsub] at h; cases h
      | wake =>
        have h : (if s.job.due ≤ s.job.now then Job.move s.job (.own (.outcome r)) else none) = some j := hj
        split at h
        next hdue =>
          obtain ⟨h1, h2, h3, ns, h4, h5⟩ := Job.move_eq h
          cases hpc : s.job.sub.src.pc with
          | fresh => simp [next, ofAsync, hpc] at h1
          | finished => simp [next, ofAsync, hpc] at h1
          | awaiting =>
            obtain ⟨he, hsent⟩ := hi.early (by rw [hpc]; simp)
            rw [hpc] at he
            obtain ⟨a1, a2, a3, a4⟩ := hi.awaiting hpc
            have hsub : j.sub.src.pc = .finished ∧ j.sub.received = [] := by
              rw [he] at h1
              simp [next, ofAsync, Safe.init] at h1
              rw [← h1]; exact ⟨rfl, rfl⟩
            have hns : ns = [] := by
              rw [hsub.2] at h4
              exact (List.append_eq_nil_iff.mp h4.symm).2
            have hs : s.since = none := by
              cases hs : s.since with
              | none => rfl
              | some c => exact absurd ⟨rfl, by rw [he, hs]; rfl⟩ hw
            refine ⟨⟨ms ++ [.own (.outcome r)], LTS.run_append.mpr ⟨_, m1, LTS.run_cons.mpr ⟨_, h1, rfl⟩⟩, noraise _ (by simp), fun _ => ?_, fun hn => absurd hsub.1 hn⟩,
              fun hn => absurd hsub.1 hn, fun hn => ?_, fun hn => ?_⟩
            · rw [outcomes_append, m4 (by rw [hpc]; simp)]
              exact .done rfl (fun c hc => by dsimp only at hc; rw [hs] at hc; cases hc) (by dsimp only; omega) (fun _ => by dsimp only; omega)
                (by dsimp only; rw [h5, hns, hsent, hsub.2]; rfl)
            · have hn : j.sub.src.pc = .fresh := hn
              rw [hsub.1] at hn; cases hn
            · have hn : j.sub.src.pc = .awaiting := hn
              rw [hsub.1] at hn; cases hn
        next => cases h

theorem inv_run {ls s} (hr : LTS.run (clocked dur r t0).step (clocked dur r t0).init ls = some s) : Inv dur r t0 s := by
  refine LTS.inv (step := (clocked dur r t0).step) (fun s => Inv dur r t0 s) (s0 := (clocked dur r t0).init) ?_ (fun s l t hi h => inv_step hi h) hr
  exact ⟨⟨[], rfl, fun e he => (by cases he), fun h => (by cases h), fun _ => rfl⟩, fun _ => ⟨rfl, rfl⟩, fun _ => ⟨rfl, fun c h => by cases h⟩, fun h => (by cases h)⟩

theorem result_prefix {ns : List (Notif α)} {t : Nat} (h : ns <+: asyncResult r) :
    noDone (ns.map fun n => (n, t)) = [] ∨ noDone (ns.map fun n => (n, t)) = noDone ((asyncResult r).map fun n => (n, t)) := by
  obtain ⟨rest, h⟩ := h
  have key : ∀ (x : Notif α) (ys : List (Notif α)), ns ++ rest = x :: ys → (∀ y ∈ ys, y = .completed) →
      noDone (ns.map fun n => (n, t)) = [] ∨ noDone (ns.map fun n => (n, t)) = noDone ((x :: ys).map fun n => (n, t)) := by
    intro x ys he hy
    match ns, he with
    | [], _ => exact .inl rfl
    | n :: ns, he =>
      right
      simp only [List.cons_append, List.cons.injEq] at he
      obtain ⟨rfl, rfl⟩ := he
      have : ∀ zs : List (Notif α), (∀ z ∈ zs, z = .completed) → noDone (zs.map fun n => (n, t)) = [] := by
        intro zs hz
        rw [noDone, List.filter_eq_nil_iff]
        intro c hc
        obtain ⟨z, hz', rfl⟩ := List.mem_map.mp hc
        rw [hz z hz']; simp
      rw [List.map_cons, List.map_cons, ← List.singleton_append, ← List.singleton_append (l := List.map _ (ns ++ rest)), Nested.noDone_append, Nested.noDone_append, this ns (fun z hz => hy z (List.mem_append_left _ hz)), this _ hy]
  cases r with
  | ok v => exact key (.next v) [.completed] h (by simp)
  | error e =>
    by_cases hc : e = .cancelled
    · subst hc; exact key .completed [] h (by simp)
    · have hr : asyncResult (α := α) (.error e) = [.error e] := by cases e <;> first | rfl | exact absurd rfl hc
      rw [hr] at h ⊢
      exact key (.error e) [] h (by simp)

/-- The result comes when it is due, if at all; it does not come if the subscription was disposed before, and it comes if it was not disposed until later. -/
theorem exact_ {ls s} (hr : LTS.run (clocked dur r t0).step (clocked dur r t0).init ls = some s) :
    (noDone ((clocked dur r t0).calls s) = [] ∨ noDone ((clocked dur r t0).calls s) = noDone ((asyncResult r).map fun n => (n, t0 + dur)) ∧
      t0 + dur ≤ s.job.now ∧ ∀ c, s.since = some c → t0 + dur ≤ c) ∧
    (t0 + dur < s.job.now → (∀ c, s.since = some c → t0 + dur < c) → noDone ((clocked dur r t0).calls s) = noDone ((asyncResult r).map fun n => (n, t0 + dur))) := by
  have hi := inv_run hr
  obtain ⟨ms, m1, m2, m3, m4⟩ := hi.run
  show (noDone s.job.sent = [] ∨ noDone s.job.sent = _ ∧ _ ∧ _) ∧ (_ → _ → noDone s.job.sent = _)
  by_cases hf : s.job.sub.src.pc = .finished
  · rcases m3 hf with ⟨a1, a2, a3, a4, a5⟩ | ⟨a1, c, a2, a3, a4, a5, a6⟩ | ⟨a1, a2, a3, a4, a5⟩
    · exact ⟨.inl (by rw [a3]; rfl), fun _ h => by have := h _ a2; omega⟩
    · obtain ⟨h1, -⟩ := C22_of_async_partial true m1 m2 (.error .cancelled) (by rw [a1]; simp)
      refine ⟨.inl ?_, fun _ h => by have := h _ a2; omega⟩
      rw [a6]
      rcases result_prefix (t := c) h1 with h | h <;> exact h
    · obtain ⟨h1, h2⟩ := C22_of_async_partial true m1 m2 r (by rw [a1]; simp)
      refine ⟨?_, fun hlt _ => ?_⟩
      · rw [a5]
        exact (result_prefix h1).imp id fun h => ⟨h, a3, a2⟩
      · rw [a5, h2]
        apply Classical.byContradiction
        intro hn
        have := a4 hn
        omega
  · obtain ⟨-, e⟩ := hi.early hf
    rw [e]
    refine ⟨.inl rfl, fun hlt _ => ?_⟩
    cases hpc : s.job.sub.src.pc with
    | fresh => have := (hi.fresh hpc).1; omega
    | awaiting => have := (hi.awaiting hpc).2.2.1; omega
    | finished => exact absurd hpc hf

theorem lawful : (clocked dur r t0).Lawful where
  init := rfl
  act {ls s l t} _ h := by
    have key : ∀ {j : Job.State α} {l}, Job.move s.job l = some j → j.now = s.job.now ∧ ∃ ns : List (Notif α), j.sent = s.job.sent ++ ns.map fun n => (n, s.job.now) := by
      intro j l h
      obtain ⟨-, h2, -, ns, -, h5⟩ := Job.move_eq h
      exact ⟨h2, ns, h5⟩
    cases l with
    | dispose =>
      have h : (Job.move s.job .dispose).map (fun j => (⟨j, some (s.since.getD s.job.now)⟩ : State α)) = some t := h
      obtain ⟨j, hj, rfl⟩ := Option.map_eq_some_iff.mp h
      exact key hj
    | thrown =>
      have h : (if s.job.sub.src.cancelled then (Job.move s.job (.own (.outcome (.error .cancelled)))).map fun j => { s with job := j } else none) = some t := h
      split at h
      · obtain ⟨j, hj, rfl⟩ := Option.map_eq_some_iff.mp h
        exact key hj
      · cases h
    | job l =>
      have h : (if l = .wake ∧ s.job.sub.src.cancelled then none else ((Job.clocked dur r t0).act s.job l).map fun j => { s with job := j }) = some t := h
      split at h
      · cases h
      · obtain ⟨j, hj, rfl⟩ := Option.map_eq_some_iff.mp h
        exact Job.act_calls hj
  pass {ls s d t} _ h := by
    simp only [clocked] at h
    split at h
    · cases h
    · obtain ⟨j, hj, rfl⟩ := Option.map_eq_some_iff.mp h
      simp only [Job.clocked] at hj
      split at hj
      · cases hj
      · cases hj; exact ⟨rfl, rfl⟩

theorem grammar {ls s} (hr : LTS.run (clocked dur r t0).step (clocked dur r t0).init ls = some s) : Grammar (((clocked dur r t0).calls s).map (·.1)) := by
  have hi := inv_run hr
  obtain ⟨ms, m1, m2, m3, m4⟩ := hi.run
  show Grammar (s.job.sent.map (·.1))
  have nil : Grammar (([] : List (Notif α × Nat)).map (·.1)) := ⟨⟨[], .running⟩, rfl⟩
  have fst : ∀ (ns : List (Notif α)) (c : Nat), (ns.map fun n => (n, c)).map (·.1) = ns := by intro ns c; simp [Function.comp_def]
  by_cases hf : s.job.sub.src.pc = .finished
  · rcases m3 hf with ⟨a1, a2, a3, a4, a5⟩ | ⟨a1, c, a2, a3, a4, a5, a6⟩ | ⟨a1, a2, a3, a4, a5⟩
    · rw [a3]; exact nil
    · obtain ⟨h1, -⟩ := C22_of_async_partial true m1 m2 (.error .cancelled) (by rw [a1]; simp)
      rw [a6, fst]; exact grammar_prefix h1 (Job.result_grammar _)
    · obtain ⟨h1, -⟩ := C22_of_async_partial true m1 m2 r (by rw [a1]; simp)
      rw [a5, fst]; exact grammar_prefix h1 (Job.result_grammar _)
  · rw [(hi.early hf).2]; exact nil

theorem host_turn {l : Label} {s : State α} {n} (h : l ∈ host.turn s n) : (∃ l', l = .job l') ∨ l = .thrown := by
  cases n with
  | true =>
    simp only [host] at h
    split at h
    · exact .inr (List.mem_singleton.mp h)
    · obtain ⟨l', -, rfl⟩ := List.mem_map.mp h; exact .inl ⟨l', rfl⟩
  | false => obtain ⟨l', -, rfl⟩ := List.mem_map.mp h; exact .inl ⟨l', rfl⟩

theorem need_false (s : State α) (w : Nat) : host.need s false ≠ .until w := by
  simp only [host, Job.host]
  split
  · simp
  · split <;> simp
  · simp

theorem host_lawful : (host (α := α)).Lawful (clocked dur r t0) where
  clock := lawful
  names := by intro s t _ _; cases t <;> simp [host]
  turn := by
    intro s t hr hd
    obtain ⟨ls, hr, -⟩ := hr
    have hi := inv_run hr
    cases t with
    | true =>
      suffices h : ∃ s', LTS.run (clocked dur r t0).act s (host.turn s true) = some s' by
        obtain ⟨s', h⟩ := h
        refine ⟨s', h, fun t' w hne => ?_⟩
        cases t' with
        | true => exact absurd rfl hne
        | false => exact fun h => absurd h (need_false _ _)
      cases hpc : s.job.sub.src.pc with
      | finished => exact ⟨s, by simp [host, Job.host, hpc, LTS.run]⟩
      | fresh =>
        have he := (hi.early (by rw [hpc]; simp)).1
        rw [hpc] at he
        obtain ⟨⟨sub, now, due, sent⟩, since⟩ := s
        dsimp only at he
        subst he
        cases since <;> exact ⟨_, rfl⟩
      | awaiting =>
        have he := (hi.early (by rw [hpc]; simp)).1
        rw [hpc] at he
        obtain ⟨⟨sub, now, due, sent⟩, since⟩ := s
        dsimp only at he
        subst he
        cases since with
        | some c => exact ⟨_, rfl⟩
        | none =>
          have hdue : due ≤ now := hd due rfl
          obtain ⟨x, hx⟩ : ∃ x, (clocked dur r t0).act ⟨⟨⟨⟨.awaiting, false⟩, [], Safe.init⟩, now, due, sent⟩, none⟩ (.job .wake) = some x := by
            simp only [clocked, Job.clocked, hdue, if_true]
            exact ⟨_, rfl⟩
          exact ⟨x, LTS.run_cons.mpr ⟨x, hx, rfl⟩⟩
    | false =>
      have same : ∀ l (j : Job.State α), l = .receive ∨ l = .ret → Job.move s.job l = some j → ∀ t' w, t' ≠ false →
          (host.need { s with job := j } t' = .until w → host.need s t' = .until w) := by
        intro l j hl hm t' w hne
        cases t' with
        | false => exact absurd rfl hne
        | true =>
          obtain ⟨h1, -, h3, -⟩ := Job.move_eq hm
          obtain ⟨h4, hnd⟩ := worker_src hl h1
          have hf : s.job.sub.src.pc = .finished := by
            apply Classical.byContradiction
            intro hn
            rw [(hi.early hn).1] at hnd
            exact hnd (.inr ⟨rfl, rfl⟩)
          simp [host, Job.host, h4, hf]
      have go : ∀ l, (l = .receive ∨ l = .ret) → ((ofAsync true).next s.job.sub l).isSome → ∃ j, Job.move s.job l = some j := by
        intro l _ h
        simp only [Job.move]
        cases hx : (ofAsync true).next s.job.sub l with
        | none => rw [hx] at h; cases h
        | some x => exact ⟨_, rfl⟩
      have ret : (Safe.step s.job.sub.safe .ret).isSome → ∃ s', LTS.run (clocked dur r t0).act s [.job .ret] = some s' ∧
          ∀ t' w, t' ≠ false → (host.need s' t' = .until w → host.need s t' = .until w) := by
        intro h
        obtain ⟨j, hs⟩ := go .ret (.inr rfl) (by simpa [Producer.next] using h)
        exact ⟨{ s with job := j }, by simp [LTS.run, clocked, Job.clocked, hs], same _ _ (.inr rfl) hs⟩
      cases hpc : s.job.sub.safe.pc with
      | halted => exact ⟨s, by simp [host, Job.host, hpc, LTS.run], fun t' w h => id⟩
      | waiting =>
        cases hin : s.job.sub.safe.inbox with
        | nil => exact ⟨s, by simp [host, Job.host, hpc, hin, LTS.run], fun t' w h => id⟩
        | cons n q =>
          obtain ⟨j, hs⟩ := go .receive (.inl rfl) (by
            have : ∃ x, Safe.step s.job.sub.safe .receive = some x := by simp only [Safe.step, hpc, hin]; cases n <;> exact ⟨_, rfl⟩
            obtain ⟨x, hx⟩ := this
            simp [Producer.next, hx])
          exact ⟨{ s with job := j }, by simp [host, Job.host, hpc, hin, LTS.run, clocked, Job.clocked, hs], same _ _ (.inl rfl) hs⟩
      | sending v => simpa [host, Job.host, hpc] using ret (by simp [Safe.step, hpc])
      | rethrowing v => simpa [host, Job.host, hpc] using ret (by simp [Safe.step, hpc])
      | disposing v => simpa [host, Job.host, hpc] using ret (by simp [Safe.step, hpc])
      | terminating v => simpa [host, Job.host, hpc] using ret (by simp [Safe.step, hpc])
  outside := by
    intro s l s' _ hl ha t w
    have hl : l = .dispose := by simpa [host] using hl
    subst hl
    cases t with
    | false => exact fun h => absurd h (need_false _ _)
    | true =>
      have h : (Job.move s.job .dispose).map (fun j => (⟨j, some (s.since.getD s.job.now)⟩ : State α)) = some s' := ha
      simp only [Job.move, next, Option.map_some, Option.some.injEq] at h
      subst h
      cases hpc : s.job.sub.src.pc <;> simp [host, Job.host, ofAsync, hpc]
  pass := by
    intro s d _ hc
    have h1 := hc true
    have h2 := hc false
    simp only [host, Job.host] at h1 h2
    have hna : ¬ (s.job.sub.src.pc = .awaiting ∧ s.job.sub.src.cancelled = true) := by
      intro h; rw [if_pos h] at h1; exact h1
    rw [if_neg hna] at h1
    have hb : Job.busy s.job = false := by
      simp only [Job.busy, Bool.or_eq_false_iff, decide_eq_false_iff_not]
      constructor
      · intro h; rw [h] at h1; exact h1
      · cases hp : s.job.sub.safe.pc with
        | halted => rfl
        | waiting =>
          rw [hp] at h2
          cases hin : s.job.sub.safe.inbox with
          | nil => rfl
          | cons n q => simp [hin] at h2
        | _ => rw [hp] at h2; exact h2.elim
    refine ⟨{ s with job := { s.job with now := s.job.now + d } }, ?_, fun t => by cases t <;> rfl⟩
    simp only [clocked, if_neg hna, Job.clocked, hb, Bool.false_or, Bool.and_eq_true, decide_eq_true_eq]
    rw [if_neg]
    · rfl
    rintro ⟨ha, hlt⟩
    rw [ha] at h1
    have h1 : (clocked dur r t0).now s + d ≤ s.job.due := h1
    have : (clocked dur r t0).now s = s.job.now := rfl
    omega

end Query

/-! ## when inner observables are disposed -/

namespace Host
open Nested
variable {SO LO TO SI LI TI : Type}
variable {o : Clocked SO LO ω} {fam : ω → Nat → Clocked SI LI α} {disp : LI} {H : Host SO LO TO} {I : Host SI LI TI} {honour : Bool} {since : SI → Option Nat}

/-- `since` is when an inner observable was disposed first. -/
structure Since (I : Host SI LI TI) (fam : ω → Nat → Clocked SI LI α) (disp : LI) (since : SI → Option Nat) : Prop where
  init : ∀ xs t, since (fam xs t).init = none
  stop : ∀ {xs t si si'}, (fam xs t).act si disp = some si' → since si' = some ((since si).getD ((fam xs t).now si))
  keeps : ∀ {xs t si l si'}, (∃ s n, l ∈ I.turn s n) → (fam xs t).act si l = some si' → since si' = since si
  pass : ∀ {xs t si d si'}, (fam xs t).pass si d = some si' → since si' = since si

/-- What a step does to the inner observables. -/
theorem latest_step (hH : H.Lawful o) (hI : Family I fam) (hD : Disposable I fam disp honour (fun si => since si ≠ none)) {ls s l s'}
    (hr : LTS.run (o.latest fam disp honour).step (o.latest fam disp honour).init ls = some s) (ho : ∀ x, Time.act x ∈ ls ++ [l] → (H.latest (ω := ω) (α := α) I).Own x)
    (hs : (o.latest fam disp honour).step s l = some s') {k : Nat} {xs t si'} (hk : s'.inners[k]? = some (xs, t, si')) :
    (∃ si, s.inners[k]? = some (xs, t, si) ∧ (si' = si ∨ (∃ l, (∃ s n, l ∈ I.turn s n) ∧ (fam xs t).act si l = some si') ∨ (∃ d, (fam xs t).pass si d = some si') ∨
      Switch.replaced s.prod = some k ∧ (fam xs t).act si disp = some si' ∧ o.now s'.outer = o.now s.outer)) ∨
    s.inners.length ≤ k ∧ t = o.now s.outer ∧ si' = (fam xs t).init ∧ o.now s'.outer = o.now s.outer := by
  have ho' : ∀ l, Time.act l ∈ ls → (H.latest (ω := ω) (α := α) I).Own l := fun l hl => ho l (List.mem_append_left _ hl)
  obtain ⟨ls', hsim⟩ := latest_run hr
  have K := hsim.kept hH hI hD.outside ho'
  obtain ⟨-, o2, o3⟩ := latest_own ho
  have fresh : ∀ (is : List (ω × Nat × SI)) (new : List ω), is.length = s.inners.length → (is ++ new.map fun xs => (xs, o.now s.outer, (fam xs (o.now s.outer)).init))[k]? = some (xs, t, si') →
      is[k]? = some (xs, t, si') ∨ (s.inners.length ≤ k ∧ t = o.now s.outer ∧ si' = (fam xs t).init) := by
    intro is new hl hk
    by_cases hlt : k < is.length
    · rw [List.getElem?_append_left hlt] at hk; exact .inl hk
    · rw [List.getElem?_append_right (by omega), List.getElem?_map] at hk
      obtain ⟨x, -, he⟩ := Option.map_eq_some_iff.mp hk
      cases he
      exact .inr ⟨by omega, rfl, rfl⟩
  rcases expand_cases disp s l with h1 | ⟨j, hj, rfl, -⟩
  · have he := latest_expand hs
    rw [h1] at he
    obtain ⟨x, he, hx⟩ := LTS.run_cons.mp he
    cases hx
    match l with
    | .pass d =>
      simp only [Clocked.step, Clocked.switched, Clocked.nested] at he
      split at he
      · next t is h2 h3 =>
        cases he
        obtain ⟨si0, h4, h5⟩ := (passAll_get h3).2 k _ _ _ hk
        exact .inl ⟨si0, h4, .inr (.inr (.inl ⟨d, h5⟩))⟩
      · cases he
    | .act (.outer l) =>
      simp only [Clocked.step, Clocked.switched, Clocked.nested] at he
      split at he
      · cases he
      · obtain ⟨h2, h3⟩ := work_same (fun l hl => by obtain ⟨c, -, rfl⟩ := List.mem_map.mp hl; exact .inl ⟨_, rfl⟩) he
        rw [h2] at hk
        exact .inl ⟨si', hk, .inl rfl⟩
    | .act (.inner j l) =>
      simp only [Clocked.step, Clocked.switched, Clocked.nested] at he
      split at he
      · cases he
      next ys t1 sj hj =>
        split at he
        · cases he
        next u hu =>
          obtain ⟨h2, h3⟩ := work_same (fun l hl => by obtain ⟨c, -, rfl⟩ := List.mem_map.mp hl; exact .inr ⟨_, _, rfl⟩) he
          rw [h2] at hk
          dsimp only at hk
          by_cases hjk : j = k
          · subst hjk
            rw [List.getElem?_set_self ((List.getElem?_eq_some_iff.mp hj).1)] at hk
            cases hk
            exact .inl ⟨sj, hj, .inr (.inl ⟨l, o2 j l (by simp), hu⟩)⟩
          · rw [List.getElem?_set_ne hjk] at hk
            exact .inl ⟨si', hk, .inl rfl⟩
    | .act (.own l) =>
      simp only [Clocked.step, Clocked.switched, Clocked.nested] at he
      split at he
      · obtain ⟨y, hy, rfl⟩ := Option.map_eq_some_iff.mp he
        simp only [work] at hy
        split at hy
        · cases hy
        next prod out hst =>
          cases hy
          simp only [subscribed] at hk
          rcases fresh s.inners _ rfl hk with h | ⟨h2, h3, h4⟩
          · exact .inl ⟨si', h, .inl rfl⟩
          · exact .inr ⟨h2, h3, h4, rfl⟩
      · cases he
  · obtain ⟨ys, t1, sj, sj', prod, g1, g2, g3, g4, g5⟩ := latest_disposed (o := o) hD K hj
    have hs : (o.latest fam disp honour).act s (.own .disposed) = some s' := hs
    rw [g5] at hs
    cases hs
    obtain ⟨hlt, -⟩ := K.replaced j hj
    dsimp only at hk
    rcases fresh (s.inners.set j (ys, t1, sj')) _ (by simp) hk with h | ⟨h2, h3, h4⟩
    · by_cases hjk : j = k
      · subst hjk
        rw [List.getElem?_set_self hlt] at h
        cases h
        exact .inl ⟨sj, g1, .inr (.inr (.inr ⟨hj, g2, rfl⟩))⟩
      · rw [List.getElem?_set_ne hjk] at h
        exact .inl ⟨si', h, .inl rfl⟩
    · exact .inr ⟨h2, h3, h4, rfl⟩

/-- The source only goes on. -/
theorem latest_outer_step (hH : H.Lawful o) (hI : Family I fam) {ls s l s'}
    (hr : LTS.run (o.latest fam disp honour).step (o.latest fam disp honour).init ls = some s) (hs : (o.latest fam disp honour).step s l = some s') :
    o.calls s.outer <+: o.calls s'.outer ∧ o.now s.outer ≤ o.now s'.outer := by
  obtain ⟨ls', hsim⟩ := latest_run hr
  obtain ⟨h, hp⟩ := past hH.clock hI.clocks (switch_starts honour) hsim.run
  obtain ⟨h2, new, hp', -, -, -, hn⟩ := past_more hH.clock hI.clocks (switch_starts honour) hp (latest_expand hs)
  refine ⟨?_, hn⟩
  rw [← hp.outer, ← hp'.outer, outersAt_append]
  exact List.prefix_append ..

/-- An inner observable is disposed when the source has sent the next one, and before that is subscribed. -/
theorem latest_since (hH : H.Lawful o) (hI : Family I fam) (hpr : Proper o fam) (hD : Disposable I fam disp honour (fun si => since si ≠ none)) (hS : Since I fam disp since) {ls s}
    (hr : LTS.run (o.latest fam disp honour).step (o.latest fam disp honour).init ls = some s) (ho : ∀ l, Time.act l ∈ ls → (H.latest (ω := ω) (α := α) I).Own l) :
    ∀ (k : Nat) xs u si, s.inners[k]? = some (xs, u, si) →
      (∀ c, since si = some c → c ≤ o.now s.outer ∧ ∃ y v, (valuesAt (o.calls s.outer))[k + 1]? = some (y, v) ∧ v ≤ c) ∧
      ∀ y v sj, s.inners[k + 1]? = some (y, v, sj) → ∃ c, since si = some c ∧ c ≤ v := by
  refine LTS.inv_reach (step := (o.latest fam disp honour).step) (s0 := (o.latest fam disp honour).init)
    (fun ls s => (∀ l, Time.act l ∈ ls → (H.latest (ω := ω) (α := α) I).Own l) → ∀ (k : Nat) xs u si, s.inners[k]? = some (xs, u, si) →
      (∀ c, since si = some c → c ≤ o.now s.outer ∧ ∃ y v, (valuesAt (o.calls s.outer))[k + 1]? = some (y, v) ∧ v ≤ c) ∧
      ∀ y v sj, s.inners[k + 1]? = some (y, v, sj) → ∃ c, since si = some c ∧ c ≤ v)
    (fun _ k xs u si h => by cases h) ?_ hr ho
  intro ls s l s' hr ih hs ho
  have ho' : ∀ l, Time.act l ∈ ls → (H.latest (ω := ω) (α := α) I).Own l := fun l hl => ho l (List.mem_append_left _ hl)
  have ih := ih ho'
  have hr' : LTS.run (o.latest fam disp honour).step (o.latest fam disp honour).init (ls ++ [l]) = some s' := LTS.run_append.mpr ⟨_, hr, LTS.run_cons.mpr ⟨_, hs, rfl⟩⟩
  obtain ⟨⟨rest, hcalls⟩, hnow⟩ := latest_outer_step hH hI hr hs
  have later : ∀ {k : Nat} {y v}, (valuesAt (o.calls s.outer))[k]? = some (y, v) → (valuesAt (o.calls s'.outer))[k]? = some (y, v) := by
    intro k y v h
    have : valuesAt (o.calls s'.outer) = valuesAt (o.calls s.outer) ++ valuesAt rest := by rw [← hcalls]; exact List.filterMap_append ..
    rw [this, List.getElem?_append_left (List.getElem?_eq_some_iff.mp h).1]
    exact h
  obtain ⟨ls', hsim⟩ := latest_run hr
  have K := hsim.kept hH hI hD.outside ho'
  have nocancel : ∀ {ls ls'} {s : Nested SO (Switch.State ω) SI ω α}, (∀ l, Time.act l ∈ ls → (H.latest (ω := ω) (α := α) I).Own l) → Sim o fam disp honour ls s ls' → Time.act (.own .cancel) ∉ ls' := by
    intro ls ls' s ho h hc
    rcases h.labels _ hc with h | ⟨k, h⟩
    · have := (latest_own ho).2.2 _ h; simp at this
    · cases h
  have first : ∀ (k : Nat) xs u si, s'.inners[k]? = some (xs, u, si) → ∀ c, since si = some c → c ≤ o.now s'.outer ∧ ∃ y v, (valuesAt (o.calls s'.outer))[k + 1]? = some (y, v) ∧ v ≤ c := by
    intro k xs u si' hk c hc
    rcases latest_step hH hI hD hr ho hs hk with ⟨si, h1, h2⟩ | ⟨-, -, rfl, -⟩
    · have old : since si = some c → c ≤ o.now s'.outer ∧ ∃ y v, (valuesAt (o.calls s'.outer))[k + 1]? = some (y, v) ∧ v ≤ c := by
        intro h
        obtain ⟨g1, y, v, g2, g3⟩ := (ih k xs u si h1).1 c h
        exact ⟨by omega, y, v, later g2, g3⟩
      rcases h2 with rfl | ⟨l', hl, ha⟩ | ⟨d, hd⟩ | ⟨h3, h4, h5⟩
      · exact old hc
      · exact old (by rw [← hS.keeps hl ha]; exact hc)
      · exact old (by rw [← hS.pass hd]; exact hc)
      · have := hS.stop h4
        cases hsi : since si with
        | some c' =>
          rw [hsi, hc] at this
          cases this
          exact old hsi
        | none =>
          rw [hsi, hc] at this
          have hn := (K.inner k xs u si h1).2
          have hcn : c = o.now s.outer := by rw [← hn]; exact Option.some.inj this
          have hlt := replaced_later hpr hsim.run (nocancel ho' hsim) h3
          obtain ⟨⟨y, v⟩, hv⟩ : ∃ x, (valuesAt (o.calls s.outer))[k + 1]? = some x := ⟨_, List.getElem?_eq_getElem hlt⟩
          refine ⟨by omega, y, v, later hv, ?_⟩
          obtain ⟨lo, hlo, -⟩ := K.outer
          rw [hcn]
          obtain ⟨⟨n, w⟩, h6, h7⟩ := List.mem_filterMap.mp (List.mem_of_getElem? hv)
          cases n <;> cases h7
          exact (hH.clock.inTime hlo).2 _ h6
    · rw [hS.init] at hc; cases hc
  intro k xs u si' hk
  refine ⟨first k xs u si' hk, fun y v sj hj => ?_⟩
  rcases latest_step hH hI hD hr ho hs hj with ⟨sj0, h1, -⟩ | ⟨h1, rfl, -, h2⟩
  · rcases latest_step hH hI hD hr ho hs hk with ⟨si, h3, h4⟩ | ⟨h3, -⟩
    · obtain ⟨c, hc, hcv⟩ := (ih k xs u si h3).2 y v sj0 h1
      refine ⟨c, ?_, hcv⟩
      rcases h4 with rfl | ⟨l', hl, ha⟩ | ⟨d, hd⟩ | ⟨-, h4, -⟩
      · exact hc
      · rw [hS.keeps hl ha]; exact hc
      · rw [hS.pass hd]; exact hc
      · rw [hS.stop h4, hc]; rfl
    · have := (List.getElem?_eq_some_iff.mp h1).1; omega
  · obtain ⟨ls'', hsim'⟩ := latest_run hr'
    obtain ⟨hh, hp⟩ := past hH.clock hI.clocks (switch_starts honour) hsim'.run
    have htidy := Switch.tidy_run (Producer.soloAt_run hp.run) (hp.noCancel (ls := ls'') (fun _ h => h) (nocancel ho hsim'))
    have K' := hsim'.kept hH hI hD.outside ho
    have hg := latest_gone hH hI hD hr' ho k xs u si' hk (htidy.older (k + 1) (by omega) (by
      rw [← K'.started]; exact (List.getElem?_eq_some_iff.mp hj).1))
    obtain ⟨c, hc⟩ := Option.ne_none_iff_exists'.mp hg
    exact ⟨c, hc, by have := (first k xs u si' hk c hc).1; omega⟩

end Host

/-! ## the family -/

namespace Nested
variable {dur : ω → Nat} {res : ω → Except Err α}

theorem queries_family : Host.Family (Query.host (α := α)) (queries dur res) where
  lawful _ _ := Query.host_lawful
  start _ _ := rfl
  fresh x t n w h := by cases n <;> cases h

theorem queries_since : Host.Since (Query.host (α := α)) (queries dur res) .dispose Query.State.since where
  init _ _ := rfl
  stop {xs t si si'} h := by
    have h : (Job.move si.job .dispose).map (fun j => (⟨j, some (si.since.getD si.job.now)⟩ : Query.State α)) = some si' := h
    obtain ⟨j, -, rfl⟩ := Option.map_eq_some_iff.mp h
    rfl
  keeps {xs t si l si'} h ha := by
    obtain ⟨s, n, h⟩ := h
    rcases Query.host_turn h with ⟨l, rfl⟩ | rfl
    · have ha : (if l = .wake ∧ si.job.sub.src.cancelled then none else ((Job.clocked (dur xs) (res xs) t).act si.job l).map fun j => { si with job := j }) = some si' := ha
      split at ha
      · cases ha
      · obtain ⟨j, -, rfl⟩ := Option.map_eq_some_iff.mp ha; rfl
    · have ha : (if si.job.sub.src.cancelled then (Job.move si.job (.own (.outcome (.error .cancelled)))).map fun j => { si with job := j } else none) = some si' := ha
      split at ha
      · obtain ⟨j, -, rfl⟩ := Option.map_eq_some_iff.mp ha; rfl
      · cases ha
  pass {xs t si d si'} h := by
    simp only [queries, Query.clocked] at h
    split at h
    · cases h
    · obtain ⟨j, -, rfl⟩ := Option.map_eq_some_iff.mp h; rfl

theorem queries_disposable : Host.Disposable (Query.host (α := α)) (queries dur res) .dispose false (fun s => s.since ≠ none) where
  outside := rfl
  stop {xs t si} _ := ⟨_, rfl, by simp, by simp [queries, Query.clocked, State.received]⟩
  keeps hg h ha := by rw [queries_since.keeps h ha]; exact hg
  pass hg h := by rw [queries_since.pass h]; exact hg
  quiet h := by cases h

theorem queries_proper {SO LO : Type} {o : Clocked SO LO ω} (ho : o.Lawful)
    (hg : ∀ ls s, LTS.run o.step o.init ls = some s → Grammar ((o.calls s).map (·.1))) : Nested.Proper o (queries dur res) where
  source := ho
  sourceGrammar := hg
  inner x t := ⟨Query.lawful, rfl⟩
  innerGrammar x t ls s hr := Query.grammar hr

end Nested
end Aio
