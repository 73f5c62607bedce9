import Verif.Spec.Recover
import Verif.Props.C115_Caught
import Verif.Props.C172_MoveIn
import Verif.Props.C179_Fallbacks
/-!
# C180: what `catch` sends, and moving `map`, `filter` and the like in and out of it
-/

namespace Aio.Caught
open Spec Spec.Timed Spec.Bind Catch Flatten
variable {S L S' L' ω α β : Type} {fam : ω → Nat → Clocked S L α} {fam' : ω → Nat → Clocked S' L' α} {g : Err → Except Err ω} {honour honour' : Bool} {x : ω} {t0 t0' : Nat}
  {op : Operator α β} {k : α → Option β}

theorem proper_of (hf : ∀ x t, Fair (fam x t) t) : Proper fam := ⟨fun x t => ⟨(hf x t).lawful, (hf x t).start⟩, fun x t => (hf x t).grammar⟩

theorem caught_fair (hf : ∀ x t, Fair (fam x t) t) : Fair (Clocked.caught fam (pure g) honour () x t0) t0 where
  lawful := caught_lawful (proper_of hf) _ _ _ _ _
  start := rfl
  grammar _ _ hr := caught_grammar (proper_of hf) hr

theorem noErrors_map (cs : List (Notif α × Nat)) : (noErrors cs).map (·.1) = (cs.map (·.1)).filter fun | .error _ => false | _ => true := by
  induction cs with
  | nil => rfl
  | cons c cs ih => obtain ⟨_ | _ | _, t⟩ := c <;> simp_all [noErrors]

theorem filter_events (st : Story α) : (st.events.filter fun | .error _ => false | _ => true) = st.vals.map .next ++ (if st.fin = .done then [.completed] else []) := by
  have h1 : ∀ vs : List α, ((vs.map Notif.next).filter fun | .error _ => false | _ => true) = vs.map .next := fun vs => by
    rw [List.filter_eq_self]; simp
  obtain ⟨vs, f⟩ := st
  rw [Story.events, List.filter_append, h1]
  cases f <;> rfl

theorem recovers_of : ∀ (srcs : List (ω × Nat × S)) (x : ω) (t : Nat) (s0 : S) (ws : List α),
    (∀ i ∈ (x, t, s0) :: srcs, ∃ ls, LTS.run (fam i.1 i.2.1).step (fam i.1 i.2.1).init ls = some i.2.2 ∧ Grammar (((fam i.1 i.2.1).calls i.2.2).map (·.1))) →
    (∀ (n : Nat) xs u si ys v sj, ((x, t, s0) :: srcs)[n]? = some (xs, u, si) → ((x, t, s0) :: srcs)[n + 1]? = some (ys, v, sj) → ∃ e te, (.error e, te) ∈ (fam xs u).calls si ∧ g e = .ok ys) →
    story ((((x, t, s0) :: srcs).flatMap fun i => noErrors ((fam i.1 i.2.1).calls i.2.2)).map (·.1)) = ⟨ws, .done⟩ → Recovers fam g x ws := by
  intro srcs
  induction srcs with
  | nil =>
    intro x t s0 ws hall _ hst
    obtain ⟨ls, hr, ⟨st, hg⟩⟩ := hall _ (List.mem_singleton.mpr rfl)
    dsimp only at hr hg
    simp only [List.flatMap_cons, List.flatMap_nil, List.append_nil, noErrors_map, hg, filter_events, story_map_next_append] at hst
    obtain ⟨vs, f⟩ := st
    dsimp only at hst
    by_cases hd : f = .done
    · subst hd
      simp only [if_pos, story_completed, List.append_nil, Story.mk.injEq, and_true] at hst
      subst hst
      exact .done ⟨ls, s0, hr, by rw [hg, story_events]⟩
    · simp [hd] at hst
  | cons j srcs ih =>
    intro x t s0 ws hall hlink hst
    obtain ⟨y, v, sj⟩ := j
    obtain ⟨ls, hr, hg⟩ := hall _ (.head _)
    dsimp only at hr hg
    obtain ⟨e, te, he, hy⟩ := hlink 0 _ _ _ _ _ _ rfl rfl
    have hfin := failed_of_mem hg (List.mem_map.mpr ⟨_, he, rfl⟩)
    obtain ⟨st, hg⟩ := hg
    rw [hg, story_events] at hfin
    rw [List.flatMap_cons, List.map_append, noErrors_map] at hst
    dsimp only at hst
    rw [hg, filter_events, if_neg (by rw [hfin]; simp), List.append_nil, story_map_next_append, Story.mk.injEq] at hst
    obtain ⟨rfl, hst⟩ := hst
    refine .failed (e := e) (y := y) ⟨ls, s0, hr, ?_⟩ hy (ih y v sj _ (fun i hi => hall i (List.mem_cons_of_mem _ hi)) (fun n => hlink (n + 1)) ?_)
    · rw [hg, story_events, ← hfin]
    · rw [← hst]

/-- C180: when `pipe(x, catch(g))` completes, the observer has got the values of `x` and, after each error `e`, those of `g(e)`, until one of these has completed. -/
theorem C180_recovers (hf : ∀ x t, Fair (fam x t) t) {ws} (h : Completed (Clocked.caught fam (pure g) honour () x t0) ws) : Recovers fam g x ws := by
  obtain ⟨ls, s, hr, hst⟩ := h
  have hp := proper_of hf
  obtain ⟨⟨s0, h0⟩, hlink⟩ := C115_handled hp hr
  obtain ⟨hist, hpast, -⟩ := past hp hr
  have hst' : story (s.sent.map (·.1)) = ⟨ws, .done⟩ := hst
  rw [C115_in_order hp hr] at hst'
  match hsrc : s.srcs with
  | [] => rw [hsrc] at h0; cases h0
  | i :: rest =>
    rw [hsrc] at h0 hlink hst'
    obtain rfl : i = (x, t0, s0) := by simpa using h0
    refine recovers_of rest x t0 s0 ws (fun i hi => ?_) (fun n xs u si ys v sj a b => ?_) hst'
    · obtain ⟨n, hn⟩ := List.mem_iff_getElem?.mp (hsrc ▸ hi)
      obtain ⟨⟨li, hl, -⟩, -⟩ := hpast.sources n i.1 i.2.1 i.2.2 hn
      exact ⟨li, hl, (hf _ _).grammar _ _ hl⟩
    · obtain ⟨e, te, a1, a2, -⟩ := hlink n _ _ _ _ _ _ a b
      exact ⟨e, te, a1, a2⟩

theorem recovers_unique (hs : Steady fam) : ∀ {x vs ws}, Recovers fam g x vs → Recovers fam g x ws → vs = ws := by
  intro x vs ws h
  induction h generalizing ws with
  | done h =>
    obtain ⟨ls, s, hr, hst⟩ := h
    intro h'
    cases h' with
    | done h' =>
      obtain ⟨ls', s', hr', hst'⟩ := h'
      have := hs _ _ _ _ _ _ _ hr hr' (by rw [hst]; simp) (by rw [hst']; simp)
      rw [hst, hst'] at this
      exact congrArg Story.vals this
    | failed h' =>
      obtain ⟨ls', s', hr', hst'⟩ := h'
      have := hs _ _ _ _ _ _ _ hr hr' (by rw [hst]; simp) (by rw [hst']; simp)
      rw [hst, hst'] at this
      cases this
  | failed h he _ ih =>
    obtain ⟨ls, s, hr, hst⟩ := h
    intro h'
    cases h' with
    | done h' =>
      obtain ⟨ls', s', hr', hst'⟩ := h'
      have := hs _ _ _ _ _ _ _ hr hr' (by rw [hst]; simp) (by rw [hst']; simp)
      rw [hst, hst'] at this
      cases this
    | failed h' he' h2 =>
      obtain ⟨ls', s', hr', hst'⟩ := h'
      have := hs _ _ _ _ _ _ _ hr hr' (by rw [hst]; simp) (by rw [hst']; simp)
      rw [hst, hst'] at this
      cases this
      rw [he] at he'
      cases he'
      rw [ih h2]

/-- C180: so what it sends depends only on what the observables send. -/
theorem C180_same (hf : ∀ x t, Fair (fam x t) t) (hs : Steady fam) : SameList (Clocked.caught fam (pure g) honour () x t0) (Clocked.caught fam (pure g) honour' () x t0') :=
  fun _ _ h h' => recovers_unique hs (C180_recovers hf h) (C180_recovers hf h')

theorem each_ended {q : Clocked S L α} (hq : Fair q t0) (ho : Each op k) {ls s} (hr : LTS.run (q.operate op.direct.slowProc).step (q.operate op.direct.slowProc).init ls = some s)
    (hfin : (story (((q.operate op.direct.slowProc).calls s).map (·.1))).fin ≠ .running) : ∃ ls' s', LTS.run q.step q.init ls' = some s' ∧
      story (((q.operate op.direct.slowProc).calls s).map (·.1)) = ⟨(story ((q.calls s').map (·.1))).vals.filterMap k, (story ((q.calls s').map (·.1))).fin⟩ := by
  obtain ⟨g1, g2⟩ := Clocked.operate_source hq.lawful hr
  obtain ⟨es, e1, e2⟩ := Clocked.operate_exec hr
  have h1 := ho.direct.slow.prefix_ es _ _ e1 (by rw [e2, g2]; exact hq.grammar _ _ g1)
  rw [e2, g2] at h1
  exact ⟨_, _, g1, story_prefix h1 hfin⟩

theorem recovers_each (hf : ∀ x t, Fair (fam x t) t) (ho : Each op k) {ws} (h : Recovers (fun x t => (fam x t).operate op.direct.slowProc) g x ws) :
    ∃ vs, Recovers fam g x vs ∧ ws = vs.filterMap k := by
  induction h with
  | done h =>
    obtain ⟨vs, h1, h2⟩ := each_completed (hf _ _) ho h
    exact ⟨vs, .done h1, h2⟩
  | failed h he _ ih =>
    obtain ⟨ls, s, hr, hst⟩ := h
    obtain ⟨us, i1, rfl⟩ := ih
    obtain ⟨ls', s', h1, h2⟩ := each_ended (hf _ _) ho hr (by rw [hst]; simp)
    rw [hst, Story.mk.injEq] at h2
    exact ⟨_, .failed ⟨ls', s', h1, by rw [h2.2]⟩ he i1, by rw [h2.1, List.filterMap_append]⟩

/-- C180: `pipe(x, catch(g), op)` and `pipe(x, op, catch(lambda e: pipe(g(e), op)))` send the same values, if `op` treats every value by itself and its function does not raise. -/
theorem C180_move (hf : ∀ x t, Fair (fam x t) t) (hs : Steady fam) (ho : Each op k) :
    SameList ((Clocked.caught fam (pure g) honour () x t0).operate op.direct.slowProc) (Clocked.caught (fun x t => (fam x t).operate op.direct.slowProc) (pure g) honour' () x t0') := by
  intro vs ws h h'
  obtain ⟨us, h1, rfl⟩ := each_completed (caught_fair hf) ho h
  obtain ⟨us', h2, rfl⟩ := recovers_each hf ho (C180_recovers (fun x t => each_fair (hf x t) ho) h')
  rw [recovers_unique hs (C180_recovers hf h1) h2]

/-- C180: if `x` completes, `pipe(x, catch(g))` sends what `x` sends. -/
theorem C180_no_error (hf : ∀ x t, Fair (fam x t) t) (hs : Steady fam) {vs ws} (h : Completed (fam x t0') vs) (h' : Completed (Clocked.caught fam (pure g) honour () x t0) ws) : ws = vs :=
  recovers_unique hs (C180_recovers hf h') (.done h)

/-- C180: if `x` fails with `e` after the values `vs`, `pipe(x, catch(g))` sends `vs` and then what `pipe(g(e), catch(g))` sends. -/
theorem C180_error (hf : ∀ x t, Fair (fam x t) t) (hs : Steady fam) {vs e y us ws} (h : Failed (fam x t0') vs e) (he : g e = .ok y) (hy : Completed (Clocked.caught fam (pure g) honour' () y t0') us)
    (h' : Completed (Clocked.caught fam (pure g) honour () x t0) ws) : ws = vs ++ us :=
  recovers_unique hs (C180_recovers hf h') (.failed h he (C180_recovers hf hy))

/-! ## a case -/

section Examples

/-- Something that sends what its only segment posts, unless it is disposed before. -/
theorem oneShot_all {w : Py Bool (Notif α) Unit} {st : Story α} (hw : (w false).out = st.events) {t : Nat} {ls s}
    (hr : LTS.run ((oneShot true w : Producer OneShot Unit α).source.clocked t).step ((oneShot true w : Producer OneShot Unit α).source.clocked t).init ls = some s) :
    (((oneShot true w : Producer OneShot Unit α).source.clocked t).calls s).map (·.1) = [] ∨ (((oneShot true w : Producer OneShot Unit α).source.clocked t).calls s).map (·.1) = st.events := by
  obtain ⟨⟨ms, h1⟩, h2⟩ := (Producer.source_grows (oneShot true w : Producer OneShot Unit α)).clocked_run hr
  rw [h2]
  have h3 : (s.1.1.fresh = true → s.1.2 = []) ∧ (s.1.2 = [] ∨ s.1.2 = st.events) := by
    refine LTS.inv (step := (oneShot true w : Producer OneShot Unit α).source.step) (fun c : OneShot × List (Notif α) => (c.1.fresh = true → c.2 = []) ∧ (c.2 = [] ∨ c.2 = st.events))
      (s0 := (oneShot true w : Producer OneShot Unit α).source.init) ⟨fun _ => rfl, .inl rfl⟩ ?_ h1
    rintro ⟨⟨f, c⟩, out⟩ l t ⟨i1, i2⟩ hs
    cases l with
    | none => cases hs; exact ⟨i1, i2⟩
    | some l =>
      cases f with
      | false => simp [Producer.source, oneShot] at hs
      | true =>
        dsimp only at i1 i2
        obtain rfl := i1 rfl
        cases c <;> simp [Producer.source, oneShot] at hs <;> subst hs
        · exact ⟨fun h => (by cases h), .inr (by simp [hw])⟩
        · exact ⟨fun h => (by cases h), i2⟩
  exact h3.2

/-- `false`: sends 7, 8 and fails; `true`: sends 9, 10 and completes. -/
abbrev demoWorker (b : Bool) : Py Bool (Notif Nat) Unit := if b then ofSeqWorker [9, 10] none else do poster.asend 7; poster.asend 8; poster.athrow (.user 1)
abbrev demoStory (b : Bool) : Story Nat := if b then ⟨[9, 10], .done⟩ else ⟨[7, 8], .failed (.user 1)⟩
abbrev demoParts (b : Bool) (t : Nat) := (oneShot true (demoWorker b) : Producer OneShot Unit Nat).source.clocked t

theorem demoParts_all (b : Bool) : (demoWorker b false).out = (demoStory b).events := by cases b <;> rfl

theorem demoParts_fair (b : Bool) (t : Nat) : Fair (demoParts b t) t where
  lawful := Source.clocked_lawful _ t
  start := rfl
  grammar ls s hr := by
    rcases oneShot_all (demoParts_all b) hr with h | h
    · rw [h]; exact ⟨⟨[], .running⟩, rfl⟩
    · rw [h]; exact ⟨_, rfl⟩

theorem demoParts_steady : Steady demoParts := by
  intro b t t' ls s ls' s' hr hr' h h'
  rcases oneShot_all (demoParts_all b) hr with g1 | g1
  · rw [g1] at h; exact absurd rfl h
  rcases oneShot_all (demoParts_all b) hr' with g2 | g2
  · rw [g2] at h'; exact absurd rfl h'
  rw [g1, g2]

abbrev demoCaught := Clocked.caught demoParts (pure fun _ => .ok true) true () false 0
abbrev demoEach : Operator Nat Nat := filter fun n => .ok (n % 2 == 0)

example : SameList (demoCaught.operate demoEach.direct.slowProc) (Clocked.caught (fun b t => (demoParts b t).operate demoEach.direct.slowProc) (pure fun _ => .ok true) true () false 3) :=
  C180_move demoParts_fair demoParts_steady (C172_each_filter _)

abbrev demoAlone : List (Caught.Label (Option Unit) Nat) := [.own (.subscribed 0), .own (.disposed 0), .source 0 (some ()), .source 1 (some ())]
example : outcome demoCaught demoAlone 20 = [.next 7, .next 8, .next 9, .next 10, .completed] := by decide +kernel
example : outcome (demoCaught.operate demoEach.direct.slowProc) (demoAlone.map .inl ++ [.inr ()]) 40 = [.next 8, .next 10, .completed] := by decide +kernel
example : outcome (Clocked.caught (fun b t => (demoParts b t).operate demoEach.direct.slowProc) (pure fun _ => .ok true) true () false 3)
    [.own (.subscribed 0), .own (.disposed 0), .source 0 (.inr ()), .source 0 (.inl (some ())), .source 1 (.inr ()), .source 1 (.inl (some ()))] 40 = [.next 8, .next 10, .completed] := by decide +kernel

/-- `C180_no_error` and `C180_error` with these. -/
theorem demoParts_failed : Failed (demoParts false 0) [7, 8] (.user 1) := ⟨[.act (some ())], _, rfl, rfl⟩
theorem demoParts_completed : Completed (demoParts true 0) [9, 10] := ⟨[.act (some ())], _, rfl, rfl⟩
theorem demoCaught_completed : Completed demoCaught [7, 8, 9, 10] := ⟨_, _, FlatMap.greedy_run demoCaught demoAlone 20 _, by decide +kernel⟩
example : Recovers demoParts (fun _ => .ok true) false [7, 8, 9, 10] := C180_recovers demoParts_fair demoCaught_completed
example : Recovers demoParts (fun _ => .ok true) false [7, 8, 9, 10] := .failed (vs := [7, 8]) demoParts_failed rfl (.done demoParts_completed)
example {ws} (h : Completed (Clocked.caught demoParts (pure fun _ => .ok true) true () true 5) ws) : ws = [9, 10] := C180_no_error demoParts_fair demoParts_steady demoParts_completed h

end Examples

end Aio.Caught
