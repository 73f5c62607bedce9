import Verif.Lemmas.SearchBox
import Verif.Props.C112_114_Timers
/-!
# C119: a search box searches for what is typed once the user pauses, not for the same thing twice, and shows only the results of the last search
-/

namespace Aio
open Spec Spec.Timed Spec.SearchBox Nested
variable {S L SI LI α β ω γ : Type}

/-- No worker has anything to do. -/
structure Resting (clean : Operator α β) (fresh : Operator β ω)
    (s : Nested (((S × Timed clean.direct.compileSlow.SlowSt (Notif α) (Notif β)) × Debounce.State β) × Timed fresh.protected.compileSlow.SlowSt (Notif β) (Notif ω))
      (Switch.State ω) SI ω γ) : Prop where
  before : clean.direct.slowProc.Quiescent s.outer.1.1.2.ps
  behind : fresh.protected.slowProc.Quiescent s.outer.2.ps
  latest : Switch.Settled s.prod

/-- C119, `debounce` alone, in any schedule: behind a source that sends only values it sends exactly those that nothing follows within `d`,
each exactly `d` later. -/
theorem C119_debounce {q : Clocked S L α} (hq : q.Lawful) {d : Nat} {ls s}
    (hr : LTS.run (q.through (Debounce.stage true d)).step (q.through (Debounce.stage true d)).init ls = some s) (hd : Time.act (.inr .dispose) ∉ ls)
    (hv : ∀ c ∈ q.calls s.1, c.1.isTerminal = false) (ha : Apart d (q.now s.1) (valuesAt (q.calls s.1))) :
    s.2.posted = (quiet d (q.now s.1) (valuesAt (q.calls s.1))).map fun c => (.next c.1, c.2) := by
  rw [← Debounce.debounce_quiet hq hr hd hv ha]
  exact (Debounce.onlyValues hq hr hd hv).eq

section
variable {q : Clocked S L α} {clean : Operator α β} {d : Nat} {fresh : Operator β ω} {fam : ω → Nat → Clocked SI LI γ} {pick : α → Option β} {eq : β → β → Bool} {search : β → ω}

/-- C119: which searches the part before `switch_latest` asks for. -/
theorem C119_asked (hq : q.Lawful) (hg : ∀ ls s, LTS.run q.step q.init ls = some s → Grammar ((q.calls s).map (·.1)))
    (hc : clean.Computes fun s => ⟨s.vals.filterMap pick, s.fin⟩) (hf : fresh.Computes fun s => ⟨(changes eq s.vals).map search, s.fin⟩)
    {ls s} (hr : LTS.run (q.searches clean d fresh).step (q.searches clean d fresh).init ls = some s)
    (hp : (q.searches clean d fresh).Prompt (fun s => clean.direct.slowProc.Quiescent s.1.1.2.ps ∧ fresh.protected.slowProc.Quiescent s.2.ps) ls)
    (hqc : clean.direct.slowProc.Quiescent s.1.1.2.ps) (hqf : fresh.protected.slowProc.Quiescent s.2.ps)
    (hd : Time.act (.inl (.inr .dispose)) ∉ ls) (hv : ∀ c ∈ q.calls s.1.1.1, c.1.isTerminal = false)
    (ha : Apart d (q.now s.1.1.1) (wanted pick (valuesAt (q.calls s.1.1.1)))) :
    s.2.sent = (searches pick d (q.now s.1.1.1) eq search (valuesAt (q.calls s.1.1.1))).map fun c => (.next c.1, c.2) := by
  have l1 := Clocked.operate_lawful hq clean.direct.slowProc
  have l2 := Clocked.through_lawful l1 (Debounce.stage_lawful true d)
  have r2 := (Clocked.operate_source l2 hr).1
  have p2 := Clocked.Prompt.source (rest := fun s => clean.direct.slowProc.Quiescent s.1.2.ps) (busy := fun s => fresh.protected.slowProc.Quiescent s.ps) l2 hr hp
  have r1 := (Clocked.clocks l1 (Debounce.stage_lawful true d) r2).1
  have p1 := Clocked.Prompt.before (rest := fun s => clean.direct.slowProc.Quiescent s.2.ps) l1 (Debounce.stage_lawful true d) r2 p2
  have e1 : s.1.1.2.sent = (wanted pick (valuesAt (q.calls s.1.1.1))).map fun c => (.next c.1, c.2) :=
    Clocked.operate_values hq hc.direct.slow rfl (fun cs t h => ⟨wanted_inTime pick h, by rw [wanted_upto]⟩) hg r1 p1 hqc hv
  have v1 : valuesAt s.1.1.2.sent = wanted pick (valuesAt (q.calls s.1.1.1)) := by rw [e1, valuesAt_map]
  have o1 : OnlyValues s.1.1.2.sent := by rw [e1]; exact onlyValues_map _
  have hd' : Time.act (.inr .dispose) ∉ Clocked.sources ls := by
    intro h
    obtain ⟨x, hx, hxe⟩ := List.mem_filterMap.mp h
    split at hxe <;> cases hxe
    exact hd hx
  have e2 := C119_debounce l1 r2 hd' o1 (by rw [show (q.operate clean.direct.slowProc).calls s.1.1 = s.1.1.2.sent from rfl, v1]; exact ha)
  rw [show (q.operate clean.direct.slowProc).calls s.1.1 = s.1.1.2.sent from rfl, v1] at e2
  have o2 : OnlyValues s.1.2.posted := by rw [e2]; exact onlyValues_map _
  have e3 := Clocked.operate_values l2 hf.guarded.slow (F := fun cs => (changes (fun a b => eq a.1 b.1) cs).map fun c => (search c.1, c.2)) rfl
    (fun cs t h => ⟨by rw [InTime, List.pairwise_map]; exact changes_inTime _ h, by rw [upto_map, changes_upto eq t h]⟩)
    (fun _ _ _ => trivial) hr (fun a b c s he h => (hp a b c s he h).2) hqf o2
  rw [e3, show ((q.operate clean.direct.slowProc).through (Debounce.stage true d)).calls s.1 = s.1.2.posted from rfl, e2, valuesAt_map]
  rfl

variable (hq : q.Lawful) (hg : ∀ ls s, LTS.run q.step q.init ls = some s → Grammar ((q.calls s).map (·.1)))
  (hc : clean.Computes fun s => ⟨s.vals.filterMap pick, s.fin⟩) (hf : fresh.Computes fun s => ⟨(changes eq s.vals).map search, s.fin⟩)
  (hfam : ∀ xs t, (fam xs t).Lawful ∧ (fam xs t).now (fam xs t).init = t)
  (hfg : ∀ xs t ls s, LTS.run (fam xs t).step (fam xs t).init ls = some s → Grammar (((fam xs t).calls s).map (·.1)))
include hq hg hc hf hfam hfg

theorem searchBox_proper : Proper (q.searches clean d fresh) fam where
  source := Clocked.operate_lawful (Clocked.through_lawful (Clocked.operate_lawful hq _) (Debounce.stage_lawful true d)) _
  sourceGrammar := Clocked.operate_grammar (Clocked.through_lawful (Clocked.operate_lawful hq _) (Debounce.stage_lawful true d)) hf.guarded.slow fun _ _ _ => trivial
  inner := hfam
  innerGrammar := hfg

variable {ls : List (Time (Nested.Label (((L ⊕ clean.direct.compileSlow.SlowLab) ⊕ Debounce.Label β) ⊕ fresh.protected.compileSlow.SlowLab) LI ω γ))} {s}
  (hr : LTS.run (q.searchBox clean d fresh fam).step (q.searchBox clean d fresh fam).init ls = some s)
  (hp : (q.searchBox clean d fresh fam).Prompt (Resting clean fresh) ls) (hs : Resting clean fresh s)
  (hd : Time.act (.outer (.inl (.inr .dispose))) ∉ ls) (hv : ∀ c ∈ q.calls s.outer.1.1.1, c.1.isTerminal = false)
  (ha : Apart d (q.now s.outer.1.1.1) (wanted pick (valuesAt (q.calls s.outer.1.1.1))))
include hr hp hs hd hv ha

theorem searchBox_asked : s.outer.2.sent = (searches pick d (q.now s.outer.1.1.1) eq search (valuesAt (q.calls s.outer.1.1.1))).map fun c => (.next c.1, c.2) := by
  refine C119_asked hq hg hc hf (outers_run hr)
    (outers_prompt (rest := fun s => clean.direct.slowProc.Quiescent s.1.1.2.ps ∧ fresh.protected.slowProc.Quiescent s.2.ps) (more := fun s => Switch.Settled s.prod) hr
      fun a b c s he h => ?_) hs.before hs.behind ?_ hv ha
  · obtain ⟨h1, h2, h3⟩ := hp a b c s he h
    exact ⟨⟨h1, h2⟩, h3⟩
  · intro h
    obtain ⟨x, hx, hxe⟩ := List.mem_filterMap.mp h
    split at hxe <;> cases hxe
    exact hd hx

/-- C119: on a loop that is not overloaded the searches are made, that is, the observables of the search terms are subscribed, exactly as they should. -/
theorem C119_searches (hn : NoFailure ls) : subs s = searches pick d (q.now s.outer.1.1.1) eq search (valuesAt (q.calls s.outer.1.1.1)) := by
  have := C114_subscribed (searchBox_proper (d := d) hq hg hc hf hfam hfg) hr (fun a b c s he h => (hp a b c s he h).latest) hn hs.latest
  rw [this]
  show valuesAt s.outer.2.sent = _
  rw [searchBox_asked hq hg hc hf hfam hfg hr hp hs hd hv ha, valuesAt_map]

/-- C119: a result or error that is sent at time `t` comes from the last search: it was made at `t` or before, the next one at `t` or later. -/
theorem C119_results (hn : NoFailure ls) {n : Notif γ} {t : Nat} (hm : (n, t) ∈ s.posts) (hnc : n ≠ .completed) :
    ∃ (k : Nat) (x : ω) (u : Nat) (li : List (Time LI)) (si : SI),
      (searches pick d (q.now s.outer.1.1.1) eq search (valuesAt (q.calls s.outer.1.1.1)))[k]? = some (x, u) ∧
      LTS.run (fam x u).step (fam x u).init li = some si ∧ (n, t) ∈ (fam x u).calls si ∧ u ≤ t ∧
      ∀ y v, (searches pick d (q.now s.outer.1.1.1) eq search (valuesAt (q.calls s.outer.1.1.1)))[k + 1]? = some (y, v) → t ≤ v := by
  have hpr := searchBox_proper (d := d) hq hg hc hf hfam hfg
  have hsent := searchBox_asked hq hg hc hf hfam hfg hr hp hs hd hv ha
  rw [← C119_searches hq hg hc hf hfam hfg hr hp hs hd hv ha hn]
  obtain ⟨h1, h2⟩ := C114_in_order hpr hr fun e t h => by
    rw [show (q.searches clean d fresh).calls s.outer = s.outer.2.sent from rfl, hsent] at h
    obtain ⟨x, -, hx⟩ := List.mem_map.mp h
    cases hx
  have hm' : (n, t) ∈ noDone s.posts := by
    refine List.mem_filter.mpr ⟨hm, ?_⟩
    cases n with
    | next v => rfl
    | error e => rfl
    | completed => exact absurd rfl hnc
  rw [h1] at hm'
  obtain ⟨⟨x, u, si⟩, hi, hin⟩ := List.mem_flatMap.mp hm'
  obtain ⟨k, hk⟩ := List.mem_iff_getElem?.mp hi
  have hin := (List.mem_filter.mp hin).1
  obtain ⟨h, hpast⟩ := past hpr.source hpr.inner (switch_starts true) hr
  obtain ⟨⟨li, hli, -⟩, hnow⟩ := hpast.sources k x u si hk
  have hge : u ≤ t := by
    have := ((hfam x u).1.after hli).2 (n, t) hin
    rwa [(hfam x u).2] at this
  refine ⟨k, x, u, li, si, by rw [subs, List.getElem?_map, hk]; rfl, hli, hin, hge, ?_⟩
  intro y v hy
  rw [subs, List.getElem?_map] at hy
  obtain ⟨⟨y', v', sj⟩, hj, e⟩ := Option.map_eq_some_iff.mp hy
  cases e
  exact (h2 k x u si _ _ sj hk hj (n, t) hin).2 (by cases n <;> simp_all [Notif.kind])

/-- C119: and nothing is missing, nor is the order changed: what is sent is what the searches send, one after the other. -/
theorem C119_shown : noDone s.posts = s.inners.flatMap fun i => noDone ((fam i.1 i.2.1).calls i.2.2) :=
  (C114_in_order (searchBox_proper (d := d) hq hg hc hf hfam hfg) hr fun e t h => by
    rw [show (q.searches clean d fresh).calls s.outer = s.outer.2.sent from rfl, searchBox_asked hq hg hc hf hfam hfg hr hp hs hd hv ha] at h
    obtain ⟨x, -, hx⟩ := List.mem_map.mp h
    cases hx).1

end

/-! ## the example in the README -/

theorem Clocked.typed_lawful (t0 : Nat) : (Clocked.typed t0 : Clocked _ _ α).Lawful where
  init := rfl
  act _ h := by
    simp only [Clocked.typed, Option.some.injEq] at h
    subst h
    exact ⟨rfl, [.next _], rfl⟩
  pass _ h := by
    simp only [Clocked.typed, Option.some.injEq] at h
    subst h
    exact ⟨rfl, rfl⟩

theorem Clocked.typed_values (t0 : Nat) {ls s} (hr : LTS.run (Clocked.typed t0 : Clocked _ _ α).step (Clocked.typed t0).init ls = some s) :
    OnlyValues ((Clocked.typed t0).calls s) := by
  refine LTS.inv_hist (step := (Clocked.typed t0).step) (s0 := (Clocked.typed t0).init) (fun _ s => OnlyValues ((Clocked.typed (α := α) t0).calls s)) nofun ?_ hr
  rintro - s l s' h h1
  cases l with
  | pass d => cases h1; exact h
  | act v =>
    cases h1
    intro c hc
    rcases List.mem_append.mp hc with hc | hc
    · exact h c hc
    · simp at hc; rw [hc]; rfl

theorem Clocked.typed_grammar (t0 : Nat) : ∀ ls s, LTS.run (Clocked.typed t0 : Clocked _ _ α).step (Clocked.typed t0).init ls = some s →
    Grammar (((Clocked.typed t0 : Clocked _ _ α).calls s).map (·.1)) := by
  intro ls s hr
  rw [(Clocked.typed_values t0 hr).eq]
  refine ⟨⟨(valuesAt ((Clocked.typed t0).calls s)).map (·.1), .running⟩, ?_⟩
  simp [Story.events, End.events]

/-- `map(clean)`, `filter(long)` -/
abbrev cleaning (clean : α → β) (long : β → Bool) : Operator α β := (map fun x => .ok (clean x)).compose (filter fun x => .ok (long x))
/-- `distinct_until_changed`, `map(search)` -/
abbrev asking (eq : β → β → Bool) (search : β → ω) : Operator β ω := (distinctUntilChanged fun a b => .ok (eq a b)).compose (map fun x => .ok (search x))

private theorem map_total (f : α → β) : (map fun x => .ok (f x)).Acts (mapped f) :=
  (map_acts (f := fun x => .ok (f x))).congr fun s => by
    have := tryEach_ok (fun x => some (f x)) s.vals s.fin
    simpa [Except.map, mapped] using this

theorem cleaning_computes (clean : α → β) (long : β → Bool) :
    (cleaning clean long).Computes fun s => ⟨s.vals.filterMap fun x => if long (clean x) then some (clean x) else none, s.fin⟩ := by
  have h := ((map_total clean).compose ((filter_acts (p := fun x => .ok (long x))).congr fun s => tryEach_keep long s.vals s.fin)).computes
    ((map_calm clean).compose (filter_calm long))
  have he : (fun s => kept long (mapped clean s)) = fun s : Story α => (⟨s.vals.filterMap fun x => if long (clean x) then some (clean x) else none, s.fin⟩ : Story β) := by
    funext s
    simp only [kept, mapped, Story.mk.injEq, and_true]
    induction s.vals with
    | nil => rfl
    | cons x xs ih =>
      rw [List.map_cons, List.filter_cons, List.filterMap_cons]
      split <;> simp_all
  rw [← he]
  exact h

theorem asking_computes (eq : β → β → Bool) (search : β → ω) : (asking eq search).Computes fun s => ⟨(changes eq s.vals).map search, s.fin⟩ :=
  ((distinct_acts eq).compose (map_total search)).computes ((distinct_calm _).compose (map_calm search))

/-- C119 for the README's pipeline over a subject:
`pipe(subject, map(clean), filter(long), debounce(d), distinct_until_changed, map(search), switch_latest)`. -/
theorem C119_readme {t0 : Nat} {clean : α → β} {long : β → Bool} {d : Nat} {eq : β → β → Bool} {search : β → ω} {fam : ω → Nat → Clocked SI LI γ}
    (hfam : ∀ xs t, (fam xs t).Lawful ∧ (fam xs t).now (fam xs t).init = t)
    (hfg : ∀ xs t ls s, LTS.run (fam xs t).step (fam xs t).init ls = some s → Grammar (((fam xs t).calls s).map (·.1))) {ls s}
    (hr : LTS.run ((Clocked.typed t0).searchBox (cleaning clean long) d (asking eq search) fam).step
      ((Clocked.typed t0).searchBox (cleaning clean long) d (asking eq search) fam).init ls = some s)
    (hp : ((Clocked.typed t0).searchBox (cleaning clean long) d (asking eq search) fam).Prompt (Resting (cleaning clean long) (asking eq search)) ls)
    (hs : Resting (cleaning clean long) (asking eq search) s) (hd : Time.act (.outer (.inl (.inr .dispose))) ∉ ls) (hn : NoFailure ls)
    (ha : Apart d ((Clocked.typed (α := α) t0).now s.outer.1.1.1) (wanted (fun x => if long (clean x) then some (clean x) else none) (valuesAt ((Clocked.typed t0).calls s.outer.1.1.1)))) :
    subs s = searches (fun x => if long (clean x) then some (clean x) else none) d ((Clocked.typed (α := α) t0).now s.outer.1.1.1) eq search
      (valuesAt ((Clocked.typed t0).calls s.outer.1.1.1)) := by
  refine C119_searches (Clocked.typed_lawful t0) (Clocked.typed_grammar t0) (cleaning_computes clean long) (asking_computes eq search) hfam hfg hr hp hs hd ?_ ha hn
  have l1 := Clocked.operate_lawful (Clocked.typed_lawful (α := α) t0) (cleaning clean long).direct.slowProc
  have r3 := (Clocked.operate_source (Clocked.through_lawful l1 (Debounce.stage_lawful true d)) (outers_run hr)).1
  exact Clocked.typed_values t0 (Clocked.operate_source (Clocked.typed_lawful t0) (Clocked.clocks l1 (Debounce.stage_lawful true d) r3).1).1

/-! ## an example -/

section Examples

/-- terms modulo 10, not 0; `debounce(2)`; the search for `x` is an `interval(1, 1)` -/
abbrev demoClean := cleaning (fun x : Nat => x % 10) (fun x => decide (0 < x))
abbrev demoAsk := asking (fun a b : Nat => a == b) (fun x => x)
abbrev demoBox := (Clocked.typed 0).searchBox demoClean 2 demoAsk (intervals fun _ => (1, 1))
abbrev BoxLabel := Time (Nested.Label (((Nat ⊕ demoClean.direct.compileSlow.SlowLab) ⊕ Debounce.Label Nat) ⊕ demoAsk.protected.compileSlow.SlowLab) Interval.Label Nat Nat)
abbrev typing (x : Nat) : List BoxLabel :=
  [.act (.outer (.inl (.inl (.inl x)))), .act (.outer (.inl (.inl (.inr ())))), .act (.outer (.inl (.inl (.inr ()))))]
abbrev timing (l : Debounce.Label Nat) : BoxLabel := .act (.outer (.inl (.inr l)))
abbrev askA : BoxLabel := .act (.outer (.inr (.inl ())))
abbrev askB : BoxLabel := .act (.outer (.inr (.inr (.inl ()))))
abbrev askC : BoxLabel := .act (.outer (.inr (.inr (.inr (.inl ())))))
abbrev askD : BoxLabel := .act (.outer (.inr (.inr (.inr (.inr ())))))
abbrev asks : List BoxLabel := [askA, askA, askB, askB, askC, askC, askD, askD]
abbrev box (l : Merge.Label Nat Nat) : BoxLabel := .act (.own l)
abbrev result (k : Nat) : List BoxLabel := [.act (.inner k .wake), .act (.inner k .ret)]
abbrev demoBoxRun : List BoxLabel :=
  typing 11 ++ [timing (.start 0), timing .receive, .pass 1] ++ typing 12 ++ [timing (.start 1), timing .receive, .pass 1, timing (.wake 0), timing .receive, .pass 1,
    timing (.wake 1), timing .receive] ++ asks ++ [box .receive, box .subscribed, .act (.inner 0 .start), .pass 1] ++ result 0 ++ typing 2 ++
  [timing (.start 2), timing .receive, .pass 1] ++ result 0 ++ [.pass 1, timing (.wake 2), timing .receive, askA, askA, askB, askB, askC] ++ result 0 ++
  [.act (.outer (.inl (.inl (.inl 0)))), .act (.outer (.inl (.inl (.inr ())))), .pass 1] ++ typing 23 ++ [timing (.start 3), timing .receive] ++ result 0 ++ [.pass 1] ++ result 0 ++
  [.pass 1, timing (.wake 3), timing .receive] ++ asks ++ [box .receive, .act (.inner 0 .dispose), box .disposed, box .subscribed, .act (.inner 0 .thrown), .act (.inner 1 .start), .pass 1] ++ result 1

/-- Nothing to do, decided. -/
def boxIdle (s : Nested ((((Nat × List (Notif Nat × Nat)) × Timed demoClean.direct.compileSlow.SlowSt (Notif Nat) (Notif Nat)) × Debounce.State Nat)
    × Timed demoAsk.protected.compileSlow.SlowSt (Notif Nat) (Notif Nat)) (Switch.State Nat) Interval.State Nat Nat) : Bool :=
  (demoClean.direct.slowProc.step s.outer.1.1.2.ps ()).isNone && (demoAsk.protected.slowProc.step s.outer.2.ps (.inl ())).isNone &&
  (demoAsk.protected.slowProc.step s.outer.2.ps (.inr (.inl ()))).isNone && (demoAsk.protected.slowProc.step s.outer.2.ps (.inr (.inr (.inl ())))).isNone &&
  (demoAsk.protected.slowProc.step s.outer.2.ps (.inr (.inr (.inr ())))).isNone && switchSettled s.prod

theorem boxIdle_of {s} (h : boxIdle s = true) : Resting demoClean demoAsk s := by
  simp only [boxIdle, Bool.and_eq_true, Option.isNone_iff_eq_none] at h
  obtain ⟨⟨⟨⟨⟨h1, h2⟩, h3⟩, h4⟩, h5⟩, h6⟩ := h
  refine ⟨fun l => ?_, fun l => ?_, switchSettled_of h6⟩
  · match l with
    | () => exact h1
  · match l with
    | .inl () => exact h2
    | .inr (.inl ()) => exact h3
    | .inr (.inr (.inl ())) => exact h4
    | .inr (.inr (.inr ())) => exact h5

/-- 11 and 12 are typed at 0 and 1, 2 at 4, 0 at 6 and 23 at 7. There are searches for 2 at 3 and for 3 at 9. -/
example : ∃ s, LTS.run demoBox.step demoBox.init demoBoxRun = some s ∧ demoBox.Prompt (Resting demoClean demoAsk) demoBoxRun ∧ Resting demoClean demoAsk s ∧
    Time.act (.outer (.inl (.inr .dispose))) ∉ demoBoxRun ∧ NoFailure demoBoxRun ∧
    s.outer.1.1.1 = (10, [(.next 11, 0), (.next 12, 1), (.next 2, 4), (.next 0, 6), (.next 23, 7)]) ∧
    Apart 2 10 (wanted (fun x => if decide (0 < x % 10) then some (x % 10) else none) [(11, 0), (12, 1), (2, 4), (0, 6), (23, 7)]) ∧
    searches (fun x => if decide (0 < x % 10) then some (x % 10) else none) 2 10 (fun a b => a == b) (fun x => x) [(11, 0), (12, 1), (2, 4), (0, 6), (23, 7)] = [(2, 3), (3, 9)] ∧
    subs s = [(2, 3), (3, 9)] ∧
    s.posts = [(.next 0, 4), (.next 1, 5), (.next 2, 6), (.next 3, 7), (.next 4, 8), (.next 0, 10)] := by
  obtain ⟨s, hs, h⟩ := run_any (c := demoBox) (ls := demoBoxRun)
    (P := fun s => boxIdle s && s.outer.1.1.1 == (10, [(.next 11, 0), (.next 12, 1), (.next 2, 4), (.next 0, 6), (.next 23, 7)]) && subs s == [(2, 3), (3, 9)] &&
      s.posts == [(.next 0, 4), (.next 1, 5), (.next 2, 6), (.next 3, 7), (.next 4, 8), (.next 0, 10)]) (by decide +kernel)
  simp only [Bool.and_eq_true, beq_iff_eq] at h
  obtain ⟨⟨⟨h1, h2⟩, h3⟩, h4⟩ := h
  exact ⟨s, hs, Clocked.Prompt.of_rests (idle := boxIdle) (fun _ => boxIdle_of) (by decide +kernel), boxIdle_of h1, by simp, by simp [NoFailure], h2,
    by simp [Apart, wanted], by decide +kernel, h3, h4⟩

end Examples

end Aio
