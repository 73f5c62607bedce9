import Verif.Props.C109_111_Timed
import Verif.Props.C118_Deadline
import Verif.Props.C167_Bind
/-!
# C181: `delay` can be moved past operators without timers
-/

namespace Aio
open Spec Spec.Timed Spec.Delay
variable {S L P W P' W' α β : Type} {q : Clocked S L α} {d : Nat}

theorem upto_shifted (t d : Nat) (cs : List (Notif α × Nat)) : upto t (shifted d cs) = if d ≤ t then upto (t - d) cs else [] := by
  induction cs with
  | nil => split <;> rfl
  | cons c cs ih =>
    rw [shifted, List.map_cons, upto_cons, upto_cons]
    have ih' : upto t (cs.map fun p => (p.1, p.2 + d)) = _ := ih
    rw [ih']
    dsimp only
    by_cases h : d ≤ t
    · have : (c.2 + d ≤ t) = (c.2 ≤ t - d) := propext ⟨fun _ => by omega, fun _ => by omega⟩
      simp only [if_pos h, this]
    · rw [if_neg h, if_neg (by omega), if_neg h]

/-- C181: up to any time in the past, `delay(d)` has delivered exactly what the source had sent `d` before. -/
theorem C181_delayed (hq : q.Lawful) {ls s} (hr : LTS.run (q.through (Delay.stage true d)).step (q.through (Delay.stage true d)).init ls = some s)
    (h1 : Time.act (.inr (.dispose 0)) ∉ ls) (h2 : Time.act (.inr (.raise 0)) ∉ ls) {t : Nat} (ht : t < q.now s.1) :
    upto t ((q.through (Delay.stage true d)).calls s) = upto t (shifted d (q.calls s.1)) := by
  obtain ⟨⟨rest, g1⟩, g2⟩ := Delay.C107_exact hq d hr
  rw [← g1, upto_append, upto_none (cs := rest), List.append_nil]
  intro c hc
  rcases Nat.lt_or_ge t c.2 with h | h
  · exact h
  · exfalso
    obtain ⟨k, hk⟩ := List.mem_iff_getElem?.mp hc
    have hk' : (shifted d (q.calls s.1))[((q.through (Delay.stage true d)).calls s).length + k]? = some c := by
      rw [← g1, List.getElem?_append_right (by omega), Nat.add_sub_cancel_left]; exact hk
    rw [shifted, List.getElem?_map] at hk'
    obtain ⟨c', a1, a2⟩ := Option.map_eq_some_iff.mp hk'
    subst a2
    have := g2 h1 h2 _ c' a1 (by dsimp only at h; omega)
    have := (List.getElem?_eq_some_iff.mp this).1
    omega

theorem delayed_grammar (hq : q.Lawful) (hg : ∀ ls s, LTS.run q.step q.init ls = some s → Grammar ((q.calls s).map (·.1))) (ls s)
    (hr : LTS.run (q.through (Delay.stage true d)).step (q.through (Delay.stage true d)).init ls = some s) : Grammar (((q.through (Delay.stage true d)).calls s).map (·.1)) := by
  have h1 := (Delay.C107_exact hq d hr).1.map (·.1)
  refine grammar_prefix h1 ?_
  have := hg _ _ (Clocked.clocks hq (Delay.stage_lawful true d) hr).1
  simpa [shifted, Function.comp_def] using this

variable {p : Proc P W (Notif α) (Notif β)} {p' : Proc P' W' (Notif α) (Notif β)} {G : Story α → Story β}

/-- C181: `pipe(source, delay(d), op)`: up to any time in the past, the observer has got what the operator makes of what the source had sent `d` before. -/
theorem C181_behind (hq : q.Lawful) (hg : ∀ ls s, LTS.run q.step q.init ls = some s → Grammar ((q.calls s).map (·.1))) (hG : Delivers p Grammar G) (h0 : (G ⟨[], .running⟩).events = [])
    {ls s} (hr : LTS.run ((q.through (Delay.stage true d)).operate p).step ((q.through (Delay.stage true d)).operate p).init ls = some s)
    (hp : ((q.through (Delay.stage true d)).operate p).Prompt (fun s => p.Quiescent s.2.ps) ls)
    (h1 : Time.act (.inl (.inr (.dispose 0))) ∉ ls) (h2 : Time.act (.inl (.inr (.raise 0))) ∉ ls) {t : Nat} (ht : t < q.now s.1.1) :
    upto t (((q.through (Delay.stage true d)).operate p).calls s) = (G (story (upto t (shifted d (q.calls s.1.1))))).events := by
  have hl := Clocked.through_lawful hq (Delay.stage_lawful (α := α) true d)
  have hs := (Clocked.operate_source hl hr).1
  have hmem : ∀ {l}, Time.act l ∈ Clocked.sources ls → Time.act (Sum.inl l) ∈ ls := by
    intro l h
    obtain ⟨x, hx, hxe⟩ := List.mem_filterMap.mp h
    split at hxe <;> cases hxe
    exact hx
  rw [(C109_operator hl hG h0 (delayed_grammar hq hg) hr hp).2.1 t ht, C181_delayed hq hs (fun h => h1 (hmem h)) (fun h => h2 (hmem h)) ht]

/-- C181: `pipe(source, op, delay(d))`: the same. -/
theorem C181_before (hq : q.Lawful) (hg : ∀ ls s, LTS.run q.step q.init ls = some s → Grammar ((q.calls s).map (·.1))) (hG : Delivers p Grammar G) (h0 : (G ⟨[], .running⟩).events = [])
    {ls s} (hr : LTS.run ((q.operate p).through (Delay.stage true d)).step ((q.operate p).through (Delay.stage true d)).init ls = some s)
    (hp : ((q.operate p).through (Delay.stage true d)).Prompt (fun s => p.Quiescent s.1.2.ps) ls)
    (h1 : Time.act (.inr (.dispose 0)) ∉ ls) (h2 : Time.act (.inr (.raise 0)) ∉ ls) {t : Nat} (ht : t < q.now s.1.1) :
    upto t (((q.operate p).through (Delay.stage true d)).calls s) = (G (story (upto t (shifted d (q.calls s.1.1))))).events := by
  have hl := Clocked.operate_lawful hq p
  have hs := (Clocked.clocks hl (Delay.stage_lawful (α := β) true d) hr).1
  have hp' := Clocked.Prompt.before (rest := fun s => p.Quiescent s.2.ps) hl (Delay.stage_lawful true d) hr hp
  rw [C181_delayed hl hr h1 h2 ht, upto_shifted, upto_shifted]
  split
  · exact (C109_operator hq hG h0 hg hs hp').2.1 _ (by omega)
  · rw [story_nil, h0]

/-- C181: so if the source has sent the same, the observer has got the same at the same times, on whichever side of the operator `delay(d)` stands. -/
theorem C181_moves (hq : q.Lawful) (hg : ∀ ls s, LTS.run q.step q.init ls = some s → Grammar ((q.calls s).map (·.1))) (hG : Delivers p Grammar G) (hG' : Delivers p' Grammar G)
    (h0 : (G ⟨[], .running⟩).events = []) {ls s} (hr : LTS.run ((q.through (Delay.stage true d)).operate p).step ((q.through (Delay.stage true d)).operate p).init ls = some s)
    (hp : ((q.through (Delay.stage true d)).operate p).Prompt (fun s => p.Quiescent s.2.ps) ls)
    (h1 : Time.act (.inl (.inr (.dispose 0))) ∉ ls) (h2 : Time.act (.inl (.inr (.raise 0))) ∉ ls)
    {ls' s'} (hr' : LTS.run ((q.operate p').through (Delay.stage true d)).step ((q.operate p').through (Delay.stage true d)).init ls' = some s')
    (hp' : ((q.operate p').through (Delay.stage true d)).Prompt (fun s => p'.Quiescent s.1.2.ps) ls')
    (h1' : Time.act (.inr (.dispose 0)) ∉ ls') (h2' : Time.act (.inr (.raise 0)) ∉ ls') {t : Nat} (ht : t < q.now s.1.1) (ht' : t < q.now s'.1.1)
    (hsame : upto (t - d) (q.calls s.1.1) = upto (t - d) (q.calls s'.1.1)) :
    upto t (((q.through (Delay.stage true d)).operate p).calls s) = upto t (((q.operate p').through (Delay.stage true d)).calls s') := by
  rw [C181_behind hq hg hG h0 hr hp h1 h2 ht, C181_before hq hg hG' h0 hr' hp' h1' h2' ht', upto_shifted, upto_shifted, hsame]

/-! ## a case -/

section Examples

/-- `pipe(interval(1, 2), delay(3), take(2))` and `pipe(interval(1, 2), take(2), delay(3))`, subscribed at 0 -/
abbrev demoTwo : Operator Nat Nat := takeOp 2
abbrev demoDelayTake := ((Interval.clocked true 0 1 2).through (Delay.stage true 3)).operate demoTwo.direct.slowProc
abbrev demoTakeDelay := ((Interval.clocked true 0 1 2).operate demoTwo.direct.slowProc).through (Delay.stage true 3)
abbrev demoWorks : List Interval.Label := [.start, .wake, .ret]
abbrev demoDelays : List (Delay.Label Nat) := [.start 0, .receive 0, .wake 0, .ret 0]
def demoDT := FlatMap.greedy demoDelayTake (demoWorks.map (.inl ∘ .inl) ++ demoDelays.map (.inl ∘ .inr) ++ [.inr (.inl ()), .inr (.inr ())]) 60 demoDelayTake.init
def demoTD := FlatMap.greedy demoTakeDelay (demoWorks.map (.inl ∘ .inl) ++ [.inl (.inr (.inl ())), .inl (.inr (.inr ()))] ++ demoDelays.map .inr) 60 demoTakeDelay.init

theorem demoDT_run : LTS.run demoDelayTake.step demoDelayTake.init demoDT.1 = some demoDT.2 := FlatMap.greedy_run ..
theorem demoTD_run : LTS.run demoTakeDelay.step demoTakeDelay.init demoTD.1 = some demoTD.2 := FlatMap.greedy_run ..
example : (demoDelayTake.calls demoDT.2, demoDelayTake.now demoDT.2) = ([(.next 0, 4), (.next 1, 6), (.completed, 6)], 14) := by decide +kernel
example : (demoTakeDelay.calls demoTD.2, demoTakeDelay.now demoTD.2) = ([(.next 0, 4), (.next 1, 6), (.completed, 6)], 17) := by decide +kernel

abbrev demoIdle (ps : demoTwo.direct.compileSlow.SlowSt) : Bool := (demoTwo.direct.slowProc.step ps (.inl ())).isNone && (demoTwo.direct.slowProc.step ps (.inr ())).isNone
theorem demoIdle_quiescent (ps : demoTwo.direct.compileSlow.SlowSt) (h : demoIdle ps = true) : demoTwo.direct.slowProc.Quiescent ps := by
  intro l
  simp only [Bool.and_eq_true, Option.isNone_iff_eq_none] at h
  match l with
  | .inl () => exact h.1
  | .inr () => exact h.2

theorem demoDT_prompt : demoDelayTake.Prompt (fun s => demoTwo.direct.slowProc.Quiescent s.2.ps) demoDT.1 := by
  refine Clocked.Prompt.of_rests (q := demoDelayTake) (idle := fun s => demoIdle s.2.ps) (fun _ => demoIdle_quiescent _) ?_
  decide +kernel
theorem demoTD_prompt : demoTakeDelay.Prompt (fun s => demoTwo.direct.slowProc.Quiescent s.1.2.ps) demoTD.1 := by
  refine Clocked.Prompt.of_rests (q := demoTakeDelay) (idle := fun s => demoIdle s.1.2.ps) (fun _ => demoIdle_quiescent _) ?_
  decide +kernel
theorem demoDT_calm : demoDT.1.all (fun | .act (.inl (.inr (.dispose 0))) | .act (.inl (.inr (.raise 0))) => false | _ => true) = true := by decide +kernel
theorem demoTD_calm : demoTD.1.all (fun | .act (.inr (.dispose 0)) | .act (.inr (.raise 0)) => false | _ => true) = true := by decide +kernel

/-- The hypotheses of `C181_moves` are met. -/
example : upto 13 (demoDelayTake.calls demoDT.2) = upto 13 (demoTakeDelay.calls demoTD.2) :=
  C181_moves (Interval.clocked_lawful true 0 1 2) (fun _ _ => Interval.clocked_grammar) ((take_acts _).computes (take_calm _)).direct.slow ((take_acts _).computes (take_calm _)).direct.slow
    rfl demoDT_run demoDT_prompt (fun h => by simpa using List.all_eq_true.mp demoDT_calm _ h) (fun h => by simpa using List.all_eq_true.mp demoDT_calm _ h)
    demoTD_run demoTD_prompt (fun h => by simpa using List.all_eq_true.mp demoTD_calm _ h) (fun h => by simpa using List.all_eq_true.mp demoTD_calm _ h)
    (by decide +kernel) (by decide +kernel) (by decide +kernel)

end Examples

end Aio
