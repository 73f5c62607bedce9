import Verif.Lemmas.CaughtChain
import Verif.Props.C43_44_Catch
import Verif.Props.C107_108_Clocked
import Verif.Props.C112_114_Timers
/-!
# C115: `catch` on a clock

`LTS.run (Clocked.caught fam h honour c x t0).step … ls = some s`: `pipe(x, catch(h))` was subscribed at time `t0` and run under the schedule
`ls`. `s.sent` is what the observer got, with the times; `s.srcs` are the sources that were subscribed, with the times.
-/

namespace Aio.Caught
open Spec Spec.Timed Catch
variable {C S S₁ S₂ L L₁ L₂ ω α : Type} {fam : ω → Nat → Clocked S L α} {honour : Bool} {x : ω} {t0 : Nat}

/-- C115: the observer gets what the sources send, one source after the other, at the times at which they send it, without the errors. -/
theorem C115_in_order {h : Handler C ω} {c : C} (hf : Proper fam) {ls s}
    (hr : LTS.run (Clocked.caught fam h honour c x t0).step (Clocked.caught fam h honour c x t0).init ls = some s) :
    s.sent = s.srcs.flatMap fun i => noErrors ((fam i.1 i.2.1).calls i.2.2) := by
  obtain ⟨hs, hp, hc⟩ := past hf hr
  have hlen : s.ctl.started.length = s.srcs.length := by
    have := congrArg List.length hc.started
    simpa [births] using this.symm
  have h1 := hc.sent
  dsimp only at h1
  rw [h1, hlen]
  have key : ∀ n, n ≤ s.srcs.length → (List.range n).flatMap (fun k => noErrors (callsAt k hs)) =
      (s.srcs.take n).flatMap fun i => noErrors ((fam i.1 i.2.1).calls i.2.2) := by
    intro n
    induction n with
    | zero => intro _; simp
    | succ n ih =>
      intro hn
      rw [flat_succ, ih (by omega), List.take_add_one]
      obtain ⟨⟨xs, t, si⟩, hk⟩ : ∃ i, s.srcs[n]? = some i := ⟨_, List.getElem?_eq_getElem (by omega)⟩
      rw [hk, hp.calls n xs t si hk]
      simp
  rw [key _ (Nat.le_refl _), List.take_length]

/-- C115: the first source is the one that `catch` was applied to, each other one is what the handler returned for the error of the one
before, and was subscribed after that error; at that very moment if the loop is not overloaded. -/
theorem C115_handled {g : Err → Except Err ω} (hf : Proper fam) {ls s}
    (hr : LTS.run (Clocked.caught fam (pure g) honour () x t0).step (Clocked.caught fam (pure g) honour () x t0).init ls = some s) :
    (∃ s0, s.srcs[0]? = some (x, t0, s0)) ∧
    ∀ (k : Nat) xs t si ys u sj, s.srcs[k]? = some (xs, t, si) → s.srcs[k + 1]? = some (ys, u, sj) →
      ∃ e te, (.error e, te) ∈ (fam xs t).calls si ∧ g e = .ok ys ∧ te ≤ u ∧
        ((Clocked.caught fam (pure g) honour () x t0).Prompt Idle ls → te = u) := by
  obtain ⟨hs, hp, hc⟩ := past hf hr
  refine ⟨?_, ?_⟩
  · have h0 : (births s)[0]? = some (x, t0) := by
      refine LTS.inv (step := nextAt (pure g) honour) (fun st => st.2.2[0]? = some (x, t0)) (s0 := (start () x, [], [(x, t0)])) rfl ?_ hp.run
      rintro ⟨ctl, sent, bs⟩ l st' ih hst
      simp only [nextAt, Option.map_eq_some_iff] at hst
      obtain ⟨r, -, rfl⟩ := hst
      dsimp only at ih ⊢
      rw [List.getElem?_append_left (List.getElem?_eq_some_iff.mp ih).1]
      exact ih
    rw [births, List.getElem?_map] at h0
    obtain ⟨⟨y, u, si⟩, h1, h2⟩ := Option.map_eq_some_iff.mp h0
    obtain ⟨rfl, rfl⟩ := Prod.mk.inj h2
    exact ⟨si, h1⟩
  · intro k xs t si ys u sj hk hk'
    obtain ⟨e, te, a1, a2, a3, c', hm⟩ := hc.chain k ys u (by rw [births, List.getElem?_map, hk']; rfl)
    rw [hp.calls k xs t si hk] at a1
    exact ⟨e, te, a1, hm, a2, a3⟩

/-- No `subscribe_async` or `dispose_async` of a source raises. -/
def NoFailure (ls : List (Time (Caught.Label L α))) : Prop := ∀ j, Time.act (.own (.fails j)) ∉ ls

theorem failed_of_mem {ns : List (Notif α)} (hg : Grammar ns) {e : Err} (he : .error e ∈ ns) : (story ns).fin = .failed e := by
  obtain ⟨⟨vs, f⟩, rfl⟩ := hg
  rw [story_events]
  simp only [Story.events, List.mem_append, List.mem_map, reduceCtorEq, and_false, exists_false, false_or] at he
  cases f <;> simp at he
  subst he; rfl

/-- C115: and when `catch` is not busy, every source that has failed has been followed by another one, unless the handler raised. -/
theorem C115_continues {g : Err → Except Err ω} (hf : Proper fam) {ls s}
    (hr : LTS.run (Clocked.caught fam (pure g) honour () x t0).step (Clocked.caught fam (pure g) honour () x t0).init ls = some s)
    (hn : NoFailure ls) (hi : Idle s) {k : Nat} {xs : ω} {t : Nat} {si : S} (hk : s.srcs[k]? = some (xs, t, si)) {e : Err} {te : Nat}
    (he : (.error e, te) ∈ (fam xs t).calls si) : k + 1 < s.srcs.length ∨ ∃ e', g e = .error e' := by
  obtain ⟨hs, hp, hc⟩ := past hf hr
  have h1 := nextAt_run hp.run
  have hlen : s.ctl.started.length = s.srcs.length := by
    have := congrArg List.length hc.started
    simpa [births] using this.symm
  have hfin : (story (Catch.calls k (hs.map (·.1)))).fin = .failed e := by
    have hg := hp.grammar hf k
    rw [callsAt_map, hp.calls k xs t si hk] at hg ⊢
    exact failed_of_mem hg (List.mem_map.mpr ⟨_, he, rfl⟩)
  have := C43_continues (g := g) (honour := honour) (x := x) h1 (hp.grammar hf) (by
    intro j hj
    obtain ⟨⟨l, u⟩, hm, hl⟩ := List.mem_map.mp hj
    dsimp only at hl
    subst hl
    exact hn j (hp.own _ hm rfl)) (by rw [show s.ctl.frames = [] from hi]; simp) hfin
  rwa [hlen] at this

/-- C115: so `catch` can stand before operators with timers, as in `pipe(source, catch(h), delay(d))`: on a loop that is not overloaded the
observer gets what the sources send, without the errors, `d` later. -/
theorem C115_delayed {h : Handler C ω} {c : C} (hf : Proper fam) (d : Nat) {ls s}
    (hr : LTS.run ((Clocked.caught fam h honour c x t0).through (Delay.stage true d)).step
      ((Clocked.caught fam h honour c x t0).through (Delay.stage true d)).init ls = some s) :
    ((Clocked.caught fam h honour c x t0).through (Delay.stage true d)).calls s <+:
      (s.1.srcs.flatMap fun i => noErrors ((fam i.1 i.2.1).calls i.2.2)).map fun c => (c.1, c.2 + d) := by
  have h1 := (Delay.C107_exact (caught_lawful hf h honour c x t0) d hr).1
  have h2 := (Clocked.clocks (caught_lawful hf h honour c x t0) (Delay.stage_lawful true d) hr).1
  rw [← C115_in_order hf h2]
  exact h1

/-! ## An interval as a fallback -/

theorem left_run {q : Clocked S₁ L₁ α} {ls s} (hr : LTS.run (q.left (S₂ := S₂) (L₂ := L₂)).step (q.left (S₂ := S₂) (L₂ := L₂)).init ls = some s) :
    ∃ s₁ ls₁, s = .inl s₁ ∧ LTS.run q.step q.init ls₁ = some s₁ ∧ ∀ l, Time.act l ∈ ls₁ → Time.act (.inl l) ∈ ls := by
  refine LTS.inv_hist (step := (q.left (S₂ := S₂) (L₂ := L₂)).step) (fun ls s => ∃ s₁ ls₁, s = .inl s₁ ∧ LTS.run q.step q.init ls₁ = some s₁ ∧ ∀ l, Time.act l ∈ ls₁ → Time.act (.inl l) ∈ ls)
    (s0 := (q.left (S₂ := S₂) (L₂ := L₂)).init) ⟨q.init, [], rfl, rfl, by simp⟩ ?_ hr
  rintro ls s l s' ⟨s₁, ls₁, rfl, h1, h2⟩ hs
  cases l with
  | pass d =>
    simp only [Clocked.step, Clocked.left, Option.map_eq_some_iff] at hs
    obtain ⟨s₂, h3, rfl⟩ := hs
    exact ⟨s₂, ls₁ ++ [.pass d], rfl, Nested.run_pass h1 h3, fun l hl => Nested.mem_snoc _ (h2 l (by simpa using hl))⟩
  | act l =>
    cases l with
    | inr l => simp [Clocked.step, Clocked.left] at hs
    | inl l =>
      simp only [Clocked.step, Clocked.left, Option.map_eq_some_iff] at hs
      obtain ⟨s₂, h3, rfl⟩ := hs
      exact ⟨s₂, ls₁ ++ [.act l], rfl, Nested.run_act h1 h3, fun l' hl => by
        rcases List.mem_append.mp hl with hl | hl
        · exact Nested.mem_snoc _ (h2 l' hl)
        · obtain rfl : l' = l := by simpa using hl
          simp⟩

theorem right_run {q : Clocked S₂ L₂ α} {ls s} (hr : LTS.run (q.right (S₁ := S₁) (L₁ := L₁)).step (q.right (S₁ := S₁) (L₁ := L₁)).init ls = some s) :
    ∃ s₁ ls₁, s = .inr s₁ ∧ LTS.run q.step q.init ls₁ = some s₁ ∧ ∀ l, Time.act l ∈ ls₁ → Time.act (.inr l) ∈ ls := by
  refine LTS.inv_hist (step := (q.right (S₁ := S₁) (L₁ := L₁)).step) (fun ls s => ∃ s₁ ls₁, s = .inr s₁ ∧ LTS.run q.step q.init ls₁ = some s₁ ∧ ∀ l, Time.act l ∈ ls₁ → Time.act (.inr l) ∈ ls)
    (s0 := (q.right (S₁ := S₁) (L₁ := L₁)).init) ⟨q.init, [], rfl, rfl, by simp⟩ ?_ hr
  rintro ls s l s' ⟨s₁, ls₁, rfl, h1, h2⟩ hs
  cases l with
  | pass d =>
    simp only [Clocked.step, Clocked.right, Option.map_eq_some_iff] at hs
    obtain ⟨s₂, h3, rfl⟩ := hs
    exact ⟨s₂, ls₁ ++ [.pass d], rfl, Nested.run_pass h1 h3, fun l hl => Nested.mem_snoc _ (h2 l (by simpa using hl))⟩
  | act l =>
    cases l with
    | inl l => simp [Clocked.step, Clocked.right] at hs
    | inr l =>
      simp only [Clocked.step, Clocked.right, Option.map_eq_some_iff] at hs
      obtain ⟨s₂, h3, rfl⟩ := hs
      exact ⟨s₂, ls₁ ++ [.act l], rfl, Nested.run_act h1 h3, fun l' hl => by
        rcases List.mem_append.mp hl with hl | hl
        · exact Nested.mem_snoc _ (h2 l' hl)
        · obtain rfl : l' = l := by simpa using hl
          simp⟩

theorem left_lawful {q : Clocked S₁ L₁ α} (hq : q.Lawful) : (q.left (S₂ := S₂) (L₂ := L₂)).Lawful where
  init := hq.init
  act {ls s l t} hr h := by
    obtain ⟨s₁, ls₁, rfl, h1, -⟩ := left_run hr
    cases l with
    | inr l => simp [Clocked.left] at h
    | inl l =>
      simp only [Clocked.left, Option.map_eq_some_iff] at h
      obtain ⟨s₂, h3, rfl⟩ := h
      exact hq.act h1 h3
  pass {ls s d t} hr h := by
    obtain ⟨s₁, ls₁, rfl, h1, -⟩ := left_run hr
    simp only [Clocked.left, Option.map_eq_some_iff] at h
    obtain ⟨s₂, h3, rfl⟩ := h
    exact hq.pass h1 h3

theorem right_lawful {q : Clocked S₂ L₂ α} (hq : q.Lawful) : (q.right (S₁ := S₁) (L₁ := L₁)).Lawful where
  init := hq.init
  act {ls s l t} hr h := by
    obtain ⟨s₁, ls₁, rfl, h1, -⟩ := right_run hr
    cases l with
    | inl l => simp [Clocked.right] at h
    | inr l =>
      simp only [Clocked.right, Option.map_eq_some_iff] at h
      obtain ⟨s₂, h3, rfl⟩ := h
      exact hq.act h1 h3
  pass {ls s d t} hr h := by
    obtain ⟨s₁, ls₁, rfl, h1, -⟩ := right_run hr
    simp only [Clocked.right, Option.map_eq_some_iff] at h
    obtain ⟨s₂, h3, rfl⟩ := h
    exact hq.pass h1 h3

/-- The source, and `interval(seconds, period)`. -/
def fallback (src : Nat → Clocked S L Nat) (seconds period : Int) :
    Unit ⊕ Unit → Nat → Clocked (S ⊕ Interval.State) (L ⊕ Interval.Label) Nat
  | .inl _, t => (src t).left
  | .inr _, t => (Interval.clocked true t seconds period).right

theorem fallback_proper {src : Nat → Clocked S L Nat} (hsrc : ∀ t, (src t).Lawful ∧ (src t).now (src t).init = t)
    (hg : ∀ t ls s, LTS.run (src t).step (src t).init ls = some s → Grammar (((src t).calls s).map (·.1))) (seconds period : Int) :
    Proper (fallback src seconds period) where
  lawful xs t := by
    cases xs with
    | inl _ => exact ⟨left_lawful (hsrc t).1, (hsrc t).2⟩
    | inr _ => exact ⟨right_lawful (Interval.clocked_lawful true t seconds period), rfl⟩
  grammar xs t ls s hr := by
    cases xs with
    | inl _ =>
      obtain ⟨s₁, ls₁, rfl, h1, -⟩ := left_run hr
      exact hg t ls₁ s₁ h1
    | inr _ =>
      obtain ⟨s₁, ls₁, rfl, h1, -⟩ := right_run hr
      exact Interval.clocked_grammar h1

/-- `pipe(source, catch(lambda _: interval(seconds, period)))`, subscribed at time `t0`. -/
abbrev withFallback (src : Nat → Clocked S L Nat) (seconds period : Int) (honour : Bool) (t0 : Nat) :=
  Clocked.caught (fallback src seconds period) (pure fun _ => .ok (.inr ())) honour () (.inl ()) t0

/-- C115: on a loop that is not overloaded, `pipe(source, catch(lambda _: interval(s, p)))` sends what the source sends, and if the source
has failed at a time `te`, then 0, 1, 2, ..., the value `k` exactly at `te + s + kp`; all of these that are due have been sent, unless
the interval was disposed or its observer raised. -/
theorem C115_fallback {src : Nat → Clocked S L Nat} (hsrc : ∀ t, (src t).Lawful ∧ (src t).now (src t).init = t)
    (hg : ∀ t ls s, LTS.run (src t).step (src t).init ls = some s → Grammar (((src t).calls s).map (·.1))) {seconds period : Int} (hp : period ≠ 0) {ls s}
    (hr : LTS.run (withFallback src seconds period honour t0).step (withFallback src seconds period honour t0).init ls = some s)
    (hpr : (withFallback src seconds period honour t0).Prompt Idle ls) (hn : NoFailure ls) (hi : Idle s) :
    ∃ s0 ls0, LTS.run (src t0).step (src t0).init ls0 = some s0 ∧ (src t0).now s0 = s.now ∧
      (((∀ e te, (.error e, te) ∉ (src t0).calls s0) ∧ s.sent = (src t0).calls s0) ∨
        ∃ e te n, (.error e, te) ∈ (src t0).calls s0 ∧
          s.sent = noErrors ((src t0).calls s0) ++ (List.range n).map (fun k => (.next k, Interval.due te seconds period k)) ∧
          (Time.act (.source 1 (.inr .dispose)) ∉ ls → (∀ e, Time.act (.source 1 (.inr (.raise e))) ∉ ls) →
            ∀ k, Interval.due te seconds period k < s.now → k < n)) := by
  have hf := fallback_proper hsrc hg seconds period
  obtain ⟨⟨z0, hz0⟩, hnext⟩ := C115_handled hf hr
  have horder := C115_in_order hf hr
  obtain ⟨hs, hpast, -⟩ := past hf hr
  obtain ⟨⟨li0, hli0, -⟩, hnow0⟩ := hpast.sources 0 _ _ _ hz0
  obtain ⟨s0, ls0, rfl, hrun0, -⟩ := left_run hli0
  refine ⟨s0, ls0, hrun0, hnow0, ?_⟩
  have hcalls0 : (fallback src seconds period (.inl ()) t0).calls (.inl s0) = (src t0).calls s0 := rfl
  rcases Nat.lt_or_ge 1 s.srcs.length with hlt | hge
  · obtain ⟨⟨ys, u, z1⟩, hz1⟩ : ∃ i, s.srcs[1]? = some i := ⟨_, List.getElem?_eq_getElem hlt⟩
    obtain ⟨e, te, a1, a2, -, a4⟩ := hnext 0 _ _ _ ys u z1 hz0 hz1
    obtain rfl : Sum.inr () = ys := by simpa using a2
    obtain rfl := a4 hpr
    obtain ⟨⟨li1, hli1, hli1'⟩, hnow1⟩ := hpast.sources 1 _ _ _ hz1
    obtain ⟨s1, ls1, rfl, hrun1, hls1⟩ := right_run hli1
    obtain ⟨n, hn', hall⟩ := Interval.clocked_exact hp hrun1
    have hcalls1 : (fallback src seconds period (.inr ()) te).calls (.inr s1) = (List.range n).map (fun k => (.next k, Interval.due te seconds period k)) := hn'
    have hlen : s.srcs.length = 2 := by
      rcases Nat.lt_or_ge 2 s.srcs.length with h3 | h3
      · obtain ⟨⟨zs, v, z2⟩, hz2⟩ : ∃ i, s.srcs[2]? = some i := ⟨_, List.getElem?_eq_getElem h3⟩
        obtain ⟨e', te', b1, -⟩ := hnext 1 _ _ _ zs v z2 hz1 hz2
        rw [hcalls1] at b1
        simp at b1
      · omega
    have hsrcs : s.srcs = [(.inl (), t0, .inl s0), (.inr (), te, .inr s1)] := by
      match hss : s.srcs, hlen with
      | [a, b], _ =>
        rw [hss] at hz0 hz1
        simp at hz0 hz1
        rw [hz0, hz1]
    refine .inr ⟨e, te, n, a1, ?_, fun hd hx k hk => hall (fun h => hd (hli1' _ (hls1 _ h))) (fun e h => hx e (hli1' _ (hls1 _ h))) k ?_⟩
    · rw [horder, hsrcs]
      simp only [List.flatMap_cons, List.flatMap_nil, List.append_nil, hcalls0, hcalls1]
      congr 1
      rw [noErrors, List.filter_eq_self]
      intro c hc
      obtain ⟨k, -, rfl⟩ := List.mem_map.mp hc
      rfl
    · have : s1.now = s.now := hnow1
      rw [this]; exact hk
  · have hlen : s.srcs.length = 1 := by
      have := (List.getElem?_eq_some_iff.mp hz0).1
      omega
    have hno : ∀ e te, (.error e, te) ∉ (src t0).calls s0 := by
      intro e te he
      rcases C115_continues hf hr hn hi hz0 he with h | ⟨e', h⟩
      · omega
      · cases h
    refine .inl ⟨hno, ?_⟩
    have hsrcs : s.srcs = [(.inl (), t0, .inl s0)] := by
      match hss : s.srcs, hlen with
      | [a], _ =>
        rw [hss] at hz0
        simp at hz0
        rw [hz0]
    rw [horder, hsrcs]
    simp only [List.flatMap_cons, List.flatMap_nil, List.append_nil, hcalls0]
    rw [noErrors, List.filter_eq_self]
    rintro ⟨n, t⟩ hc
    cases n with
    | error e => exact absurd hc (hno e t)
    | _ => rfl

/-! ## Examples -/

section Examples

/-- Something that sends 7 and then fails, subscribed at time `t0`. -/
abbrev demoSource (t0 : Nat) := (oneShot true (do poster.asend 7; poster.athrow (.user 1)) : Producer OneShot Unit Nat).source.clocked t0

theorem demoSource_grammar (t : Nat) : ∀ ls s, LTS.run (demoSource t).step (demoSource t).init ls = some s → Grammar (((demoSource t).calls s).map (·.1)) := by
  intro ls s hr
  obtain ⟨⟨ms, h1⟩, h2⟩ := (Producer.source_grows (oneShot true (do poster.asend 7; poster.athrow (.user 1)) : Producer OneShot Unit Nat)).clocked_run hr
  rw [h2]
  have h3 : (s.1.1.fresh = true → s.1.2 = []) ∧ Grammar s.1.2 := by
    refine LTS.inv (step := (oneShot true (do poster.asend 7; poster.athrow (.user 1)) : Producer OneShot Unit Nat).source.step)
      (fun c : OneShot × List (Notif Nat) => (c.1.fresh = true → c.2 = []) ∧ Grammar c.2)
      (s0 := (oneShot true (do poster.asend 7; poster.athrow (.user 1)) : Producer OneShot Unit Nat).source.init) ⟨fun _ => rfl, ⟨⟨[], .running⟩, rfl⟩⟩ ?_ h1
    rintro ⟨⟨f, c⟩, out⟩ l t ⟨i1, i2⟩ hs
    cases l with
    | none => cases hs; exact ⟨i1, i2⟩
    | some l =>
      cases f with
      | false => simp [Producer.source, oneShot] at hs
      | true =>
        dsimp only at i1 i2
        obtain rfl := i1 rfl
        cases c <;> simp [Producer.source, oneShot] at hs <;> subst hs
        · exact ⟨fun h => (by cases h), ⟨⟨[7], .failed (.user 1)⟩, rfl⟩⟩
        · exact ⟨fun h => (by cases h), i2⟩
  exact h3.2

abbrev demo := withFallback demoSource 2 3 true 5
abbrev demoRun : List (Time (Caught.Label (Option Unit ⊕ Interval.Label) Nat)) :=
  [.act (.own (.subscribed 0)), .pass 1, .act (.source 0 (.inl (some ()))), .act (.own (.disposed 0)), .act (.own (.subscribed 0)),
   .act (.source 1 (.inr .start)), .pass 2, .act (.source 1 (.inr .wake)), .act (.source 1 (.inr .ret)), .pass 3,
   .act (.source 1 (.inr .wake)), .act (.source 1 (.inr .ret)), .pass 1]

/-- The hypotheses of C115 hold of a run in which the source fails at time 6. -/
example : ∃ s, LTS.run demo.step demo.init demoRun = some s ∧ demo.Prompt Idle demoRun ∧ NoFailure demoRun ∧ Idle s ∧
    births s = [(.inl (), 5), (.inr (), 6)] ∧ s.sent = [(.next 7, 6), (.next 0, 8), (.next 1, 11)] ∧ s.now = 12 := by
  obtain ⟨s, hs, h⟩ := Nested.run_any (c := demo) (ls := demoRun)
    (P := fun s => s.ctl.frames.isEmpty && decide (births s = [(.inl (), 5), (.inr (), 6)]) && s.sent == [(.next 7, 6), (.next 0, 8), (.next 1, 11)] && s.now == 12)
    (by decide +kernel)
  simp only [Bool.and_eq_true, beq_iff_eq, List.isEmpty_iff, decide_eq_true_eq] at h
  obtain ⟨⟨⟨h1, h2⟩, h3⟩, h4⟩ := h
  exact ⟨s, hs, Clocked.Prompt.of_rests (idle := fun s : Caught _ _ _ _ => s.ctl.frames.isEmpty) (fun _ h => List.isEmpty_iff.mp h) (by decide +kernel),
    by simp [NoFailure], h1, h2, h3, h4⟩

example : Proper (fallback demoSource 2 3) := fallback_proper (fun t => ⟨Source.clocked_lawful _ t, rfl⟩) demoSource_grammar 2 3

end Examples

end Aio.Caught
