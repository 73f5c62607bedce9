import Verif.Model.Fallbacks
import Verif.Props.C115_Caught
/-!
# C179: a chain of fallbacks

In full: with `pipe(a, catch(lambda _: b), catch(lambda _: c))`, when `a` has failed and then `b` has failed, `c` is subscribed, and the observer gets the values of `a`, `b` and `c`. It does not: the error of `b`
goes to the first handler again (transform.py:410-412), which subscribes to `b` again; the second handler is never called.
-/

namespace Aio.Caught
open Spec Spec.Timed Catch
variable {S L S₂ L₂ ω₂ C C₂ ω α : Type} {fam : ω → Nat → Clocked S L α} {fam₂ : ω₂ → Nat → Clocked S₂ L₂ α} {h1 : Handler C ω} {h2 : Handler C₂ (Unit ⊕ ω₂)} {c : C} {c₂ : C₂} {x : ω}
  {honour : Bool} {t0 : Nat}

theorem caught_grammar (hf : Proper fam) {ls s} (hr : LTS.run (Clocked.caught fam h1 honour c x t0).step (Clocked.caught fam h1 honour c x t0).init ls = some s) :
    Grammar (s.sent.map (·.1)) := by
  obtain ⟨hist, hp, -⟩ := past hf hr
  exact ⟨_, C43_stream (nextAt_run hp.run) (hp.grammar hf)⟩

theorem no_error (hf : Proper fam) {ls s} (hr : LTS.run (Clocked.caught fam h1 honour c x t0).step (Clocked.caught fam h1 honour c x t0).init ls = some s) (e : Err) (t : Nat) :
    (.error e, t) ∉ s.sent := by
  obtain ⟨hist, hp, -⟩ := past hf hr
  exact fun h => C43_no_error (nextAt_run hp.run) e (List.mem_map.mpr ⟨_, h, rfl⟩)

theorem alternatives_proper (hf : Proper fam) (hf₂ : Proper fam₂) : Proper (alternatives (Clocked.caught fam h1 honour c x) fam₂) where
  lawful xs t := by
    cases xs with
    | inl _ => exact ⟨left_lawful (caught_lawful hf h1 honour c x t), rfl⟩
    | inr y => exact ⟨right_lawful (hf₂.lawful y t).1, (hf₂.lawful y t).2⟩
  grammar xs t ls s hr := by
    cases xs with
    | inl _ =>
      obtain ⟨s₁, ls₁, rfl, h1, -⟩ := left_run hr
      exact caught_grammar hf h1
    | inr y =>
      obtain ⟨s₁, ls₁, rfl, h1, -⟩ := right_run hr
      exact hf₂.grammar y t ls₁ s₁ h1

/-- C179 is violated, in general: whatever the handlers, and whatever fails, the second handler is never called; the observer gets what the first `catch` sends. -/
theorem C179_second_violated (hf : Proper fam) (hf₂ : Proper fam₂) {ls s}
    (hr : LTS.run (chained fam h1 c x fam₂ h2 c₂ honour t0).step (chained fam h1 c x fam₂ h2 c₂ honour t0).init ls = some s) :
    ∃ s₁ ls₁, s.srcs = [(.inl (), t0, .inl s₁)] ∧ s.sent = s₁.sent ∧
      LTS.run (Clocked.caught fam h1 honour c x t0).step (Clocked.caught fam h1 honour c x t0).init ls₁ = some s₁ ∧ ∀ l, Time.act l ∈ ls₁ → Time.act (.source 0 (.inl l)) ∈ ls := by
  have hF := alternatives_proper (h1 := h1) (honour := honour) (c := c) (x := x) hf hf₂
  obtain ⟨hist, hp, hc⟩ := past hF hr
  have h0 : ∃ s0, s.srcs[0]? = some (.inl (), t0, s0) := by
    have h0 : (births s)[0]? = some (.inl (), t0) := by
      refine LTS.inv (step := nextAt h2 honour) (fun st => st.2.2[0]? = some (.inl (), t0)) (s0 := (start c₂ (.inl ()), [], [(.inl (), t0)])) rfl ?_ hp.run
      rintro ⟨ctl, sent, bs⟩ l st' ih hst
      simp only [nextAt, Option.map_eq_some_iff] at hst
      obtain ⟨r, -, rfl⟩ := hst
      dsimp only at ih ⊢
      rw [List.getElem?_append_left (List.getElem?_eq_some_iff.mp ih).1]
      exact ih
    rw [births, List.getElem?_map] at h0
    obtain ⟨⟨y, u, si⟩, g1, g2⟩ := Option.map_eq_some_iff.mp h0
    obtain ⟨rfl, rfl⟩ := Prod.mk.inj g2
    exact ⟨si, g1⟩
  obtain ⟨s0, h0⟩ := h0
  obtain ⟨⟨li, hl, hl'⟩, -⟩ := hp.sources _ _ _ _ h0
  obtain ⟨s₁, ls₁, rfl, g1, g2⟩ := left_run hl
  have hlen : s.srcs.length = 1 := by
    have := (List.getElem?_eq_some_iff.mp h0).1
    rcases Nat.lt_or_ge 1 s.srcs.length with hlt | hge
    · obtain ⟨⟨ys, u, sj⟩, hj⟩ : ∃ i, s.srcs[0 + 1]? = some i := ⟨_, List.getElem?_eq_getElem hlt⟩
      obtain ⟨e, te, a1, -⟩ := hc.chain 0 ys u (by rw [births, List.getElem?_map, hj]; rfl)
      rw [hp.calls 0 _ _ _ h0] at a1
      exact absurd a1 (no_error hf g1 e te)
    · omega
  have hs : s.srcs = [(.inl (), t0, .inl s₁)] := by
    obtain ⟨i, hi⟩ := List.length_eq_one_iff.mp hlen
    rw [hi] at h0 ⊢
    simpa using h0
  refine ⟨s₁, ls₁, hs, ?_, g1, fun l h => hl' _ (g2 l h)⟩
  rw [C115_in_order hF hr, hs]
  simp only [List.flatMap_cons, List.flatMap_nil, List.append_nil]
  show noErrors s₁.sent = _
  rw [noErrors, List.filter_eq_self]
  rintro ⟨n, u⟩ hmem
  cases n with
  | error e => exact absurd hmem (no_error hf g1 e u)
  | next _ => rfl
  | completed => rfl

/-- C179 is violated, in general: with `pipe(a, catch(lambda _: b), catch(h2))`, each time `b` fails it is subscribed again. -/
theorem C179_again_violated {b : ω} (hf : Proper fam) (hf₂ : Proper fam₂) {ls s}
    (hr : LTS.run (chained fam (pure fun _ => .ok b) () x fam₂ h2 c₂ honour t0).step (chained fam (pure fun _ => .ok b) () x fam₂ h2 c₂ honour t0).init ls = some s)
    (hn : ∀ j, Time.act (.source 0 (.inl (.own (.fails j)))) ∉ ls) :
    ∃ s₁, s.srcs = [(.inl (), t0, .inl s₁)] ∧ (Idle s₁ → ∀ (k : Nat) y u si e te, s₁.srcs[k]? = some (y, u, si) → (.error e, te) ∈ (fam y u).calls si →
      ∃ v sj, s₁.srcs[k + 1]? = some (b, v, sj)) := by
  obtain ⟨s₁, ls₁, h3, -, h4, h5⟩ := C179_second_violated hf hf₂ hr
  refine ⟨s₁, h3, fun hi k y u si e te hk he => ?_⟩
  obtain ⟨-, hd⟩ := C115_handled hf h4
  rcases C115_continues hf h4 (fun j hj => hn j (h5 _ hj)) hi hk he with hlt | ⟨e', h⟩
  · obtain ⟨⟨ys, v, sj⟩, hj⟩ : ∃ i, s₁.srcs[k + 1]? = some i := ⟨_, List.getElem?_eq_getElem hlt⟩
    obtain ⟨_, _, -, a2, -⟩ := hd k _ _ _ _ _ _ hk hj
    cases a2
    exact ⟨v, sj, hj⟩
  · cases h

/-- C179, the part that holds: as long as `b` has not failed, the observer gets the values of `a`, and if `a` has failed, then what `b` sends. Missing: what comes when `b` has failed. -/
theorem C179_partial {b : ω} (hf : Proper fam) (hf₂ : Proper fam₂) {ls s}
    (hr : LTS.run (chained fam (pure fun _ => .ok b) () x fam₂ h2 c₂ honour t0).step (chained fam (pure fun _ => .ok b) () x fam₂ h2 c₂ honour t0).init ls = some s) :
    ∃ s₁ sa, s.srcs = [(.inl (), t0, .inl s₁)] ∧ s₁.srcs[0]? = some (x, t0, sa) ∧
      ((∀ (u : Nat) sb, s₁.srcs[1]? = some (b, u, sb) → ∀ e te, (.error e, te) ∉ (fam b u).calls sb) →
        (s₁.srcs = [(x, t0, sa)] ∧ s.sent = noErrors ((fam x t0).calls sa)) ∨
        ∃ u sb e te, s₁.srcs = [(x, t0, sa), (b, u, sb)] ∧ (.error e, te) ∈ (fam x t0).calls sa ∧ te ≤ u ∧ s.sent = noErrors ((fam x t0).calls sa) ++ (fam b u).calls sb) := by
  obtain ⟨s₁, ls₁, h3, h6, h4, h5⟩ := C179_second_violated hf hf₂ hr
  obtain ⟨⟨sa, h0⟩, hd⟩ := C115_handled hf h4
  refine ⟨s₁, sa, h3, h0, fun hb => ?_⟩
  rw [h6, C115_in_order hf h4]
  match hsrc : s₁.srcs with
  | [] => rw [hsrc] at h0; cases h0
  | [i] =>
    rw [hsrc] at h0
    obtain rfl : i = (x, t0, sa) := by simpa using h0
    exact .inl ⟨rfl, by simp⟩
  | i :: (y, u, sb) :: rest =>
    rw [hsrc] at h0 hd hb
    obtain rfl : i = (x, t0, sa) := by simpa using h0
    obtain ⟨e, te, a1, a2, a3, -⟩ := hd 0 _ _ _ _ _ _ rfl rfl
    cases a2
    have hne := hb u sb rfl
    match rest with
    | (z, w, sz) :: rest =>
      obtain ⟨e', te', b1, -⟩ := hd 1 _ _ _ _ _ _ rfl rfl
      exact absurd b1 (hne e' te')
    | [] =>
      refine .inr ⟨u, sb, e, te, rfl, a1, a3, ?_⟩
      simp only [List.flatMap_cons, List.flatMap_nil, List.append_nil]
      congr 1
      rw [noErrors, List.filter_eq_self]
      rintro ⟨n, u⟩ hmem
      cases n with
      | error e => exact absurd hmem (hne e u)
      | next _ => rfl
      | completed => rfl

/-! ## Examples -/

section Examples

/-- `a` (`false`) and `b` (`true`) send 7 and then fail; `c` is `interval(2, 3)`. -/
abbrev demoBoth : Bool → Nat → Clocked ((OneShot × List (Notif Nat)) × Nat × List (Notif Nat × Nat)) (Option Unit) Nat := fun _ t => demoSource t
abbrev demoLast : Unit → Nat → Clocked Interval.State Interval.Label Nat := fun _ t => Interval.clocked true t 2 3
abbrev demoChain := chained demoBoth (pure fun _ => .ok true) () false demoLast (pure fun _ => .ok (.inr ())) () true 0
abbrev inFirst (l : Caught.Label (Option Unit) Nat) : Time (Caught.Label (Caught.Label (Option Unit) Nat ⊕ Interval.Label) Nat) := .act (.source 0 (.inl l))
abbrev demoChainRun : List (Time (Caught.Label (Caught.Label (Option Unit) Nat ⊕ Interval.Label) Nat)) :=
  [inFirst (.own (.subscribed 0)), .act (.own (.subscribed 0)), .pass 1,
   inFirst (.source 0 (some ())), inFirst (.own (.disposed 0)), inFirst (.own (.subscribed 0)), .pass 1,
   inFirst (.source 1 (some ())), inFirst (.own (.disposed 0)), inFirst (.own (.subscribed 0)), .pass 1,
   inFirst (.source 2 (some ())), inFirst (.own (.disposed 0)), inFirst (.own (.subscribed 0)), .pass 9]

set_option synthInstance.maxSize 1000 in
/-- C179 is violated: `b` fails at 2, is subscribed again, fails at 3, and is subscribed again; `c` is not subscribed, and 9 later nothing else has come. -/
theorem C179_violated : (LTS.run demoChain.step demoChain.init demoChainRun).map (fun s => (births s, s.sent, s.now, s.srcs.map fun i => match i.2.2 with | .inl s₁ => births s₁ | .inr _ => [])) =
    some ([(.inl (), 0)], [(.next 7, 1), (.next 7, 2), (.next 7, 3)], 12, [[(false, 0), (true, 1), (true, 2), (true, 3)]]) := by decide +kernel

theorem demoBoth_proper : Proper demoBoth := ⟨fun _ t => ⟨Source.clocked_lawful _ t, rfl⟩, fun _ t => demoSource_grammar t⟩
theorem demoLast_proper : Proper demoLast := ⟨fun _ t => ⟨Interval.clocked_lawful true t 2 3, rfl⟩, fun _ _ _ _ => Interval.clocked_grammar⟩

/-- The hypotheses of the theorems above are met. -/
example : ∀ j, Time.act (.source 0 (.inl (.own (.fails j)))) ∉ demoChainRun := by simp
example {s} (hr : LTS.run demoChain.step demoChain.init demoChainRun = some s) : ∃ s₁ : Caught Unit _ Bool Nat, s.srcs = [(.inl (), 0, .inl s₁)] := by
  obtain ⟨s₁, h, -⟩ := C179_again_violated demoBoth_proper demoLast_proper hr (by simp)
  exact ⟨s₁, h⟩

/-- `C179_partial`: before `b` has failed. -/
example {s} (hr : LTS.run demoChain.step demoChain.init (demoChainRun.take 7) = some s) : ∃ (s₁ : Caught Unit _ Bool Nat) (sa : (OneShot × List (Notif Nat)) × Nat × List (Notif Nat × Nat)),
    s.srcs = [(.inl (), 0, .inl s₁)] ∧ s₁.srcs[0]? = some (false, 0, sa) := by
  obtain ⟨s₁, sa, h1, h2, -⟩ := C179_partial demoBoth_proper demoLast_proper hr
  exact ⟨s₁, sa, h1, h2⟩
example : (LTS.run demoChain.step demoChain.init (demoChainRun.take 7)).map (fun s => (s.sent, s.srcs.map fun i => match i.2.2 with | .inl s₁ => births s₁ | .inr _ => [])) =
    some ([(.next 7, 1)], [[(false, 0), (true, 1)]]) := by decide +kernel

end Examples

end Aio.Caught
