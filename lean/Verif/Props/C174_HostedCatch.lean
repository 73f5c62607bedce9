import Verif.Lemmas.HostedCaught
import Verif.Props.C117_Hosted
import Verif.Props.C131_HostedNested
/-!
# C174: `catch` on the `VirtualTimeEventLoop`

The theorems of C115 assume that time passes only when no activation of `action` is suspended. On the `VirtualTimeEventLoop` this is so, whatever else runs on it.
-/

namespace Aio.Caught
open Spec Spec.Timed Catch
open VirtualTime (Heap)
variable {C S S₁ S₂ L L₁ L₂ T T₁ ω α β : Type} {h : Heap} {fam : ω → Nat → Clocked S L α} {hd : Handler C ω} {c : C} {x : ω} {t0 : Nat} {I : Host S L T}

/-- A source fails once. -/
theorem fails_once {cs : List (Notif α × Nat)} (hg : Grammar (cs.map (·.1))) {e₁ e₂ : Err} {t₁ t₂ : Nat} (m1 : (.error e₁, t₁) ∈ cs) (m2 : (.error e₂, t₂) ∈ cs) :
    e₁ = e₂ ∧ t₁ = t₂ := by
  obtain ⟨⟨vs, f⟩, hcs⟩ := hg
  induction vs generalizing cs with
  | nil =>
    cases f with
    | running => simp [Story.events] at hcs; subst hcs; cases m1
    | done =>
      match cs, hcs with
      | [(n, t)], hcs => simp [Story.events] at hcs; subst hcs; simp at m1
    | failed e =>
      match cs, hcs with
      | [(n, t)], hcs => simp at m1 m2; obtain ⟨rfl, rfl⟩ := m1; obtain ⟨b, rfl⟩ := m2; cases b; exact ⟨rfl, rfl⟩
      | [], hcs => cases m1
      | _ :: _ :: _, hcs => simp [Story.events] at hcs
  | cons v vs ih =>
    match cs, hcs with
    | (n, t) :: cs, hcs =>
      simp only [Story.events, List.map_cons, List.cons_append, List.cons.injEq] at hcs
      obtain ⟨rfl, hcs⟩ := hcs
      exact ih (by simpa using m1) (by simpa using m2) hcs

section
variable [DecidableEq T]

/-- C174: what `catch` does on the virtual loop is what it does on a loop that is not overloaded; when no callback is due, it has done all it has to. -/
theorem C174_schedule (K : h.Laws) (hI : Host.Family I fam) (hf : Proper fam) {hops ls m}
    (hr : LTS.run (Hosted.step h hops (Clocked.caught fam hd false c x t0) I.caught) Hosted.init ls = some m) {s} (hm : m.sub = some s) :
    (s.now : Int) = m.vt.time ∧ ∃ ks, LTS.run (Clocked.caught fam hd false c x t0).step (Clocked.caught fam hd false c x t0).init ks = some s ∧
      (Clocked.caught fam hd false c x t0).Prompt Idle ks ∧ NoFailure ks ∧ (m.vt.ready = [] → Idle s) ∧ ∀ k l, Time.act (.source k l) ∈ ks → I.Own l := by
  have hl := Host.caught_lawful (hd := hd) (c := c) (x := x) (t0 := t0) hI hf
  obtain ⟨hn, ks, h1, h2, h3⟩ := Hosted.C117_schedule K hl hr hm
  obtain ⟨o1, o2⟩ := Host.caught_own h3
  refine ⟨hn, ks, h1, fun a d b s he ha => Host.caught_idle (h2 a d b s he ha), fun j hj => ?_, fun hrest => ?_, o1⟩
  · obtain ⟨j', h | h⟩ := o2 _ hj <;> cases h
  · exact Host.caught_idle (Hosted.C117_rest K hl hr hm hrest).1

/-- C174: the observer has got what the sources have sent, one source after the other, at the same times, without the errors. -/
theorem C174_in_order (K : h.Laws) (hI : Host.Family I fam) (hf : Proper fam) {hops ls m}
    (hr : LTS.run (Hosted.step h hops (Clocked.caught fam hd false c x t0) I.caught) Hosted.init ls = some m) {s} (hm : m.sub = some s) :
    s.sent = s.srcs.flatMap fun i => noErrors ((fam i.1 i.2.1).calls i.2.2) := by
  obtain ⟨-, ks, h1, -⟩ := C174_schedule K hI hf hr hm
  exact C115_in_order hf h1

/-- C174: the observable that the handler returns for an error is subscribed exactly at the time of the error; and whenever no callback is due, it has been
subscribed, for every source that has failed, unless the handler raised. -/
theorem C174_handled {g : Err → Except Err ω} (K : h.Laws) (hI : Host.Family I fam) (hf : Proper fam) {hops ls m}
    (hr : LTS.run (Hosted.step h hops (Clocked.caught fam (pure g) false () x t0) I.caught) Hosted.init ls = some m) {s} (hm : m.sub = some s) :
    (∃ s0, s.srcs[0]? = some (x, t0, s0)) ∧
    (∀ (k : Nat) xs t si ys u sj, s.srcs[k]? = some (xs, t, si) → s.srcs[k + 1]? = some (ys, u, sj) →
      ∃ e, (.error e, u) ∈ (fam xs t).calls si ∧ g e = .ok ys) ∧
    (m.vt.ready = [] → ∀ (k : Nat) xs t si e te ys, s.srcs[k]? = some (xs, t, si) → (.error e, te) ∈ (fam xs t).calls si → g e = .ok ys →
      ∃ sj, s.srcs[k + 1]? = some (ys, te, sj)) := by
  obtain ⟨-, ks, h1, h2, h3, h4, -⟩ := C174_schedule K hI hf hr hm
  obtain ⟨g1, g2⟩ := C115_handled hf h1
  refine ⟨g1, fun k xs t si ys u sj hk hk' => ?_, fun hrest k xs t si e te ys hk he hg => ?_⟩
  · obtain ⟨e, te, a1, a2, -, a4⟩ := g2 k xs t si ys u sj hk hk'
    rw [a4 h2] at a1
    exact ⟨e, a1, a2⟩
  · rcases C115_continues hf h1 h3 (h4 hrest) hk he with hlt | ⟨e', hg'⟩
    · obtain ⟨⟨ys', u, sj⟩, hk'⟩ : ∃ i, s.srcs[k + 1]? = some i := ⟨_, List.getElem?_eq_getElem hlt⟩
      obtain ⟨e1, te1, a1, a2, -, a4⟩ := g2 k xs t si ys' u sj hk hk'
      obtain ⟨hist, hp, -⟩ := past hf h1
      obtain ⟨li, hli, -⟩ := (hp.sources k xs t si hk).1
      obtain ⟨rfl, rfl⟩ := fails_once (hf.grammar xs t li si hli) he a1
      rw [hg] at a2
      cases a2
      rw [← a4 h2] at hk'
      exact ⟨sj, hk'⟩
    · rw [hg] at hg'; cases hg'

/-- C174: an operator behind `catch`. -/
theorem C174_operator (K : h.Laws) (hI : Host.Family I fam) (hf : Proper fam) {op : Operator α β} [DecidableEq op.protected.compileSlow.SlowLab] {G : Story α → Story β}
    (hG : op.Computes G) (h0 : (G ⟨[], .running⟩).events = []) {workers} (hw : ∀ w, w ∈ workers) {hops ls m}
    (hr : LTS.run (Hosted.step h hops ((Clocked.caught fam hd false c x t0).operate op.protected.slowProc) (I.caught.operate op.protected.slowProc workers)) Hosted.init ls = some m)
    {s} (hm : m.sub = some s) (hrest : m.vt.ready = []) :
    InTime s.2.sent ∧ ∀ t, upto t s.2.sent = (G (story (upto t (s.1.srcs.flatMap fun i => noErrors ((fam i.1 i.2.1).calls i.2.2))))).events := by
  have hM := Host.caught_lawful (hd := hd) (c := c) (x := x) (t0 := t0) hI hf
  obtain ⟨g1, -, g3⟩ := C117_operator K hM hw hG.guarded.slow h0 (fun _ _ _ => trivial) hr hm
  obtain ⟨-, ks, h1, -⟩ := Hosted.C117_schedule K (Host.operate_lawful (p := op.protected.slowProc) hM hw) hr hm
  rw [← C115_in_order hf (Clocked.operate_source hM.clock h1).1]
  exact ⟨g1, g3 hrest⟩

end

/-! ## An interval as a fallback -/

theorem fallback_family {src : Nat → Clocked S L Nat} {H : Host S L T} (hs : ∀ t, H.Lawful (src t) ∧ (src t).now (src t).init = t ∧ ∀ n w, H.need (src t).init n ≠ .until w)
    (seconds period : Int) : Host.Family (H.sum Interval.host) (fallback src seconds period) where
  lawful xs t := by
    cases xs with
    | inl _ => exact Host.left_lawful (hs t).1
    | inr _ => exact Host.right_lawful Interval.host_lawful
  start xs t := by
    cases xs with
    | inl _ => exact (hs t).2.1
    | inr _ => rfl
  fresh xs t n w := by
    cases xs with
    | inl _ =>
      cases n with
      | inl n => exact (hs t).2.2 n w
      | inr n => simp [Host.sum, fallback, Clocked.left]
    | inr _ =>
      cases n with
      | inl n => simp [Host.sum, fallback, Clocked.right]
      | inr n => exact fun h => by cases h

/-- C174: `pipe(source, catch(lambda _: interval(s, p)))` on the virtual loop, when no callback is due: the observer has got what the source has sent; and if the source has
failed at a time `te`, then the first `n` values of the interval, the value `k` exactly at `te + s + kp`, and these are all that were due before the present time. -/
theorem C174_fallback [DecidableEq T] (K : h.Laws) {src : Nat → Clocked S L Nat} {H : Host S L T}
    (hs : ∀ t, H.Lawful (src t) ∧ (src t).now (src t).init = t ∧ ∀ n w, H.need (src t).init n ≠ .until w)
    (hg : ∀ t ls s, LTS.run (src t).step (src t).init ls = some s → Grammar (((src t).calls s).map (·.1))) {seconds period : Int} (hp : period ≠ 0) {hops ls m}
    (hr : LTS.run (Hosted.step h hops (withFallback src seconds period false t0) ((H.sum Interval.host).caught)) Hosted.init ls = some m) {s} (hm : m.sub = some s)
    (hrest : m.vt.ready = []) :
    ∃ s0, s.srcs[0]? = some (.inl (), t0, .inl s0) ∧
      (((∀ e te, (.error e, te) ∉ (src t0).calls s0) ∧ s.sent = (src t0).calls s0) ∨
        ∃ e te n, (.error e, te) ∈ (src t0).calls s0 ∧
          s.sent = noErrors ((src t0).calls s0) ++ (List.range n).map (fun k => (.next k, Interval.due te seconds period k)) ∧
          ∀ k, (Interval.due te seconds period k : Int) < m.vt.time → k < n) := by
  have hI := fallback_family hs seconds period
  have hf := fallback_proper (fun t => ⟨(hs t).1.clock, (hs t).2.1⟩) hg seconds period
  obtain ⟨hn, ks, h1, h2, h3, h4, h5⟩ := C174_schedule K hI hf hr hm
  obtain ⟨⟨z0, hz0⟩, g2, g3⟩ := C174_handled K hI hf hr hm
  have horder := C115_in_order hf h1
  obtain ⟨hist, hpast, -⟩ := past hf h1
  obtain ⟨⟨li0, hli0, -⟩, -⟩ := hpast.sources 0 _ _ _ hz0
  obtain ⟨s0, ls0, rfl, hrun0, -⟩ := left_run hli0
  refine ⟨s0, hz0, ?_⟩
  have hcalls0 : (fallback src seconds period (.inl ()) t0).calls (.inl s0) = (src t0).calls s0 := rfl
  have own : ∀ {l : Interval.Label}, (H.sum Interval.host).Own (.inr l) → l = .start ∨ l = .wake ∨ l = .ret := by
    intro l ho
    rcases ho with h | ⟨s1, t, h⟩
    · cases h
    · match s1, t with
      | .inl s1, .inl t => simp [Host.sum] at h
      | .inl s1, .inr t => cases h
      | .inr s1, .inl t => cases h
      | .inr s1, .inr t =>
        simp only [Host.sum, Interval.host] at h
        split at h <;> simp at h <;> simp [h]
  rcases Nat.lt_or_ge 1 s.srcs.length with hlt | hge
  · obtain ⟨⟨ys, u, z1⟩, hz1⟩ : ∃ i, s.srcs[1]? = some i := ⟨_, List.getElem?_eq_getElem hlt⟩
    obtain ⟨e, a1, a2⟩ := g2 0 _ _ _ ys u z1 hz0 hz1
    obtain rfl : Sum.inr () = ys := by simpa using a2
    obtain ⟨⟨li1, hli1, hli1'⟩, hnow1⟩ := hpast.sources 1 _ _ _ hz1
    obtain ⟨s1, ls1, rfl, hrun1, hls1⟩ := right_run hli1
    obtain ⟨n, hn', hall⟩ := Interval.clocked_exact hp hrun1
    have hcalls1 : (fallback src seconds period (.inr ()) u).calls (.inr s1) = (List.range n).map (fun k => (.next k, Interval.due u seconds period k)) := hn'
    have hlen : s.srcs.length = 2 := by
      rcases Nat.lt_or_ge 2 s.srcs.length with h3 | h3
      · obtain ⟨⟨zs, v, z2⟩, hz2⟩ : ∃ i, s.srcs[2]? = some i := ⟨_, List.getElem?_eq_getElem h3⟩
        obtain ⟨e', b1, -⟩ := g2 1 _ _ _ zs v z2 hz1 hz2
        rw [hcalls1] at b1
        simp at b1
      · omega
    have hsrcs : s.srcs = [(.inl (), t0, .inl s0), (.inr (), u, .inr s1)] := by
      match hss : s.srcs, hlen with
      | [a, b], _ =>
        rw [hss] at hz0 hz1
        simp at hz0 hz1
        rw [hz0, hz1]
    refine .inr ⟨e, u, n, a1, ?_, fun k hk => hall (fun h => ?_) (fun e h => ?_) k ?_⟩
    · rw [horder, hsrcs]
      simp only [List.flatMap_cons, List.flatMap_nil, List.append_nil, hcalls0, hcalls1]
      congr 1
      rw [noErrors, List.filter_eq_self]
      intro c hc
      obtain ⟨k, -, rfl⟩ := List.mem_map.mp hc
      rfl
    · have := own (h5 _ _ (hli1' _ (hls1 _ h))); simp at this
    · have := own (h5 _ _ (hli1' _ (hls1 _ h))); simp at this
    · have : s1.now = s.now := hnow1
      omega
  · have hlen : s.srcs.length = 1 := by
      have := (List.getElem?_eq_some_iff.mp hz0).1
      omega
    have hno : ∀ e te, (.error e, te) ∉ (src t0).calls s0 := by
      intro e te he
      obtain ⟨sj, hsj⟩ := g3 hrest 0 _ _ _ e te (.inr ()) hz0 he rfl
      rw [List.getElem?_eq_none (by omega)] at hsj
      cases hsj
    refine .inl ⟨hno, ?_⟩
    have hsrcs : s.srcs = [(.inl (), t0, .inl s0)] := by
      match hss : s.srcs, hlen with
      | [a], _ =>
        rw [hss] at hz0
        simp at hz0
        rw [hz0]
    rw [horder, hsrcs]
    simp only [List.flatMap_cons, List.flatMap_nil, List.append_nil, hcalls0]
    rw [noErrors, List.filter_eq_self]
    rintro ⟨n, t⟩ hc
    cases n with
    | error e => exact absurd hc (hno e t)
    | _ => rfl

/-! ## Examples -/

section Examples

/-- `of_async(work)` where `work` raises after 2, with `interval(1, 3)` as a fallback, subscribed at 5. -/
abbrev brokenJob (t : Nat) := Job.clocked (α := Nat) 2 (.error (.user 1)) t
abbrev hostedDemo := withFallback brokenJob 1 3 false 5
abbrev hostedDemoHost := ((Job.host (α := Nat)).sum Interval.host).caught (C := Unit) (ω := Unit ⊕ Unit) (α := Nat)

theorem brokenJob_hosted (t : Nat) : (Job.host (α := Nat)).Lawful (brokenJob t) ∧ (brokenJob t).now (brokenJob t).init = t ∧ ∀ n w, Job.host.need (brokenJob t).init n ≠ .until w :=
  ⟨Job.host_lawful, rfl, fun n w h => by cases n <;> cases h⟩

theorem brokenJob_grammar (t : Nat) (ls s) (hr : LTS.run (brokenJob t).step (brokenJob t).init ls = some s) : Grammar (((brokenJob t).calls s).map (·.1)) := by
  have := ((Job.exact_ hr).1).map (·.1)
  rw [List.map_map] at this
  exact grammar_prefix this (by simpa [Function.comp_def] using Job.result_grammar (.error (.user 1)))

/-- The hypotheses of `C174_fallback` hold of every run of this. -/
example {hops ls m} (hr : LTS.run (Hosted.step VirtualTime.heapq hops hostedDemo hostedDemoHost) Hosted.init ls = some m) {s} (hm : m.sub = some s) (hrest : m.vt.ready = []) :=
  C174_fallback VirtualTime.heapqLaws brokenJob_hosted brokenJob_grammar (by decide) hr hm hrest

example : Nested.shown hostedDemo hostedDemoHost (fun _ => 1) ([some (.loop (.callAt 5)), none, none, some .subscribe] ++ List.replicate 90 none) =
    some (17, some [(.next 0, 8), (.next 1, 11), (.next 2, 14), (.next 3, 17)]) := by decide +kernel

end Examples

end Aio.Caught
