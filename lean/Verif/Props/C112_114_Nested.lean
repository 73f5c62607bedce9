import Verif.Lemmas.NestedArrive
import Verif.Props.C35_40_Merge
import Verif.Props.C41_42_Switch
import Verif.Props.C109_111_Timed
/-!
# C112, C113, C114: `merge`, `concat` and `switch_latest` of observables that send at certain times
-/

namespace Aio
open Spec Spec.Timed
variable {SO LO S SI LI ω α β : Type}

namespace Nested

/-- The source and the inner observables keep the grammar and make their calls at the times that they say; an inner observable's clock starts with
the time of its subscription. -/
structure Proper (o : Clocked SO LO ω) (fam : ω → Nat → Clocked SI LI α) : Prop where
  source : o.Lawful
  sourceGrammar : ∀ ls s, LTS.run o.step o.init ls = some s → Grammar ((o.calls s).map (·.1))
  inner : ∀ xs t, (fam xs t).Lawful ∧ (fam xs t).now (fam xs t).init = t
  innerGrammar : ∀ xs t ls s, LTS.run (fam xs t).step (fam xs t).init ls = some s → Grammar (((fam xs t).calls s).map (·.1))

/-- No `subscribe_async` or `dispose_async` of an inner observable raises. -/
def NoFailure (ls : List (Time (Nested.Label LO LI ω α))) : Prop := Time.act (.own .subscribeFails) ∉ ls ∧ Time.act (.own .disposeFails) ∉ ls

/-- When which inner observable was subscribed. -/
def subs (s : Nested SO S SI ω α) : List (ω × Nat) := s.inners.map fun i => (i.1, i.2.1)

/-! ## the workers -/

theorem merge_starts (mx : Int) : Starts (mergeInner (ω := ω) (α := α) mx) Merge.State.started := by
  refine ⟨rfl, fun {s l s' out} h => ?_⟩
  rcases Merge.step_started h with h1 | ⟨rfl, xs, h1⟩
  · rw [h1]; exact ⟨List.prefix_refl _, fun _ => rfl⟩
  · rw [h1]; exact ⟨List.prefix_append .., fun h => (by cases h)⟩

theorem merge_forwards (mx : Int) : Forwards (mergeInner (ω := ω) (α := α) mx) := by
  intro s l s' out h
  rcases Merge.step_out h with rfl | ⟨rfl, -, rfl⟩
  · cases l with
    | outer n => cases n <;> rfl
    | inner k n => cases n <;> rfl
    | _ => rfl
  · rfl

theorem switch_step {honour : Bool} {s s' : Switch.State ω} {l : Merge.Label ω α} {out : List (Notif α)} (h : Switch.step honour s l = some (s', out)) :
    (s.started <+: s'.started ∧ (own l = false → s'.started = s.started)) ∧ Merge.noDone out = Merge.arrivals [l] := by
  cases l with
  | outer n => cases n <;> (simp only [Switch.step, Option.some.injEq, Prod.mk.injEq] at h; obtain ⟨rfl, rfl⟩ := h; exact ⟨⟨List.prefix_refl _, fun _ => rfl⟩, rfl⟩)
  | inner k n =>
    simp only [Switch.step] at h
    split at h
    · cases n <;> (simp only [Option.some.injEq, Prod.mk.injEq] at h; obtain ⟨rfl, rfl⟩ := h; exact ⟨⟨List.prefix_refl _, fun _ => rfl⟩, rfl⟩)
    · cases h
  | cancel => simp only [Switch.step, Option.some.injEq, Prod.mk.injEq] at h; obtain ⟨rfl, rfl⟩ := h; exact ⟨⟨List.prefix_refl _, fun _ => rfl⟩, rfl⟩
  | receive =>
    simp only [Switch.step] at h
    split at h
    next msg q hp hq =>
      simp only [Option.some.injEq] at h
      cases msg with
      | inner xs =>
        simp only [Switch.update] at h
        split at h <;> (obtain ⟨rfl, rfl⟩ := Prod.mk.inj h; exact ⟨⟨by first | exact List.prefix_refl _ | exact List.prefix_append .., fun h => (by cases h)⟩, rfl⟩)
      | innerCompleted k =>
        simp only [Switch.update] at h
        split at h <;> (obtain ⟨rfl, rfl⟩ := Prod.mk.inj h; exact ⟨⟨List.prefix_refl _, fun h => (by cases h)⟩, rfl⟩)
      | completed =>
        simp only [Switch.update] at h
        obtain ⟨rfl, rfl⟩ := Prod.mk.inj h
        refine ⟨⟨List.prefix_refl _, fun h => (by cases h)⟩, ?_⟩
        split <;> rfl
      | dispose =>
        simp only [Switch.update] at h
        split at h <;> (obtain ⟨rfl, rfl⟩ := Prod.mk.inj h; exact ⟨⟨List.prefix_refl _, fun h => (by cases h)⟩, rfl⟩)
    next => cases h
  | subscribed => simp only [Switch.step] at h; split at h <;> simp at h; obtain ⟨rfl, rfl⟩ := h; exact ⟨⟨List.prefix_refl _, fun h => (by cases h)⟩, rfl⟩
  | subscribeFails => simp only [Switch.step] at h; split at h <;> simp at h; obtain ⟨rfl, rfl⟩ := h; exact ⟨⟨List.prefix_refl _, fun h => (by cases h)⟩, rfl⟩
  | disposed =>
    simp only [Switch.step] at h; split at h <;> simp at h
    · obtain ⟨rfl, rfl⟩ := h; exact ⟨⟨List.prefix_append .., fun h => (by cases h)⟩, rfl⟩
    · obtain ⟨rfl, rfl⟩ := h; exact ⟨⟨List.prefix_refl _, fun h => (by cases h)⟩, rfl⟩
  | disposeFails =>
    simp only [Switch.step] at h
    split at h <;> simp at h <;> (obtain ⟨rfl, rfl⟩ := h; exact ⟨⟨List.prefix_refl _, fun h => (by cases h)⟩, rfl⟩)

theorem switch_starts (honour : Bool) : Starts (switchLatest (ω := ω) (α := α) honour) Switch.State.started := ⟨rfl, fun h => (switch_step h).1⟩
theorem switch_forwards (honour : Bool) : Forwards (switchLatest (ω := ω) (α := α) honour) := fun h => (switch_step h).2

/-! ## what holds for both -/

section
variable {o : Clocked SO LO ω} {fam : ω → Nat → Clocked SI LI α} {p : Producer S (Merge.Label ω α) α} {started : S → List ω} {base : Nat}

theorem Past.lawful (hpr : Proper o fam) {ls s h} (hp : Past o fam p started base ls s h) : Merge.Lawful (h.map (·.1)) := by
  refine ⟨?_, fun j => ?_⟩
  · obtain ⟨lo, hlo, -⟩ := hp.source
    rw [outersAt_map, hp.outer]
    exact hpr.sourceGrammar lo _ hlo
  · rw [innersAt_map]
    by_cases hj : ∃ k < s.inners.length, j = k + base
    · obtain ⟨k, hk, rfl⟩ := hj
      obtain ⟨⟨xs, t, si⟩, hi⟩ : ∃ i, s.inners[k]? = some i := ⟨_, List.getElem?_eq_getElem hk⟩
      obtain ⟨⟨li, hli, -⟩, -⟩ := hp.sources k xs t si hi
      rw [hp.inner k xs t si hi]
      exact hpr.innerGrammar xs t li _ hli
    · rw [hp.fresh j fun k hk e => hj ⟨k, hk, e⟩]
      exact ⟨⟨[], .running⟩, rfl⟩

theorem Past.noFailure {ls ls' : List (Time (Nested.Label LO LI ω α))} {s h} (hp : Past o fam p started base ls s h) (hsub : ∀ l ∈ ls, l ∈ ls')
    (hf : NoFailure ls') : Merge.NoFailure (h.map (·.1)) := by
  constructor
  · intro hm
    obtain ⟨⟨l, t⟩, hx, rfl⟩ := List.mem_map.mp hm
    exact hf.1 (hsub _ (hp.own _ hx rfl))
  · intro hm
    obtain ⟨⟨l, t⟩, hx, rfl⟩ := List.mem_map.mp hm
    exact hf.2 (hsub _ (hp.own _ hx rfl))

theorem Past.noCancel {ls ls' : List (Time (Nested.Label LO LI ω α))} {s h} (hp : Past o fam p started base ls s h) (hsub : ∀ l ∈ ls, l ∈ ls')
    (hc : Time.act (.own .cancel) ∉ ls') : Merge.Label.cancel ∉ h.map (·.1) := by
  intro hm
  obtain ⟨⟨l, t⟩, hx, rfl⟩ := List.mem_map.mp hm
  exact hc (hsub _ (hp.own _ hx rfl))

/-- In any schedule: what is posted, apart from completions, is an interleaving, in the order of time, of the source's errors and of what the
inner observables sent, at the times at which these were sent. -/
theorem arrive (hpr : Proper o fam) (hs : Starts p started) (hfw : Forwards p) {ls s}
    (hr : LTS.run (o.nested fam p started base).step (o.nested fam p started base).init ls = some s) :
    InTime s.posts ∧
    (noDone s.posts).Perm (errors (o.calls s.outer) ++ s.inners.flatMap fun i => noDone ((fam i.1 i.2.1).calls i.2.2)) ∧
    ∀ i ∈ s.inners, (noDone ((fam i.1 i.2.1).calls i.2.2)).Sublist (noDone s.posts) := by
  obtain ⟨h, hp⟩ := past hpr.source hpr.inner hs hr
  have ha : noDone s.posts = arrivesAt h := posts_arrive hfw hp.run
  refine ⟨((nested_lawful hpr.source hpr.inner hs base).inTime hr).1, ?_, ?_⟩
  · rw [ha, ← hp.flat, ← hp.outer]
    exact arrives_perm hp.keys
  · intro i hi
    obtain ⟨k, hk⟩ := List.getElem?_of_mem hi
    obtain ⟨xs, t, si⟩ := i
    rw [ha, ← hp.inner k xs t si hk]
    exact arrives_sublist _ _

/-- Nothing happens before the subscription. -/
theorem _root_.Aio.Clocked.Lawful.after {q : Clocked SI LI α} (hq : q.Lawful) {ls s} (hr : LTS.run q.step q.init ls = some s) :
    q.now q.init ≤ q.now s ∧ ∀ c ∈ q.calls s, q.now q.init ≤ c.2 := by
  refine LTS.inv_reach (step := q.step) (fun _ s => q.now q.init ≤ q.now s ∧ ∀ c ∈ q.calls s, q.now q.init ≤ c.2) (s0 := q.init)
    (by rw [hq.init]; simp) ?_ hr
  intro ls s l t hr hi h
  cases l with
  | pass d =>
    obtain ⟨h1, h2⟩ := hq.pass hr h
    rw [h1, h2]
    exact ⟨by omega, hi.2⟩
  | act l =>
    obtain ⟨h1, ns, h2⟩ := hq.act hr h
    rw [h1, h2]
    refine ⟨hi.1, fun c hc => ?_⟩
    rcases List.mem_append.mp hc with hc | hc
    · exact hi.2 c hc
    · obtain ⟨n, -, rfl⟩ := List.mem_map.mp hc
      exact hi.1

theorem subs_after (hpr : Proper o fam) (hs : Starts p started) {ls s}
    (hr : LTS.run (o.nested fam p started base).step (o.nested fam p started base).init ls = some s) :
    InTime (subs s) ∧ ∀ i ∈ subs s, o.now o.init ≤ i.2 := by
  obtain ⟨h, new, a1, -, a3, a4, -⟩ := past_more hpr.source hpr.inner hs (past_init hpr.source hs base) hr
  refine ⟨a1.times.1, fun i hi => a4 i ?_⟩
  rw [subs, a3] at hi
  simpa [Clocked.nested] using hi

theorem Snap.upto_subs {t ls s ls₁ s₁ h₁} (hsn : Snap o fam p started base t ls s ls₁ s₁ h₁) : upto t (subs s) = started s₁.prod := by
  obtain ⟨new, h1, h2, h3⟩ := hsn.news
  rw [subs, h1, upto_mid _ h2, List.map_map, ← hsn.past.started]
  · rfl
  · intro c hc
    obtain ⟨i, hi, rfl⟩ := List.mem_map.mp hc
    exact h3 i hi

end

/-- The values of a stream that keeps the grammar. -/
theorem upto_values {cs : List (Notif α × Nat)} (hi : InTime cs) (hg : Grammar (cs.map (·.1))) (t : Nat) :
    upto t (valuesAt cs) = (story (upto t cs)).vals := by
  have h1 : upto t (valuesAt cs) = (upto t cs).filterMap fun | .next v => some v | _ => none := by
    clear hi hg
    induction cs with
    | nil => rfl
    | cons c cs ih =>
      obtain ⟨n, u⟩ := c
      have hv : valuesAt ((n, u) :: cs) = valuesAt [(n, u)] ++ valuesAt cs := List.filterMap_append (l := [(n, u)])
      have hu : upto t ((n, u) :: cs) = upto t [(n, u)] ++ upto t cs := upto_append t [(n, u)] cs
      rw [hv, hu, upto_append, List.filterMap_append, ih]
      congr 1
      by_cases ht : u ≤ t
      · cases n <;> simp [valuesAt, upto, ht]
      · cases n <;> simp [valuesAt, upto, ht]
  have hg' := grammar_prefix (upto_prefix (t := t) hi) hg
  rw [h1]
  obtain ⟨⟨vs, f⟩, h⟩ := hg'
  rw [h, story_events]
  simp only [Story.events, List.filterMap_append, List.filterMap_map]
  cases f <;> simp [End.events, Function.comp_def]

theorem inTime_values {cs : List (Notif α × Nat)} (hi : InTime cs) : InTime (valuesAt cs) := by
  rw [InTime, valuesAt, List.pairwise_filterMap]
  refine hi.imp fun {a b} hab x hx y hy => ?_
  obtain ⟨n, u⟩ := a
  obtain ⟨m, w⟩ := b
  cases n <;> cases hx
  cases m <;> cases hy
  exact hab

theorem mem_values {cs : List (Notif α × Nat)} {x : α × Nat} : x ∈ valuesAt cs ↔ (.next x.1, x.2) ∈ cs := by
  rw [valuesAt, List.mem_filterMap]
  constructor
  · rintro ⟨⟨n, u⟩, hm, he⟩
    cases n <;> cases he
    exact hm
  · intro h
    exact ⟨_, h, rfl⟩

theorem completed_once {cs : List (Notif α × Nat)} (hg : Grammar (cs.map (·.1))) {c c' : Nat} (h : (.completed, c) ∈ cs) (h' : (.completed, c') ∈ cs) :
    c = c' := by
  have key : ∀ {a b : List (Notif α × Nat)} {c : Nat}, cs = a ++ (.completed, c) :: b → ∀ c', (.completed, c') ∉ a := by
    rintro a b c rfl c' hm
    have h1 : Grammar ((a.map (·.1)) ++ [.completed]) := grammar_prefix ⟨b.map (·.1), by simp⟩ hg
    have h2 := grammar_snoc h1
    rw [Switch.fin_of_mem_completed (grammar_prefix (List.prefix_append ..) h1) (List.mem_map.mpr ⟨_, hm, rfl⟩)] at h2
    cases h2
  obtain ⟨a, b, rfl⟩ := List.append_of_mem h
  rcases List.mem_append.mp h' with hm | hm
  · exact absurd hm (key rfl c')
  · rcases List.mem_cons.mp hm with he | hm
    · cases he; rfl
    · obtain ⟨b1, b2, rfl⟩ := List.append_of_mem hm
      exact absurd (by simp) (key (a := a ++ (.completed, c) :: b1) (b := b2) (c := c') (by simp) c)

/-! ## `merge_inner` -/

section
variable {o : Clocked SO LO ω} {fam : ω → Nat → Clocked SI LI α}

/-- Nobody disposes the subscription, no subscribing or disposing fails, and the source does not fail. -/
structure Calm (o : Clocked SO LO ω) (ls : List (Time (Nested.Label LO LI ω α))) (s : Nested SO S SI ω α) : Prop where
  noFailure : NoFailure ls
  noCancel : Time.act (.own .cancel) ∉ ls
  noError : ∀ e t, (.error e, t) ∉ o.calls s.outer

theorem Calm.notStopped {p : Producer S (Merge.Label ω α) α} {started : S → List ω} {base : Nat} {t ls s ls₁ s₁ h₁} (hc : Calm o ls s)
    (hsn : Snap o fam p started base t ls s ls₁ s₁ h₁) : ¬ Merge.Stopped (h₁.map (·.1)) := by
  rintro (h | ⟨e, h⟩)
  · exact hsn.past.noCancel hsn.sub hc.noCancel h
  · have h1 := Switch.mem_outerCalls.mp h
    rw [← hsn.outer, upto, List.mem_map] at h1
    obtain ⟨⟨n, u⟩, h2, rfl⟩ := h1
    exact hc.noError e u (List.mem_filter.mp h2).1

/-- C112, `merge`: on a loop that is not overloaded, an inner observable is subscribed when the source sends it. -/
theorem C112_subscribed (hpr : Proper o fam) {ls s} (hr : LTS.run (o.merged fam 0).step (o.merged fam 0).init ls = some s)
    (hp : (o.merged fam 0).Prompt (fun s => Merge.Settled s.prod) ls) (hc : Calm o ls s) (hq : Merge.Settled s.prod) :
    subs s = valuesAt (o.calls s.outer) := by
  obtain ⟨h1, h2⟩ := subs_after hpr (merge_starts 0) hr
  obtain ⟨h, hpast⟩ := past hpr.source hpr.inner (merge_starts 0) hr
  obtain ⟨lo, hlo, -⟩ := hpast.source
  have ho := (hpr.source.inTime hlo).1
  refine Spec.Timed.ext h1 (inTime_values ho) fun t => ?_
  by_cases ht : o.now o.init ≤ t
  · obtain ⟨ls₁, s₁, h₁, hsn, hq₁⟩ := snapshot hpr.source hpr.inner (merge_starts 0) hr hp ht (.inr hq)
    rw [hsn.upto_subs, upto_values ho (hpr.sourceGrammar _ _ hlo), hsn.outer]
    rcases Merge.settled_started (Int.le_refl 0) hsn.solo (hsn.past.lawful hpr) (hsn.past.noFailure hsn.sub hc.noFailure) (hc.notStopped hsn) hq₁ with h | ⟨h, -⟩
    · exact h
    · omega
  · rw [upto_none fun c hc => by have := h2 c hc; omega, upto_none fun c hc => by
      have := (hpr.source.after hlo).2 _ (mem_values.mp hc); dsimp only at this; omega]

/-- C112, also `concat` and any other number of slots: the completion is sent when the source has completed and every inner observable has. -/
theorem C112_completed (hpr : Proper o fam) {mx : Int} (hm : 0 ≤ mx) {ls s} (hr : LTS.run (o.merged fam mx).step (o.merged fam mx).init ls = some s)
    (hp : (o.merged fam mx).Prompt (fun s => Merge.Settled s.prod) ls) (hc : Calm o ls s) (hq : Merge.Settled s.prod) (t : Nat) :
    .completed ∈ upto t s.posts ↔ (story (upto t (o.calls s.outer))).fin = .done ∧
      ∀ i ∈ s.inners, (story (upto t ((fam i.1 i.2.1).calls i.2.2))).fin = .done := by
  obtain ⟨h, hpast⟩ := past hpr.source hpr.inner (merge_starts mx) hr
  obtain ⟨lo, hlo, -⟩ := hpast.source
  have hit := (hpr.source.inTime hlo).1
  by_cases ht : o.now o.init ≤ t
  · obtain ⟨ls₁, s₁, h₁, hsn, hq₁⟩ := snapshot hpr.source hpr.inner (merge_starts mx) hr hp ht (.inr hq)
    have hw₁ := hsn.past.lawful hpr
    have hlen : s₁.inners.length = s₁.prod.started.length := by rw [← hsn.past.started, List.length_map]
    have hlen' : s.inners.length = s.prod.started.length := by rw [← hpast.started, List.length_map]
    rw [hsn.posts, hsn.outer]
    constructor
    · intro hd
      obtain ⟨g1, g2, g3⟩ := Merge.completed_posted hm hsn.solo hw₁ hd
      refine ⟨g1, fun i hi => ?_⟩
      obtain ⟨k, hk⟩ := List.getElem?_of_mem hi
      obtain ⟨xs, u, si⟩ := i
      rw [hsn.inner k xs u si hk]
      refine g3 k ?_
      have hpre := (Merge.started_prefix (Producer.soloAt_run hpast.run) (hpast.lawful hpr)).length_le
      have hsent : Merge.sent (h.map (·.1)) = Merge.sent (h₁.map (·.1)) := by
        obtain ⟨r, hr'⟩ := upto_prefix (t := t) hit
        rw [Merge.sent, outersAt_map, hpast.outer, ← hr', story_append_of_ended (by rw [hsn.outer, g1]; simp), hsn.outer]
        rfl
      have hlt := (List.getElem?_eq_some_iff.mp hk).1
      rw [hsent, ← g2] at hpre
      dsimp only at hpre
      omega
    · rintro ⟨g1, g2⟩
      refine Merge.settled_completed hm hsn.solo hw₁ (hsn.past.noFailure hsn.sub hc.noFailure) (hc.notStopped hsn) hq₁ g1 fun k hk => ?_
      have hlt : k < s.inners.length := by
        obtain ⟨new, e1, -⟩ := hsn.news
        have := congrArg List.length e1
        simp at this
        omega
      obtain ⟨⟨xs, u, si⟩, hi⟩ : ∃ i, s.inners[k]? = some i := ⟨_, List.getElem?_eq_getElem hlt⟩
      have := g2 _ (List.mem_of_getElem? hi)
      dsimp only at this
      rw [hsn.inner k xs u si hi] at this
      exact this
  · have h1 : upto t s.posts = [] := upto_none fun c hc => by
      have h : o.now o.init ≤ c.2 := ((nested_lawful hpr.source hpr.inner (merge_starts mx) 0).after hr).2 c hc
      omega
    have h2 : upto t (o.calls s.outer) = [] := upto_none fun c hc => by
      have := (hpr.source.after hlo).2 c hc; omega
    rw [h1, h2]
    simp [story]

/-! ## `concat` -/

theorem concat_next {ls : List (Merge.Label ω α)} {s : Merge.State ω} {posts : List (Notif α)}
    (hr : LTS.run (mergeInner 1).solo (Merge.State.initial, []) ls = some (s, posts)) (hw : Merge.Lawful ls) (hf : Merge.NoFailure ls)
    (hs : ¬ Merge.Stopped ls) (hq : Merge.Settled s) :
    (0 < s.started.length ↔ 0 < (Merge.sent ls).length) ∧
    ∀ k, k + 1 < s.started.length ↔ k + 1 < (Merge.sent ls).length ∧ Merge.fin k ls = .done := by
  have hpre := (Merge.started_prefix hr hw).length_le
  have hi := Merge.inv_run hr hw
  have hst := Merge.settled_started (by decide) hr hw hf hs hq
  refine ⟨⟨fun h => by omega, fun h => ?_⟩, fun k => ⟨fun h => ⟨by omega, hi.seq rfl k h⟩, ?_⟩⟩
  · rcases hst with h1 | ⟨-, h1⟩
    · rw [h1]; exact h
    · apply Classical.byContradiction
      intro hn
      have : s.started.length = 0 := by omega
      simp [Merge.unfinished, this] at h1
  · rintro ⟨h1, h2⟩
    rcases hst with h3 | ⟨-, h3⟩
    · rw [h3]; exact h1
    · apply Classical.byContradiction
      intro hn
      have hk : k < s.started.length := by
        apply Classical.byContradiction
        intro hk
        rw [Merge.fin, Merge.fresh_run hr k (by omega)] at h2
        cases h2
      have : Merge.unfinished ls s = [] := by
        rw [Merge.unfinished, List.filter_eq_nil_iff]
        intro j hj
        have hj := List.mem_range.mp hj
        have hd : Merge.fin j ls = .done := by
          by_cases he : j = k
          · rw [he]; exact h2
          · exact hi.seq rfl j (by omega)
        simp [hd]
      simp [this] at h3

theorem index_upto {ι : Type} {L : List (ι × Nat)} (hi : InTime L) (t k : Nat) : k < (upto t L).length ↔ ∃ x, L[k]? = some x ∧ x.2 ≤ t := by
  induction L generalizing k with
  | nil => simp
  | cons c L ih =>
    obtain ⟨h1, h2⟩ := List.pairwise_cons.mp hi
    rw [upto_cons]
    by_cases hc : c.2 ≤ t
    · rw [if_pos hc]
      cases k with
      | zero => simp [hc]
      | succ k => simpa using ih h2 k
    · rw [if_neg hc, upto_none fun d hd => by have := h1 d hd; omega]
      constructor
      · intro h; simp at h
      · rintro ⟨x, hx, hxt⟩
        have := List.mem_of_getElem? hx
        rcases List.mem_cons.mp this with rfl | hm
        · exact absurd hxt hc
        · have := h1 x hm; omega

/-- What is known at the end of time `t`. -/
theorem concat_upto (hpr : Proper o fam) {ls s} (hr : LTS.run (o.merged fam 1).step (o.merged fam 1).init ls = some s)
    (hp : (o.merged fam 1).Prompt (fun s => Merge.Settled s.prod) ls) (hc : Calm o ls s) (hq : Merge.Settled s.prod) (t : Nat) :
    (0 < (upto t (subs s)).length ↔ 0 < (upto t (valuesAt (o.calls s.outer))).length) ∧
    ∀ k ys v si, s.inners[k]? = some (ys, v, si) → (k + 1 < (upto t (subs s)).length ↔
      k + 1 < (upto t (valuesAt (o.calls s.outer))).length ∧ (story (upto t ((fam ys v).calls si))).fin = .done) := by
  obtain ⟨-, hsub⟩ := subs_after hpr (merge_starts 1) hr
  obtain ⟨h, hpast⟩ := past hpr.source hpr.inner (merge_starts 1) hr
  obtain ⟨lo, hlo, -⟩ := hpast.source
  have hit := (hpr.source.inTime hlo).1
  by_cases ht : o.now o.init ≤ t
  · obtain ⟨ls₁, s₁, h₁, hsn, hq₁⟩ := snapshot hpr.source hpr.inner (merge_starts 1) hr hp ht (.inr hq)
    rw [hsn.upto_subs, upto_values hit (hpr.sourceGrammar _ _ hlo), hsn.outer]
    obtain ⟨g1, g2⟩ := concat_next hsn.solo (hsn.past.lawful hpr) (hsn.past.noFailure hsn.sub hc.noFailure) (hc.notStopped hsn) hq₁
    refine ⟨g1, fun k ys v si hk => ?_⟩
    rw [hsn.inner k ys v si hk]
    exact g2 k
  · rw [upto_none fun c hc => by have := hsub c hc; omega, upto_none (cs := valuesAt _) fun c hc => by
      have := (hpr.source.after hlo).2 _ (mem_values.mp hc); dsimp only at this; omega]
    simp

theorem fst_eq {mx : Int} (hpr : Proper o fam) {ls s} (hr : LTS.run (o.merged fam mx).step (o.merged fam mx).init ls = some s) {k : Nat} {x y : ω × Nat}
    (hx : (subs s)[k]? = some x) (hy : (valuesAt (o.calls s.outer))[k]? = some y) : x.1 = y.1 := by
  obtain ⟨h, hpast⟩ := past hpr.source hpr.inner (merge_starts mx) hr
  obtain ⟨lo, hlo, -⟩ := hpast.source
  have hpre := Merge.started_prefix (Producer.soloAt_run hpast.run) (hpast.lawful hpr)
  have h1 : Merge.sent (h.map (·.1)) = (valuesAt (o.calls s.outer)).map (·.1) := by
    have hb : ∀ c ∈ o.calls s.outer, c.2 ≤ o.now s.outer := (hpr.source.inTime hlo).2
    have := upto_values (hpr.source.inTime hlo).1 (hpr.sourceGrammar _ _ hlo) (o.now s.outer)
    rw [upto_all hb, upto_all (cs := valuesAt (o.calls s.outer)) fun c hc => hb _ (mem_values.mp hc)] at this
    rw [Merge.sent, outersAt_map, hpast.outer, this]
  have h2 : s.prod.started = (subs s).map (·.1) := by rw [← hpast.started, subs, List.map_map]; rfl
  dsimp only at hpre
  rw [h1, h2] at hpre
  have e1 : ((subs s).map (·.1))[k]? = some x.1 := by rw [List.getElem?_map, hx]; rfl
  have e2 : ((valuesAt (o.calls s.outer)).map (·.1))[k]? = some y.1 := by rw [List.getElem?_map, hy]; rfl
  obtain ⟨r, hr'⟩ := hpre
  rw [← hr', List.getElem?_append_left (List.getElem?_eq_some_iff.mp e1).1, e1] at e2
  exact Option.some.inj e2

/-- C113, `concat`: the first observable is subscribed when the source sends it; each following one when the source sends it, or when the one
before completes, whichever is later. -/
theorem C113_subscribed (hpr : Proper o fam) {ls s} (hr : LTS.run (o.merged fam 1).step (o.merged fam 1).init ls = some s)
    (hp : (o.merged fam 1).Prompt (fun s => Merge.Settled s.prod) ls) (hc : Calm o ls s) (hq : Merge.Settled s.prod) :
    (subs s)[0]? = (valuesAt (o.calls s.outer))[0]? ∧
    ∀ k xs u, (subs s)[k + 1]? = some (xs, u) ↔ ∃ a c ys v si, (valuesAt (o.calls s.outer))[k + 1]? = some (xs, a) ∧
      s.inners[k]? = some (ys, v, si) ∧ (.completed, c) ∈ (fam ys v).calls si ∧ u = max a c := by
  obtain ⟨hsi, -⟩ := subs_after hpr (merge_starts 1) hr
  obtain ⟨h, hpast⟩ := past hpr.source hpr.inner (merge_starts 1) hr
  obtain ⟨lo, hlo, -⟩ := hpast.source
  have hvi := inTime_values (hpr.source.inTime hlo).1
  have hup := concat_upto hpr hr hp hc hq
  have hdone : ∀ {k : Nat} {ys v si}, s.inners[k]? = some (ys, v, si) → ∀ t, (story (upto t ((fam ys v).calls si))).fin = .done ↔
      ∃ c ≤ t, (Notif.completed, c) ∈ (fam ys v).calls si := by
    intro k ys v si hk t
    obtain ⟨⟨li, hli, -⟩, -⟩ := hpast.sources k ys v si hk
    have hg := grammar_prefix (upto_prefix (t := t) ((hpr.inner ys v).1.inTime hli).1) (hpr.innerGrammar ys v li _ hli)
    constructor
    · intro hd
      have hm : (Notif.completed : Notif α) ∈ upto t ((fam ys v).calls si) := by
        obtain ⟨⟨vs, f⟩, he⟩ := hg
        rw [he, story_events] at hd
        dsimp only at hd
        rw [he, hd]
        simp [Story.events, End.events]
      rw [upto, List.mem_map] at hm
      obtain ⟨⟨n, c⟩, hm, rfl⟩ := hm
      obtain ⟨h1, h2⟩ := List.mem_filter.mp hm
      exact ⟨c, by simpa using h2, h1⟩
    · rintro ⟨c, hct, hm⟩
      exact Switch.fin_of_mem_completed hg (by
        rw [upto, List.mem_map]
        exact ⟨_, List.mem_filter.mpr ⟨hm, by simpa using hct⟩, rfl⟩)
  refine ⟨?_, fun k xs u => ⟨fun hk => ?_, ?_⟩⟩
  · have key : ∀ t, (∃ x, (subs s)[0]? = some x ∧ x.2 ≤ t) ↔ ∃ x, (valuesAt (o.calls s.outer))[0]? = some x ∧ x.2 ≤ t := by
      intro t
      rw [← index_upto hsi, ← index_upto hvi]
      exact (hup t).1
    cases h1 : (subs s)[0]? with
    | none =>
      cases h2 : (valuesAt (o.calls s.outer))[0]? with
      | none => rfl
      | some y =>
        obtain ⟨x, hx, -⟩ := (key y.2).mpr ⟨y, h2, Nat.le_refl _⟩
        rw [h1] at hx; cases hx
    | some x =>
      obtain ⟨y, hy, hyx⟩ := (key x.2).mp ⟨x, h1, Nat.le_refl _⟩
      obtain ⟨x', hx', hxy⟩ := (key y.2).mpr ⟨y, hy, Nat.le_refl _⟩
      rw [h1] at hx'
      cases hx'
      have := fst_eq hpr hr h1 hy
      rw [hy]
      obtain ⟨x1, x2⟩ := x
      obtain ⟨y1, y2⟩ := y
      dsimp only at this hyx hxy
      rw [this, Nat.le_antisymm hxy hyx]
  · have hlt := (List.getElem?_eq_some_iff.mp hk).1
    rw [subs, List.length_map] at hlt
    obtain ⟨⟨ys, v, si⟩, hi⟩ : ∃ i, s.inners[k]? = some i := ⟨_, List.getElem?_eq_getElem (by omega)⟩
    obtain ⟨g1, g2⟩ := ((hup u).2 k ys v si hi).mp ((index_upto hsi u (k + 1)).mpr ⟨_, hk, Nat.le_refl _⟩)
    obtain ⟨⟨xs', a⟩, ha, hau⟩ := (index_upto hvi u (k + 1)).mp g1
    obtain ⟨c, hcu, hm⟩ := (hdone hi u).mp g2
    obtain rfl : xs = xs' := fst_eq hpr hr hk ha
    refine ⟨a, c, ys, v, si, ha, hi, hm, ?_⟩
    have := ((hup (max a c)).2 k ys v si hi).mpr ⟨(index_upto hvi _ (k + 1)).mpr ⟨_, ha, by dsimp only; omega⟩, (hdone hi _).mpr ⟨c, by omega, hm⟩⟩
    obtain ⟨x, hx, hxm⟩ := (index_upto hsi _ (k + 1)).mp this
    rw [hk] at hx
    cases hx
    dsimp only at hxm hau
    omega
  · rintro ⟨a, c, ys, v, si, ha, hi, hm, rfl⟩
    have := ((hup (max a c)).2 k ys v si hi).mpr ⟨(index_upto hvi _ (k + 1)).mpr ⟨_, ha, by dsimp only; omega⟩, (hdone hi _).mpr ⟨c, by omega, hm⟩⟩
    obtain ⟨x, hx, hxm⟩ := (index_upto hsi _ (k + 1)).mp this
    obtain ⟨g1, g2⟩ := ((hup x.2).2 k ys v si hi).mp ((index_upto hsi x.2 (k + 1)).mpr ⟨x, hx, Nat.le_refl _⟩)
    obtain ⟨y, hy, hyx⟩ := (index_upto hvi x.2 (k + 1)).mp g1
    rw [ha] at hy
    cases hy
    obtain ⟨c', hc', hm'⟩ := (hdone hi x.2).mp g2
    have hcc : c ≤ c' := by
      obtain ⟨⟨li, hli, -⟩, -⟩ := hpast.sources k ys v si hi
      exact Nat.le_of_eq (completed_once (hpr.innerGrammar ys v li _ hli) hm hm')
    have := fst_eq hpr hr hx ha
    obtain ⟨x1, x2⟩ := x
    dsimp only at this hxm hyx hc'
    rw [hx, this, Nat.le_antisymm hxm (by omega)]

/-- The parts of a run around a call of an inner observable. -/
theorem Past.at_inner {p : Producer S (Merge.Label ω α) α} {started : S → List ω} {base : Nat} (hpr : Proper o fam) {ls s h}
    (hp : Past o fam p started base ls s h) {h₁ k n t h₂ u} (he : h = h₁ ++ (Merge.Label.inner k n, t) :: h₂)
    (hu : LTS.run p.soloAt (p.init, []) h₁ = some u) :
    LTS.run p.solo (p.init, []) (h₁.map (·.1)) = some (u.1, u.2.map (·.1)) ∧ Merge.Lawful (h₁.map (·.1) ++ [.inner k n]) ∧
      (p.step u.1 (.inner k n)).isSome := by
  subst he
  refine ⟨Producer.soloAt_run hu, ?_, ?_⟩
  · have := hp.lawful hpr
    rw [List.map_append, List.map_cons] at this
    refine Merge.Lawful.of_append (b := h₂.map (·.1)) ?_
    simpa using this
  · obtain ⟨v, e1, e2⟩ := LTS.run_append.mp hp.run
    rw [hu] at e1
    cases e1
    obtain ⟨w, e3, -⟩ := LTS.run_cons.mp e2
    simp only [Producer.soloAt, Option.map_eq_some_iff] at e3
    obtain ⟨r, e4, -⟩ := e3
    rw [e4]; rfl

theorem concat_latest (hpr : Proper o fam) {ls s h} (hp : Past o fam (mergeInner 1) Merge.State.started 0 ls s h) :
    Latest (fun _ => True) (mergeInner 1) Merge.State.started 0 h := by
  intro h₁ k n t h₂ u _ he hu
  obtain ⟨g1, g2, g3⟩ := hp.at_inner hpr he hu
  have hlt : k < u.1.started.length := by
    simp only [mergeInner, Merge.step] at g3
    split at g3
    · assumption
    · cases g3
  have hrun : Merge.fin k (h₁.map (·.1)) = .running := by
    have := g2.inner k
    rw [Merge.innerCalls_snoc] at this
    simp only [if_true] at this
    exact grammar_snoc this
  refine ⟨?_, by omega⟩
  by_cases hk : k + 1 < u.1.started.length
  · have := (Merge.inv_run g1 g2.of_append).seq rfl k hk
    have : Merge.fin k (h₁.map (·.1)) = .done := this
    rw [hrun] at this; cases this
  · omega

theorem switch_latest (hpr : Proper o fam) {ls s h} (hp : Past o fam (switchLatest true) Switch.State.started 1 ls s h) :
    Latest (fun n => n.kind ≠ .onCompleted) (switchLatest true) Switch.State.started 1 h := by
  intro h₁ k n t h₂ u hn he hu
  obtain ⟨g1, g2, g3⟩ := hp.at_inner hpr he hu
  simp only [switchLatest, Switch.step] at g3
  split at g3
  next hc =>
    obtain ⟨⟨c1, c2⟩, c3⟩ := hc
    refine ⟨?_, by omega⟩
    by_cases hk : k < u.1.started.length
    · rcases (Switch.inv_run g1).older k c1 hk with h5 | h5
      · exact absurd ⟨trivial, h5, hn⟩ c3
      · exfalso
        have h6 := g2.inner k
        rw [Merge.innerCalls_snoc] at h6
        simp only [if_true] at h6
        have h7 := grammar_snoc h6
        rw [Switch.fin_of_mem_completed (g2.of_append.inner k) ?_] at h7
        · cases h7
        · rw [Merge.innerCalls, List.mem_filterMap]
          exact ⟨_, h5, by simp⟩
    · omega
  next => cases g3

/-- If only the inner observable that was subscribed last makes the calls `loud`, what arrives is what the inner observables send, one after the other. -/
theorem in_order {p : Producer S (Merge.Label ω α) α} {started : S → List ω} {base : Nat} (hpr : Proper o fam) (hs : Starts p started) (hfw : Forwards p)
    {loud : Notif α → Prop} (hloud : ∀ n, n.kind ≠ .onCompleted → loud n) (hlat : ∀ {ls s h}, Past o fam p started base ls s h → Latest loud p started base h) {ls s}
    (hr : LTS.run (o.nested fam p started base).step (o.nested fam p started base).init ls = some s) (he : ∀ e t, (.error e, t) ∉ o.calls s.outer) :
    (noDone s.posts = s.inners.flatMap fun i => noDone ((fam i.1 i.2.1).calls i.2.2)) ∧
    ∀ (k : Nat) xs u si ys v sj, s.inners[k]? = some (xs, u, si) → s.inners[k + 1]? = some (ys, v, sj) → ∀ c ∈ (fam xs u).calls si, u ≤ c.2 ∧ (loud c.1 → c.2 ≤ v) := by
  refine ⟨?_, ?_⟩
  · obtain ⟨h, hp⟩ := past hpr.source hpr.inner hs hr
    have ha : noDone s.posts = arrivesAt h := posts_arrive hfw hp.run
    have hl : s.inners.length = (started s.prod).length := by rw [← hp.started, List.length_map]
    rw [ha, (arrives_inOrder hs hloud hp.run (hlat hp) ?_).1, ← hp.flat, hl]
    intro e t hm
    refine he e t ?_
    rw [← hp.outer, outersAt, List.mem_filterMap]
    exact ⟨_, hm, rfl⟩
  · clear he
    have key : ∀ (k : Nat) xs u si ys v sj, s.inners[k]? = some (xs, u, si) → s.inners[k + 1]? = some (ys, v, sj) → ∀ c ∈ (fam xs u).calls si, loud c.1 → c.2 ≤ v := by
      have := LTS.inv_reach (step := (o.nested fam p started base).step) (fun ls s => (∃ h, Past o fam p started base ls s h) ∧
        ∀ (k : Nat) xs u si y, s.inners[k]? = some (xs, u, si) → (subs s)[k + 1]? = some y → ∀ c ∈ (fam xs u).calls si, loud c.1 → c.2 ≤ y.2)
        (s0 := (o.nested fam p started base).init) ⟨⟨[], past_init hpr.source hs base⟩, fun k xs u si y h => (by cases h)⟩ ?_ hr
      · intro k xs u si ys v sj hk hk1 c hc
        exact this.2 k xs u si (ys, v) hk (by rw [subs, List.getElem?_map, hk1]; rfl) c hc
      rintro ls s l s' hr ⟨⟨h, hp⟩, ih⟩ hst
      obtain ⟨h2, new, a1, a2, a3, a4, a5, a6, a7⟩ := past_step hpr.source hpr.inner hs hp hst
      refine ⟨⟨_, a1⟩, fun k xs u si y hk hk1 c hc hlc => ?_⟩
      have ha3 : subs s' = subs s ++ new := a3
      have hlen : (subs s).length = s.inners.length := by rw [subs, List.length_map]
      rw [← a1.inner k xs u si hk, innersAt_append] at hc
      rcases a7 with rfl | a7
      · rw [List.append_nil] at ha3
        rw [ha3] at hk1
        have hlt := (List.getElem?_eq_some_iff.mp hk1).1
        have hn : c ∉ innersAt (k + base) h2 := by
          intro hz
          obtain ⟨⟨l', t'⟩, hx, hx'⟩ := List.mem_filterMap.mp hz
          cases l' with
          | inner j n =>
            dsimp only at hx'
            split at hx'
            next hj =>
              subst hj
              obtain ⟨p1, p2, hpp⟩ := List.append_of_mem hx
              obtain ⟨w, e1, e2⟩ := LTS.run_append.mp a1.run
              rw [hp.run] at e1
              cases e1
              rw [hpp] at e2
              obtain ⟨w, e3, e4⟩ := LTS.run_append.mp e2
              cases hx'
              have hw := hlat a1 (h ++ p1) (k + base) n t' p2 w hlc (by rw [hpp]; simp) (LTS.run_append.mpr ⟨_, hp.run, e3⟩)
              have b1 := (hs.grows e3).length_le
              dsimp only at b1
              rw [← hp.started, List.length_map] at b1
              omega
            next => cases hx'
          | _ => cases hx'
        replace hc := (List.mem_append.mp hc).resolve_right hn
        have hkl : k < s.inners.length := by omega
        obtain ⟨⟨xs', u', si'⟩, hi⟩ : ∃ i, s.inners[k]? = some i := ⟨_, List.getElem?_eq_getElem hkl⟩
        rw [hp.inner k xs' u' si' hi] at hc
        exact ih k xs' u' si' y hi hk1 c hc hlc
      · have hn : innersAt (k + base) h2 = [] := by
          rw [innersAt, List.filterMap_eq_nil_iff]
          rintro ⟨l', t'⟩ hx
          have := a7 _ hx
          cases l' <;> first | rfl | cases this
        rw [hn, List.append_nil] at hc
        by_cases hk2 : k + 1 < (subs s).length
        · obtain ⟨⟨xs', u', si'⟩, hi⟩ : ∃ i, s.inners[k]? = some i := ⟨_, List.getElem?_eq_getElem (by omega)⟩
          rw [hp.inner k xs' u' si' hi] at hc
          rw [ha3, List.getElem?_append_left hk2] at hk1
          exact ih k xs' u' si' y hi hk1 c hc hlc
        · rw [ha3, List.getElem?_append_right (by omega)] at hk1
          rw [a4 y (List.mem_of_getElem? hk1)]
          obtain ⟨x, hx, hxc⟩ := mem_innersAt hc
          rw [hxc]
          exact hp.time.2 x hx
    intro k xs u si ys v sj hk hk1 c hc
    refine ⟨?_, key k xs u si ys v sj hk hk1 c hc⟩
    obtain ⟨h, hp⟩ := past hpr.source hpr.inner hs hr
    obtain ⟨⟨li, hli, -⟩, -⟩ := hp.sources k xs u si hk
    have := ((hpr.inner xs u).1.after hli).2 c hc
    rw [(hpr.inner xs u).2] at this
    exact this

/-- C113, in any schedule: apart from completions, what is posted is what the observables send, one observable after the other, each event at the time at
which it was sent; all calls of an observable are made between its subscription and that of the next one. -/
theorem C113_in_order (hpr : Proper o fam) {ls s} (hr : LTS.run (o.merged fam 1).step (o.merged fam 1).init ls = some s)
    (he : ∀ e t, (.error e, t) ∉ o.calls s.outer) :
    (noDone s.posts = s.inners.flatMap fun i => noDone ((fam i.1 i.2.1).calls i.2.2)) ∧
    ∀ (k : Nat) xs u si ys v sj, s.inners[k]? = some (xs, u, si) → s.inners[k + 1]? = some (ys, v, sj) → ∀ c ∈ (fam xs u).calls si, u ≤ c.2 ∧ c.2 ≤ v := by
  obtain ⟨h1, h2⟩ := in_order hpr (merge_starts 1) (merge_forwards 1) (fun _ _ => trivial) (concat_latest hpr) hr he
  exact ⟨h1, fun k xs u si ys v sj hk hj c hc => ⟨(h2 k xs u si ys v sj hk hj c hc).1, (h2 k xs u si ys v sj hk hj c hc).2 trivial⟩⟩

/-- C114, `switch_latest`, in any schedule: the same, except for the completions, if an inner observable sends no values or errors once its `dispose_async` has returned. -/
theorem C114_in_order (hpr : Proper o fam) {ls s} (hr : LTS.run (o.switched fam true).step (o.switched fam true).init ls = some s)
    (he : ∀ e t, (.error e, t) ∉ o.calls s.outer) :
    (noDone s.posts = s.inners.flatMap fun i => noDone ((fam i.1 i.2.1).calls i.2.2)) ∧
    ∀ (k : Nat) xs u si ys v sj, s.inners[k]? = some (xs, u, si) → s.inners[k + 1]? = some (ys, v, sj) → ∀ c ∈ (fam xs u).calls si, u ≤ c.2 ∧ (c.1.kind ≠ .onCompleted → c.2 ≤ v) :=
  in_order hpr (switch_starts true) (switch_forwards true) (fun _ h => h) (switch_latest hpr) hr he

/-- C114: on a loop that is not overloaded, an inner observable is subscribed when the source sends it. -/
theorem C114_subscribed (hpr : Proper o fam) {honour : Bool} {ls s} (hr : LTS.run (o.switched fam honour).step (o.switched fam honour).init ls = some s)
    (hp : (o.switched fam honour).Prompt (fun s => Switch.Settled s.prod) ls) (hf : NoFailure ls) (hq : Switch.Settled s.prod) :
    subs s = valuesAt (o.calls s.outer) := by
  obtain ⟨h1, h2⟩ := subs_after hpr (switch_starts honour) hr
  obtain ⟨h, hpast⟩ := past hpr.source hpr.inner (switch_starts honour) hr
  obtain ⟨lo, hlo, -⟩ := hpast.source
  have ho := (hpr.source.inTime hlo).1
  refine Spec.Timed.ext h1 (inTime_values ho) fun t => ?_
  by_cases ht : o.now o.init ≤ t
  · obtain ⟨ls₁, s₁, h₁, hsn, hq₁⟩ := snapshot hpr.source hpr.inner (switch_starts honour) hr hp ht (.inr hq)
    rw [hsn.upto_subs, upto_values ho (hpr.sourceGrammar _ _ hlo), hsn.outer]
    have hor := Switch.order_run hsn.solo
    show _ = Merge.sent (h₁.map (·.1))
    rw [← Switch.offered_eq_sent (hsn.past.lawful hpr)]
    rcases hq₁ with h | ⟨e1, e2⟩
    · exact absurd h (Switch.not_halted_run hsn.solo (hsn.past.noFailure hsn.sub hf))
    · have := hor.eq (by simp [e1])
      simpa [e1, e2, Switch.pend, Switch.inners] using this
  · rw [upto_none fun c hc => by have := h2 c hc; omega, upto_none fun c hc => by
      have := (hpr.source.after hlo).2 _ (mem_values.mp hc); dsimp only at this; omega]

/-- C112, in any schedule and with any number of slots: apart from completions, what is posted is an interleaving, in the order of time, of what the
inner observables send (each in its order) and of the source's errors, each event at the time at which it was sent. -/
theorem C112_arrive (hpr : Proper o fam) {mx : Int} {ls s} (hr : LTS.run (o.merged fam mx).step (o.merged fam mx).init ls = some s) :
    InTime s.posts ∧
    (noDone s.posts).Perm (errors (o.calls s.outer) ++ s.inners.flatMap fun i => noDone ((fam i.1 i.2.1).calls i.2.2)) ∧
    ∀ i ∈ s.inners, (noDone ((fam i.1 i.2.1).calls i.2.2)).Sublist (noDone s.posts) :=
  arrive hpr (merge_starts mx) (merge_forwards mx) hr

/-- C112: completion is the last thing posted, in any schedule. -/
theorem C112_last (hpr : Proper o fam) {mx : Int} (hm : 0 ≤ mx) {ls s} (hr : LTS.run (o.merged fam mx).step (o.merged fam mx).init ls = some s) :
    s.posts = noDone s.posts ∨ ∃ c, s.posts = noDone s.posts ++ [(.completed, c)] := by
  obtain ⟨h, hpast⟩ := past hpr.source hpr.inner (merge_starts mx) hr
  have key : ∀ {cs : List (Notif α × Nat)}, .completed ∉ cs.map (·.1) → noDone cs = cs := fun {cs} hc => by
    rw [noDone, List.filter_eq_self]
    rintro ⟨n, t⟩ hmem
    cases n with
    | completed => exact absurd (List.mem_map.mpr ⟨_, hmem, rfl⟩) hc
    | _ => rfl
  rcases Merge.posts_shape hm (Producer.soloAt_run hpast.run) (hpast.lawful hpr) with h1 | h1
  · exact .inl (key (by rw [h1]; exact Merge.arrivals_noDone _)).symm
  · obtain ⟨a, b, h2, h3, h4⟩ := List.map_eq_append_iff.mp h1
    obtain ⟨⟨n, c⟩, rfl, h5⟩ := List.map_eq_singleton_iff.mp h4
    dsimp only at h5 h2
    subst h5
    refine .inr ⟨c, ?_⟩
    rw [h2, noDone_append, key (by rw [h3]; exact Merge.arrivals_noDone _)]
    simp [noDone]

end

/-! ## the observer -/

/-- A prompt schedule of a source and an operator behind it is a prompt schedule of the source. -/
theorem _root_.Aio.Clocked.Prompt.source {q : Clocked S LO α} (hq : q.Lawful) {p : Proc P W (Notif α) (Notif β)} {rest : S → Prop} {busy : Timed P (Notif α) (Notif β) → Prop}
    {ls s} (hr : LTS.run (q.operate p).step (q.operate p).init ls = some s) (hp : (q.operate p).Prompt (fun s => rest s.1 ∧ busy s.2) ls) :
    q.Prompt rest (Clocked.sources ls) := by
  intro ls₁ d ls₂ s₁ he hr₁
  obtain ⟨a, b, rfl, ha, hb⟩ := List.filterMap_eq_append_iff.mp he
  obtain ⟨b₁, x, b₂, rfl, hb₁, hx, -⟩ := List.filterMap_eq_cons_iff.mp hb
  obtain ⟨t₁, h1, h2⟩ := LTS.run_append.mp hr
  obtain ⟨t₂, h3, h4⟩ := LTS.run_append.mp h2
  have h5 : LTS.run (q.operate p).step (q.operate p).init (a ++ b₁) = some t₂ := LTS.run_append.mpr ⟨_, h1, h3⟩
  obtain ⟨h6, -⟩ := Clocked.operate_source hq h5
  have h7 : Clocked.sources (a ++ b₁) = ls₁ := by
    rw [Clocked.sources, List.filterMap_append, ha, List.filterMap_eq_nil_iff.mpr hb₁, List.append_nil]
  rw [h7, hr₁] at h6
  cases h6
  have hx : x = .pass d := by
    match x with
    | .pass d' => cases hx; rfl
    | .act (.inl l) => cases hx
    | .act (.inr w) => cases hx
  subst hx
  exact (hp (a ++ b₁) d b₂ t₂ (by simp) h5).1

/-- C112, C113, C114 for the final observer: `merge_inner` or `switch_latest` in front of some operators, or of a final observer. When time
passes only when no worker has anything to do, and when the workers are at rest at the end, at every time the observer has got what the
operators make of what has been posted by then, and the schedule of `merge_inner` is one of those above. -/
theorem C112_observed {o : Clocked SO LO ω} {fam : ω → Nat → Clocked SI LI α} (hpr : Proper o fam) {p : Producer S (Merge.Label ω α) α} {started : S → List ω} {base : Nat}
    (hs : Starts p started) {op : Operator α β} {G : Story α → Story β} (hG : op.Computes G) (h0 : (G ⟨[], .running⟩).events = []) {rest : Nested SO S SI ω α → Prop} {ls s}
    (hr : LTS.run ((o.nested fam p started base).operate op.protected.slowProc).step ((o.nested fam p started base).operate op.protected.slowProc).init ls = some s)
    (hp : ((o.nested fam p started base).operate op.protected.slowProc).Prompt (fun s => rest s.1 ∧ op.protected.slowProc.Quiescent s.2.ps) ls)
    (hqu : op.protected.slowProc.Quiescent s.2.ps) :
    LTS.run (o.nested fam p started base).step (o.nested fam p started base).init (Clocked.sources ls) = some s.1 ∧
    (o.nested fam p started base).Prompt rest (Clocked.sources ls) ∧
    InTime s.2.sent ∧ ∀ t, upto t s.2.sent = (G (story (upto t s.1.posts))).events := by
  have hl := nested_lawful hpr.source hpr.inner hs base (fam := fam) (o := o)
  obtain ⟨h1, -, h2⟩ := C109_operator hl hG.guarded.slow h0 (fun _ _ _ => trivial) hr (fun ls₁ d ls₂ s he h => (hp ls₁ d ls₂ s he h).2)
  exact ⟨(Clocked.operate_source hl hr).1, Clocked.Prompt.source hl (busy := fun t => op.protected.slowProc.Quiescent t.ps) hr hp, h1, h2 hqu⟩

end Nested
end Aio
