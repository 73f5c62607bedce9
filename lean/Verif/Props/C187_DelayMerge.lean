import Verif.Props.C181_DelayMoves
import Verif.Props.C112_114_Timers
import Verif.Props.C167_Bind
import Verif.Spec.Ripe
/-!
# C187: `delay` and `merge`

`pipe(merge(...), delay(e))` and `merge` of the same observables with `delay(e)` behind each of them.
-/

namespace Aio
open Spec Spec.Timed Spec.Delay Spec.Ripe Nested
variable {SO LO SI LI ω α : Type} {o : Clocked SO LO ω} {fam : ω → Nat → Clocked SI LI α} {mx : Int} {e : Nat}

namespace DelayMerge

/-- `pipe(source, merge_inner(mx), delay(e))` -/
abbrev outside (o : Clocked SO LO ω) (fam : ω → Nat → Clocked SI LI α) (mx : Int) (e : Nat) := (o.merged fam mx).through (Delay.stage true e)

/-- The inner observables with `delay(e)` behind each of them. -/
abbrev delayed (fam : ω → Nat → Clocked SI LI α) (e : Nat) (x : ω) (t : Nat) := (fam x t).through (Delay.stage true e)

/-- `pipe(source, map(lambda xs: pipe(xs, delay(e))), merge_inner(mx))` -/
abbrev inside (o : Clocked SO LO ω) (fam : ω → Nat → Clocked SI LI α) (mx : Int) (e : Nat) := o.merged (delayed fam e) mx

theorem delayed_proper (hpr : Proper o fam) : Proper o (delayed fam e) :=
  ⟨hpr.source, hpr.sourceGrammar, fun x t => ⟨Clocked.through_lawful (hpr.inner x t).1 (Delay.stage_lawful true e), (hpr.inner x t).2⟩,
    fun x t ls s h => delayed_grammar (hpr.inner x t).1 (hpr.innerGrammar x t) ls s h⟩

private theorem noDone_shifted (cs : List (Notif α × Nat)) : noDone (shifted e cs) = (noDone cs).map fun c => (c.1, c.2 + e) := by
  induction cs with
  | nil => rfl
  | cons c cs ih =>
    obtain ⟨n, t⟩ := c
    cases n with
    | next v => exact congrArg ((.next v, t + e) :: ·) ih
    | error x => exact congrArg ((.error x, t + e) :: ·) ih
    | completed => exact ih

/-- Before the present time, `delay` has delivered what is ripe. -/
theorem told {S L : Type} {q : Clocked S L α} (hq : q.Lawful) {ls s} (hr : LTS.run (q.through (Delay.stage true e)).step (q.through (Delay.stage true e)).init ls = some s)
    (h1 : Time.act (.inr (.dispose 0)) ∉ ls) (h2 : Time.act (.inr (.raise 0)) ∉ ls) :
    sentBefore (q.now s.1) (noDone ((q.through (Delay.stage true e)).calls s)) = ripe e (q.now s.1) (q.calls s.1) := by
  obtain ⟨⟨rest, g1⟩, g2⟩ := Delay.C107_exact hq e hr
  have late : ∀ c ∈ rest, q.now s.1 ≤ c.2 := by
    intro c hc
    rcases Nat.lt_or_ge c.2 (q.now s.1) with h | h
    · exfalso
      obtain ⟨k, hk⟩ := List.mem_iff_getElem?.mp hc
      have hk' : (shifted e (q.calls s.1))[((q.through (Delay.stage true e)).calls s).length + k]? = some c := by
        rw [← g1, List.getElem?_append_right (by omega), Nat.add_sub_cancel_left]; exact hk
      rw [shifted, List.getElem?_map] at hk'
      obtain ⟨c', a1, a2⟩ := Option.map_eq_some_iff.mp hk'
      subst a2
      have := g2 h1 h2 _ c' a1 h
      have := (List.getElem?_eq_some_iff.mp this).1
      omega
    · exact h
  rw [ripe, ← noDone_shifted, ← g1, noDone_append, sentBefore, sentBefore, List.filter_append]
  have : (noDone rest).filter (fun c => decide (c.2 < q.now s.1)) = [] := by
    rw [List.filter_eq_nil_iff]
    intro c hc
    have := late c (List.mem_filter.mp hc).1
    simpa using this
  rw [this, List.append_nil]

private theorem flatMap_same {ι κ : Type} {f g : ι → List κ} {l : List ι} (h : ∀ i ∈ l, f i = g i) : l.flatMap f = l.flatMap g := by
  rw [List.flatMap_def, List.flatMap_def, List.map_congr_left h]

/-- C187: with `delay(e)` behind the merged stream, what has been sent before the present time is what the inner observables sent (and the errors of the source), each `e` later. -/
theorem C187_outside (hpr : Proper o fam) {ls s} (hr : LTS.run (outside o fam mx e).step (outside o fam mx e).init ls = some s)
    (h1 : Time.act (.inr (.dispose 0)) ∉ ls) (h2 : Time.act (.inr (.raise 0)) ∉ ls) :
    InTime ((outside o fam mx e).calls s) ∧
    (sentBefore (o.now s.1.outer) (noDone ((outside o fam mx e).calls s))).Perm
      (ripe e (o.now s.1.outer) (errors (o.calls s.1.outer)) ++ s.1.inners.flatMap fun i => ripe e (o.now s.1.outer) ((fam i.1 i.2.1).calls i.2.2)) := by
  have hl : (o.merged fam mx).Lawful := nested_lawful hpr.source hpr.inner (merge_starts mx) 0
  obtain ⟨r1, -⟩ := Clocked.clocks hl (Delay.stage_lawful true e) hr
  obtain ⟨a1, a2, -⟩ := C112_arrive hpr r1
  refine ⟨((Clocked.through_lawful hl (Delay.stage_lawful true e)).inTime hr).1, ?_⟩
  have := told hl hr h1 h2
  have hn : (o.merged fam mx).now s.1 = o.now s.1.outer := rfl
  rw [hn] at this
  rw [this]
  have a3 := (a2.map fun c => (c.1, c.2 + e)).filter fun c => decide (c.2 < o.now s.1.outer)
  rw [List.map_append, List.filter_append, List.map_flatMap, List.filter_flatMap] at a3
  have he : noDone (errors (o.calls s.1.outer) : List (Notif α × Nat)) = errors (o.calls s.1.outer) := by
    rw [noDone, List.filter_eq_self]
    intro c hc
    obtain ⟨x, -, hx⟩ := List.mem_filterMap.mp hc
    obtain ⟨n, t⟩ := x
    cases n <;> simp at hx
    subst hx; rfl
  rw [ripe, ripe, he]
  exact a3

/-- C187: with `delay(e)` behind each inner observable, it is the same, only that the errors of the source are not delayed. -/
theorem C187_inside (hpr : Proper o fam) {ls s} (hr : LTS.run (inside o fam mx e).step (inside o fam mx e).init ls = some s)
    (h1 : ∀ k, Time.act (.inner k (.inr (.dispose 0))) ∉ ls) (h2 : ∀ k, Time.act (.inner k (.inr (.raise 0))) ∉ ls) :
    InTime s.posts ∧
    (sentBefore (o.now s.outer) (noDone s.posts)).Perm
      (sentBefore (o.now s.outer) (errors (o.calls s.outer)) ++ s.inners.flatMap fun i => ripe e (o.now s.outer) ((fam i.1 i.2.1).calls i.2.2.1)) := by
  have hpr' := delayed_proper (e := e) hpr
  obtain ⟨a1, a2, -⟩ := C112_arrive hpr' hr
  obtain ⟨h, hp⟩ := Nested.past hpr'.source hpr'.inner (merge_starts mx) hr
  refine ⟨a1, ?_⟩
  have a3 := a2.filter fun c => decide (c.2 < o.now s.outer)
  rw [List.filter_append, List.filter_flatMap] at a3
  refine a3.trans (.append_left _ (.of_eq (flatMap_same fun i hi => ?_)))
  obtain ⟨k, hk⟩ := List.mem_iff_getElem?.mp hi
  obtain ⟨⟨li, b1, b2⟩, b3⟩ := hp.sources k i.1 i.2.1 i.2.2 hk
  have b4 : (fam i.1 i.2.1).now i.2.2.1 = o.now s.outer := b3
  have := told (hpr.inner i.1 i.2.1).1 b1 (fun hx => h1 k (b2 _ hx)) (fun hx => h2 k (b2 _ hx))
  rw [b4] at this
  exact this

/-- C187: so `delay` can be moved in and out of `merge` and `flat_map`: if the same inner observables have sent the same by the same time, and the source has not failed, the same
values and errors have been sent at the same times before the present; and also in the same order, unless two of them are sent at the same time. -/
theorem C187_same (hpr : Proper o fam) {ls s} (hr : LTS.run (outside o fam mx e).step (outside o fam mx e).init ls = some s)
    (h1 : Time.act (.inr (.dispose 0)) ∉ ls) (h2 : Time.act (.inr (.raise 0)) ∉ ls)
    {mx' ls' s'} (hr' : LTS.run (inside o fam mx' e).step (inside o fam mx' e).init ls' = some s')
    (h1' : ∀ k, Time.act (.inner k (.inr (.dispose 0))) ∉ ls') (h2' : ∀ k, Time.act (.inner k (.inr (.raise 0))) ∉ ls')
    (he : (errors (o.calls s.1.outer) : List (Notif α × Nat)) = []) (he' : (errors (o.calls s'.outer) : List (Notif α × Nat)) = []) (hnow : o.now s'.outer = o.now s.1.outer)
    (hsame : (s'.inners.map fun i => (fam i.1 i.2.1).calls i.2.2.1) = s.1.inners.map fun i => (fam i.1 i.2.1).calls i.2.2) :
    (sentBefore (o.now s.1.outer) (noDone ((outside o fam mx e).calls s))).Perm (sentBefore (o.now s.1.outer) (noDone s'.posts)) ∧
    (((s.1.inners.flatMap fun i => noDone ((fam i.1 i.2.1).calls i.2.2)).map (·.2)).Nodup →
      sentBefore (o.now s.1.outer) (noDone ((outside o fam mx e).calls s)) = sentBefore (o.now s.1.outer) (noDone s'.posts)) := by
  obtain ⟨a1, a2⟩ := C187_outside hpr hr h1 h2
  obtain ⟨b1, b2⟩ := C187_inside hpr hr' h1' h2'
  rw [hnow] at b2
  have c1 : (s'.inners.flatMap fun i => ripe e (o.now s.1.outer) ((fam i.1 i.2.1).calls i.2.2.1)) = s.1.inners.flatMap fun i => ripe e (o.now s.1.outer) ((fam i.1 i.2.1).calls i.2.2) := by
    have := congrArg (List.map (ripe e (o.now s.1.outer))) hsame
    rw [List.flatMap_def, List.flatMap_def]
    rw [List.map_map, List.map_map] at this
    exact congrArg List.flatten this
  rw [he', c1] at b2
  rw [he] at a2
  have hperm : (sentBefore (o.now s.1.outer) (noDone ((outside o fam mx e).calls s))).Perm (sentBefore (o.now s.1.outer) (noDone s'.posts)) := a2.trans b2.symm
  refine ⟨hperm, fun hn => ?_⟩
  refine List.Perm.eq_of_pairwise (le := fun x y => x.2 ≤ y.2) ?_ ((a1.filter _).filter _) ((b1.filter _).filter _) hperm
  intro x y hx hy hxy hyx
  have hx' := a2.mem_iff.mp hx
  have hy' := b2.mem_iff.mp hy
  have hr1 : ∀ z, z ∈ (ripe e (o.now s.1.outer) ([] : List (Notif α × Nat)) ++ s.1.inners.flatMap fun i => ripe e (o.now s.1.outer) ((fam i.1 i.2.1).calls i.2.2)) →
      ∃ w ∈ s.1.inners.flatMap fun i => noDone ((fam i.1 i.2.1).calls i.2.2), z = (w.1, w.2 + e) := by
    intro z hz
    rcases List.mem_append.mp hz with hz | hz
    · simp [ripe, sentBefore, noDone] at hz
    obtain ⟨i, hi, hz⟩ := List.mem_flatMap.mp hz
    obtain ⟨w, hw, rfl⟩ := List.mem_map.mp (List.mem_filter.mp hz).1
    exact ⟨w, List.mem_flatMap.mpr ⟨i, hi, hw⟩, rfl⟩
  obtain ⟨w, hw, rfl⟩ := hr1 x hx'
  obtain ⟨v, hv, rfl⟩ := hr1 y (by simpa [ripe, sentBefore, noDone] using hy')
  have : w = v := by
    have hp := List.pairwise_map.mp hn
    have heq : w.2 = v.2 := by dsimp only at hxy hyx; omega
    clear hx hy hx' hy'
    revert hw hv hp
    generalize (s.1.inners.flatMap fun i => noDone ((fam i.1 i.2.1).calls i.2.2)) = l
    intro hw hv hp
    induction hp with
    | nil => cases hw
    | cons h _ ih =>
      rcases List.mem_cons.mp hw with rfl | hw' <;> rcases List.mem_cons.mp hv with rfl | hv'
      · rfl
      · exact absurd heq (h _ hv')
      · exact absurd heq.symm (h _ hw')
      · exact ih hw' hv'
  rw [this]

/-- C187: the completion is another matter. With `delay(e)` behind each inner observable, it is sent when the source has completed and the last of the delayed completions has come; -/
theorem C187_completed_inside (hpr : Proper o fam) (hm : 0 ≤ mx) {ls s} (hr : LTS.run (inside o fam mx e).step (inside o fam mx e).init ls = some s)
    (hp : (inside o fam mx e).Prompt (fun s => Merge.Settled s.prod) ls) (hc : Calm o ls s) (hq : Merge.Settled s.prod)
    (h1 : ∀ k, Time.act (.inner k (.inr (.dispose 0))) ∉ ls) (h2 : ∀ k, Time.act (.inner k (.inr (.raise 0))) ∉ ls) {t : Nat} (ht : t < o.now s.outer) :
    .completed ∈ upto t s.posts ↔ (story (upto t (o.calls s.outer))).fin = .done ∧
      ∀ i ∈ s.inners, (story (upto t (shifted e ((fam i.1 i.2.1).calls i.2.2.1)))).fin = .done := by
  have hpr' := delayed_proper (e := e) hpr
  rw [C112_completed hpr' hm hr hp hc hq]
  obtain ⟨h, hp⟩ := Nested.past hpr'.source hpr'.inner (merge_starts mx) hr
  have hd : ∀ i ∈ s.inners, upto t ((delayed fam e i.1 i.2.1).calls i.2.2) = upto t (shifted e ((fam i.1 i.2.1).calls i.2.2.1)) := by
    intro i hi
    obtain ⟨k, hk⟩ := List.mem_iff_getElem?.mp hi
    obtain ⟨⟨li, b1, b2⟩, b3⟩ := hp.sources k i.1 i.2.1 i.2.2 hk
    have b4 : (fam i.1 i.2.1).now i.2.2.1 = o.now s.outer := b3
    exact C181_delayed (hpr.inner i.1 i.2.1).1 b1 (fun hx => h1 k (b2 _ hx)) (fun hx => h2 k (b2 _ hx)) (by omega)
  refine and_congr_right fun _ => ⟨fun h i hi => ?_, fun h i hi => ?_⟩
  · rw [← hd i hi]; exact h i hi
  · rw [hd i hi]; exact h i hi

/-- C187: with `delay(e)` behind the merged stream, the completion of the source is delayed, too. -/
theorem C187_completed_outside (hpr : Proper o fam) (hm : 0 ≤ mx) {ls s} (hr : LTS.run (outside o fam mx e).step (outside o fam mx e).init ls = some s)
    (hp : (outside o fam mx e).Prompt (fun s => Merge.Settled s.1.prod) ls) (hc : Calm o (Clocked.sources ls) s.1) (hq : Merge.Settled s.1.prod)
    (h1 : Time.act (.inr (.dispose 0)) ∉ ls) (h2 : Time.act (.inr (.raise 0)) ∉ ls) {t : Nat} (ht : t < o.now s.1.outer) (het : e ≤ t) :
    .completed ∈ upto t ((outside o fam mx e).calls s) ↔ (story (upto t (shifted e (o.calls s.1.outer)))).fin = .done ∧
      ∀ i ∈ s.1.inners, (story (upto t (shifted e ((fam i.1 i.2.1).calls i.2.2)))).fin = .done := by
  have hl : (o.merged fam mx).Lawful := nested_lawful hpr.source hpr.inner (merge_starts mx) 0
  have r1 := (Clocked.clocks hl (Delay.stage_lawful true e) hr).1
  have p1 := Clocked.Prompt.before (rest := fun s : Nested SO (Merge.State ω) SI ω α => Merge.Settled s.prod) hl (Delay.stage_lawful true e) hr hp
  rw [C181_delayed hl hr h1 h2 ht, upto_shifted, if_pos het, upto_shifted, if_pos het]
  have := C112_completed hpr hm r1 p1 hc hq (t - e)
  rw [show (o.merged fam mx).calls s.1 = s.1.posts from rfl, this]
  refine and_congr_right fun _ => ⟨fun h i hi => ?_, fun h i hi => ?_⟩
  · rw [upto_shifted, if_pos het]; exact h i hi
  · have := h i hi; rw [upto_shifted, if_pos het] at this; exact this

/-! ## cases -/

section Examples

/-- `merge` of `interval(1, 2)` and `interval(2, 2)`, subscribed at 5, with `delay(3)` -/
abbrev demoSource := ofSeqAt 5 [((1 : Int), (2 : Int)), (2, 2)]
abbrev demoOutside := outside demoSource (intervals id) 0 3
abbrev demoInside := inside demoSource (intervals id) 0 3
abbrev ticks : List Interval.Label := [.start, .wake, .ret]
abbrev delays : List (Delay.Label Nat) := [.start 0, .receive 0, .wake 0, .ret 0]
abbrev steps {LI ω : Type} (inner : List LI) : List (Nested.Label (Option Unit) LI ω Nat) :=
  [.outer (some ())] ++ (List.range 2).flatMap (fun k => inner.map fun l => .inner k l) ++ [.own .receive, .own .subscribed, .own .disposed]
def demoOut := FlatMap.greedy demoOutside ((steps ticks).map .inl ++ delays.map .inr) 43 demoOutside.init
def demoIn := FlatMap.greedy demoInside (steps (ticks.map .inl ++ delays.map .inr)) 45 demoInside.init

theorem demoOut_run : LTS.run demoOutside.step demoOutside.init demoOut.1 = some demoOut.2 := FlatMap.greedy_run ..
theorem demoIn_run : LTS.run demoInside.step demoInside.init demoIn.1 = some demoIn.2 := FlatMap.greedy_run ..
example : demoOutside.calls demoOut.2 = [(.next 0, 9), (.next 0, 10), (.next 1, 11), (.next 1, 12)] := by decide +kernel
example : demoIn.2.posts = [(.next 0, 9), (.next 0, 10), (.next 1, 11), (.next 1, 12)] := by decide +kernel

theorem demoOut_calm : demoOut.1.all (fun | .act (.inr (.dispose 0)) | .act (.inr (.raise 0)) => false | _ => true) = true := by decide +kernel
theorem demoIn_calm : demoIn.1.all (fun | .act (.inner _ (.inr (.dispose 0))) | .act (.inner _ (.inr (.raise 0))) => false | _ => true) = true := by decide +kernel
theorem demo_proper : Proper demoSource (intervals (id : Int × Int → _)) := intervals_proper id (ofSeq_lawful 5 _) ofSeq_grammar

/-- The hypotheses of `C187_same` are met, also that no two values are sent at the same time. -/
example : sentBefore 12 (noDone (demoOutside.calls demoOut.2)) = sentBefore 12 (noDone demoIn.2.posts) := by
  have := (C187_same demo_proper demoOut_run (fun h => by simpa using List.all_eq_true.mp demoOut_calm _ h) (fun h => by simpa using List.all_eq_true.mp demoOut_calm _ h)
    demoIn_run (fun k h => by simpa using List.all_eq_true.mp demoIn_calm _ h) (fun k h => by simpa using List.all_eq_true.mp demoIn_calm _ h)
    (by decide +kernel) (by decide +kernel) (by decide +kernel) (by decide +kernel)).2 (by decide +kernel)
  have hn : demoSource.now demoOut.2.1.outer = 12 := by decide +kernel
  rw [hn] at this
  exact this

/-- `merge` of nothing, with `delay(3)` -/
abbrev noneOutside := outside (ofSeqAt 0 ([] : List (Int × Int))) (intervals id) 0 3
abbrev noneInside := inside (ofSeqAt 0 ([] : List (Int × Int))) (intervals id) 0 3
def noneOut := FlatMap.greedy noneOutside ((steps ticks).map .inl ++ delays.map .inr) 20 noneOutside.init
def noneIn := FlatMap.greedy noneInside (steps (ticks.map .inl ++ delays.map .inr)) 20 noneInside.init

/-- C187: so the completion can come earlier if `delay` is moved in. -/
theorem C187_completed_order :
    LTS.run noneOutside.step noneOutside.init noneOut.1 = some noneOut.2 ∧ LTS.run noneInside.step noneInside.init noneIn.1 = some noneIn.2 ∧
    noneOutside.calls noneOut.2 = [(.completed, 3)] ∧ noneIn.2.posts = [(.completed, 0)] :=
  ⟨FlatMap.greedy_run .., FlatMap.greedy_run .., by decide +kernel, by decide +kernel⟩

/-- The hypotheses of `C187_completed_inside` are met. -/
example : .completed ∈ upto 0 noneIn.2.posts := by
  have h0 : noneIn.1.all (fun | .act (.inner _ (.inr (.dispose 0))) | .act (.inner _ (.inr (.raise 0))) | .act (.own .subscribeFails) | .act (.own .disposeFails) | .act (.own .cancel) => false | _ => true) = true := by
    decide +kernel
  have hs : settled noneIn.2.prod = true := by decide +kernel
  refine (C187_completed_inside (intervals_proper id (ofSeq_lawful 0 _) ofSeq_grammar) (by decide) C187_completed_order.2.1
    (Clocked.Prompt.of_rests (q := noneInside) (idle := fun s => settled s.prod) (fun _ => settled_of) (by decide +kernel))
    ⟨⟨fun h => by simpa using List.all_eq_true.mp h0 _ h, fun h => by simpa using List.all_eq_true.mp h0 _ h⟩, fun h => by simpa using List.all_eq_true.mp h0 _ h, ?_⟩
    (settled_of hs) (fun k h => by simpa using List.all_eq_true.mp h0 _ h) (fun k h => by simpa using List.all_eq_true.mp h0 _ h) (by decide +kernel)).mpr ?_
  · intro e t
    have : ((ofSeqAt 0 ([] : List (Int × Int))).calls noneIn.2.outer) = [(.completed, 0)] := by decide +kernel
    rw [this]; simp
  · have : noneIn.2.inners.length = 0 := by decide +kernel
    have h2 : noneIn.2.inners = [] := List.length_eq_zero_iff.mp this
    refine ⟨by decide +kernel, ?_⟩
    rw [h2]; simp

/-- And those of `C187_completed_outside`. -/
example : .completed ∉ upto 2 ((noneOutside).calls noneOut.2) ∧ .completed ∈ upto 3 ((noneOutside).calls noneOut.2) := by
  have h0 : noneOut.1.all (fun | .act (.inr (.dispose 0)) | .act (.inr (.raise 0)) => false | _ => true) = true := by decide +kernel
  have h1 : (Clocked.sources noneOut.1).all (fun | .act (.own .subscribeFails) | .act (.own .disposeFails) | .act (.own .cancel) => false | _ => true) = true := by decide +kernel
  have hs : settled noneOut.2.1.prod = true := by decide +kernel
  have hc : ((ofSeqAt 0 ([] : List (Int × Int))).calls noneOut.2.1.outer) = [(.completed, 0)] := by decide +kernel
  refine ⟨by decide +kernel, (C187_completed_outside (intervals_proper id (ofSeq_lawful 0 _) ofSeq_grammar) (by decide) C187_completed_order.1
    (Clocked.Prompt.of_rests (q := noneOutside) (idle := fun s => settled s.1.prod) (fun _ => settled_of) (by decide +kernel))
    ⟨⟨fun h => by simpa using List.all_eq_true.mp h1 _ h, fun h => by simpa using List.all_eq_true.mp h1 _ h⟩, fun h => by simpa using List.all_eq_true.mp h1 _ h, ?_⟩
    (settled_of hs) (fun h => by simpa using List.all_eq_true.mp h0 _ h) (fun h => by simpa using List.all_eq_true.mp h0 _ h) (by decide +kernel) (by decide)).mpr ?_⟩
  · intro e t
    rw [hc]; simp
  · have : noneOut.2.1.inners.length = 0 := by decide +kernel
    have h2 : noneOut.2.1.inners = [] := List.length_eq_zero_iff.mp this
    refine ⟨by decide +kernel, ?_⟩
    rw [h2]; simp

end Examples
end DelayMerge
end Aio
