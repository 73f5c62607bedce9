import Verif.Props.C119_SearchBox
import Verif.Props.C187_DelayMerge
/-!
# C188: `debounce` and `merge`

`pipe(merge(...), debounce(d))` and `merge` of the same observables with `debounce(d)` behind each of them.
-/

namespace Aio
open Spec Spec.Timed Spec.SearchBox Nested
variable {SO LO SI LI ω α : Type} {o : Clocked SO LO ω} {fam : ω → Nat → Clocked SI LI α} {mx : Int} {d : Nat}

namespace DebounceMerge

/-- `pipe(source, merge_inner(mx), debounce(d))` -/
abbrev outside (o : Clocked SO LO ω) (fam : ω → Nat → Clocked SI LI α) (mx : Int) (d : Nat) := (o.merged fam mx).through (Debounce.stage true d)

/-- The inner observables with `debounce(d)` behind each of them. Simplified: the safe observer between `debounce` and the observer of `merge_inner` (timeshift.py:108, observers.py:151-199) is left out; it
hands on values at once (C109). -/
abbrev debounced (fam : ω → Nat → Clocked SI LI α) (d : Nat) (x : ω) (t : Nat) := (fam x t).through (Debounce.stage true d)

/-- `pipe(source, map(lambda xs: pipe(xs, debounce(d))), merge_inner(mx))` -/
abbrev inside (o : Clocked SO LO ω) (fam : ω → Nat → Clocked SI LI α) (mx : Int) (d : Nat) := o.merged (debounced fam d) mx

/-- Which values `debounce` sends, if no two come at the same time. -/
theorem mem_quiet_iff (d now u : Nat) (v : α) : ∀ {l : List (α × Nat)}, InTime l → (l.map (·.2)).Nodup →
    ((v, u) ∈ quiet d now l ↔ ∃ t, (v, t) ∈ l ∧ u = t + d ∧ t + d < now ∧ ∀ c ∈ l, t < c.2 → t + d < c.2)
  | [], _, _ => by simp [quiet]
  | (w, x) :: l, h1, h2 => by
    have h1' := List.pairwise_cons.mp h1
    have h2' := List.nodup_cons.mp h2
    have later : ∀ c ∈ l, x < c.2 := fun c hc => Nat.lt_of_le_of_ne (h1'.1 c hc) fun h => h2'.1 (h ▸ List.mem_map.mpr ⟨c, hc, rfl⟩)
    have ih := mem_quiet_iff d now u v h1'.2 h2'.2
    have tail : (v, u) ∈ quiet d now l ↔ ∃ t, (v, t) ∈ l ∧ u = t + d ∧ t + d < now ∧ ∀ c ∈ (w, x) :: l, t < c.2 → t + d < c.2 := by
      rw [ih]
      refine exists_congr fun t => and_congr_right fun ht => and_congr_right fun _ => and_congr_right fun _ => ⟨fun h c hc hl => ?_, fun h c hc => h c (List.mem_cons_of_mem _ hc)⟩
      rcases List.mem_cons.mp hc with rfl | hc
      · have := later _ ht; dsimp only at hl this; omega
      · exact h c hc hl
    rw [quiet]
    constructor
    · intro h
      split at h
      next hq =>
        rcases List.mem_cons.mp h with h | h
        · cases h
          refine ⟨x, List.mem_cons_self .., rfl, hq.1, fun c hc hl => ?_⟩
          rcases List.mem_cons.mp hc with rfl | hc
          · exact absurd hl (Nat.lt_irrefl _)
          · exact hq.2 c hc
        · obtain ⟨t, a, b⟩ := tail.mp h; exact ⟨t, List.mem_cons_of_mem _ a, b⟩
      next => obtain ⟨t, a, b⟩ := tail.mp h; exact ⟨t, List.mem_cons_of_mem _ a, b⟩
    · rintro ⟨t, a, b, c, e⟩
      rcases List.mem_cons.mp a with a | a
      · cases a
        rw [if_pos ⟨c, fun z hz => e z (List.mem_cons_of_mem _ hz) (later z hz)⟩, b]
        exact List.mem_cons_self ..
      · have := tail.mpr ⟨t, a, b, c, e⟩
        split
        · exact List.mem_cons_of_mem _ this
        · exact this

/-- As `arrive`; the Rx grammar is not needed. -/
theorem arrives (ho : o.Lawful) (hf : Fam fam) {ls s} (hr : LTS.run (o.merged fam mx).step (o.merged fam mx).init ls = some s) :
    (noDone s.posts).Perm (errors (o.calls s.outer) ++ s.inners.flatMap fun i => noDone ((fam i.1 i.2.1).calls i.2.2)) := by
  obtain ⟨h, hp⟩ := Nested.past ho hf (merge_starts mx) hr
  have ha : noDone s.posts = arrivesAt h := posts_arrive (merge_forwards mx) hp.run
  rw [ha, ← hp.flat, ← hp.outer]
  exact arrives_perm hp.keys

private theorem valuesAt_noDone (cs : List (Notif α × Nat)) : valuesAt (noDone cs) = valuesAt cs := by
  induction cs with
  | nil => rfl
  | cons c cs ih =>
    obtain ⟨n, t⟩ := c
    cases n with
    | next v => exact congrArg ((v, t) :: ·) ih
    | error x => exact ih
    | completed => exact ih

private theorem valuesAt_errors (cs : List (Notif ω × Nat)) : valuesAt (errors cs : List (Notif α × Nat)) = [] := by
  induction cs with
  | nil => rfl
  | cons c cs ih =>
    obtain ⟨n, t⟩ := c
    cases n <;> exact ih

private theorem valuesAt_flatMap {ι : Type} (f : ι → List (Notif α × Nat)) : ∀ l : List ι, valuesAt (l.flatMap f) = l.flatMap fun i => valuesAt (f i)
  | [] => rfl
  | i :: l => by rw [List.flatMap_cons, List.flatMap_cons, valuesAt, List.filterMap_append, ← valuesAt_flatMap f l]; rfl

/-- The values that are posted are those of the inner observables. -/
theorem values (ho : o.Lawful) (hf : Fam fam) {ls s} (hr : LTS.run (o.merged fam mx).step (o.merged fam mx).init ls = some s) :
    (valuesAt s.posts).Perm (s.inners.flatMap fun i => valuesAt ((fam i.1 i.2.1).calls i.2.2)) := by
  have h : (valuesAt (noDone s.posts)).Perm (valuesAt (errors (o.calls s.outer) ++ s.inners.flatMap fun i => noDone ((fam i.1 i.2.1).calls i.2.2))) := (arrives ho hf hr).filterMap _
  rw [valuesAt_noDone] at h
  have e : valuesAt ((errors (o.calls s.outer) : List (Notif α × Nat)) ++ s.inners.flatMap fun i => noDone ((fam i.1 i.2.1).calls i.2.2)) =
      s.inners.flatMap fun i => valuesAt ((fam i.1 i.2.1).calls i.2.2) := by
    have : valuesAt ((errors (o.calls s.outer) : List (Notif α × Nat)) ++ s.inners.flatMap fun i => noDone ((fam i.1 i.2.1).calls i.2.2)) =
      valuesAt (errors (o.calls s.outer) : List (Notif α × Nat)) ++ valuesAt (s.inners.flatMap fun i => noDone ((fam i.1 i.2.1).calls i.2.2)) := List.filterMap_append ..
    rw [this, valuesAt_errors, valuesAt_flatMap, List.nil_append]
    simp only [valuesAt_noDone]
  rw [e] at h
  exact h

private theorem mem_next {l : List (α × Nat)} {v : α} {u : Nat} : (Notif.next v, u) ∈ (l.map fun c => ((Notif.next c.1 : Notif α), c.2)) ↔ (v, u) ∈ l := by
  simp only [List.mem_map, Prod.mk.injEq, Notif.next.injEq]
  exact ⟨fun ⟨c, h, e1, e2⟩ => by obtain ⟨a, b⟩ := c; cases e1; cases e2; exact h, fun h => ⟨_, h, rfl, rfl⟩⟩

/-- C188: with `debounce(d)` behind the merged stream, a value is sent, `d` after an inner observable sent it, if and only if none of the inner observables sends anything in the meantime. -/
theorem C188_outside (ho : o.Lawful) (hf : Fam fam) {ls s} (hr : LTS.run (outside o fam mx d).step (outside o fam mx d).init ls = some s) (hd : Time.act (.inr .dispose) ∉ ls)
    (hv : ∀ c ∈ s.1.posts, c.1.isTerminal = false)
    (hn : ((s.1.inners.flatMap fun i => valuesAt ((fam i.1 i.2.1).calls i.2.2)).map (·.2)).Nodup)
    (ha : ∀ i ∈ s.1.inners, ∀ x ∈ valuesAt ((fam i.1 i.2.1).calls i.2.2), x.2 + d ≠ o.now s.1.outer ∧
      ∀ j ∈ s.1.inners, ∀ y ∈ valuesAt ((fam j.1 j.2.1).calls j.2.2), x.2 ≠ y.2 → x.2 + d ≠ y.2) (v : α) (u : Nat) :
    (.next v, u) ∈ (outside o fam mx d).calls s ↔
      ∃ t, (∃ i ∈ s.1.inners, (v, t) ∈ valuesAt ((fam i.1 i.2.1).calls i.2.2)) ∧ u = t + d ∧ t + d < o.now s.1.outer ∧
        ∀ j ∈ s.1.inners, ∀ y ∈ valuesAt ((fam j.1 j.2.1).calls j.2.2), t < y.2 → t + d < y.2 := by
  have hl : (o.merged fam mx).Lawful := nested_lawful ho hf (merge_starts mx) 0
  obtain ⟨r1, -⟩ := Clocked.clocks hl (Debounce.stage_lawful true d) hr
  have hp := values ho hf r1
  have mem : ∀ x, x ∈ valuesAt s.1.posts ↔ ∃ i ∈ s.1.inners, x ∈ valuesAt ((fam i.1 i.2.1).calls i.2.2) := fun x => by rw [hp.mem_iff, List.mem_flatMap]
  have hi : InTime (valuesAt s.1.posts) := inTime_values (hl.inTime r1).1
  have hn' : ((valuesAt s.1.posts).map (·.2)).Nodup := (hp.map (·.2)).nodup_iff.mpr hn
  have hap : Apart d (o.now s.1.outer) (valuesAt s.1.posts) := by
    refine ⟨?_, fun c hc => ?_⟩
    · refine (List.pairwise_map.mp hn').imp_of_mem fun {a b} h1 h2 hne => ?_
      obtain ⟨i, i1, i2⟩ := (mem a).mp h1
      obtain ⟨j, j1, j2⟩ := (mem b).mp h2
      exact (ha i i1 a i2).2 j j1 b j2 hne
    · obtain ⟨i, i1, i2⟩ := (mem c).mp hc
      exact (ha i i1 c i2).1
  have e := C119_debounce hl hr hd hv hap
  rw [show (outside o fam mx d).calls s = s.2.posted from rfl, e, mem_next,
    show (o.merged fam mx).now s.1 = o.now s.1.outer from rfl, show (o.merged fam mx).calls s.1 = s.1.posts from rfl, mem_quiet_iff d _ u v hi hn']
  refine exists_congr fun t => and_congr (mem _) (and_congr_right fun _ => and_congr_right fun _ => ⟨fun h j hj y hy => h y ((mem y).mpr ⟨j, hj, hy⟩), fun h c hc => ?_⟩)
  obtain ⟨j, hj, hy⟩ := (mem c).mp hc
  exact h j hj c hy

/-- C188: with `debounce(d)` behind each inner observable, if and only if that inner observable does not. -/
theorem C188_inside (ho : o.Lawful) (hf : Fam fam) {ls s} (hr : LTS.run (inside o fam mx d).step (inside o fam mx d).init ls = some s)
    (hd : ∀ k, Time.act (.inner k (.inr .dispose)) ∉ ls) (hv : ∀ i ∈ s.inners, ∀ c ∈ (fam i.1 i.2.1).calls i.2.2.1, c.1.isTerminal = false)
    (hn : ∀ i ∈ s.inners, ((valuesAt ((fam i.1 i.2.1).calls i.2.2.1)).map (·.2)).Nodup)
    (ha : ∀ i ∈ s.inners, Apart d (o.now s.outer) (valuesAt ((fam i.1 i.2.1).calls i.2.2.1))) (v : α) (u : Nat) :
    (.next v, u) ∈ s.posts ↔
      ∃ t, ∃ i ∈ s.inners, (v, t) ∈ valuesAt ((fam i.1 i.2.1).calls i.2.2.1) ∧ u = t + d ∧ t + d < o.now s.outer ∧
        ∀ y ∈ valuesAt ((fam i.1 i.2.1).calls i.2.2.1), t < y.2 → t + d < y.2 := by
  have hf' : Fam (debounced fam d) := fun x t => ⟨Clocked.through_lawful (hf x t).1 (Debounce.stage_lawful true d), (hf x t).2⟩
  obtain ⟨h, hp⟩ := Nested.past ho hf' (merge_starts mx) hr
  have key : ∀ i ∈ s.inners, ((v, u) ∈ valuesAt ((debounced fam d i.1 i.2.1).calls i.2.2) ↔
      ∃ t, (v, t) ∈ valuesAt ((fam i.1 i.2.1).calls i.2.2.1) ∧ u = t + d ∧ t + d < o.now s.outer ∧ ∀ y ∈ valuesAt ((fam i.1 i.2.1).calls i.2.2.1), t < y.2 → t + d < y.2) := by
    intro i hi
    obtain ⟨k, hk⟩ := List.mem_iff_getElem?.mp hi
    obtain ⟨⟨li, b1, b2⟩, b3⟩ := hp.sources k i.1 i.2.1 i.2.2 hk
    have b4 : (fam i.1 i.2.1).now i.2.2.1 = o.now s.outer := b3
    have hl := (hf i.1 i.2.1).1
    have r1 := (Clocked.clocks hl (Debounce.stage_lawful true d) b1).1
    have e := C119_debounce hl b1 (fun hx => hd k (b2 _ hx)) (hv i hi) (by rw [b4]; exact ha i hi)
    rw [b4] at e
    rw [mem_values, show (debounced fam d i.1 i.2.1).calls i.2.2 = i.2.2.2.posted from rfl, e, mem_next, mem_quiet_iff d _ u v (inTime_values (hl.inTime r1).1) (hn i hi)]
  have := (values ho hf' hr).mem_iff (a := (v, u))
  rw [mem_values, List.mem_flatMap] at this
  rw [this]
  constructor
  · rintro ⟨i, hi, hx⟩
    obtain ⟨t, ht⟩ := (key i hi).mp hx
    exact ⟨t, i, hi, ht⟩
  · rintro ⟨t, i, hi, ht⟩
    exact ⟨i, hi, (key i hi).mpr ⟨t, ht⟩⟩

/-- C188: so moving `debounce` into `merge` loses nothing: if the same inner observables have sent the same by the same time, what is sent with `debounce` behind is also sent, at the same
time, with `debounce` inside. -/
theorem C188_more (ho : o.Lawful) (hf : Fam fam) {ls s} (hr : LTS.run (outside o fam mx d).step (outside o fam mx d).init ls = some s) (hd : Time.act (.inr .dispose) ∉ ls)
    (hv : ∀ c ∈ s.1.posts, c.1.isTerminal = false) {mx' ls' s'} (hr' : LTS.run (inside o fam mx' d).step (inside o fam mx' d).init ls' = some s')
    (hd' : ∀ k, Time.act (.inner k (.inr .dispose)) ∉ ls') (hv' : ∀ i ∈ s.1.inners, ∀ c ∈ (fam i.1 i.2.1).calls i.2.2, c.1.isTerminal = false)
    (hnow : o.now s'.outer = o.now s.1.outer)
    (hsame : (s'.inners.map fun i => (fam i.1 i.2.1).calls i.2.2.1) = s.1.inners.map fun i => (fam i.1 i.2.1).calls i.2.2)
    (hn : ((s.1.inners.flatMap fun i => valuesAt ((fam i.1 i.2.1).calls i.2.2)).map (·.2)).Nodup)
    (ha : ∀ i ∈ s.1.inners, ∀ x ∈ valuesAt ((fam i.1 i.2.1).calls i.2.2), x.2 + d ≠ o.now s.1.outer ∧
      ∀ j ∈ s.1.inners, ∀ y ∈ valuesAt ((fam j.1 j.2.1).calls j.2.2), x.2 ≠ y.2 → x.2 + d ≠ y.2) {v : α} {u : Nat}
    (h : (.next v, u) ∈ (outside o fam mx d).calls s) : (.next v, u) ∈ s'.posts := by
  have back : ∀ i ∈ s'.inners, ∃ j ∈ s.1.inners, (fam j.1 j.2.1).calls j.2.2 = (fam i.1 i.2.1).calls i.2.2.1 := fun i hi => by
    have : (fam i.1 i.2.1).calls i.2.2.1 ∈ s'.inners.map fun i => (fam i.1 i.2.1).calls i.2.2.1 := List.mem_map.mpr ⟨i, hi, rfl⟩
    rw [hsame] at this
    exact List.mem_map.mp this
  have forth : ∀ i ∈ s.1.inners, ∃ j ∈ s'.inners, (fam j.1 j.2.1).calls j.2.2.1 = (fam i.1 i.2.1).calls i.2.2 := fun i hi => by
    have : (fam i.1 i.2.1).calls i.2.2 ∈ s.1.inners.map fun i => (fam i.1 i.2.1).calls i.2.2 := List.mem_map.mpr ⟨i, hi, rfl⟩
    rw [← hsame] at this
    exact List.mem_map.mp this
  have hni : ∀ i ∈ s.1.inners, ((valuesAt ((fam i.1 i.2.1).calls i.2.2)).map (·.2)).Nodup := fun i hi => by
    refine List.Nodup.sublist (List.Sublist.map _ ?_) hn
    rw [List.flatMap_def]
    exact List.sublist_flatten_of_mem (List.mem_map.mpr ⟨i, hi, rfl⟩)
  obtain ⟨t, ⟨i, hi, hx⟩, h2, h3, h4⟩ := (C188_outside ho hf hr hd hv hn ha v u).mp h
  refine (C188_inside ho hf hr' hd' (fun j hj => ?_) (fun j hj => ?_) (fun j hj => ?_) v u).mpr ?_
  · obtain ⟨k, hk, e⟩ := back j hj
    rw [← e]; exact hv' k hk
  · obtain ⟨k, hk, e⟩ := back j hj
    rw [← e]; exact hni k hk
  · obtain ⟨k, hk, e⟩ := back j hj
    rw [← e, hnow]
    refine ⟨(List.pairwise_map.mp (hni k hk)).imp_of_mem fun {a b} h1 h2 hne => (ha k hk a h1).2 k hk b h2 hne, fun c hc => (ha k hk c hc).1⟩
  · obtain ⟨k, hk, e⟩ := forth i hi
    exact ⟨t, k, hk, by rw [e]; exact hx, h2, by rw [hnow]; exact h3, by rw [e]; exact h4 i hi⟩

section Examples

/-- `merge` of `interval(1, 9)` and `interval(2, 9)`, subscribed at 5, with `debounce(3)` -/
abbrev demoSource := ofSeqAt 5 [((1 : Int), (9 : Int)), (2, 9)]
abbrev demoOutside := outside demoSource (intervals id) 0 3
abbrev demoInside := inside demoSource (intervals id) 0 3
abbrev timers : List (Debounce.Label Nat) := .receive :: (List.range 4).flatMap fun k => [.start k, .wake k]
def demoOut := FlatMap.greedy demoOutside ((DelayMerge.steps DelayMerge.ticks).map .inl ++ timers.map .inr) 40 demoOutside.init
def demoIn := FlatMap.greedy demoInside (DelayMerge.steps (DelayMerge.ticks.map .inl ++ timers.map .inr)) 40 demoInside.init

theorem demoOut_run : LTS.run demoOutside.step demoOutside.init demoOut.1 = some demoOut.2 := FlatMap.greedy_run ..
theorem demoIn_run : LTS.run demoInside.step demoInside.init demoIn.1 = some demoIn.2 := FlatMap.greedy_run ..

/-- C188: the converse is false: the first value of the first timer is lost with `debounce` behind, as the second timer sends 1 later, and is sent with `debounce` inside. In both runs the same
inner observables have sent the same by the same time. -/
theorem C188_order :
    LTS.run demoOutside.step demoOutside.init demoOut.1 = some demoOut.2 ∧ LTS.run demoInside.step demoInside.init demoIn.1 = some demoIn.2 ∧
    demoSource.now demoIn.2.outer = demoSource.now demoOut.2.1.outer ∧
    (demoIn.2.inners.map fun i => (intervals id i.1 i.2.1).calls i.2.2.1) = (demoOut.2.1.inners.map fun i => (intervals id i.1 i.2.1).calls i.2.2) ∧
    demoOutside.calls demoOut.2 = [(.next 0, 10)] ∧ demoIn.2.posts = [(.next 0, 9), (.next 0, 10)] :=
  ⟨demoOut_run, demoIn_run, by decide +kernel, by decide +kernel, by decide +kernel, by decide +kernel⟩

theorem demoOut_calm : demoOut.1.all (fun | .act (.inr .dispose) => false | _ => true) = true := by decide +kernel
theorem demoIn_calm : demoIn.1.all (fun | .act (.inner _ (.inr .dispose)) => false | _ => true) = true := by decide +kernel
theorem demo_fam : Fam (intervals (id : Int × Int → _)) := DelayMerge.demo_proper.inner

/-- The hypotheses of `C188_more`, and with them those of `C188_outside` and `C188_inside`, are met. -/
example : (.next 0, 10) ∈ demoIn.2.posts :=
  C188_more (ofSeq_lawful 5 _) demo_fam demoOut_run (fun h => by simpa using List.all_eq_true.mp demoOut_calm _ h) (by decide +kernel)
    demoIn_run (fun k h => by simpa using List.all_eq_true.mp demoIn_calm _ h) (by decide +kernel) C188_order.2.2.1 C188_order.2.2.2.1 (by decide +kernel) (by decide +kernel)
    (by decide +kernel)

end Examples
end DebounceMerge
end Aio
