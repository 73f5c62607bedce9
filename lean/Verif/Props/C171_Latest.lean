import Verif.Props.C168_Regroup
/-!
# C171: `flat_map_latest` sends some of what `concat_map` sends, and all of the last
-/

namespace Aio
open Spec Spec.Timed Spec.Bind
variable {S L SO LO SI LI ω α : Type}

namespace Flatten
variable {o : Clocked SO LO ω} {fam : ω → Nat → Clocked SI LI α} {t0 : Nat}

theorem latest_lawful (ho : Fair o t0) (hf : ∀ x t, Fair (fam x t) t) : (o.switched fam true).Lawful :=
  Nested.nested_lawful (proper ho hf).source (proper ho hf).inner (Nested.switch_starts true) 1

/-- C171: it makes its calls at the times that it says and keeps the grammar. -/
theorem C171_fair (ho : Fair o t0) (hf : ∀ x t, Fair (fam x t) t) : Fair (o.flatMappedLatest fam) t0 where
  lawful := Clocked.operate_lawful (latest_lawful ho hf) _
  start := ho.start
  grammar := Clocked.operate_grammar (latest_lawful ho hf) id_computes.guarded.slow fun _ _ _ => trivial

/-- What reaches the observer is the beginning of what the inner observables and the source post, and all of it when the safe observer's worker has nothing to do. -/
theorem latest_received (ho : Fair o t0) (hf : ∀ x t, Fair (fam x t) t) {ls s} (hr : LTS.run (o.flatMappedLatest fam).step (o.flatMappedLatest fam).init ls = some s) :
    LTS.run (o.switched fam true).step (o.switched fam true).init (Clocked.sources ls) = some s.1 ∧ ((o.flatMappedLatest fam).calls s).map (·.1) <+: Spec.cut (s.1.posts.map (·.1)) ∧
    ((FlatMap.safe (α := α)).protected.slowProc.Quiescent s.2.ps → ((o.flatMappedLatest fam).calls s).map (·.1) = Spec.cut (s.1.posts.map (·.1))) := by
  obtain ⟨g1, g2⟩ := Clocked.operate_source (latest_lawful ho hf) hr
  obtain ⟨es, e1, e2⟩ := Clocked.operate_exec hr
  have h1 := id_computes.guarded.slow.prefix_ es _ _ e1 trivial
  have h2 := id_computes.guarded.slow.all es _ _ e1 trivial
  rw [e2, g2] at h1 h2
  exact ⟨g1, h1, h2⟩

/-- the values, whatever comes in between -/
def nexts (ns : List (Notif α)) : List α := ns.filterMap fun | .next v => some v | _ => none

theorem nexts_append (a b : List (Notif α)) : nexts (a ++ b) = nexts a ++ nexts b := List.filterMap_append ..

theorem nexts_next (vs : List α) : nexts (vs.map Notif.next) = vs := by induction vs <;> simp_all [nexts]

theorem vals_prefix (ns : List (Notif α)) : (story ns).vals <+: nexts ns := by
  induction ns with
  | nil => simp [nexts]
  | cons n ns ih => cases n <;> simp_all [nexts]

theorem vals_no_end {ns : List (Notif α)} (hd : .completed ∉ ns) (he : ∀ e, .error e ∉ ns) : (story ns).vals = nexts ns := by
  obtain ⟨vs, rfl⟩ := FlatMap.values_grammar hd he
  have := story_map_next_append vs []
  simp at this
  rw [this, nexts_next]

theorem nexts_grammar {ns : List (Notif α)} (hg : Grammar ns) : nexts ns = (story ns).vals := by
  conv => lhs; rw [← cut_of_grammar hg, Spec.cut]
  generalize story ns = s
  obtain ⟨vs, f⟩ := s
  simp only [Story.events, nexts_append, nexts_next]
  cases f <;> simp [End.events, nexts]

theorem nexts_noDone (cs : List (Notif α × Nat)) : nexts (cs.map (·.1)) = nexts ((noDone cs).map (·.1)) := by
  induction cs with
  | nil => rfl
  | cons c cs ih =>
    obtain ⟨n, t⟩ := c
    simp only [noDone, nexts] at ih ⊢
    cases n <;> simp [ih]

theorem nexts_flatMap (is : List (ω × Nat × SI)) :
    nexts ((is.flatMap fun i => noDone ((fam i.1 i.2.1).calls i.2.2)).map (·.1)) = is.flatMap fun i => nexts (((fam i.1 i.2.1).calls i.2.2).map (·.1)) := by
  induction is with
  | nil => rfl
  | cons i is ih => rw [List.flatMap_cons, List.flatMap_cons, List.map_append, nexts_append, ih, ← nexts_noDone]

/-- The values that have been posted: those of the inner observables that have been subscribed, in the order of the values of the source. -/
theorem latest_values (ho : Fair o t0) (hf : ∀ x t, Fair (fam x t) t) {ls s} (hr : LTS.run (o.switched fam true).step (o.switched fam true).init ls = some s)
    (he : ∀ e t, (.error e, t) ∉ o.calls s.outer) :
    nexts (s.posts.map (·.1)) = (s.inners.flatMap fun i => (story (((fam i.1 i.2.1).calls i.2.2).map (·.1))).vals) ∧
    (∀ i ∈ s.inners, ∃ li, LTS.run (fam i.1 i.2.1).step (fam i.1 i.2.1).init li = some i.2.2) ∧
    s.inners.map (·.1) <+: (story ((o.calls s.outer).map (·.1))).vals := by
  have hpr := proper ho hf
  obtain ⟨h, hpast⟩ := Nested.past hpr.source hpr.inner (Nested.switch_starts true) hr
  have hin : ∀ i ∈ s.inners, ∃ li, LTS.run (fam i.1 i.2.1).step (fam i.1 i.2.1).init li = some i.2.2 := by
    rintro ⟨x, u, si⟩ hi
    obtain ⟨k, hk⟩ := List.getElem?_of_mem hi
    obtain ⟨⟨li, hli, -⟩, -⟩ := hpast.sources k _ _ _ hk
    exact ⟨li, hli⟩
  refine ⟨?_, hin, ?_⟩
  · rw [nexts_noDone, (Nested.C114_in_order hpr hr he).1, nexts_flatMap]
    have : ∀ is : List (ω × Nat × SI), (∀ i ∈ is, ∃ li, LTS.run (fam i.1 i.2.1).step (fam i.1 i.2.1).init li = some i.2.2) →
        (is.flatMap fun i => nexts (((fam i.1 i.2.1).calls i.2.2).map (·.1))) = is.flatMap fun i => (story (((fam i.1 i.2.1).calls i.2.2).map (·.1))).vals := by
      intro is
      induction is with
      | nil => intro _; rfl
      | cons i is ih =>
        intro h
        obtain ⟨li, hli⟩ := h i (by simp)
        rw [List.flatMap_cons, List.flatMap_cons, ih fun j hj => h j (by simp [hj]), nexts_grammar ((hf _ _).grammar _ _ hli)]
    exact this _ hin
  · have hor := Switch.order_run (Producer.soloAt_run hpast.run)
    have h1 := hor.pre
    rw [Switch.offered_eq_sent (hpast.lawful hpr)] at h1
    rw [hpast.started, ← hpast.outer, ← Nested.outersAt_map]
    exact h1

theorem flatMap_sublist {Q : ω → List α} {is : List (ω × Nat × SI)} {g : ω × Nat × SI → List α} {xs : List ω} (hx : is.map (·.1) <+: xs) (hg : ∀ i ∈ is, (g i).Sublist (Q i.1)) :
    (is.flatMap g).Sublist (xs.flatMap Q) := by
  obtain ⟨ys, rfl⟩ := hx
  rw [List.flatMap_append]
  refine List.Sublist.trans ?_ (List.sublist_append_left _ _)
  induction is with
  | nil => simp
  | cons i is ih => simpa using (hg i (by simp)).append (ih fun j hj => hg j (by simp [hj]))

/-- C171: on any loop, whatever fails and whenever it is disposed: as long as the source has not failed, what has been sent is a subsequence of the values of `f(x1)`, followed by those of `f(x2)`, and so on,
for the values that the source has sent. -/
theorem C171_sublist (ho : Fair o t0) (hf : ∀ x t, Fair (fam x t) t) {Q : ω → List α} (hQ : ∀ x t, Always (fam x t) (Q x)) {ls s}
    (hr : LTS.run (o.flatMappedLatest fam).step (o.flatMappedLatest fam).init ls = some s) (he : ∀ e t, (.error e, t) ∉ o.calls s.1.outer) :
    (story (((o.flatMappedLatest fam).calls s).map (·.1))).vals.Sublist ((story ((o.calls s.1.outer).map (·.1))).vals.flatMap Q) := by
  obtain ⟨g1, g2, -⟩ := latest_received ho hf hr
  obtain ⟨h1, h2, h3⟩ := latest_values ho hf g1 he
  refine (Behind.story_prefix_vals g2).sublist.trans ((vals_prefix _).sublist.trans ?_)
  rw [h1]
  refine flatMap_sublist h3 fun i hi => ?_
  obtain ⟨li, hli⟩ := h2 i hi
  exact ((hQ _ _ _ _ hli).1).sublist

/-- C171: what `flat_map_latest` sends is a subsequence of what `concat_map` sends. -/
theorem C171_concat (ho : Fair o t0) (hf : ∀ x t, Fair (fam x t) t) {Q : ω → List α} (hQ : ∀ x t, Always (fam x t) (Q x)) {xs : List ω} (hx : Always o xs) {ls s}
    (hr : LTS.run (o.flatMappedLatest fam).step (o.flatMappedLatest fam).init ls = some s) (he : ∀ e t, (.error e, t) ∉ o.calls s.1.outer)
    {ws : List α} (hc : Completed (o.flattened fam 1) ws) : (story (((o.flatMappedLatest fam).calls s).map (·.1))).vals.Sublist ws := by
  obtain ⟨ys, ⟨lo, so, a1, a2⟩, rfl⟩ := flattened_list ho hf (Q := Q) (fun x t vs ⟨li, si, h1, h2⟩ => by have := (hQ x t li si h1).2; rw [h2] at this; exact this rfl) hc
  have hys : ys = xs := by have := (hx lo so a1).2; rw [a2] at this; exact this rfl
  subst hys
  refine (C171_sublist ho hf hQ hr he).trans ?_
  obtain ⟨g1, -⟩ := latest_received ho hf hr
  have hpr := proper ho hf
  obtain ⟨h, hpast⟩ := Nested.past hpr.source hpr.inner (Nested.switch_starts true) g1
  obtain ⟨lo', hlo', -⟩ := hpast.source
  obtain ⟨zs, hz⟩ := (hx _ _ hlo').1
  rw [← hz, List.flatMap_append]
  exact List.sublist_append_left _ _

/-- C171: nothing of the observable made from the last value is lost. If the source has not failed and `x` is the last value that it has sent, no `subscribe_async` and no `dispose_async` raises, nobody
disposes, no inner observable has failed, and neither worker has anything to do, then the last observable that was subscribed is `f(x)`, and what has been sent ends with what that has sent. -/
theorem C171_last (ho : Fair o t0) (hf : ∀ x t, Fair (fam x t) t) {ls s} (hr : LTS.run (o.flatMappedLatest fam).step (o.flatMappedLatest fam).init ls = some s)
    (he : ∀ e t, (.error e, t) ∉ o.calls s.1.outer) (hi : ∀ i ∈ s.1.inners, ∀ e t, (.error e, t) ∉ (fam i.1 i.2.1).calls i.2.2)
    (hfail : Nested.NoFailure (Clocked.sources ls)) (hc : Time.act (.own .cancel) ∉ Clocked.sources ls)
    (hq : Switch.Settled s.1.prod) (hd : (FlatMap.safe (α := α)).protected.slowProc.Quiescent s.2.ps)
    {ys : List ω} {x : ω} (hx : (story ((o.calls s.1.outer).map (·.1))).vals = ys ++ [x]) :
    ∃ is u si, s.1.inners = is ++ [(x, u, si)] ∧
      (story (((fam x u).calls si).map (·.1))).vals <:+ (story (((o.flatMappedLatest fam).calls s).map (·.1))).vals := by
  obtain ⟨g1, -, g3⟩ := latest_received ho hf hr
  obtain ⟨h1, h2, h3⟩ := latest_values ho hf g1 he
  have hpr := proper ho hf
  obtain ⟨h, hpast⟩ := Nested.past hpr.source hpr.inner (Nested.switch_starts true) g1
  have hsent : Merge.sent (h.map (·.1)) = ys ++ [x] := by rw [← hx, ← hpast.outer, ← Nested.outersAt_map]; rfl
  have hst : s.1.inners.map (·.1) = ys ++ [x] := by
    rw [hpast.started, ← hsent, ← Switch.offered_eq_sent (hpast.lawful hpr)]
    have hor := Switch.order_run (Producer.soloAt_run hpast.run)
    rcases hq with h | ⟨e1, e2⟩
    · exact absurd h (Switch.not_halted_run (Producer.soloAt_run hpast.run) (hpast.noFailure (fun _ h => h) hfail))
    · have := hor.eq (by simp [e1])
      simpa [e1, e2, Switch.pend, Switch.inners] using this
  have hquiet := Switch.quiet_run (Producer.soloAt_run hpast.run) (hpast.lawful hpr) (by
    intro hm
    obtain ⟨⟨l, t⟩, hx, hl⟩ := List.mem_map.mp hm
    dsimp only at hl
    subst hl
    exact hc (hpast.own _ hx rfl))
  have hnc : .completed ∉ s.1.posts.map (·.1) := fun hm => by
    have := (hquiet.posted hm).2.1
    rw [Switch.offered_eq_sent (hpast.lawful hpr), hsent] at this
    simp at this
  have hne : ∀ e, .error e ∉ s.1.posts.map (·.1) := by
    intro e hm
    obtain ⟨⟨n, t⟩, hm, hn⟩ := List.mem_map.mp hm
    dsimp only at hn
    subst hn
    have : (Notif.error e, t) ∈ noDone s.1.posts := by simp [noDone, hm]
    rw [(Nested.C114_in_order hpr g1 he).1] at this
    obtain ⟨i, hi', hm'⟩ := List.mem_flatMap.mp this
    exact hi i hi' e t ( (List.mem_filter.mp hm').1)
  obtain ⟨is, i, hsplit⟩ : ∃ is i, s.1.inners = is ++ [i] := by
    rcases List.eq_nil_or_concat s.1.inners with h | ⟨is, i, h⟩
    · simp [h] at hst
    · exact ⟨is, i, by simpa using h⟩
  obtain ⟨x', u, si⟩ := i
  rw [hsplit, List.map_append, List.map_singleton] at hst
  obtain rfl : x' = x := by simpa using (List.append_inj' hst rfl).2
  refine ⟨is, u, si, hsplit, ?_⟩
  rw [g3 hd, Spec.cut, story_events, vals_no_end hnc hne, h1, hsplit, List.flatMap_append]
  simp

/-! ## laws and cases -/

theorem single_always (x : α) (t : Nat) : Always (Once.clocked x t) [x] := by
  intro ls s hr
  have h1 : ((Once.clocked x t).calls s).map (·.1) <+: Story.events ⟨[x], .done⟩ := (Once.exact_ hr).1.map _
  refine ⟨Behind.story_prefix_vals h1, fun hd => ?_⟩
  rw [story_prefix h1 (by rw [hd]; simp)]

theorem ofSeq_always (xs : List α) (t : Nat) : Always (Nested.ofSeqAt t xs) xs := by
  intro ls s hr
  rcases ofSeq_all hr with h | h
  · rw [h]; simp
  · rw [h, story_events]; simp

/-- C171: `pipe(single(x), flat_map_latest(f))` sends the first values of `f(x)`, or all of them. -/
theorem C171_left (x : ω) (hf : ∀ x t, Fair (fam x t) t) {Q : ω → List α} (hQ : ∀ x t, Always (fam x t) (Q x)) {ls s}
    (hr : LTS.run ((Once.clocked x t0).flatMappedLatest fam).step ((Once.clocked x t0).flatMappedLatest fam).init ls = some s) :
    (story ((((Once.clocked x t0).flatMappedLatest fam).calls s).map (·.1))).vals <+: Q x := by
  have ho := single_fair x t0
  obtain ⟨g1, g2, -⟩ := latest_received ho hf hr
  obtain ⟨h, hpast⟩ := Nested.past (proper ho hf).source (proper ho hf).inner (Nested.switch_starts true) g1
  obtain ⟨lo, hlo, -⟩ := hpast.source
  have hp := (Once.exact_ hlo).1.map (·.1)
  have he : ∀ e t, (.error e, t) ∉ (Once.clocked x t0).calls s.1.outer := fun e t hm => by
    have := hp.subset (List.mem_map.mpr ⟨_, hm, rfl⟩)
    simp at this
  obtain ⟨h1, h2, h3⟩ := latest_values ho hf g1 he
  have hx := h3.trans (single_always x t0 _ _ hlo).1
  refine (Behind.story_prefix_vals g2).trans ((vals_prefix _).trans ?_)
  rw [h1]
  match hm : s.1.inners with
  | [] => simp
  | [(x', u, si)] =>
    rw [hm] at hx h2
    obtain rfl : x' = x := by simpa using hx
    obtain ⟨li, hli⟩ := h2 (x', u, si) (by simp)
    simpa using (hQ x' u li si hli).1
  | _ :: _ :: _ =>
    rw [hm] at hx
    simpa using hx.length_le

/-- C171: `pipe(m, flat_map_latest(single))` sends some of the values of `m`, in their order. -/
theorem C171_right (ho : Fair o t0) {ls s} (hr : LTS.run (o.flatMappedLatest singles).step (o.flatMappedLatest singles).init ls = some s)
    (he : ∀ e t, (.error e, t) ∉ o.calls s.1.outer) :
    (story (((o.flatMappedLatest singles).calls s).map (·.1))).vals.Sublist (story ((o.calls s.1.outer).map (·.1))).vals := by
  have := C171_sublist ho single_fair (Q := fun x => [x]) single_always hr he
  rwa [List.flatMap_singleton'] at this

/-- the values that have been sent in the schedule -/
def sentBy (q : Clocked S L α) (steps : List L) (n : Nat) : List α := (story (outcome q steps n)).vals

/-- `of_seq([1, 2])`, each `n` of which is made `of_seq([n, 10 * n])`; whether anything of the first is sent depends on which worker runs first. -/
abbrev demoLatest := demoM.flatMappedLatest demoF
abbrev demoSteps := FlatMap.steps (ω := Nat) (α := Nat) 2 [some ()] [some ()]

example : sentBy demoLatest demoSteps 60 = [1, 10, 2, 20] := by decide +kernel
example : sentBy demoLatest demoSteps.reverse 60 = [2, 20] := by decide +kernel
example : sentBy (demoM.flattened demoF 1) demoSteps.reverse 60 = [1, 10, 2, 20] := by decide +kernel

/-- C171: values may be lost, so that `flat_map_latest(single)` is not the identity: the source has completed, the first inner observable has been disposed, and only the second value has been sent. -/
theorem C171_loses : ∃ ls s, LTS.run (demoM.flatMappedLatest singles).step (demoM.flatMappedLatest singles).init ls = some s ∧
    (story ((demoM.calls s.1.outer).map (·.1))) = ⟨[1, 2], .done⟩ ∧ 1 ∈ s.1.prod.disposed ∧
    (story (((demoM.flatMappedLatest singles).calls s).map (·.1))).vals = [2] := by
  refine ⟨_, _, FlatMap.greedy_run (demoM.flatMappedLatest singles) (FlatMap.steps (ω := Nat) (α := Nat) 2 [some ()] [Once.Label.receive, .ret]).reverse 40 _, ?_⟩
  decide +kernel

/-- A run as in `C171_last`. -/
def demoRun := FlatMap.greedy demoLatest demoSteps.reverse 30 demoLatest.init

theorem demoRun_run : LTS.run demoLatest.step demoLatest.init demoRun.1 = some demoRun.2 := FlatMap.greedy_run ..
theorem demoRun_outer : (demoM.calls demoRun.2.1.outer).all (fun c => c.1.kind != .onError) = true := by decide +kernel
theorem demoRun_inner : (demoRun.2.1.inners.all fun i => ((demoF i.1 i.2.1).calls i.2.2).all fun c => c.1.kind != .onError) = true := by decide +kernel
theorem demoRun_sent : story ((demoM.calls demoRun.2.1.outer).map (·.1)) = ⟨[1, 2], .done⟩ := by decide +kernel
theorem demoRun_settled : demoRun.2.1.prod.pc = .waiting ∧ demoRun.2.1.prod.inbox = [] := by decide +kernel
theorem demoRun_labels : (Clocked.sources demoRun.1).all (fun | .act (.own .subscribeFails) | .act (.own .disposeFails) | .act (.own .cancel) => false | _ => true) = true := by decide +kernel
theorem demoRun_drained : FlatMap.segments.all (fun l => ((FlatMap.safe (α := Nat)).protected.slowProc.step demoRun.2.2.ps l).isNone) = true := by decide +kernel

example : ∃ is u si, demoRun.2.1.inners = is ++ [(2, u, si)] ∧
    (story (((demoF 2 u).calls si).map (·.1))).vals <:+ (story ((demoLatest.calls demoRun.2).map (·.1))).vals :=
  C171_last (ofSeq_fair _ 0) (fun _ => ofSeq_fair _) demoRun_run
    (fun e t h => by simpa [Notif.kind] using List.all_eq_true.mp demoRun_outer _ h)
    (fun i hi e t h => by simpa [Notif.kind] using List.all_eq_true.mp (List.all_eq_true.mp demoRun_inner _ hi) _ h)
    ⟨fun h => by simpa using List.all_eq_true.mp demoRun_labels _ h, fun h => by simpa using List.all_eq_true.mp demoRun_labels _ h⟩
    (fun h => by simpa using List.all_eq_true.mp demoRun_labels _ h)
    (.inr demoRun_settled)
    (fun l => by
      have := List.all_eq_true.mp demoRun_drained l (match l with | .inl () => .head _ | .inr () => .tail _ (.head _))
      simpa using this)
    (ys := [1]) (by rw [demoRun_sent]; rfl)

end Flatten
end Aio
