import Verif.Props.C167_Bind
/-!
# C168: regrouping `flat_map` does not change what is sent, on any loop
-/

namespace Aio
open Spec Spec.Timed Spec.Bind
variable {S S' L L' SO LO SI LI SJ LJ ω α β : Type}

namespace Flatten

/-- It keeps the grammar, makes its calls at the times that it says, and is subscribed at the time `t0`. -/
structure Fair (q : Clocked S L α) (t0 : Nat) : Prop where
  lawful : q.Lawful
  start : q.now q.init = t0
  grammar : ∀ ls s, LTS.run q.step q.init ls = some s → Grammar ((q.calls s).map (·.1))

theorem Fair.of_good {q : Clocked S L α} {t0 : Nat} (h : FlatMap.Good q t0) : Fair q t0 := ⟨h.lawful, h.start, h.grammar⟩

variable {o : Clocked SO LO ω} {fam : ω → Nat → Clocked SI LI α} {t0 : Nat} {mx : Int}

theorem proper (ho : Fair o t0) (hf : ∀ x t, Fair (fam x t) t) : Nested.Proper o fam :=
  ⟨ho.lawful, ho.grammar, fun x t => ⟨(hf x t).lawful, (hf x t).start⟩, fun x t => (hf x t).grammar⟩

theorem fair (ho : Fair o t0) (hf : ∀ x t, Fair (fam x t) t) (mx : Int) : Fair (o.flattened fam mx) t0 where
  lawful := by
    have hpr := proper ho hf
    exact Clocked.operate_lawful (Nested.nested_lawful hpr.source hpr.inner (Nested.merge_starts mx) 0) _
  start := ho.start
  grammar := by
    have hpr := proper ho hf
    exact Clocked.operate_grammar (Nested.nested_lawful hpr.source hpr.inner (Nested.merge_starts mx) 0) id_computes.guarded.slow fun _ _ _ => trivial

theorem story_prefix {a : List (Notif α)} {s : Story α} (h : a <+: s.events) (hd : (story a).fin ≠ .running) : story a = s := by
  obtain ⟨b, hb⟩ := h
  rw [← story_append_of_ended (ys := b) hd, hb, story_events]

theorem done_events {ns : List (Notif α)} (hg : Grammar ns) {vs : List α} (h : story ns = ⟨vs, .done⟩) : ns = vs.map .next ++ [.completed] := by
  have := cut_of_grammar hg
  rw [Spec.cut, h] at this
  simpa [Story.events, End.events] using this.symm

/-- When it has posted the completion: the source has completed, and so have the observables of all its values, and their values have been posted. -/
theorem completed_posts (ho : Fair o t0) (hf : ∀ x t, Fair (fam x t) t) (hm : 0 ≤ mx) {ls s} (g1 : LTS.run (o.merged fam mx).step (o.merged fam mx).init ls = some s) {ws : List α}
    (hposts : story (s.posts.map (·.1)) = ⟨ws, .done⟩) :
    ∃ xs : List ω, Completed o xs ∧ ∃ is : List (ω × Nat × List α), is.map (·.1) = xs ∧ (∀ i ∈ is, Completed (fam i.1 i.2.1) i.2.2) ∧
      ws.Perm (is.flatMap (·.2.2)) ∧ (mx = 1 → ws = is.flatMap (·.2.2)) := by
  have hpr := proper ho hf
  obtain ⟨h, hpast⟩ := Nested.past hpr.source hpr.inner (Nested.merge_starts mx) g1
  obtain ⟨lo, hlo, -⟩ := hpast.source
  have hlaw := hpast.lawful hpr
  have hcm : .completed ∈ s.posts.map (·.1) := by
    have : .completed ∈ (story (s.posts.map (·.1))).events := by rw [hposts]; simp [Story.events, End.events]
    exact (Spec.cut_prefix _).subset this
  obtain ⟨c1, c2, c3⟩ := Merge.completed_posted hm (Producer.soloAt_run hpast.run) hlaw hcm
  have hout : Merge.outerCalls (h.map (·.1)) = (o.calls s.outer).map (·.1) := by rw [Nested.outersAt_map, hpast.outer]
  have hxs : story ((o.calls s.outer).map (·.1)) = ⟨s.inners.map (·.1), .done⟩ := by
    rw [← hout]
    have h1 : (story (Merge.outerCalls (h.map (·.1)))).vals = s.inners.map (·.1) := by rw [hpast.started]; exact c2.symm
    rw [← h1, ← c1]
  have hnoerr : ∀ e t, (.error e, t) ∉ o.calls s.outer := by
    intro e t hmem
    have hev := done_events (ho.grammar _ _ hlo) hxs
    have : Notif.error e ∈ (o.calls s.outer).map (·.1) := List.mem_map.mpr ⟨_, hmem, rfl⟩
    rw [hev] at this
    simp at this
  let got (i : ω × Nat × SI) : List α := (story (((fam i.1 i.2.1).calls i.2.2).map (·.1))).vals
  have hinner : ∀ i ∈ s.inners, Completed (fam i.1 i.2.1) (got i) ∧ (noDone ((fam i.1 i.2.1).calls i.2.2)).map (·.1) = (got i).map .next := by
    rintro ⟨x, u, si⟩ hi
    obtain ⟨k, hk⟩ := List.getElem?_of_mem hi
    obtain ⟨⟨li, hli, -⟩, -⟩ := hpast.sources k _ _ _ hk
    have hlen : k < s.prod.started.length := by
      have := (List.getElem?_eq_some_iff.mp hk).1
      have h2 := congrArg List.length hpast.started
      simp at h2
      omega
    have hfin := c3 k hlen
    have hin : Merge.innerCalls k (h.map (·.1)) = ((fam x u).calls si).map (·.1) := by
      have := hpast.inner k x u si hk
      rw [Nested.innersAt_map, ← this]; rfl
    rw [Merge.fin, hin] at hfin
    have hstory : story (((fam x u).calls si).map (·.1)) = ⟨(story (((fam x u).calls si).map (·.1))).vals, .done⟩ := by rw [← hfin]
    refine ⟨⟨li, si, hli, hstory⟩, ?_⟩
    have hev := done_events ((hf x u).grammar _ _ hli) hstory
    dsimp only [got]
    generalize (story (((fam x u).calls si).map (·.1))).vals = vs at hev
    have : (noDone ((fam x u).calls si)).map (·.1) = Merge.noDone (((fam x u).calls si).map (·.1)) := by
      generalize (fam x u).calls si = cs
      induction cs with
      | nil => rfl
      | cons c cs ih =>
        obtain ⟨n, t⟩ := c
        simp only [noDone, Merge.noDone] at ih ⊢
        cases n <;> simp [ih]
    rw [this, hev]
    simp [Merge.noDone]
  have hnext : ∀ {a b : List α}, (a.map (Notif.next (α := α))).Perm (b.map .next) → a.Perm b := fun {a b} hp => by
    have := hp.filterMap fun | .next v => some v | _ => none
    simpa [List.filterMap_map, Function.comp_def] using this
  have hflat : ∀ is : List (ω × Nat × SI), (∀ i ∈ is, (noDone ((fam i.1 i.2.1).calls i.2.2)).map (·.1) = (got i).map .next) →
      (is.flatMap fun i => noDone ((fam i.1 i.2.1).calls i.2.2)).map (·.1) = (is.flatMap got).map .next := by
    intro is
    induction is with
    | nil => intro _; rfl
    | cons i is ih =>
      intro h
      rw [List.flatMap_cons, List.flatMap_cons, List.map_append, List.map_append, h i (by simp), ih fun j hj => h j (by simp [hj])]
  have hflat := hflat s.inners fun i hi => (hinner i hi).2
  obtain ⟨-, hperm, -⟩ := Nested.C112_arrive hpr g1
  rw [errors_nil hnoerr, List.nil_append] at hperm
  replace hperm := hperm.map (·.1)
  rw [hflat] at hperm
  have hws : (noDone s.posts).map (·.1) = ws.map .next := by
    obtain ⟨vs, hvs⟩ := FlatMap.values_grammar (ns := (noDone s.posts).map (·.1)) (fun h => by simpa using hperm.mem_iff.mp h) fun e h => by simpa using hperm.mem_iff.mp h
    rcases Nested.C112_last hpr hm g1 with h1 | ⟨c, h1⟩
    · rw [h1, hvs] at hcm
      simp at hcm
    · rw [h1, List.map_append, hvs, story_map_next_append] at hposts
      simp at hposts
      rw [hvs, hposts]
  have hmap : (s.inners.map fun i => (i.1, i.2.1, got i)).flatMap (·.2.2) = s.inners.flatMap got := by rw [List.flatMap_map]
  refine ⟨_, ⟨lo, _, hlo, hxs⟩, s.inners.map fun i => (i.1, i.2.1, got i), by simp, fun i hi => ?_, ?_, fun h1 => ?_⟩
  · obtain ⟨j, hj, rfl⟩ := List.mem_map.mp hi
    exact (hinner j hj).1
  · rw [hmap]
    rw [hws] at hperm
    exact hnext hperm
  · subst h1
    have h2 := congrArg (List.map (·.1)) (Nested.C113_in_order hpr g1 hnoerr).1
    rw [hflat, hws] at h2
    rw [hmap]
    exact (List.map_inj_right fun a b h => by cases h; rfl).mp h2

/-- What it tells when it has completed, behind `merge_inner` and an operator. -/
theorem completed_story {op : Operator α β} {G : Story α → Story β} (hop : op.Computes G) (ho : Fair o t0) (hf : ∀ x t, Fair (fam x t) t) {ws : List β}
    (h : Completed ((o.merged fam mx).operate op.protected.slowProc) ws) :
    ∃ ls s, LTS.run (o.merged fam mx).step (o.merged fam mx).init ls = some s ∧ G (story (s.posts.map (·.1))) = ⟨ws, .done⟩ := by
  obtain ⟨ls, s, hr, hst⟩ := h
  have hpr := proper ho hf
  have hl : (o.merged fam mx).Lawful := Nested.nested_lawful hpr.source hpr.inner (Nested.merge_starts mx) 0
  obtain ⟨g1, g2⟩ := Clocked.operate_source hl hr
  obtain ⟨es, e1, e2⟩ := Clocked.operate_exec hr
  have h1 := hop.guarded.slow.prefix_ es _ _ e1 trivial
  rw [e2, g2] at h1
  have hst' : story (s.2.sent.map (·.1)) = ⟨ws, .done⟩ := hst
  refine ⟨_, _, g1, ?_⟩
  rw [← hst']
  exact (story_prefix h1 (by rw [hst']; simp)).symm

/-- When it has completed: the source has completed, and so have the observables of all its values, and their values have been sent. -/
theorem completed (ho : Fair o t0) (hf : ∀ x t, Fair (fam x t) t) (hm : 0 ≤ mx) {ws : List α} (h : Completed (o.flattened fam mx) ws) :
    ∃ xs : List ω, Completed o xs ∧ ∃ is : List (ω × Nat × List α), is.map (·.1) = xs ∧ (∀ i ∈ is, Completed (fam i.1 i.2.1) i.2.2) ∧
      ws.Perm (is.flatMap (·.2.2)) ∧ (mx = 1 → ws = is.flatMap (·.2.2)) := by
  obtain ⟨ls, s, g1, hposts⟩ := completed_story id_computes ho hf h
  exact completed_posts ho hf hm g1 hposts

/-! ## what is sent in the end -/

open Classical in
/-- What is sent in the end, if it ever completes. -/
noncomputable def result (q : Clocked S L α) : List α := if h : ∃ vs, Completed q vs then h.choose else []

open Classical in
/-- The same of what the function returns, at whatever time it is subscribed. -/
noncomputable def results (fam : ω → Nat → Clocked SI LI α) (x : ω) : List α := if h : ∃ t vs, Completed (fam x t) vs then h.choose_spec.choose else []

theorem results_perm (hd : ∀ x t t', SameValues (fam x t) (fam x t')) {x t vs} (h : Completed (fam x t) vs) : vs.Perm (results fam x) := by
  have g : ∃ t vs, Completed (fam x t) vs := ⟨t, vs, h⟩
  rw [results, dif_pos g]
  exact hd _ _ _ _ _ h g.choose_spec.choose_spec

theorem results_eq (hd : ∀ x t t', SameList (fam x t) (fam x t')) {x t vs} (h : Completed (fam x t) vs) : vs = results fam x := by
  have g : ∃ t vs, Completed (fam x t) vs := ⟨t, vs, h⟩
  rw [results, dif_pos g]
  exact hd _ _ _ _ _ h g.choose_spec.choose_spec

theorem flattened_perm (ho : Fair o t0) (hf : ∀ x t, Fair (fam x t) t) (hm : 0 ≤ mx) {Q : ω → List α} (hQ : ∀ x t vs, Completed (fam x t) vs → vs.Perm (Q x)) {ws : List α}
    (h : Completed (o.flattened fam mx) ws) : ∃ xs, Completed o xs ∧ ws.Perm (xs.flatMap Q) := by
  obtain ⟨xs, h1, is, rfl, h3, h4, -⟩ := completed ho hf hm h
  refine ⟨_, h1, h4.trans ?_⟩
  rw [List.flatMap_map]
  exact flatMap_perm fun i hi => hQ _ _ _ (h3 i hi)

theorem flattened_list (ho : Fair o t0) (hf : ∀ x t, Fair (fam x t) t) {Q : ω → List α} (hQ : ∀ x t vs, Completed (fam x t) vs → vs = Q x) {ws : List α}
    (h : Completed (o.flattened fam 1) ws) : ∃ xs, Completed o xs ∧ ws = xs.flatMap Q := by
  obtain ⟨xs, h1, is, rfl, h3, -, h4⟩ := completed ho hf (by decide) h
  refine ⟨_, h1, (h4 rfl).trans ?_⟩
  rw [List.flatMap_map]
  clear h4 h1 h
  induction is with
  | nil => rfl
  | cons i is ih => rw [List.flatMap_cons, List.flatMap_cons, ih fun j hj => h3 j (by simp [hj]), ← hQ _ _ _ (h3 i (by simp))]

theorem single_completed {x : α} {t : Nat} {vs : List α} (h : Completed (Once.clocked x t) vs) : vs = [x] := by
  obtain ⟨ls, s, hr, hst⟩ := h
  have h1 : ((Once.clocked x t).calls s).map (·.1) <+: Story.events ⟨[x], .done⟩ := (Once.exact_ hr).1.map _
  have := story_prefix h1 (by rw [hst]; simp)
  rw [hst] at this
  cases this
  rfl

theorem single_fair (x : α) (t : Nat) : Fair (Once.clocked x t) t := .of_good (FlatMap.single_good x t)

/-! ## the laws -/

/-- C168, left identity. -/
theorem C168_left (x : ω) (hf : ∀ x t, Fair (fam x t) t) (hm : 0 ≤ mx) (hd : ∀ x t t', SameValues (fam x t) (fam x t')) (t : Nat) :
    SameValues ((Once.clocked x t0).flattened fam mx) (fam x t) := by
  intro vs ws h h'
  obtain ⟨xs, h1, h2⟩ := flattened_perm (single_fair x t0) hf hm (fun _ _ _ => results_perm hd) h
  cases single_completed h1
  exact (h2.trans (by simp)).trans (results_perm hd h').symm

/-- C168, right identity. -/
theorem C168_right (ho : Fair o t0) (hm : 0 ≤ mx) (hd : SameValues o o) : SameValues (o.flattened singles mx) o := by
  intro vs ws h h'
  obtain ⟨xs, h1, h2⟩ := flattened_perm ho single_fair hm (Q := fun x => [x]) (fun _ _ _ h => by rw [single_completed h]) h
  exact (h2.trans (by simp)).trans (hd _ _ h1 h')

/-- C168, associativity, with any bounds on how many observables are subscribed at a time. -/
theorem C168_associative {fam' : α → Nat → Clocked SJ LJ β} {m1 m2 m3 m4 : Int} (ho : Fair o t0) (hf : ∀ x t, Fair (fam x t) t) (hg : ∀ y t, Fair (fam' y t) t)
    (h1 : 0 ≤ m1) (h2 : 0 ≤ m2) (h3 : 0 ≤ m3) (h4 : 0 ≤ m4) (hdo : SameValues o o) (hdf : ∀ x t t', SameValues (fam x t) (fam x t'))
    (hdg : ∀ y t t', SameValues (fam' y t) (fam' y t')) :
    SameValues ((o.flattened fam m1).flattened fam' m2) (o.flattened (fun x t => (fam x t).flattened fam' m3) m4) := by
  intro vs ws h h'
  obtain ⟨ys, a1, a2⟩ := flattened_perm (fair ho hf m1) hg h2 (fun _ _ _ => results_perm hdg) h
  obtain ⟨xs, b1, b2⟩ := flattened_perm ho hf h1 (fun _ _ _ => results_perm hdf) a1
  have hin : ∀ x t us, Completed ((fam x t).flattened fam' m3) us → us.Perm ((results fam x).flatMap (results fam')) := fun x t us hu => by
    obtain ⟨zs, c1, c2⟩ := flattened_perm (hf x t) hg h3 (fun _ _ _ => results_perm hdg) hu
    exact c2.trans ((results_perm hdf c1).flatMap_right _)
  obtain ⟨xs', d1, d2⟩ := flattened_perm ho (fun x t => fair (hf x t) hg m3) h4 hin h'
  refine a2.trans ((b2.flatMap_right _).trans ?_)
  rw [List.flatMap_assoc]
  exact ((hdo _ _ b1 d1).flatMap_right _).trans d2.symm

/-- C168, one after the other (`max_concurrent=1`): the same in the same order. -/
theorem C168_concat_left (x : ω) (hf : ∀ x t, Fair (fam x t) t) (hd : ∀ x t t', SameList (fam x t) (fam x t')) (t : Nat) :
    SameList ((Once.clocked x t0).flattened fam 1) (fam x t) := by
  intro vs ws h h'
  obtain ⟨xs, h1, h2⟩ := flattened_list (single_fair x t0) hf (fun _ _ _ => results_eq hd) h
  cases single_completed h1
  rw [h2, results_eq hd h']
  simp

theorem C168_concat_right (ho : Fair o t0) (hd : SameList o o) : SameList (o.flattened singles 1) o := by
  intro vs ws h h'
  obtain ⟨xs, h1, h2⟩ := flattened_list ho single_fair (Q := fun x => [x]) (fun _ _ _ h => single_completed h) h
  rw [h2, ← hd _ _ h1 h']
  simp

theorem C168_concat_associative {fam' : α → Nat → Clocked SJ LJ β} (ho : Fair o t0) (hf : ∀ x t, Fair (fam x t) t) (hg : ∀ y t, Fair (fam' y t) t)
    (hdo : SameList o o) (hdf : ∀ x t t', SameList (fam x t) (fam x t')) (hdg : ∀ y t t', SameList (fam' y t) (fam' y t')) :
    SameList ((o.flattened fam 1).flattened fam' 1) (o.flattened (fun x t => (fam x t).flattened fam' 1) 1) := by
  intro vs ws h h'
  obtain ⟨ys, a1, rfl⟩ := flattened_list (fair ho hf 1) hg (fun _ _ _ => results_eq hdg) h
  obtain ⟨xs, b1, rfl⟩ := flattened_list ho hf (fun _ _ _ => results_eq hdf) a1
  have hin : ∀ x t us, Completed ((fam x t).flattened fam' 1) us → us = (results fam x).flatMap (results fam') := fun x t us hu => by
    obtain ⟨zs, c1, c2⟩ := flattened_list (hf x t) hg (fun _ _ _ => results_eq hdg) hu
    rw [c2, results_eq hdf c1]
  obtain ⟨xs', d1, rfl⟩ := flattened_list ho (fun x t => fair (hf x t) hg 1) hin h'
  rw [List.flatMap_assoc, hdo _ _ b1 d1]

/-! ## `of_seq` -/

theorem ofSeq_all {t0 : Nat} {xs : List α} {ls s} (hr : LTS.run (Nested.ofSeqAt t0 xs).step (Nested.ofSeqAt t0 xs).init ls = some s) :
    ((Nested.ofSeqAt t0 xs).calls s).map (·.1) = [] ∨ ((Nested.ofSeqAt t0 xs).calls s).map (·.1) = Story.events ⟨xs, .done⟩ := by
  obtain ⟨⟨ms, h1⟩, h2⟩ := (Producer.source_grows (ofSeq true xs none)).clocked_run hr
  rw [h2]
  have h3 : (s.1.1.fresh = true → s.1.2 = []) ∧ (s.1.2 = [] ∨ s.1.2 = Story.events ⟨xs, .done⟩) := by
    refine LTS.inv (step := (ofSeq true xs none).source.step) (fun c : OneShot × List (Notif α) => (c.1.fresh = true → c.2 = []) ∧ (c.2 = [] ∨ c.2 = Story.events ⟨xs, .done⟩))
      (s0 := (ofSeq true xs none).source.init) ⟨fun _ => rfl, .inl rfl⟩ ?_ h1
    rintro ⟨⟨f, c⟩, out⟩ l t ⟨i1, i2⟩ hs
    cases l with
    | none => cases hs; exact ⟨i1, i2⟩
    | some l =>
      cases f with
      | false => simp [Producer.source, ofSeq, oneShot] at hs
      | true =>
        dsimp only at i1 i2
        obtain rfl := i1 rfl
        cases c <;> simp [Producer.source, ofSeq, oneShot] at hs <;> subst hs
        · exact ⟨fun h => (by cases h), .inr (by simp [ofSeqWorker_posts, Story.events])⟩
        · exact ⟨fun h => (by cases h), i2⟩
  exact h3.2

theorem ofSeq_completed {t0 : Nat} {xs vs : List α} (h : Completed (Nested.ofSeqAt t0 xs) vs) : vs = xs := by
  obtain ⟨ls, s, hr, hst⟩ := h
  rcases ofSeq_all hr with h1 | h1
  · rw [h1] at hst
    cases hst
  · rw [h1, story_events] at hst
    cases hst
    rfl

theorem ofSeq_fair (xs : List α) (t : Nat) : Fair (Nested.ofSeqAt t xs) t := ⟨Nested.ofSeq_lawful t xs, rfl, Nested.ofSeq_grammar⟩
theorem ofSeq_same (xs : List α) (t t' : Nat) : SameList (Nested.ofSeqAt t xs) (Nested.ofSeqAt t' xs) := fun _ _ h h' => by rw [ofSeq_completed h, ofSeq_completed h']

theorem sameValues {q : Clocked S L α} {r : Clocked S' L' α} (h : SameList q r) : SameValues q r := fun _ _ a b => by rw [h _ _ a b]

/-! ## a case -/

/-- `of_seq([1, 2])`, each `n` of which is made `of_seq([n, 10 * n])`, each `m` of which is made `of_seq([m, m + 1])`. -/
abbrev demoM := Nested.ofSeqAt 0 [1, 2]
abbrev demoF (n : Nat) (t : Nat) := Nested.ofSeqAt t [n, 10 * n]
abbrev demoG (n : Nat) (t : Nat) := Nested.ofSeqAt t [n, n + 1]
abbrev demoLeft (mx : Int) := (demoM.flattened demoF mx).flattened demoG mx
abbrev demoRight (mx : Int) := demoM.flattened (fun n t => (demoF n t).flattened demoG mx) mx

example : SameList (demoLeft 1) (demoRight 1) :=
  C168_concat_associative (ofSeq_fair _ 0) (fun _ => ofSeq_fair _) (fun _ => ofSeq_fair _) (ofSeq_same _ _ _) (fun _ => ofSeq_same _) fun _ => ofSeq_same _
example : SameValues (demoLeft 0) (demoRight 0) :=
  C168_associative (ofSeq_fair _ 0) (fun _ => ofSeq_fair _) (fun _ => ofSeq_fair _) (by decide) (by decide) (by decide) (by decide) (sameValues (ofSeq_same _ _ _)) (fun _ _ _ => (sameValues (ofSeq_same _ _ _)))
    fun _ _ _ => sameValues (ofSeq_same _ _ _)

abbrev demoLeftSteps := FlatMap.steps (ω := Nat) (α := Nat) 4 (FlatMap.steps (ω := Nat) (α := Nat) 2 [some ()] [some ()]) [some ()]
abbrev demoRightSteps := FlatMap.steps (ω := Nat) (α := Nat) 2 [some ()] (FlatMap.steps (ω := Nat) (α := Nat) 2 [some ()] [some ()])
def outcome (q : Clocked S L α) (steps : List L) (n : Nat) : List (Notif α) := (q.calls (FlatMap.greedy q steps n q.init).2).map (·.1)

example : outcome (demoLeft 1) demoLeftSteps 120 = [1, 2, 10, 11, 2, 3, 20, 21].map .next ++ [.completed] := by decide +kernel
example : outcome (demoRight 1) demoRightSteps 120 = [1, 2, 10, 11, 2, 3, 20, 21].map .next ++ [.completed] := by decide +kernel

/-- With `max_concurrent` 0 the order depends on the schedule and on the grouping. -/
example : outcome (demoLeft 0) demoLeftSteps.reverse 120 = [2, 3, 20, 21, 1, 2, 10, 11].map .next ++ [.completed] := by decide +kernel
example : outcome (demoRight 0) demoRightSteps.reverse 120 = [20, 21, 2, 3, 10, 11, 1, 2].map .next ++ [.completed] := by decide +kernel

/-- The other two laws. -/
example : SameList ((Once.clocked 3 0).flattened demoG 1) (demoG 3 7) := C168_concat_left 3 (fun _ => ofSeq_fair _) (fun _ => ofSeq_same _) 7
example : SameList (demoM.flattened singles 1) demoM := C168_concat_right (ofSeq_fair _ 0) (ofSeq_same _ _ _)
example : outcome ((Once.clocked 3 0).flattened demoG 1) (FlatMap.steps 1 [.receive, .ret] [some ()]) 30 = [.next 3, .next 4, .completed] := by decide +kernel
example : outcome (demoM.flattened singles 1) (FlatMap.steps 2 [some ()] [.receive, .ret]) 30 = [.next 1, .next 2, .completed] := by decide +kernel

end Flatten
end Aio
