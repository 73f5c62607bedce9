import Verif.Props.C171_Latest
/-!
# C172: `map`, `filter` and the like can be moved in and out of `flat_map`, `merge` and `concat`
-/

namespace Aio
open Spec Spec.Timed Spec.Bind
variable {S L SO LO SI LI ω ν α β : Type}

namespace Flatten
variable {o : Clocked SO LO ω} {fam : ω → Nat → Clocked SI LI α} {t0 : Nat} {mx mx' : Int} {op : Operator α β} {g : α → Option β}

/-- An observable followed by such an operator. -/
theorem each_fair {q : Clocked S L α} (hq : Fair q t0) (ho : Each op g) : Fair (q.operate op.direct.slowProc) t0 where
  lawful := Clocked.operate_lawful hq.lawful _
  start := hq.start
  grammar := Clocked.operate_grammar hq.lawful ho.direct.slow hq.grammar

theorem each_completed {q : Clocked S L α} (hq : Fair q t0) (ho : Each op g) {ws : List β} (h : Completed (q.operate op.direct.slowProc) ws) :
    ∃ vs, Completed q vs ∧ ws = vs.filterMap g := by
  obtain ⟨ls, s, hr, hst⟩ := h
  obtain ⟨g1, g2⟩ := Clocked.operate_source hq.lawful hr
  obtain ⟨es, e1, e2⟩ := Clocked.operate_exec hr
  have h1 := ho.direct.slow.prefix_ es _ _ e1 (by rw [e2, g2]; exact hq.grammar _ _ g1)
  rw [e2, g2] at h1
  have hst' : story (s.2.sent.map (·.1)) = ⟨ws, .done⟩ := hst
  have h2 := story_prefix h1 (by rw [hst']; simp)
  rw [hst'] at h2
  have h3 : (story ((q.calls s.1).map (·.1))).fin = .done := (congrArg Story.fin h2).symm
  refine ⟨_, ⟨_, _, g1, ?_⟩, congrArg Story.vals h2⟩
  rw [← h3]

theorem after_completed (ho : Fair o t0) (hf : ∀ x t, Fair (fam x t) t) (hop : Each op g) (hm : 0 ≤ mx) {ws : List β} (h : Completed ((o.merged fam mx).operate op.protected.slowProc) ws) :
    ∃ xs : List ω, Completed o xs ∧ ∃ is : List (ω × Nat × List α), is.map (·.1) = xs ∧ (∀ i ∈ is, Completed (fam i.1 i.2.1) i.2.2) ∧
      ws.Perm (is.flatMap fun i => i.2.2.filterMap g) ∧ (mx = 1 → ws = is.flatMap fun i => i.2.2.filterMap g) := by
  obtain ⟨ls, s, g1, hst⟩ := completed_story hop ho hf h
  have hfin : (story (s.posts.map (·.1))).fin = .done := congrArg Story.fin hst
  have hvals : (story (s.posts.map (·.1))).vals.filterMap g = ws := congrArg Story.vals hst
  obtain ⟨xs, h1, is, h2, h3, h4, h5⟩ := completed_posts ho hf hm g1 (ws := (story (s.posts.map (·.1))).vals) (by rw [← hfin])
  have hcat : ∀ is : List (ω × Nat × List α), (is.flatMap (·.2.2)).filterMap g = is.flatMap fun i => i.2.2.filterMap g := fun is => by
    induction is with
    | nil => rfl
    | cons i is ih => simp [ih]
  refine ⟨xs, h1, is, h2, h3, ?_, fun h => ?_⟩
  · rw [← hvals, ← hcat]; exact h4.filterMap g
  · rw [← hvals, ← hcat, h5 h]

/-- C172: `pipe(o, flat_map(f), op)` and `pipe(o, flat_map(lambda x: pipe(f(x), op)))` send the same values, whatever the bounds on how many observables are subscribed at a time. -/
theorem C172_flat_map (ho : Fair o t0) (hf : ∀ x t, Fair (fam x t) t) (hop : Each op g) (hm : 0 ≤ mx) (hm' : 0 ≤ mx') (hdo : SameValues o o)
    (hdf : ∀ x t t', SameValues (fam x t) (fam x t')) :
    SameValues ((o.merged fam mx).operate op.protected.slowProc) (o.flattened (fun x t => (fam x t).operate op.direct.slowProc) mx') := by
  intro vs ws h h'
  obtain ⟨xs, h1, is, rfl, h3, h4, -⟩ := after_completed ho hf hop hm h
  obtain ⟨ys, k1, k2⟩ := flattened_perm ho (fun x t => each_fair (hf x t) hop) hm' (Q := fun x => (results fam x).filterMap g) (fun x t us hu => by
    obtain ⟨zs, z1, rfl⟩ := each_completed (hf x t) hop hu
    exact (results_perm hdf z1).filterMap g) h'
  refine h4.trans (List.Perm.trans ?_ k2.symm)
  refine List.Perm.trans ?_ ((hdo _ _ h1 k1).flatMap_right _)
  rw [List.flatMap_map]
  exact flatMap_perm fun i hi => (results_perm hdf (h3 i hi)).filterMap g

/-- C172: `pipe(o, map(f), concat, op)`: the same values in the same order. -/
theorem C172_concat (ho : Fair o t0) (hf : ∀ x t, Fair (fam x t) t) (hop : Each op g) (hdo : SameList o o) (hdf : ∀ x t t', SameList (fam x t) (fam x t')) :
    SameList ((o.merged fam 1).operate op.protected.slowProc) (o.flattened (fun x t => (fam x t).operate op.direct.slowProc) 1) := by
  intro vs ws h h'
  obtain ⟨xs, h1, is, rfl, h3, -, h4⟩ := after_completed ho hf hop (by decide) h
  obtain ⟨ys, k1, k2⟩ := flattened_list ho (fun x t => each_fair (hf x t) hop) (Q := fun x => (results fam x).filterMap g) (fun x t us hu => by
    obtain ⟨zs, z1, rfl⟩ := each_completed (hf x t) hop hu
    rw [← results_eq hdf z1]) h'
  rw [h4 rfl, k2, ← hdo _ _ h1 k1, List.flatMap_map]
  clear h4 h1 h k1 k2
  induction is with
  | nil => rfl
  | cons i is ih => rw [List.flatMap_cons, List.flatMap_cons, ih fun j hj => h3 j (by simp [hj]), ← results_eq hdf (h3 i (by simp))]

/-- C172: `pipe(o, op, flat_map(f))` sends what `f(y)` sends for the values `y` that `op` makes of those of `o`; so `pipe(o, map(h), flat_map(f))` is `pipe(o, flat_map(lambda x: f(h(x))))`. -/
theorem C172_before {o : Clocked SO LO ν} {op : Operator ν ω} {k : ν → Option ω} (ho : Fair o t0) (hf : ∀ x t, Fair (fam x t) t) (hop : Each op k) (hm : 0 ≤ mx)
    {Q : ω → List α} (hQ : ∀ x t vs, Completed (fam x t) vs → vs.Perm (Q x)) {ws : List α} (h : Completed ((o.operate op.direct.slowProc).flattened fam mx) ws) :
    ∃ xs, Completed o xs ∧ ws.Perm ((xs.filterMap k).flatMap Q) := by
  obtain ⟨ys, h1, h2⟩ := flattened_perm (each_fair ho hop) hf hm hQ h
  obtain ⟨xs, h3, rfl⟩ := each_completed ho hop h1
  exact ⟨xs, h3, h2⟩

theorem C172_map {o : Clocked SO LO ν} {op : Operator ν ω} {k : ν → ω} (ho : Fair o t0) (hf : ∀ x t, Fair (fam x t) t) (hop : Each op fun x => some (k x)) (hm : 0 ≤ mx) (hm' : 0 ≤ mx')
    (hdo : SameValues o o) (hdf : ∀ x t t', SameValues (fam x t) (fam x t')) :
    SameValues ((o.operate op.direct.slowProc).flattened fam mx) (o.flattened (fun x => fam (k x)) mx') := by
  intro vs ws h h'
  obtain ⟨xs, h1, h2⟩ := C172_before ho hf hop hm (fun _ _ _ => results_perm hdf) h
  obtain ⟨ys, k1, k2⟩ := flattened_perm ho (fun x => hf (k x)) hm' (Q := fun x => results fam (k x)) (fun _ _ _ => results_perm hdf) h'
  refine h2.trans (List.Perm.trans ?_ k2.symm)
  rw [List.filterMap_eq_map', List.flatMap_map]
  exact (hdo _ _ h1 k1).flatMap_right _

/-! ## operators of this kind -/

theorem each_of {G : Story α → Story β} (h : op.Computes G) (he : ∀ s, G s = ⟨s.vals.filterMap g, s.fin⟩) : Each op g := by
  have : G = fun s => ⟨s.vals.filterMap g, s.fin⟩ := funext he
  rw [Each, ← this]
  exact h

theorem C172_each_map (h : α → β) : Each (map fun x => .ok (h x)) fun x => some (h x) := each_of (C27_map h) fun s => by simp [mapped, List.filterMap_eq_map']

theorem C172_each_filter (p : α → Bool) : Each (filter fun x => .ok (p x)) fun x => if p x then some x else none := each_of (C30_filter p) fun s => by
  simp only [kept, ← List.filterMap_eq_filter]; rfl

theorem C172_each_choose (f : α → Option β) : Each (choose fun x => .ok (f x)) f := each_of (C30_choose f) fun s => by simp [chosen]

/-! ## a case -/

/-- `of_seq([1, 2])`, each `n` of which is made `of_seq([n, 10 * n])`, of which the odd values are dropped. -/
abbrev demoEven : Operator Nat Nat := filter fun n => .ok (n % 2 == 0)
example : SameList ((demoM.merged demoF 1).operate demoEven.protected.slowProc) (demoM.flattened (fun n t => (demoF n t).operate demoEven.direct.slowProc) 1) :=
  C172_concat (ofSeq_fair _ 0) (fun _ => ofSeq_fair _) (C172_each_filter _) (ofSeq_same _ _ _) fun _ => ofSeq_same _
example : SameValues ((demoM.merged demoF 0).operate demoEven.protected.slowProc) (demoM.flattened (fun n t => (demoF n t).operate demoEven.direct.slowProc) 2) :=
  C172_flat_map (ofSeq_fair _ 0) (fun _ => ofSeq_fair _) (C172_each_filter _) (by decide) (by decide) (sameValues (ofSeq_same _ _ _)) fun _ _ _ => sameValues (ofSeq_same _ _ _)
example : SameValues ((demoM.operate (map fun n => .ok (n + 5)).direct.slowProc).flattened demoF 0) (demoM.flattened (fun n => demoF (n + 5)) 0) :=
  C172_map (ofSeq_fair _ 0) (fun _ => ofSeq_fair _) (C172_each_map _) (by decide) (by decide) (sameValues (ofSeq_same _ _ _)) fun _ _ _ => sameValues (ofSeq_same _ _ _)

example : outcome ((demoM.merged demoF 1).operate demoEven.protected.slowProc) demoSteps 60 = [10, 2, 20].map .next ++ [.completed] := by decide +kernel
example : outcome (demoM.flattened (fun n t => (demoF n t).operate demoEven.direct.slowProc) 1) (FlatMap.steps (ω := Nat) (α := Nat) 2 [some ()] [.inl (some ()), .inr (), .inr ()]) 60 = [10, 2, 20].map .next ++ [.completed] := by decide +kernel

end Flatten
end Aio
