import Verif.Model.Linger
import Verif.Props.C171_Latest
import Verif.Props.C129_WorkInner
import Verif.Props.C119_SearchBox
/-!
# C173: `flat_map_latest` with `pipe(single(x), map_async(f))`: a value that has been replaced is answered all the same
-/

namespace Aio
open Spec Spec.Timed Spec.Queue
variable {SO LO ω α : Type}

namespace Linger

theorem body_stage (ops : Ops ω α) : ∀ (l : Work.Label ω), (Work.stage (β := α) (ops.handler (Handler.final fun _ _ => (0, none))) 0 0).own l = true →
    ∀ x t s, (clocked ops x t).act s l = Work.step (ops.handler (Handler.final fun _ _ => (0, none))) 0 s l := by
  intro l hl x t s
  cases l <;> first | rfl | cases hl

/-- What the observer of `pipe(single(x), ...)` gets is what it gets from `pipe(from_iterable([x]), ...)`: both calls on the safe observer are made at the subscription. -/
theorem lift (ops : Ops ω α) (x : ω) (t : Nat) {ls s} (hr : LTS.run (clocked ops x t).step (clocked ops x t).init ls = some s) :
    ∃ ls' q, LTS.run ((Nested.ofSeqAt t [x]).through (Work.stage (ops.handler (Handler.final fun _ _ => (0, none))) 0 0)).step
        ((Nested.ofSeqAt t [x]).through (Work.stage (ops.handler (Handler.final fun _ _ => (0, none))) 0 0)).init ls' = some (q, s) ∧
      (Nested.ofSeqAt t [x]).now q = s.now ∧ (Nested.ofSeqAt t [x]).calls q = [(.next x, t), (.completed, t)] := by
  refine LTS.inv (step := (clocked ops x t).step) (fun s => ∃ ls' q, LTS.run ((Nested.ofSeqAt t [x]).through (Work.stage (ops.handler (Handler.final fun _ _ => (0, none))) 0 0)).step
        ((Nested.ofSeqAt t [x]).through (Work.stage (ops.handler (Handler.final fun _ _ => (0, none))) 0 0)).init ls' = some (q, s) ∧
      (Nested.ofSeqAt t [x]).now q = s.now ∧ (Nested.ofSeqAt t [x]).calls q = [(.next x, t), (.completed, t)]) ⟨[.act (.inl (some ()))], _, rfl, rfl, rfl⟩ ?_ hr
  rintro s l s' ⟨ls', q, h1, h2, h3⟩ hst
  cases l with
  | act l =>
    have hown : (Work.stage (β := α) (ops.handler (Handler.final fun _ _ => (0, none))) 0 0).own l = true := by
      cases l <;> first | rfl | cases hst
    have hst' : Work.step (ops.handler (Handler.final fun _ _ => (0, none))) 0 s l = some s' := (body_stage ops l hown x t s).symm.trans hst
    refine ⟨ls' ++ [.act (.inr l)], q, LTS.run_append.mpr ⟨_, h1, LTS.run_cons.mpr ⟨_, ?_, rfl⟩⟩, ?_, h3⟩
    · show (if _ then _ else _) = _
      rw [if_pos hown]
      show (Work.step _ 0 s l).map _ = _
      rw [hst']
      rfl
    · rw [h2]
      have := (Work.stage_lawful.own (m := l) hown hst').1
      exact this.symm
  | pass d =>
    have hst' : Work.step (ops.handler (Handler.final fun _ _ => (0, none))) 0 s (.tick d) = some s' := hst
    refine ⟨ls' ++ [.pass d], (q.1, q.2.1 + d, q.2.2), LTS.run_append.mpr ⟨_, h1, LTS.run_cons.mpr ⟨_, ?_, rfl⟩⟩, ?_, h3⟩
    · show (Work.step (ops.handler (Handler.final fun _ _ => (0, none))) 0 s (.tick d)).map _ = _
      rw [hst']
      rfl
    · have := (Work.stage_lawful (o := ops.handler (Handler.final fun _ _ => (0, none))) (s0 := 0) (gone := 0)).tick hst' |>.1
      exact (congrArg (· + d) h2).trans this.symm

/-- What the observer gets from `pipe(single(x), ...)`, in any run. -/
theorem told_ops (ops : Ops ω α) (x : ω) (t : Nat) {ls s} (hr : LTS.run (clocked ops x t).step (clocked ops x t).init ls = some s) :
    (clocked ops x t).calls s <+: handle ops.work (fun _ _ => (0, none)) 0 0 0 [(.next x, t), (.completed, t)] ∧
    before s.now ((clocked ops x t).calls s) = before s.now (handle ops.work (fun _ _ => (0, none)) 0 0 0 [(.next x, t), (.completed, t)]) := by
  obtain ⟨ls', q, h1, h2, h3⟩ := lift _ x t hr
  have h := Work.C124_exact (Nested.ofSeq_lawful t [x]) h1
  dsimp only at h
  rw [h3, h2] at h
  exact h

theorem fair (ops : Ops ω α) (x : ω) (t : Nat) : Flatten.Fair (clocked ops x t) t where
  start := rfl
  grammar ls s hr := Work.grammar_prefix ((told_ops ops x t hr).1.map _) (Work.handle_grammar _ _ _)
  lawful := by
    refine ⟨rfl, fun {ls s l s'} _ hst => ?_, fun {ls s d s'} _ hst => ?_⟩
    · have hown : (Work.stage (β := α) (ops.handler (Handler.final fun _ _ => (0, none))) 0 0).own l = true := by
        cases l <;> first | rfl | cases hst
      exact Work.stage_lawful.own hown ((body_stage ops l hown x t s).symm.trans hst)
    · exact Work.stage_lawful.tick (o := Work.stage (β := α) (ops.handler (Handler.final fun _ _ => (0, none))) 0 0) hst

variable {dur : ω → Nat} {g : ω → α} {o : Clocked SO LO ω} {t0 : Nat}

/-- `search(x)` is told to the observer when the time that it takes has passed, whatever has become of the subscription. -/
theorem told (x : ω) (t : Nat) {ls s} (hr : LTS.run (search dur g x t).step (search dur g x t).init ls = some s) :
    (search dur g x t).calls s <+: [(.next (g x), t + dur x), (.completed, t + dur x)] ∧
    before s.now ((search dur g x t).calls s) = before s.now [(.next (g x), t + dur x), (.completed, t + dur x)] := by
  have h := told_ops _ x t hr
  have e : handle (Ops.map (fun x => (dur x, .ok (g x))) .nil : Ops ω α).work (fun _ _ => (0, none)) 0 0 0 [(.next x, t), (.completed, t)] =
      [(.next (g x), t + dur x), (.completed, t + dur x)] := by
    rw [funext WorkInner.work_map]
    simp [handle, Except.map]
  rw [e] at h
  exact h

theorem noDone_told (x : ω) (t : Nat) {ls s} (hr : LTS.run (search dur g x t).step (search dur g x t).init ls = some s) (hn : t + dur x ≠ s.now) :
    noDone ((search dur g x t).calls s) = if t + dur x < s.now then [(.next (g x), t + dur x)] else [] := by
  obtain ⟨h1, h2⟩ := told x t hr
  have hle := ((fair _ x t).lawful.inTime hr).2
  change ∀ c ∈ (search dur g x t).calls s, c.2 ≤ s.now at hle
  generalize (search dur g x t).calls s = cs at h1 h2 hle
  by_cases hd : t + dur x < s.now
  · rw [if_pos hd]
    have e : before s.now cs = cs := List.filter_eq_self.mpr fun c hc => by
      have : c.2 = t + dur x := by
        have := h1.subset hc
        simp only [List.mem_cons, List.not_mem_nil, or_false] at this
        rcases this with h | h <;> rw [h]
      simp only [decide_eq_true_eq]; omega
    rw [e] at h2
    rw [h2]
    simp [before, hd, noDone]
  · rw [if_neg hd]
    cases cs with
    | nil => rfl
    | cons c cs =>
      exfalso
      have h := hle c (by simp)
      have := h1.subset (List.mem_cons_self ..)
      simp only [List.mem_cons, List.not_mem_nil, or_false] at this
      rcases this with e | e <;> rw [e] at h <;> exact hd (Nat.lt_of_le_of_ne h hn)

/-- C173 is violated, in general: with `flat_map_latest(lambda x: pipe(single(x), map_async(search)))`, on a loop that is not overloaded, every value that the source sends is answered, when its search
is over, whether or not it has been replaced by then. -/
theorem C173_answered_violated (ho : Flatten.Fair o t0) {ls s} (hr : LTS.run (o.switched (search dur g) false).step (o.switched (search dur g) false).init ls = some s)
    (hp : (o.switched (search dur g) false).Prompt (fun s => Switch.Settled s.prod) ls) (hf : Nested.NoFailure ls) (hq : Switch.Settled s.prod) {x u}
    (hx : (x, u) ∈ valuesAt (o.calls s.outer)) (hd : u + dur x < o.now s.outer) : (.next (g x), u + dur x) ∈ s.posts := by
  have hpr := Flatten.proper ho fun x t => fair (Ops.map (fun x => (dur x, .ok (g x))) .nil) x t
  rw [← Nested.C114_subscribed hpr hr hp hf hq] at hx
  obtain ⟨⟨x', u', si⟩, hi, he⟩ := List.mem_map.mp hx
  obtain ⟨rfl, rfl⟩ : x' = x ∧ u' = u := by simpa using he
  obtain ⟨h, hpast⟩ := Nested.past hpr.source hpr.inner (Nested.switch_starts false) hr
  obtain ⟨k, hk⟩ := List.getElem?_of_mem hi
  obtain ⟨⟨li, hli, -⟩, hnow⟩ := hpast.sources k _ _ _ hk
  have h1 := noDone_told (dur := dur) (g := g) x' u' hli (by change si.now = _ at hnow; omega)
  change si.now = _ at hnow
  rw [if_pos (by omega)] at h1
  have h2 := (Nested.arrive hpr (Nested.switch_starts false) (Nested.switch_forwards false) hr).2.2 _ hi
  change List.Sublist (noDone ((search dur g x' u').calls si)) _ at h2
  rw [h1] at h2
  exact (List.mem_filter.mp (h2.subset (by simp))).1

/-- C173 is violated, in general: nothing else is sent, and nothing twice. So it makes no difference that `flat_map_latest` is used and not `flat_map`. -/
theorem C173_all_violated (ho : Flatten.Fair o t0) {ls s} (hr : LTS.run (o.switched (search dur g) false).step (o.switched (search dur g) false).init ls = some s)
    (hp : (o.switched (search dur g) false).Prompt (fun s => Switch.Settled s.prod) ls) (hf : Nested.NoFailure ls) (hq : Switch.Settled s.prod)
    (he : ∀ e t, (.error e, t) ∉ o.calls s.outer) (hn : ∀ x ∈ valuesAt (o.calls s.outer), x.2 + dur x.1 ≠ o.now s.outer) :
    (noDone s.posts).Perm (((valuesAt (o.calls s.outer)).filter fun x => x.2 + dur x.1 < o.now s.outer).map fun x => (.next (g x.1), x.2 + dur x.1)) := by
  have hpr := Flatten.proper ho fun x t => fair (Ops.map (fun x => (dur x, .ok (g x))) .nil) x t
  rw [← Nested.C114_subscribed hpr hr hp hf hq] at hn ⊢
  obtain ⟨h, hpast⟩ := Nested.past hpr.source hpr.inner (Nested.switch_starts false) hr
  have h2 := (Nested.arrive hpr (Nested.switch_starts false) (Nested.switch_forwards false) hr).2.1
  rw [Spec.Bind.errors_nil he, List.nil_append] at h2
  refine h2.trans (.of_eq ?_)
  have key : ∀ i ∈ s.inners, noDone ((search dur g i.1 i.2.1).calls i.2.2) = if i.2.1 + dur i.1 < o.now s.outer then [(.next (g i.1), i.2.1 + dur i.1)] else [] := by
    rintro ⟨x, u, si⟩ hi
    obtain ⟨k, hk⟩ := List.getElem?_of_mem hi
    obtain ⟨⟨li, hli, -⟩, hnow⟩ := hpast.sources k _ _ _ hk
    change si.now = _ at hnow
    have := hn (x, u) (List.mem_map.mpr ⟨_, hi, rfl⟩)
    rw [noDone_told (dur := dur) (g := g) x u hli (by rw [hnow]; exact this), hnow]
  have all : ∀ is : List (ω × Nat × Work.State ω α Nat), (∀ i ∈ is, noDone ((search dur g i.1 i.2.1).calls i.2.2) = if i.2.1 + dur i.1 < o.now s.outer then [(.next (g i.1), i.2.1 + dur i.1)] else []) →
      (is.flatMap fun i => noDone ((search dur g i.1 i.2.1).calls i.2.2)) =
        (((is.map fun i => (i.1, i.2.1)).filter fun x => x.2 + dur x.1 < o.now s.outer).map fun x => (.next (g x.1), x.2 + dur x.1)) := by
    intro is
    induction is with
    | nil => intro _; rfl
    | cons i is ih =>
      intro h
      rw [List.flatMap_cons, ih fun j hj => h j (by simp [hj]), h i (by simp)]
      by_cases hd : i.2.1 + dur i.1 < o.now s.outer <;> simp [hd]
  exact all _ key

end Linger

namespace Nested
variable {SI LI : Type} {o : Clocked SO LO ω} {fam : ω → Nat → Clocked SI LI α}

/-- C173, the part that holds. Full statement: on a loop that is not overloaded, `flat_map_latest(f)` sends nothing for a value once the source has sent the next one. Missing: it needs that `f(x)` sends nothing
once its `dispose_async` has returned, which is not so for `pipe(single(x), map_async(search))`; it is for `of_async` (C133) and timers (C114). -/
theorem C173_latest_partial (hpr : Proper o fam) {ls s} (hr : LTS.run (o.switched fam true).step (o.switched fam true).init ls = some s)
    (hp : (o.switched fam true).Prompt (fun s => Switch.Settled s.prod) ls) (hf : NoFailure ls) (hq : Switch.Settled s.prod) (he : ∀ e t, (.error e, t) ∉ o.calls s.outer)
    {v t} (hv : (.next v, t) ∈ s.posts) :
    ∃ (k : Nat) (x : ω) (u : Nat) (li : List (Time LI)) (si : SI), (valuesAt (o.calls s.outer))[k]? = some (x, u) ∧ LTS.run (fam x u).step (fam x u).init li = some si ∧
      (.next v, t) ∈ (fam x u).calls si ∧ ∀ y w, (valuesAt (o.calls s.outer))[k + 1]? = some (y, w) → t ≤ w := by
  obtain ⟨h1, h2⟩ := C114_in_order hpr hr he
  obtain ⟨h, hpast⟩ := past hpr.source hpr.inner (switch_starts true) hr
  have hm : (Notif.next v, t) ∈ noDone s.posts := List.mem_filter.mpr ⟨hv, by simp⟩
  rw [h1, List.mem_flatMap] at hm
  obtain ⟨⟨x, u, si⟩, hi, hc⟩ := hm
  obtain ⟨k, hk⟩ := List.getElem?_of_mem hi
  obtain ⟨⟨li, hli, -⟩, -⟩ := hpast.sources k _ _ _ hk
  have hc := (List.mem_filter.mp hc).1
  refine ⟨k, x, u, li, si, ?_, hli, hc, fun y w hy => ?_⟩
  · rw [← C114_subscribed hpr hr hp hf hq, subs, List.getElem?_map, hk]; rfl
  · rw [← C114_subscribed hpr hr hp hf hq, subs, List.getElem?_map] at hy
    obtain ⟨⟨y', w', sj⟩, hj, e⟩ := Option.map_eq_some_iff.mp hy
    cases e
    exact (h2 k _ _ _ _ _ _ hk hj _ hc).2 (by simp [Notif.kind])

end Nested

namespace Linger

/-! ## an example

`search(1)` takes 5, all others 1. -/

abbrev slow (x : Nat) : Nat := if x = 1 then 5 else 1
abbrev tens (x : Nat) : Nat := 10 * x
abbrev demo := ((Clocked.typed 0).switched (search slow tens) false).operate (FlatMap.safe (α := Nat)).protected.slowProc
abbrev demoSteps := (FlatMap.steps (ω := Nat) (α := Nat) 2 ([] : List Nat) [Work.Label.receive (α := Nat), .go, .wake]).reverse

/-- The step `l`, then the steps of the list `n` times, the first one that is possible, and time passes if there is none. -/
def andThenGreedy {S L β : Type} (q : Clocked S L β) (steps : List L) (l : L) (n : Nat) (r : List (Time L) × S) : List (Time L) × S :=
  match q.act r.2 l with
  | some s => (r.1 ++ .act l :: (FlatMap.greedy q steps n s).1, (FlatMap.greedy q steps n s).2)
  | none => r

theorem andThenGreedy_run {S L β : Type} (q : Clocked S L β) (steps : List L) (l : L) (n : Nat) {r : List (Time L) × S} (h : LTS.run q.step q.init r.1 = some r.2) :
    LTS.run q.step q.init (andThenGreedy q steps l n r).1 = some (andThenGreedy q steps l n r).2 := by
  rw [andThenGreedy]
  split
  next s hs => exact LTS.run_append.mpr ⟨_, h, LTS.run_cons.mpr ⟨_, hs, FlatMap.greedy_run q steps n s⟩⟩
  · exact h

/-- 1 is typed at time 0, 2 at time 1. -/
def demoRun := andThenGreedy demo demoSteps (.inl (.outer 2)) 60 (andThenGreedy demo demoSteps (.inl (.outer 1)) 5 ([], demo.init))

/-- C173 is violated: 1 is sent at time 0, 2 at time 1, and the observer gets the result for 2 at time 2 and then, last, that for 1 at time 5. -/
theorem C173_violated : ∃ ls s, LTS.run demo.step demo.init ls = some s ∧ s.1.outer.2 = [(.next 1, 0), (.next 2, 1)] ∧ demo.calls s = [(.next 20, 2), (.next 10, 5)] :=
  ⟨demoRun.1, demoRun.2, andThenGreedy_run _ _ _ _ (andThenGreedy_run _ _ _ _ rfl), by decide +kernel, by decide +kernel⟩

/-! ### the hypotheses of the theorems above are met -/

abbrev demoPosts := (Clocked.typed 0).switched (search slow tens) false
abbrev demoRunPosts : List (Time (Nested.Label Nat (Work.Label Nat) Nat Nat)) := Clocked.sources demoRun.1

example : ∃ s, LTS.run demoPosts.step demoPosts.init demoRunPosts = some s ∧ s.posts.Perm [(.next 10, 5), (.next 20, 2)] ∧ (.next 10, 5) ∈ s.posts := by
  obtain ⟨s, hs, h⟩ := Nested.run_any (c := demoPosts) (ls := demoRunPosts)
    (P := fun s => Nested.switchSettled s.prod && s.outer == (26, [(.next 1, 0), (.next 2, 1)]) && s.posts == noDone s.posts) (by decide +kernel)
  simp only [Bool.and_eq_true, beq_iff_eq] at h
  obtain ⟨⟨h1, h2⟩, h3⟩ := h
  have hf : Flatten.Fair (Clocked.typed 0 : Clocked _ Nat Nat) 0 := ⟨Clocked.typed_lawful 0, rfl, Clocked.typed_grammar 0⟩
  have hp : demoPosts.Prompt (fun s => Switch.Settled s.prod) demoRunPosts :=
    Clocked.Prompt.of_rests (idle := fun s : Nested _ _ _ _ _ => Nested.switchSettled s.prod) (fun _ => Nested.switchSettled_of) (by decide +kernel)
  have hn : (demoRunPosts.all fun | .act (.own .subscribeFails) | .act (.own .disposeFails) => false | _ => true) = true := by decide +kernel
  have hn : Nested.NoFailure demoRunPosts := ⟨fun h => by simpa using List.all_eq_true.mp hn _ h, fun h => by simpa using List.all_eq_true.mp hn _ h⟩
  have ha := C173_all_violated hf hs hp hn (Nested.switchSettled_of h1) (by simp [Clocked.typed, h2]) (by simp [Clocked.typed, h2, valuesAt, slow])
  have hb := C173_answered_violated (x := 1) (u := 0) hf hs hp hn (Nested.switchSettled_of h1) (by simp [Clocked.typed, h2, valuesAt]) (by simp [Clocked.typed, h2, slow])
  rw [← h3] at ha
  exact ⟨s, hs, by simpa [Clocked.typed, h2, valuesAt, slow] using ha, by simpa [slow] using hb⟩

end Linger
end Aio
