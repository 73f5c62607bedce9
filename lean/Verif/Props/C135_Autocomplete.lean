import Verif.Lemmas.Autocomplete
import Verif.Props.C129_WorkInner
import Verif.Props.C134_HostedBox
/-!
# C135: `flat_map_async` with a search that takes time, on the `VirtualTimeEventLoop`

As in examples/autocomplete/autocomplete.py:47-54.
-/

namespace Aio
open Spec Spec.Timed Spec.Queue Spec.SearchBox Nested
open VirtualTime (Heap)
variable {h : Heap} {S L T SO LO TO SI LI TI α β ω γ δ : Type}

/-! ## what is in front of `merge_inner` -/

namespace Nested
variable {o : Clocked SO LO ω} {fam : ω → Nat → Clocked SI LI α} {mx : Int} {H : Host SO LO TO} {I : Host SI LI TI}

/-- What is in front of `merge_inner` on the virtual loop does what it does alone on a loop that is not overloaded. -/
theorem hosted_front [DecidableEq TO] [DecidableEq TI] (K : h.Laws) (hH : H.Lawful o) (hI : Host.Family I fam) {op : Operator α β} [DecidableEq op.protected.compileSlow.SlowLab]
    {workers} (hw : ∀ w, w ∈ workers) {hops ls m}
    (hr : LTS.run (Hosted.step h hops ((o.merged fam mx).operate op.protected.slowProc) ((H.merged I).operate op.protected.slowProc workers)) Hosted.init ls = some m)
    {s} (hm : m.sub = some s) (hrest : m.vt.ready = []) :
    (∀ t, H.need s.1.outer t ≠ .soon) ∧
    ∃ ks, LTS.run o.step o.init ks = some s.1.outer ∧ o.Prompt (fun s => ∀ t, H.need s t ≠ .soon) ks ∧ ∀ l, Time.act l ∈ ks → H.Own l := by
  have hM : (H.merged I).Lawful (o.merged fam mx) := Host.merged_lawful hH hI
  have hl := Host.operate_lawful (p := op.protected.slowProc) hM hw
  obtain ⟨hn, ks, h1, h2, h3⟩ := Hosted.C117_schedule K hl hr hm
  have settled : ∀ {s : Nested SO (Merge.State ω) SI ω α × _}, (∀ t, ((H.merged I).operate op.protected.slowProc workers).need s t ≠ .soon) → ∀ t, H.need s.1.outer t ≠ .soon :=
    fun h3 t => h3 (.inl (.inl t))
  have own : ∀ l, Time.act l ∈ Clocked.sources ks → (H.merged I).Own l := by
    intro l hl
    have : Time.act (Sum.inl l) ∈ ks := by
      obtain ⟨x, hx, he⟩ := List.mem_filterMap.mp hl
      match x with
      | .pass d => cases he
      | .act (.inl l') => cases he; exact hx
      | .act (.inr _) => cases he
    rcases h3 _ this with h | ⟨s1, t, h⟩
    · exact .inl h
    · right
      cases t with
      | inl t => simp only [Host.operate, List.mem_map] at h; obtain ⟨x, hx, he⟩ := h; cases he; exact ⟨s1.1, t, hx⟩
      | inr n => simp only [Host.operate] at h; split at h <;> simp at h
  obtain ⟨o1, -, -⟩ := Host.merged_own own
  have hq : (o.merged fam mx).Prompt (fun s => (∀ t, H.need s.outer t ≠ .soon) ∧ True) (Clocked.sources ks) :=
    Clocked.Prompt.source hM.clock (rest := fun s => (∀ t, H.need s.outer t ≠ .soon) ∧ True) (busy := fun _ => True) h1
      fun a d b s he ha => ⟨⟨settled (h2 a d b s he ha), trivial⟩, trivial⟩
  have h4 := (Clocked.operate_source hM.clock h1).1
  refine ⟨settled (Hosted.C117_rest K hl hr hm hrest).1, outers (Clocked.sources ks), outers_run h4,
    outers_prompt (rest := fun s => ∀ t, H.need s t ≠ .soon) (more := fun _ => True) h4 hq, fun l hl => ?_⟩
  obtain ⟨x, hx, he⟩ := List.mem_filterMap.mp hl
  match x with
  | .pass d => cases he
  | .act (.inner _ _) => cases he
  | .act (.own _) => cases he
  | .act (.outer l') => cases he; exact o1 l hx

end Nested

/-! ## one search at a time -/

theorem handle_served {dur : α → Nat} {g : α → ω} {gone : Nat} : ∀ (cs : List (Notif α × Nat)) (i free : Nat), Grammar (cs.map (·.1)) → (∀ e t, (.error e, t) ∉ cs) →
    valuesAt (handle (fun v => (dur v, .ok (some (g v)))) (fun _ _ => (0, none)) gone i free cs) = (served dur free (valuesAt cs)).map fun c => (g c.1, c.2)
  | [], _, _, _, _ => rfl
  | (.next v, a) :: cs, i, free, hg, he => by
    have := handle_served (dur := dur) (g := g) (gone := gone) cs (i + 1) (max a free + dur v) (by
      obtain ⟨⟨vs, fin⟩, hst⟩ := hg
      cases vs with
      | nil => cases fin <;> simp [Story.events, End.events] at hst
      | cons x vs =>
        simp only [Story.events, List.map_cons, List.cons_append, List.cons.injEq] at hst
        exact ⟨⟨vs, fin⟩, hst.2⟩) fun e t hm => he e t (List.mem_cons_of_mem _ hm)
    simp only [handle]
    rw [WorkInner.valuesAt_next, WorkInner.valuesAt_next]
    exact congrArg ((g v, max a free + dur v) :: ·) this
  | (.error e, a) :: cs, _, _, _, he => absurd (List.mem_cons_self ..) (he e a)
  | (.completed, a) :: cs, _, _, hg, _ => by
    have : cs = [] := by
      obtain ⟨⟨vs, fin⟩, hst⟩ := hg
      cases vs with
      | cons x vs => simp [Story.events] at hst
      | nil => cases fin <;> simp [Story.events, End.events] at hst; exact hst
    subst this
    rfl

theorem served_ge {dur : α → Nat} : ∀ (cs : List (α × Nat)) (free : Nat), ∀ c ∈ served dur free cs, free + dur c.1 ≤ c.2
  | [], _, _, h => by cases h
  | (x, a) :: cs, free, c, h => by
    rcases List.mem_cons.mp h with rfl | h
    · dsimp only; omega
    · have := served_ge cs _ c h
      omega

theorem served_inTime {dur : α → Nat} : ∀ (cs : List (α × Nat)) (free : Nat), InTime (served dur free cs)
  | [], _ => .nil
  | (x, a) :: cs, free => .cons (fun c hc => by have := served_ge cs _ c hc; dsimp only; omega) (served_inTime cs _)

theorem served_strict {dur : α → Nat} (hd : ∀ x, 0 < dur x) : ∀ (cs : List (α × Nat)) (free : Nat), (served dur free cs).Pairwise fun a b => a.2 < b.2
  | [], _ => .nil
  | (x, a) :: cs, free => .cons (fun c hc => by have := served_ge cs _ c hc; have := hd c.1; dsimp only; omega) (served_strict hd cs _)

section
variable {q : Clocked S L α} {H : Host S L T} [DecidableEq T] [DecidableEq (Operator.id (α := ω)).protected.compileSlow.SlowLab] {dur : α → Nat} {g : α → ω} {gone : Nat}

/-- C135, `flat_map_async` with a mapper that takes `dur x` for the value `x` and returns `single(g x)`: on the virtual loop, whatever else runs on it, the mapper is called for one value after
the other, and its results come in that order, each exactly when the mapper returns it; none is left out. (If the mapper may take no time, results that come at the same time are not
guaranteed to come in order.) -/
theorem C135_flat_map_async (K : h.Laws) (hH : H.Lawful q) (hg : ∀ ls s, LTS.run q.step q.init ls = some s → Grammar ((q.calls s).map (·.1))) {workers} (hw : ∀ w, w ∈ workers) {hops ls m}
    (hr : LTS.run (Hosted.step h hops (((q.mapped dur g gone).merged singles 0).operate (Operator.id (α := ω)).protected.slowProc)
      ((H.mapped.merged Once.host).operate (Operator.id (α := ω)).protected.slowProc workers)) Hosted.init ls = some m)
    {s} (hm : m.sub = some s) (hrest : m.vt.ready = []) (he : ∀ e t, (.error e, t) ∉ q.calls s.1.outer.1) :
    InTime s.2.sent ∧
    ((noDone s.2.sent).filter fun c => (c.2 : Int) < m.vt.time).Perm
      (((served dur 0 (valuesAt (q.calls s.1.outer.1))).filter fun c => (c.2 : Int) < m.vt.time).map fun c => (.next (g c.1), c.2)) ∧
    ((∀ x, 0 < dur x) → ((noDone s.2.sent).filter fun c => (c.2 : Int) < m.vt.time) =
      ((served dur 0 (valuesAt (q.calls s.1.outer.1))).filter fun c => (c.2 : Int) < m.vt.time).map fun c => (.next (g c.1), c.2)) := by
  have hO : (H.mapped (ω := ω)).Lawful (q.mapped dur g gone) := Host.through_lawful hH Work.stage_lawful Work.host_lawful
  have hgr : ∀ ls s, LTS.run (q.mapped dur g gone).step (q.mapped dur g gone).init ls = some s → Grammar (((q.mapped dur g gone).calls s).map (·.1)) :=
    fun _ _ h => WorkInner.mapped_grammar hH.clock h
  have hpr : Proper (q.mapped dur g gone) singles := singles_proper hO.clock hgr
  obtain ⟨-, lo, hlo, -⟩ := hosted_front K hO singles_family hw hr hm hrest
  obtain ⟨hex, hbef⟩ := Work.C124_exact hH.clock hlo
  have hq := (Clocked.clocks hH.clock Work.stage_lawful hlo).1
  have hwork : (Ops.map (fun x => (dur x, (.ok (g x) : Except Err ω))) .nil).work = fun v => (dur v, .ok (some (g v))) := by
    funext v; rw [WorkInner.work_map]; rfl
  rw [hwork] at hex hbef
  have hval := handle_served (dur := dur) (g := g) (gone := gone) _ 0 0 (hg _ _ hq) he
  have he' : ∀ e t, (.error e, t) ∉ (q.mapped dur g gone).calls s.1.outer := by
    intro e t hmem
    have hmem := hex.subset hmem
    have key : ∀ (cs : List (Notif α × Nat)) (i free : Nat), (∀ e t, (.error e, t) ∉ cs) →
        (.error e, t) ∉ handle (fun v => (dur v, .ok (some (g v)))) (fun _ _ => (0, none)) gone i free cs := by
      intro cs
      induction cs with
      | nil => intros; simp [handle]
      | cons c cs ih =>
        obtain ⟨n, a⟩ := c
        intro i free hc
        cases n with
        | next v => simp only [handle, List.mem_cons, not_or]; exact ⟨by simp, ih _ _ fun e t hm => hc e t (List.mem_cons_of_mem _ hm)⟩
        | error e => exact absurd (List.mem_cons_self ..) (hc e a)
        | completed => simp [handle]
    exact key _ _ _ he hmem
  obtain ⟨hn, hin, -, ks, h1, h2, h3, h4, -⟩ := C131_schedule K hO singles_family id_computes rfl hw hr hm hrest he'
  have hsub := C112_subscribed hpr h1 h2 h3 h4
  obtain ⟨-, hperm, -⟩ := C112_arrive hpr h1
  obtain ⟨hist, hpast⟩ := past hpr.source hpr.inner (merge_starts 0) h1
  have hinner : ∀ i ∈ s.1.inners, (singles i.1 i.2.1).calls i.2.2 <+: [(.next i.1, i.2.1), (.completed, i.2.1)] ∧
      (i.2.1 < (q.mapped dur g gone).now s.1.outer → (singles i.1 i.2.1).calls i.2.2 = [(.next i.1, i.2.1), (.completed, i.2.1)]) := by
    intro i hi
    obtain ⟨k, hk⟩ := List.getElem?_of_mem hi
    obtain ⟨x, u, si⟩ := i
    obtain ⟨⟨li, hli, -⟩, hnow⟩ := hpast.sources k x u si hk
    obtain ⟨e1, e2⟩ := Once.exact_ hli
    exact ⟨e1, fun hlt => e2 (by rw [← hnow] at hlt; exact hlt)⟩
  have hsent : s.2.sent = s.1.posts := by
    refine C131_observed K hO singles_family hpr (Int.le_refl 0) hw hr hm hrest he' fun i hi e t hmem => ?_
    have := (hinner i hi).1.subset hmem
    simp at this
  have h0 : (errors ((q.mapped dur g gone).calls s.1.outer) : List (Notif ω × Nat)) = [] := by
    rw [errors, List.filterMap_eq_nil_iff]
    rintro ⟨n, t⟩ hmem
    cases n with
    | error e => exact absurd hmem (he' e t)
    | _ => rfl
  rw [h0, List.nil_append] at hperm
  have hnq : (q.mapped dur g gone).now s.1.outer = q.now s.1.outer.1 := rfl
  have hT : ∀ c : Nat, decide ((c : Int) < m.vt.time) = decide (c < q.now s.1.outer.1) := by
    intro c
    rw [← hn, hnq]
    exact decide_eq_decide.mpr (by omega)
  have hmain : (s.1.inners.flatMap fun i => noDone ((singles i.1 i.2.1).calls i.2.2)).filter (fun c => decide ((c.2 : Int) < m.vt.time)) =
      ((served dur 0 (valuesAt (q.calls s.1.outer.1))).filter fun c => (c.2 : Int) < m.vt.time).map fun c => (.next (g c.1), c.2) := by
    have e1 : (s.1.inners.flatMap fun i => noDone ((singles i.1 i.2.1).calls i.2.2)).filter (fun c => decide (c.2 < q.now s.1.outer.1)) =
        ((subs s.1).filter fun c => c.2 < q.now s.1.outer.1).map fun c => (.next c.1, c.2) := by
      rw [subs, List.filter_flatMap]
      generalize s.1.inners = is at hinner
      induction is with
      | nil => rfl
      | cons i is ih =>
        rw [List.flatMap_cons, List.map_cons, List.filter_cons, ih fun i hi => hinner i (List.mem_cons_of_mem _ hi)]
        obtain ⟨x, u, si⟩ := i
        obtain ⟨g1, g2⟩ := hinner (x, u, si) (List.mem_cons_self ..)
        dsimp only at g1 g2 ⊢
        by_cases hlt : u < q.now s.1.outer.1
        · rw [g2 hlt]
          simp [noDone, hlt, Notif.kind]
        · rw [if_neg (by simpa using hlt)]
          have : (noDone ((singles x u).calls si)).filter (fun c => decide (c.2 < q.now s.1.outer.1)) = [] := by
            refine List.filter_eq_nil_iff.mpr fun c hc => ?_
            have := g1.subset (List.mem_filter.mp hc).1
            simp at this
            rcases this with rfl | rfl <;> simpa using hlt
          rw [this]; rfl
    have e2 : (subs s.1).filter (fun c => c.2 < q.now s.1.outer.1) = ((served dur 0 (valuesAt (q.calls s.1.outer.1))).filter fun c => c.2 < q.now s.1.outer.1).map fun c => (g c.1, c.2) := by
      rw [hsub, WorkInner.values_before hbef, hval, List.filter_map]
      rfl
    simp only [hT]
    rw [e1, e2, List.map_map]
    rfl
  rw [hsent] at hin ⊢
  have hp : ((noDone s.1.posts).filter fun c => (c.2 : Int) < m.vt.time).Perm
      (((served dur 0 (valuesAt (q.calls s.1.outer.1))).filter fun c => (c.2 : Int) < m.vt.time).map fun c => (.next (g c.1), c.2)) := by
    rw [← hmain]; exact hperm.filter _
  refine ⟨hin, hp, fun hd => ?_⟩
  refine hp.eq_of_pairwise (le := fun a b => a.2 ≤ b.2) (fun a b ha hb hab hba => ?_) ((hin.filter _).filter _) ?_
  · have hst : (((served dur 0 (valuesAt (q.calls s.1.outer.1))).filter fun c => (c.2 : Int) < m.vt.time).map fun c => ((.next (g c.1) : Notif ω), c.2)).Pairwise fun a b => a.2 < b.2 := by
      rw [List.pairwise_map]
      exact (served_strict hd _ _).filter _
    have ha' := hp.subset ha
    obtain ⟨i, hi⟩ := List.getElem?_of_mem ha'
    obtain ⟨j, hj⟩ := List.getElem?_of_mem hb
    obtain ⟨hi', hie⟩ := List.getElem?_eq_some_iff.mp hi
    obtain ⟨hj', hje⟩ := List.getElem?_eq_some_iff.mp hj
    rcases Nat.lt_trichotomy i j with hlt | heq | hgt
    · have := List.pairwise_iff_getElem.mp hst i j hi' hj' hlt
      rw [hie, hje] at this
      omega
    · subst heq; rw [← hie, ← hje]
    · have := List.pairwise_iff_getElem.mp hst j i hj' hi' hgt
      rw [hie, hje] at this
      omega
  · rw [List.pairwise_map]
    exact (served_inTime _ _).filter _

end

/-! ## the search box -/

section
variable {q : Clocked S L α} {H : Host S L T} {clean : Operator α β} {d : Nat} {pick : α → Option β} {eq : β → β → Bool}
variable {before : List clean.direct.compileSlow.SlowLab} {behind : List (distinctPosts fun a b => .ok (eq a b)).protected.compileSlow.SlowLab}
variable [DecidableEq T] [DecidableEq clean.direct.compileSlow.SlowLab] [DecidableEq (distinctPosts fun a b => .ok (eq a b)).protected.compileSlow.SlowLab]
variable [DecidableEq (Operator.id (α := γ)).protected.compileSlow.SlowLab] {dur : β → Nat} {g : β → γ} {gone : Nat}

set_option synthInstance.maxSize 1000 in
/-- C135: `flat_map_async(search)` behind `debounce` and `distinct_until_changed`: the searches are asked for exactly as they should, and made one after the other in that order. The observer gets
the results of all of them, in that order, each when its search ends. -/
theorem C135_search_box (K : h.Laws) (hH : H.Lawful q) (hg : ∀ ls s, LTS.run q.step q.init ls = some s → Grammar ((q.calls s).map (·.1)))
    (hc : clean.Computes fun s => ⟨s.vals.filterMap pick, s.fin⟩) (hb : ∀ w, w ∈ before) (hb' : ∀ w, w ∈ behind) {workers} (hw : ∀ w, w ∈ workers) {hops ls m}
    (hr : LTS.run (Hosted.step h hops ((((q.searches clean d (distinctPosts fun a b => .ok (eq a b))).mapped dur g gone).merged singles 0).operate (Operator.id (α := γ)).protected.slowProc)
      (((H.searches clean before (distinctPosts fun a b => .ok (eq a b)) behind).mapped.merged Once.host).operate (Operator.id (α := γ)).protected.slowProc workers)) Hosted.init ls = some m)
    {s} (hm : m.sub = some s) (hrest : m.vt.ready = []) (hv : ∀ c ∈ q.calls s.1.outer.1.1.1.1, c.1.isTerminal = false)
    (ha : Apart d m.vt.time.toNat (wanted pick (valuesAt (q.calls s.1.outer.1.1.1.1)))) (hd : ∀ x, 0 < dur x) :
    ((noDone s.2.sent).filter fun c => (c.2 : Int) < m.vt.time) =
      ((served dur 0 (searches pick d m.vt.time.toNat eq (fun x => x) (valuesAt (q.calls s.1.outer.1.1.1.1)))).filter fun c => (c.2 : Int) < m.vt.time).map fun c => (.next (g c.1), c.2) := by
  have hf : (distinctPosts fun a b => .ok (eq a b)).Computes fun s => ⟨(changes eq s.vals).map fun x => x, s.fin⟩ := by
    simpa using distinctPosts_computes eq
  have hS := Host.searches_lawful (d := d) hH hb hb'
  have hO : ((H.searches clean before (distinctPosts fun a b => .ok (eq a b)) behind).mapped (ω := γ)).Lawful ((q.searches clean d (distinctPosts fun a b => .ok (eq a b))).mapped dur g gone) :=
    Host.through_lawful hS Work.stage_lawful Work.host_lawful
  obtain ⟨h1, ks, h2, h3, h4⟩ := hosted_front K hO singles_family hw hr hm hrest
  have h5 := (Clocked.clocks hS.clock Work.stage_lawful h2).1
  have h6 := Clocked.Prompt.before (rest := fun s => ∀ t, (H.searches clean before (distinctPosts fun a b => .ok (eq a b)) behind).need s t ≠ .soon) hS.clock Work.stage_lawful h2
    fun a d b s he hs t => h3 a d b s he hs (.inl t)
  have h7 : ∀ l, Time.act l ∈ Clocked.sources ks → (H.searches clean before (distinctPosts fun a b => .ok (eq a b)) behind).Own l := by
    intro l hl
    have : Time.act (Sum.inl l) ∈ ks := by
      obtain ⟨x, hx, he⟩ := List.mem_filterMap.mp hl
      match x with
      | .pass d => cases he
      | .act (.inl l') => cases he; exact hx
      | .act (.inr _) => cases he
    rcases h4 _ this with h | ⟨s1, t, h⟩
    · exact .inl h
    · right
      cases t with
      | inl t => simp only [Host.through, List.mem_map] at h; obtain ⟨x, hx, he⟩ := h; cases he; exact ⟨s1.1, t, hx⟩
      | inr n => simp only [Host.through, List.mem_map] at h; obtain ⟨x, hx, he⟩ := h; cases he
  obtain ⟨h8, h9⟩ := Host.searches_rest (H := H) (before := before) (behind := behind) fun t => h1 (.inl t)
  have hn := (Hosted.C117_schedule K (Host.operate_lawful (p := (Operator.id (α := γ)).protected.slowProc) (Host.merged_lawful hO singles_family) hw) hr hm).1
  have hn : (q.now s.1.outer.1.1.1.1 : Int) = m.vt.time := hn
  have hn : q.now s.1.outer.1.1.1.1 = m.vt.time.toNat := by omega
  have hsent : s.1.outer.1.2.sent = (searches pick d m.vt.time.toNat eq (fun x => x) (valuesAt (q.calls s.1.outer.1.1.1.1))).map fun c => (.next c.1, c.2) := by
    rw [← hn] at ha ⊢
    exact C119_asked hH.clock hg hc hf h5 (fun a b c s he hs => Host.searches_rest (h6 a b c s he hs)) h8 h9 (Host.searches_kept h7) hv ha
  have hgr : ∀ ls s, LTS.run (q.searches clean d (distinctPosts fun a b => .ok (eq a b))).step (q.searches clean d (distinctPosts fun a b => .ok (eq a b))).init ls = some s →
      Grammar (((q.searches clean d (distinctPosts fun a b => .ok (eq a b))).calls s).map (·.1)) :=
    Clocked.operate_grammar (Clocked.through_lawful (Clocked.operate_lawful hH.clock _) (Debounce.stage_lawful true d)) hf.guarded.slow fun _ _ _ => trivial
  have hsent : (q.searches clean d (distinctPosts fun a b => .ok (eq a b))).calls s.1.outer.1 = _ := hsent
  have := (C135_flat_map_async K hS hgr hw hr hm hrest (by rw [hsent]; simp)).2.2 hd
  rw [hsent, valuesAt_map] at this
  exact this

end

set_option synthInstance.maxSize 1000 in
/-- C135 for `pipe(subject, map(clean), filter(long), debounce(d), distinct_until_changed, flat_map_async(search))`, as in examples/autocomplete, where `search(x)` takes `dur x` and returns
`single(g x)`: which results the observer gets, and when, is determined by what was typed when. -/
theorem C135_autocomplete {clean : α → β} {long : β → Bool} {eq : β → β → Bool} [DecidableEq (cleaning clean long).direct.compileSlow.SlowLab]
    [DecidableEq (distinctPosts fun a b => .ok (eq a b)).protected.compileSlow.SlowLab] [DecidableEq (Operator.id (α := γ)).protected.compileSlow.SlowLab] (K : h.Laws) (t0 d gone : Nat)
    (dur : β → Nat) (g : β → γ) (hd : ∀ x, 0 < dur x) {before behind workers} (hb : ∀ w, w ∈ before) (hb' : ∀ w, w ∈ behind) (hw : ∀ w, w ∈ workers) {hops ls m}
    (hr : LTS.run (Hosted.step h hops
      (((((Clocked.typed t0).searches (cleaning clean long) d (distinctPosts fun a b => .ok (eq a b))).mapped dur g gone).merged singles 0).operate (Operator.id (α := γ)).protected.slowProc)
      (((Clocked.typedHost.searches (cleaning clean long) before (distinctPosts fun a b => .ok (eq a b)) behind).mapped.merged Once.host).operate (Operator.id (α := γ)).protected.slowProc workers))
      Hosted.init ls = some m)
    {s} (hm : m.sub = some s) (hrest : m.vt.ready = []) {typed} (ht : valuesAt ((Clocked.typed (α := α) t0).calls s.1.outer.1.1.1.1) = typed)
    (ha : Apart d m.vt.time.toNat (wanted (fun x => if long (clean x) then some (clean x) else none) typed)) :
    ((noDone s.2.sent).filter fun c => (c.2 : Int) < m.vt.time) =
      ((served dur 0 (searches (fun x => if long (clean x) then some (clean x) else none) d m.vt.time.toNat eq (fun x => x) typed)).filter fun c => (c.2 : Int) < m.vt.time).map
        fun c => (.next (g c.1), c.2) := by
  subst ht
  have hS := Host.searches_lawful (d := d) (Clocked.typedHost_lawful t0) hb hb'
  obtain ⟨-, ks, h2, -⟩ := hosted_front K (Host.through_lawful hS Work.stage_lawful Work.host_lawful) singles_family hw hr hm hrest
  have h5 := (Clocked.clocks hS.clock Work.stage_lawful h2).1
  have l1 := Clocked.operate_lawful (Clocked.typed_lawful (α := α) t0) (cleaning clean long).direct.slowProc
  have r3 := (Clocked.operate_source (Clocked.through_lawful l1 (Debounce.stage_lawful true d)) h5).1
  have hv := Clocked.typed_values t0 (Clocked.operate_source (Clocked.typed_lawful t0) (Clocked.clocks l1 (Debounce.stage_lawful true d) r3).1).1
  exact C135_search_box K (Clocked.typedHost_lawful t0) (Clocked.typed_grammar t0) (cleaning_computes clean long) hb hb' hw hr hm hrest hv ha hd

section Examples
set_option synthInstance.maxSize 1000

/-- The search box of C134, but with `flat_map_async(search)`; the search for 2 takes 6, the others 1. -/
abbrev demoPosts := distinctPosts (α := Nat) fun a b => .ok (a == b)
abbrev demoPostsBehind : List demoPosts.protected.compileSlow.SlowLab := [.inl (), .inr (.inl ()), .inr (.inr ())]
instance : DecidableEq demoPosts.protected.compileSlow.SlowLab := inferInstanceAs (DecidableEq (Unit ⊕ Unit ⊕ Unit))
theorem demoPostsBehind_all : ∀ w, w ∈ demoPostsBehind := fun w => match w with
  | .inl () => .head _
  | .inr (.inl ()) => .tail _ (.head _)
  | .inr (.inr ()) => .tail _ (.tail _ (.head _))
abbrev hostedAuto := (((((Clocked.typed 0).searches demoClean 2 demoPosts).mapped (fun n => if n = 2 then 6 else 1) (10 * ·) 0).merged singles 0).operate (Operator.id (α := Nat)).protected.slowProc)
abbrev hostedAutoHost := ((((Clocked.typedHost (α := Nat)).searches demoClean demoBefore demoPosts demoPostsBehind).mapped (α := Nat) (ω := Nat)).merged (ω := Nat) (α := Nat)
  (Once.host (α := Nat))).operate (Operator.id (α := Nat)).protected.slowProc demoSafe

/-- 12 is typed at 0 and 23 at 3. The search for 3 is asked for at 5 but made when that for 2, which is of no use any more, is over at 8. -/
example (hops ls m) (hr : LTS.run (Hosted.step VirtualTime.heapq hops hostedAuto hostedAutoHost) Hosted.init ls = some m) {s} (hm : m.sub = some s) (hrest : m.vt.ready = [])
    (ht : (Clocked.typed (α := Nat) 0).calls s.1.outer.1.1.1.1 = [(.next 12, 0), (.next 23, 3)]) (hnow : m.vt.time = 11) :
    ((noDone s.2.sent).filter fun c => (c.2 : Int) < 11) = [(.next 20, 8), (.next 30, 9)] := by
  have hs : searches (fun x => if decide (0 < x % 10) = true then some (x % 10) else none) 2 11 (fun a b => a == b) (fun x => x) [(12, 0), (23, 3)] = [(2, 2), (3, 5)] := by decide +kernel
  have := C135_autocomplete (clean := fun x : Nat => x % 10) (long := fun x => decide (0 < x)) (eq := fun a b : Nat => a == b) VirtualTime.heapqLaws 0 2 0 (fun n => if n = 2 then 6 else 1)
    (fun n => 10 * n) (fun x => by split <;> omega) demoBefore_all demoPostsBehind_all demoSafe_all hr hm hrest (typed := [(12, 0), (23, 3)]) (by rw [ht]; rfl)
    (by rw [hnow]; simp [Apart, wanted])
  rw [hnow] at this
  rw [this, show (11 : Int).toNat = 11 from rfl, hs]
  rfl

abbrev autoTyping (x : Nat) : Option (Hosted.Label (Nested.Label ((((Nat ⊕ demoClean.direct.compileSlow.SlowLab) ⊕ Debounce.Label Nat) ⊕ demoPosts.protected.compileSlow.SlowLab) ⊕ Work.Label Nat)
    Once.Label Nat Nat ⊕ (Operator.id (α := Nat)).protected.compileSlow.SlowLab)) := some (.outside (.inl (.outer (.inl (.inl (.inl (.inl x)))))))

example : shown hostedAuto hostedAutoHost (fun _ => 0) ([some .subscribe, autoTyping 12, some (.loop (.callAt 3)), some (.loop (.callAt 11))] ++ List.replicate 45 none ++
    [autoTyping 23] ++ List.replicate 114 none) = some (11, some [(.next 20, 8), (.next 30, 9)]) := by decide +kernel

end Examples

end Aio
