import Verif.Lemmas.HostedNested
import Verif.Props.C117_Hosted
import Verif.Props.C122_Jobs
/-!
# C131: `merge_inner` on the `VirtualTimeEventLoop`

The theorems of C112, C113 and C122 assume that time passes only when the worker of `merge_inner` has nothing to do. On the `VirtualTimeEventLoop` this is so, whatever
else runs on it.
-/

namespace Aio.Nested
open Spec Spec.Timed Spec.Pool Spec.Jobs Jobs
open VirtualTime (Heap)
variable {SO LO TO SI LI TI ω α β : Type}
variable {h : Heap} {o : Clocked SO LO ω} {fam : ω → Nat → Clocked SI LI α} {mx : Int} {H : Host SO LO TO} {I : Host SI LI TI}

section
variable [DecidableEq TO] [DecidableEq TI]

/-- C131: what `merge_inner` and an operator behind it do on the virtual loop, when no callback is due, is what they do alone on a loop that is not overloaded; nothing
was disturbed, and at every time the observer had got what the operator makes of what had been sent. -/
theorem C131_schedule (K : h.Laws) (hH : H.Lawful o) (hI : Host.Family I fam) {op : Operator α β} [DecidableEq op.protected.compileSlow.SlowLab] {G : Story α → Story β}
    (hG : op.Computes G) (h0 : (G ⟨[], .running⟩).events = []) {workers} (hw : ∀ w, w ∈ workers) {hops ls m}
    (hr : LTS.run (Hosted.step h hops ((o.merged fam mx).operate op.protected.slowProc) ((H.merged I).operate op.protected.slowProc workers)) Hosted.init ls = some m)
    {s} (hm : m.sub = some s) (hrest : m.vt.ready = []) (he : ∀ e t, (.error e, t) ∉ o.calls s.1.outer) :
    (o.now s.1.outer : Int) = m.vt.time ∧ InTime s.2.sent ∧ (∀ t, upto t s.2.sent = (G (story (upto t s.1.posts))).events) ∧
    ∃ ks, LTS.run (o.merged fam mx).step (o.merged fam mx).init ks = some s.1 ∧ (o.merged fam mx).Prompt (fun s => Merge.Settled s.prod) ks ∧
      Calm o ks s.1 ∧ Merge.Settled s.1.prod ∧ ∀ k l, Time.act (.inner k l) ∈ ks → I.Own l := by
  have hM : (H.merged I).Lawful (o.merged fam mx) := Host.merged_lawful hH hI
  have hl := Host.operate_lawful (p := op.protected.slowProc) hM hw
  obtain ⟨hn, ks, h1, h2, h3⟩ := Hosted.C117_schedule K hl hr hm
  obtain ⟨g1, -, g3⟩ := C117_operator K hM hw hG.guarded.slow h0 (fun _ _ _ => trivial) hr hm
  have settled : ∀ {ks : List _} {s}, LTS.run ((o.merged fam mx).operate op.protected.slowProc).step ((o.merged fam mx).operate op.protected.slowProc).init ks = some s →
      (∀ l, Time.act l ∈ ks → ((H.merged I).operate op.protected.slowProc workers).Own l) →
      (∀ t, ((H.merged I).operate op.protected.slowProc workers).need s t ≠ .soon) → Merge.Settled s.1.prod := by
    intro ks s h1 h2 h3
    have P := Host.merged_parts hH hI (Host.operate_reach hM.clock ⟨ks, h1, h2⟩)
    exact Host.merged_settled (H := H) (I := I) P.worker (h3 (.inl (.inr (.inr ()))))
  have own : ∀ l, Time.act l ∈ Clocked.sources ks → (H.merged I).Own l := by
    intro l hl
    have : Time.act (Sum.inl l) ∈ ks := by
      obtain ⟨x, hx, he⟩ := List.mem_filterMap.mp hl
      match x with
      | .pass d => cases he
      | .act (.inl l') => cases he; exact hx
      | .act (.inr _) => cases he
    rcases h3 _ this with h | ⟨s1, t, h⟩
    · exact .inl h
    · right
      cases t with
      | inl t => simp only [Host.operate, List.mem_map] at h; obtain ⟨x, hx, he⟩ := h; cases he; exact ⟨s1.1, t, hx⟩
      | inr n => simp only [Host.operate] at h; split at h <;> simp at h
  obtain ⟨-, o2, o3⟩ := Host.merged_own own
  refine ⟨hn, g1, g3 hrest, Clocked.sources ks, (Clocked.operate_source hM.clock h1).1, ?_, ⟨⟨?_, ?_⟩, ?_, he⟩, settled h1 h3 (Hosted.C117_rest K hl hr hm hrest).1, o2⟩
  · refine Clocked.Prompt.source hM.clock (busy := fun _ => True) h1 fun a d b s he ha => ⟨?_, trivial⟩
    exact settled ha (fun l hl => h3 l (by rw [he]; simp [hl])) (h2 a d b s he ha)
  · intro h; have := o3 _ h; simp at this
  · intro h; have := o3 _ h; simp at this
  · intro h; have := o3 _ h; simp at this

/-- C131, `merge` (`flat_map`): on the virtual loop, an inner observable is subscribed exactly when the source sends it. -/
theorem C131_merge (K : h.Laws) (hH : H.Lawful o) (hI : Host.Family I fam) (hpr : Proper o fam) {op : Operator α β} [DecidableEq op.protected.compileSlow.SlowLab] {G : Story α → Story β}
    (hG : op.Computes G) (h0 : (G ⟨[], .running⟩).events = []) {workers} (hw : ∀ w, w ∈ workers) {hops ls m}
    (hr : LTS.run (Hosted.step h hops ((o.merged fam 0).operate op.protected.slowProc) ((H.merged I).operate op.protected.slowProc workers)) Hosted.init ls = some m)
    {s} (hm : m.sub = some s) (hrest : m.vt.ready = []) (he : ∀ e t, (.error e, t) ∉ o.calls s.1.outer) :
    subs s.1 = valuesAt (o.calls s.1.outer) := by
  obtain ⟨-, -, -, ks, h1, h2, h3, h4, -⟩ := C131_schedule K hH hI hG h0 hw hr hm hrest he
  exact C112_subscribed hpr h1 h2 h3 h4

/-- C131, `concat` (`concat_map`): the first observable is subscribed when the source sends it, each following one when the source sends it or when the one before
completes, whichever is later. -/
theorem C131_concat (K : h.Laws) (hH : H.Lawful o) (hI : Host.Family I fam) (hpr : Proper o fam) {op : Operator α β} [DecidableEq op.protected.compileSlow.SlowLab] {G : Story α → Story β}
    (hG : op.Computes G) (h0 : (G ⟨[], .running⟩).events = []) {workers} (hw : ∀ w, w ∈ workers) {hops ls m}
    (hr : LTS.run (Hosted.step h hops ((o.merged fam 1).operate op.protected.slowProc) ((H.merged I).operate op.protected.slowProc workers)) Hosted.init ls = some m)
    {s} (hm : m.sub = some s) (hrest : m.vt.ready = []) (he : ∀ e t, (.error e, t) ∉ o.calls s.1.outer) :
    (subs s.1)[0]? = (valuesAt (o.calls s.1.outer))[0]? ∧
    ∀ (k : Nat) xs u, (subs s.1)[k + 1]? = some (xs, u) ↔ ∃ a c ys v si, (valuesAt (o.calls s.1.outer))[k + 1]? = some (xs, a) ∧
      s.1.inners[k]? = some (ys, v, si) ∧ (.completed, c) ∈ (fam ys v).calls si ∧ u = max a c := by
  obtain ⟨-, -, -, ks, h1, h2, h3, h4, -⟩ := C131_schedule K hH hI hG h0 hw hr hm hrest he
  exact C113_subscribed hpr h1 h2 h3 h4

/-- C131, any number of slots: the completion is sent when the source and every inner observable have completed. -/
theorem C131_completed (K : h.Laws) (hH : H.Lawful o) (hI : Host.Family I fam) (hpr : Proper o fam) (hmx : 0 ≤ mx) {op : Operator α β} [DecidableEq op.protected.compileSlow.SlowLab]
    {G : Story α → Story β} (hG : op.Computes G) (h0 : (G ⟨[], .running⟩).events = []) {workers} (hw : ∀ w, w ∈ workers) {hops ls m}
    (hr : LTS.run (Hosted.step h hops ((o.merged fam mx).operate op.protected.slowProc) ((H.merged I).operate op.protected.slowProc workers)) Hosted.init ls = some m)
    {s} (hm : m.sub = some s) (hrest : m.vt.ready = []) (he : ∀ e t, (.error e, t) ∉ o.calls s.1.outer) (t : Nat) :
    .completed ∈ upto t s.1.posts ↔ (story (upto t (o.calls s.1.outer))).fin = .done ∧
      ∀ i ∈ s.1.inners, (story (upto t ((fam i.1 i.2.1).calls i.2.2))).fin = .done := by
  obtain ⟨-, -, -, ks, h1, h2, h3, h4, -⟩ := C131_schedule K hH hI hG h0 hw hr hm hrest he
  exact C112_completed hpr hmx h1 h2 h3 h4 t

/-! ## the final observer -/

/-- Values and at most one completion after them. -/
theorem grammar_of_last {cs : List (Notif α × Nat)} (hv : ∀ c ∈ cs, ∀ e, c.1 ≠ .error e) (hl : cs = noDone cs ∨ ∃ c, cs = noDone cs ++ [(.completed, c)]) :
    Grammar (cs.map (·.1)) := by
  have key : ∀ (cs : List (Notif α × Nat)), (∀ c ∈ cs, ∀ e, c.1 ≠ .error e) → ∃ vs : List α, (noDone cs).map (·.1) = vs.map .next := by
    intro cs
    induction cs with
    | nil => exact fun _ => ⟨[], rfl⟩
    | cons c cs ih =>
      intro hv
      obtain ⟨vs, hvs⟩ := ih fun c hc => hv c (by simp [hc])
      obtain ⟨n, t⟩ := c
      cases n with
      | next v => exact ⟨v :: vs, by simp only [noDone] at hvs ⊢; simpa using hvs⟩
      | error e => exact absurd rfl (hv (.error e, t) (by simp) e)
      | completed => exact ⟨vs, by simp only [noDone] at hvs ⊢; simpa using hvs⟩
  obtain ⟨vs, hvs⟩ := key cs hv
  rcases hl with hl | ⟨c, hl⟩
  · rw [hl, hvs]; exact ⟨⟨vs, .running⟩, by simp [Story.events]⟩
  · rw [hl, List.map_append, hvs]; exact ⟨⟨vs, .done⟩, by simp [Story.events]⟩

/-- C131: the final observer gets what `merge_inner` sends, at the same times, if none of the observables fails. -/
theorem C131_observed [DecidableEq (Operator.id (α := α)).protected.compileSlow.SlowLab] (K : h.Laws) (hH : H.Lawful o) (hI : Host.Family I fam) (hpr : Proper o fam) (hmx : 0 ≤ mx)
    {workers} (hw : ∀ w, w ∈ workers) {hops ls m}
    (hr : LTS.run (Hosted.step h hops ((o.merged fam mx).operate (Operator.id (α := α)).protected.slowProc) ((H.merged I).operate (Operator.id (α := α)).protected.slowProc workers))
      Hosted.init ls = some m)
    {s} (hm : m.sub = some s) (hrest : m.vt.ready = []) (he : ∀ e t, (.error e, t) ∉ o.calls s.1.outer)
    (hne : ∀ i ∈ s.1.inners, ∀ e t, (.error e, t) ∉ (fam i.1 i.2.1).calls i.2.2) : s.2.sent = s.1.posts := by
  obtain ⟨-, h5, h6, ks, h1, h2, h3, h4, -⟩ := C131_schedule K hH hI id_computes rfl hw hr hm hrest he
  obtain ⟨h7, hperm, -⟩ := C112_arrive hpr h1
  have h8 : Grammar (s.1.posts.map (·.1)) := by
    refine grammar_of_last (fun c hc e hce => ?_) (C112_last hpr hmx h1)
    obtain ⟨n, t⟩ := c
    dsimp only at hce
    subst hce
    have hm : (Notif.error e, t) ∈ noDone s.1.posts := List.mem_filter.mpr ⟨hc, rfl⟩
    rcases List.mem_append.mp (hperm.mem_iff.mp hm) with h9 | h9
    · rw [errors, List.mem_filterMap] at h9
      obtain ⟨⟨n', t'⟩, g1, g2⟩ := h9
      cases n' with
      | error e => exact he e t' g1
      | _ => cases g2
    · obtain ⟨i, hi, h9⟩ := List.mem_flatMap.mp h9
      exact hne i hi e t (List.mem_filter.mp h9).1
  refine Spec.Timed.ext h5 h7 fun t => ?_
  rw [h6]
  exact cut_of_grammar (grammar_prefix (upto_prefix h7) h8)

/-! ## intervals and timers -/

private theorem undisturbed {ks : List (Time (Nested.Label LO Interval.Label ω α))} (ho : ∀ k l, Time.act (.inner k l) ∈ ks → Interval.host.Own l) : Undisturbed ks := by
  have own : ∀ {l : Interval.Label}, Interval.host.Own l → l = .start ∨ l = .wake ∨ l = .ret := by
    intro l ho
    rcases ho with h | ⟨s1, t, h⟩
    · cases h
    · simp only [Interval.host] at h
      split at h <;> simp at h <;> simp [h]
  exact ⟨fun k h => by have := own (ho k _ h); simp at this, fun k e h => by have := own (ho k _ h); simp at this⟩

/-- C131, `flat_map(lambda x: interval(*f(x)))` on the virtual loop: for each value the observer gets the first `n` values of its interval, counted from when the value
was sent, each once and exactly when it is due, and `n` is all that was due before the present time. -/
theorem C131_intervals [DecidableEq (Operator.id (α := Nat)).protected.compileSlow.SlowLab] (K : h.Laws) (f : ω → Int × Int) (hH : H.Lawful o)
    (hg : ∀ ls s, LTS.run o.step o.init ls = some s → Grammar ((o.calls s).map (·.1))) {workers} (hw : ∀ w, w ∈ workers) {hops ls m}
    (hr : LTS.run (Hosted.step h hops ((o.merged (intervals f) 0).operate (Operator.id (α := Nat)).protected.slowProc)
      ((H.merged Interval.host).operate (Operator.id (α := Nat)).protected.slowProc workers)) Hosted.init ls = some m)
    {s} (hm : m.sub = some s) (hrest : m.vt.ready = []) (he : ∀ e t, (.error e, t) ∉ o.calls s.1.outer)
    (hne : ∀ x ∈ valuesAt (o.calls s.1.outer), (f x.1).2 ≠ 0) :
    ∃ ns : List Nat, ns.length = (valuesAt (o.calls s.1.outer)).length ∧ InTime s.2.sent ∧
      (noDone s.2.sent).Perm (((valuesAt (o.calls s.1.outer)).zip ns).flatMap fun i =>
        (List.range i.2).map fun k => (.next k, Interval.due i.1.2 (f i.1.1).1 (f i.1.1).2 k)) ∧
      ∀ i ∈ (valuesAt (o.calls s.1.outer)).zip ns, ∀ k, (Interval.due i.1.2 (f i.1.1).1 (f i.1.1).2 k : Int) < m.vt.time → k < i.2 := by
  have hI := intervals_family f
  have hpr := intervals_proper f hH.clock hg
  obtain ⟨hn, h5, h6, ks, h1, h2, h3, h4, h7⟩ := C131_schedule K hH hI id_computes rfl hw hr hm hrest he
  have hsub := C112_subscribed hpr h1 h2 h3 h4
  obtain ⟨hh, hpast⟩ := past hpr.source hpr.inner (merge_starts 0) h1
  have hcalls : ∀ i ∈ s.1.inners, ∀ c ∈ (intervals f i.1 i.2.1).calls i.2.2, ∃ k, c.1 = .next k := by
    rintro ⟨x, u, si⟩ hi c hc
    obtain ⟨k, hk⟩ := List.getElem?_of_mem hi
    obtain ⟨⟨li, hli, -⟩, -⟩ := hpast.sources k _ _ _ hk
    obtain ⟨n, hn, -⟩ := Interval.clocked_exact (hne (x, u) (by rw [← hsub]; exact List.mem_map.mpr ⟨_, hi, rfl⟩)) hli
    have hc : c ∈ (Interval.clocked true u (f x).1 (f x).2).calls si := hc
    rw [hn] at hc
    obtain ⟨j, -, rfl⟩ := List.mem_map.mp hc
    exact ⟨j, rfl⟩
  have hsent := C131_observed K hH hI hpr (Int.le_refl 0) hw hr hm hrest he (fun i hi e t hm => by
    obtain ⟨k, hk⟩ := hcalls i hi _ hm
    cases hk)
  obtain ⟨ns, n1, n2, n3⟩ := C112_intervals_exact f hH.clock hg h1 h2 h3 h4 hne
  rw [← hsent] at n2
  refine ⟨ns, n1, h5, n2, fun i hi k hk => n3 (undisturbed h7) i hi k ?_⟩
  omega

/-- C131, `concat_map(timer)` on the virtual loop: of timers that are sent at the same time each one starts when the one before has completed; the observer gets
each value, and the completion, exactly then. -/
theorem C131_timers {o : Clocked SO LO Int} [DecidableEq (Operator.id (α := Nat)).protected.compileSlow.SlowLab] (K : h.Laws) (hH : H.Lawful o)
    (hg : ∀ ls s, LTS.run o.step o.init ls = some s → Grammar ((o.calls s).map (·.1))) {workers} (hw : ∀ w, w ∈ workers) {hops ls m}
    (hr : LTS.run (Hosted.step h hops ((o.merged timers 1).operate (Operator.id (α := Nat)).protected.slowProc)
      ((H.merged Interval.host).operate (Operator.id (α := Nat)).protected.slowProc workers)) Hosted.init ls = some m)
    {s} (hm : m.sub = some s) (hrest : m.vt.ready = [])
    {as : List Int} {t0 : Nat} (has : o.calls s.1.outer = as.map (fun a => (.next a, t0)) ++ [(.completed, t0)])
    (hlate : ((t0 + total as as.length : Nat) : Int) < m.vt.time) :
    s.2.sent = (List.range as.length).map (fun k => (.next 0, t0 + total as (k + 1))) ++ [(.completed, t0 + total as as.length)] := by
  have hpr := timers_proper hH.clock hg
  have he : ∀ e t, (.error e, t) ∉ o.calls s.1.outer := by intro e t hm; rw [has] at hm; simp at hm
  obtain ⟨hn, h5, h6, ks, h1, h2, h3, h4, h7⟩ := C131_schedule K hH timers_family id_computes rfl hw hr hm hrest he
  have hpost := C113_timers hH.clock hg h1 h2 h3 h4 (undisturbed h7) has (by omega)
  rw [← hpost]
  obtain ⟨hh, hpast⟩ := past hpr.source hpr.inner (merge_starts 1) h1
  refine C131_observed K hH timers_family hpr (by omega) hw hr hm hrest he (fun i hi e t hm => ?_)
  obtain ⟨x, u, si⟩ := i
  obtain ⟨k, hk⟩ := List.getElem?_of_mem hi
  obtain ⟨⟨li, hli, -⟩, -⟩ := hpast.sources k _ _ _ hk
  have := (Interval.timer_exact hli).1.subset hm
  simp at this

/-! ## jobs -/

section
variable {dur : ω → Nat} {res : ω → Except Err α} [DecidableEq (Operator.id (α := α)).protected.compileSlow.SlowLab]

private theorem jobs_sent (K : h.Laws) (hH : H.Lawful o) (hg : ∀ ls s, LTS.run o.step o.init ls = some s → Grammar ((o.calls s).map (·.1))) (hmx : 0 ≤ mx)
    {workers} (hw : ∀ w, w ∈ workers) {hops ls m}
    (hr : LTS.run (Hosted.step h hops ((o.merged (jobs dur res) mx).operate (Operator.id (α := α)).protected.slowProc)
      ((H.merged Job.host).operate (Operator.id (α := α)).protected.slowProc workers)) Hosted.init ls = some m)
    {s} (hm : m.sub = some s) (hrest : m.vt.ready = []) (he : ∀ e t, (.error e, t) ∉ o.calls s.1.outer)
    (hok : ∀ x ∈ valuesAt (o.calls s.1.outer), ∃ v, res x.1 = .ok v) : s.2.sent = s.1.posts := by
  have hpr := jobs_proper dur res hH.clock hg
  obtain ⟨-, -, -, ks, h1, -⟩ := C131_schedule K hH jobs_family id_computes rfl hw hr hm hrest he
  obtain ⟨hh, hpast⟩ := past hpr.source hpr.inner (merge_starts mx) h1
  refine C131_observed K hH jobs_family hpr hmx hw hr hm hrest he (fun i hi e t hm => ?_)
  obtain ⟨x, u, si⟩ := i
  obtain ⟨k, hk⟩ := List.getElem?_of_mem hi
  obtain ⟨⟨li, hli, -⟩, -⟩ := hpast.sources k _ _ _ hk
  have hx := (C121_order hpr h1).subset (List.mem_map.mpr ⟨(x, u), List.mem_map.mpr ⟨_, hi, rfl⟩, rfl⟩)
  obtain ⟨y, hy, hxy⟩ := List.mem_map.mp hx
  obtain ⟨v, hv⟩ := hok y hy
  have hxy : y.1 = x := hxy
  rw [hxy] at hv
  have := (Job.exact_ hli).1.subset hm
  rw [hv] at this
  simp [asyncResult] at this

/-- C131, `flat_map(lambda x: of_async(work(x)))` on the virtual loop, where `work(x)` takes `dur x`: the observer gets the result of each `x`, exactly `dur x` after `x`
was sent. -/
theorem C131_parallel (K : h.Laws) (hH : H.Lawful o) (hg : ∀ ls s, LTS.run o.step o.init ls = some s → Grammar ((o.calls s).map (·.1))) {workers} (hw : ∀ w, w ∈ workers) {hops ls m}
    (hr : LTS.run (Hosted.step h hops ((o.merged (jobs dur res) 0).operate (Operator.id (α := α)).protected.slowProc)
      ((H.merged Job.host).operate (Operator.id (α := α)).protected.slowProc workers)) Hosted.init ls = some m)
    {s} (hm : m.sub = some s) (hrest : m.vt.ready = []) (he : ∀ e t, (.error e, t) ∉ o.calls s.1.outer)
    (hok : ∀ x ∈ valuesAt (o.calls s.1.outer), ∃ v, res x.1 = .ok v) :
    InTime s.2.sent ∧ ((noDone s.2.sent).filter fun c => (c.2 : Int) < m.vt.time).Perm
      (((valuesAt (o.calls s.1.outer)).map fun i => (result res i.1, i.2 + dur i.1)).filter fun c => (c.2 : Int) < m.vt.time) := by
  obtain ⟨hn, h5, -, ks, h1, h2, h3, h4, -⟩ := C131_schedule K hH jobs_family id_computes rfl hw hr hm hrest he
  rw [jobs_sent K hH hg (Int.le_refl 0) hw hr hm hrest he hok] at h5 ⊢
  have := C122_parallel hH.clock hg h1 h2 h3 h4 (fun x hx => by obtain ⟨v, hv⟩ := hok x hx; rw [hv]; simp)
  have hcast : ∀ cs : List (Notif α × Nat), (cs.filter fun c => (c.2 : Int) < m.vt.time) = cs.filter fun c => c.2 < o.now s.1.outer := by
    intro cs
    refine List.filter_congr fun c _ => ?_
    rw [← hn]; simp
  rw [hcast, hcast]
  exact ⟨h5, this⟩

/-- C131, `merge_inner(k)` of jobs that are all sent at the time `t0`: the completion comes no sooner than a `k`-th of what the jobs take, and no later than that and
`(k - 1) / k` of the longest. -/
theorem C131_slots {k : Nat} (hk : 0 < k) (K : h.Laws) (hH : H.Lawful o) (hg : ∀ ls s, LTS.run o.step o.init ls = some s → Grammar ((o.calls s).map (·.1)))
    {workers} (hw : ∀ w, w ∈ workers) {hops ls m}
    (hr : LTS.run (Hosted.step h hops ((o.merged (jobs dur res) k).operate (Operator.id (α := α)).protected.slowProc)
      ((H.merged Job.host).operate (Operator.id (α := α)).protected.slowProc workers)) Hosted.init ls = some m)
    {s} (hm : m.sub = some s) (hrest : m.vt.ready = []) (he : ∀ e t, (.error e, t) ∉ o.calls s.1.outer)
    (hok : ∀ x ∈ valuesAt (o.calls s.1.outer), ∃ v, res x.1 = .ok v) {t0 : Nat} (hb : ∀ x ∈ valuesAt (o.calls s.1.outer), x.2 = t0) {t : Nat} (ht : (t : Int) < m.vt.time) :
    (((begun dur (subs s.1)).filter (running t)).length ≤ k) ∧
    (.completed ∈ upto t s.2.sent → ((valuesAt (o.calls s.1.outer)).map fun x => dur x.1).sum ≤ k * (t - t0)) ∧
    (∀ longest, (∀ x ∈ valuesAt (o.calls s.1.outer), dur x.1 ≤ longest) → t0 ≤ t → completedBy t (o.calls s.1.outer) = true →
      ((valuesAt (o.calls s.1.outer)).map fun x => dur x.1).sum + (k - 1) * longest ≤ k * (t - t0) → .completed ∈ upto t s.2.sent) := by
  obtain ⟨hn, h5, -, ks, h1, h2, h3, h4, -⟩ := C131_schedule K hH jobs_family id_computes rfl hw hr hm hrest he
  rw [jobs_sent K hH hg (by omega) hw hr hm hrest he hok]
  have ht' : t < o.now s.1.outer := by omega
  exact ⟨C122_at_most hH.clock hg hk h1 h2 h3 h4 hok ht', C122_soonest hH.clock hg hk h1 h2 h3 h4 hok hb ht',
    fun longest hl h0 hd htime => C122_latest hH.clock hg hk h1 h2 h3 h4 hok hb hl h0 ht' hd htime⟩

end
end

/-! ## Examples -/

section Examples
open Hosted (play)
instance : DecidableEq (Operator.id (α := Nat)).protected.compileSlow.SlowLab := inferInstanceAs (DecidableEq (Unit ⊕ Unit))
abbrev demoSafe : List (Operator.id (α := Nat)).protected.compileSlow.SlowLab := [.inl (), .inr ()]
theorem demoSafe_all : ∀ w, w ∈ demoSafe := fun w => match w with | .inl () => .head _ | .inr () => .tail _ (.head _)

/-- The time and what was sent, if no callback is due. -/
def shown {S L T : Type} [DecidableEq T] (q : Clocked S L α) (H : Host S L T) (hops : T → Nat) (ls : List (Option (Hosted.Label L))) :
    Option (Int × Option (List (Notif α × Nat))) :=
  (play hops q H Hosted.init ls).bind fun m => if m.vt.ready.isEmpty then some (m.vt.time, m.sub.map q.calls) else none

/-- `concat_map(timer)` of 2, 3 and 1, and other code that sleeps until 9. -/
abbrev hostedConcat := ((ofSeqAt 0 [2, (3 : Int), 1]).merged timers 1).operate (Operator.id (α := Nat)).protected.slowProc
abbrev hostedConcatHost := ((OneShot.host (α := Int)).merged (ω := Int) (α := Nat) Interval.host).operate (Operator.id (α := Nat)).protected.slowProc demoSafe

example (hops ls m) (hr : LTS.run (Hosted.step VirtualTime.heapq hops hostedConcat hostedConcatHost) Hosted.init ls = some m) {s} (hm : m.sub = some s) (hrest : m.vt.ready = [])
    (has : (ofSeqAt 0 [2, (3 : Int), 1]).calls s.1.outer = [2, 3, 1].map (fun a => (.next a, 0)) ++ [(.completed, 0)]) (hlate : 6 < m.vt.time) :
    s.2.sent = [(.next 0, 2), (.next 0, 5), (.next 0, 6), (.completed, 6)] :=
  C131_timers VirtualTime.heapqLaws OneShot.host_lawful ofSeq_grammar demoSafe_all hr hm hrest has hlate

example : shown hostedConcat hostedConcatHost (fun _ => 0) ([some .subscribe, some (.loop (.callAt 9))] ++ List.replicate 100 none) =
    some (9, some [(.next 0, 2), (.next 0, 5), (.next 0, 6), (.completed, 6)]) := by decide +kernel

/-- `flat_map` of `interval(1, 2)` and `interval(2, 3)`. -/
abbrev hostedMerge := ((ofSeqAt 0 [(1, 2), (2, 3)]).merged (intervals id) 0).operate (Operator.id (α := Nat)).protected.slowProc
abbrev hostedMergeHost := ((OneShot.host (α := Int × Int)).merged (ω := Int × Int) (α := Nat) Interval.host).operate (Operator.id (α := Nat)).protected.slowProc demoSafe
example : shown hostedMerge hostedMergeHost (fun _ => 1) ([some .subscribe] ++ List.replicate 136 none) =
    some (3, some [(.next 0, 1), (.next 0, 2), (.next 1, 3)]) := by decide +kernel

/-- Jobs that take 3, 1 and 2, in two slots. -/
abbrev hostedSlots := ((ofSeqAt 0 [3, 1, (2 : Nat)]).merged (jobs id fun x => .ok (10 * x)) 2).operate (Operator.id (α := Nat)).protected.slowProc
abbrev hostedSlotsHost := ((OneShot.host (α := Nat)).merged (ω := Nat) (α := Nat) (Job.host (α := Nat))).operate (Operator.id (α := Nat)).protected.slowProc demoSafe
example : shown hostedSlots hostedSlotsHost (fun _ => 0) ([some .subscribe, some (.loop (.callAt 9))] ++ List.replicate 125 none) =
    some (9, some [(.next 10, 1), (.next 30, 3), (.next 20, 3), (.completed, 3)]) := by decide +kernel

end Examples
end Aio.Nested
