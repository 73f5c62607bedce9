import Verif.Lemmas.HostedSwitch
import Verif.Props.C131_HostedNested
/-!
# C132: `switch_latest` on the `VirtualTimeEventLoop`

The theorems of C114 assume that time passes only when the worker of `switch_latest` has nothing to do, that an inner observable makes no calls when it has been disposed, and that
it is disposed only when it is replaced. On the `VirtualTimeEventLoop` this is so, whatever else runs on it: the worker disposes the inner observable, whose task is cancelled in its sleep.
-/

namespace Aio.Nested
open Spec Spec.Timed
open VirtualTime (Heap)
variable {SO LO TO SI LI TI ω α β : Type}
variable {h : Heap} {o : Clocked SO LO ω} {fam : ω → Nat → Clocked SI LI α} {disp : LI} {gone : SI → Prop} {honour : Bool} {H : Host SO LO TO} {I : Host SI LI TI}

/-- The values the source sent are the inner observables offered to `switch_latest`. -/
theorem offered_values : ∀ h : List (Merge.Label ω α × Nat), (valuesAt (outersAt h)).map (·.1) = Switch.offered (h.map (·.1))
  | [] => rfl
  | (.outer (.next v), _) :: h => congrArg (v :: ·) (offered_values h)
  | (.outer (.error _), _) :: h => offered_values h
  | (.outer .completed, _) :: h => offered_values h
  | (.inner _ _, _) :: h => offered_values h
  | (.cancel, _) :: h => offered_values h
  | (.receive, _) :: h => offered_values h
  | (.subscribed, _) :: h => offered_values h
  | (.subscribeFails, _) :: h => offered_values h
  | (.disposed, _) :: h => offered_values h
  | (.disposeFails, _) :: h => offered_values h

/-- The worker disposes an inner observable only when the source has sent another one. -/
theorem replaced_later (hpr : Proper o fam) {ls s} (hr : LTS.run (o.switched fam honour).step (o.switched fam honour).init ls = some s) (hc : Time.act (.own .cancel) ∉ ls)
    {k : Nat} (hk : Switch.replaced s.prod = some k) : k + 1 < (valuesAt (o.calls s.outer)).length := by
  obtain ⟨hh, hp⟩ := past hpr.source hpr.inner (switch_starts honour) hr
  have hsolo := Producer.soloAt_run hp.run
  have hnc := hp.noCancel (ls := ls) (fun _ h => h) hc
  have htidy := Switch.tidy_run hsolo hnc
  have hinv := Switch.inv_run hsolo
  have hpos := Switch.pos_run hsolo
  simp only [Switch.replaced] at hk
  split at hk
  next old xs hpc =>
    have h1 : 1 ≤ old := hpos.replacing _ _ hpc
    have h2 : old = s.prod.started.length := (hinv.old _ _ hpc).1
    have h3 := (Switch.order_run hsolo).eq (by simp [hpc])
    have h4 : (valuesAt (o.calls s.outer)).map (·.1) = Switch.offered (hh.map (·.1)) := by
      rw [← hp.outer]
      exact offered_values hh
    have h5 := congrArg List.length h3
    rw [← h4] at h5
    simp only [hpc, Switch.pend, List.length_append, List.length_map, List.length_singleton] at h5
    have hk : old - 1 = k := Option.some.inj hk
    omega
  next old hpc => exact absurd hpc (htidy.nodisp' old)
  next => cases hk

/-- Completion is the last thing posted, unless the subscription is disposed. -/
theorem switched_last (hpr : Proper o fam) {ls s} (hr : LTS.run (o.switched fam honour).step (o.switched fam honour).init ls = some s) (hc : Time.act (.own .cancel) ∉ ls) :
    s.posts = noDone s.posts ∨ ∃ c, s.posts = noDone s.posts ++ [(.completed, c)] := by
  obtain ⟨hh, hp⟩ := past hpr.source hpr.inner (switch_starts honour) hr
  have key : ∀ {cs : List (Notif α × Nat)}, .completed ∉ cs.map (·.1) → noDone cs = cs := fun {cs} hc => by
    rw [noDone, List.filter_eq_self]
    rintro ⟨n, t⟩ hmem
    cases n with
    | completed => exact absurd (List.mem_map.mpr ⟨_, hmem, rfl⟩) hc
    | _ => rfl
  rcases (Switch.quiet_run (Producer.soloAt_run hp.run) (hp.lawful hpr) (hp.noCancel (ls := ls) (fun _ h => h) hc)).shape with h1 | h1
  · exact .inl (key (by rw [h1]; exact Merge.arrivals_noDone _)).symm
  · obtain ⟨a, b, h2, h3, h4⟩ := List.map_eq_append_iff.mp h1
    obtain ⟨⟨n, c⟩, rfl, h5⟩ := List.map_eq_singleton_iff.mp h4
    dsimp only at h5 h2
    subst h5
    refine .inr ⟨c, ?_⟩
    rw [h2, noDone_append, key (by rw [h3]; exact Merge.arrivals_noDone _)]
    simp [noDone]

section
variable [DecidableEq TO] [DecidableEq TI]

/-- C132: what `switch_latest` and an operator behind it do on the virtual loop, when no callback is due, is what they do alone on a loop that is not overloaded; at every time the
observer had got what the operator makes of what had been sent; an inner observable was disposed only when the source had sent another one. -/
theorem C132_schedule (K : h.Laws) (hH : H.Lawful o) (hI : Host.Family I fam) (hD : Host.Disposable I fam disp honour gone) (hdt : ∀ s n, disp ∉ I.turn s n) (hpr : Proper o fam)
    {op : Operator α β} [DecidableEq op.protected.compileSlow.SlowLab] {G : Story α → Story β}
    (hG : op.Computes G) (h0 : (G ⟨[], .running⟩).events = []) {workers} (hw : ∀ w, w ∈ workers) {hops ls m}
    (hr : LTS.run (Hosted.step h hops ((o.latest fam disp honour).operate op.protected.slowProc) ((H.latest I).operate op.protected.slowProc workers)) Hosted.init ls = some m)
    {s} (hm : m.sub = some s) (hrest : m.vt.ready = []) :
    (o.now s.1.outer : Int) = m.vt.time ∧ InTime s.2.sent ∧ (∀ t, upto t s.2.sent = (G (story (upto t s.1.posts))).events) ∧
    ∃ ks, LTS.run (o.switched fam honour).step (o.switched fam honour).init ks = some s.1 ∧ (o.switched fam honour).Prompt (fun s => Switch.Settled s.prod) ks ∧
      NoFailure ks ∧ Time.act (.own .cancel) ∉ ks ∧ Switch.Settled s.1.prod ∧ (∀ k l, Time.act (.inner k l) ∈ ks → l = disp ∨ ∃ s n, l ∈ I.turn s n) ∧
      ∀ a k b x, ks = a ++ .act (.inner k disp) :: b → LTS.run (o.switched fam honour).step (o.switched fam honour).init a = some x → k + 1 < (valuesAt (o.calls x.outer)).length := by
  have hM : (H.latest I).Lawful (o.latest fam disp honour) := Host.latest_lawful hH hI hD
  have hl := Host.operate_lawful (p := op.protected.slowProc) hM hw
  obtain ⟨hn, ks, h1, h2, h3⟩ := Hosted.C117_schedule K hl hr hm
  obtain ⟨g1, -, g3⟩ := C117_operator K hM hw hG.guarded.slow h0 (fun _ _ _ => trivial) hr hm
  have settled : ∀ {s : Nested SO (Switch.State ω) SI ω α × _}, (∀ t, ((H.latest I).operate op.protected.slowProc workers).need s t ≠ .soon) → Switch.Settled s.1.prod := by
    intro s h3
    exact Host.latest_settled (H := H) (I := I) (h3 (.inl (.inr (.inr ()))))
  have own : ∀ l, Time.act l ∈ Clocked.sources ks → (H.latest I).Own l := by
    intro l hl
    have : Time.act (Sum.inl l) ∈ ks := by
      obtain ⟨x, hx, he⟩ := List.mem_filterMap.mp hl
      match x with
      | .pass d => cases he
      | .act (.inl l') => cases he; exact hx
      | .act (.inr _) => cases he
    rcases h3 _ this with h | ⟨s1, t, h⟩
    · exact .inl h
    · right
      cases t with
      | inl t => simp only [Host.operate, List.mem_map] at h; obtain ⟨x, hx, he⟩ := h; cases he; exact ⟨s1.1, t, hx⟩
      | inr n => simp only [Host.operate] at h; split at h <;> simp at h
  obtain ⟨-, o2, o3⟩ := Host.latest_own own
  have hq : (o.latest fam disp honour).Prompt (fun s => Switch.Settled s.prod) (Clocked.sources ks) :=
    Clocked.Prompt.source hM.clock (busy := fun _ => True) h1 fun a d b s he ha => ⟨settled (h2 a d b s he ha), trivial⟩
  obtain ⟨ks', hsim⟩ := Host.latest_run (Clocked.operate_source hM.clock h1).1
  have own' : ∀ l, Time.act (.own l) ∈ ks' → l = .receive ∨ l = .subscribed ∨ l = .disposed := by
    intro l hl
    rcases hsim.labels _ hl with h | ⟨k, h⟩
    · exact o3 l h
    · cases h
  have hnc : Time.act (.own .cancel) ∉ ks' := by intro h; have := own' _ h; simp at this
  refine ⟨hn, g1, g3 hrest, ks', hsim.run, ?_, ⟨?_, ?_⟩, hnc, settled (Hosted.C117_rest K hl hr hm hrest).1, ?_, ?_⟩
  · intro a d b x he ha
    obtain ⟨a', b', e1, e2⟩ := hsim.passes a d b x he ha
    exact hq a' d b' x e1 e2
  · intro h; have := own' _ h; simp at this
  · intro h; have := own' _ h; simp at this
  · intro k l hl
    rcases hsim.labels _ hl with h | ⟨j, h⟩
    · exact .inr (o2 k l h)
    · cases h; exact .inl rfl
  · intro a k b x he ha
    rcases hsim.disps a k b x he ha with h | h
    · exact replaced_later hpr ha (fun h => hnc (by rw [he]; simp [h])) h
    · obtain ⟨s, n, h⟩ := o2 k disp h
      exact absurd h (hdt s n)

/-- C132: on the virtual loop, an inner observable is subscribed exactly when the source sends it. -/
theorem C132_subscribed (K : h.Laws) (hH : H.Lawful o) (hI : Host.Family I fam) (hD : Host.Disposable I fam disp honour gone) (hdt : ∀ s n, disp ∉ I.turn s n) (hpr : Proper o fam)
    {op : Operator α β} [DecidableEq op.protected.compileSlow.SlowLab] {G : Story α → Story β}
    (hG : op.Computes G) (h0 : (G ⟨[], .running⟩).events = []) {workers} (hw : ∀ w, w ∈ workers) {hops ls m}
    (hr : LTS.run (Hosted.step h hops ((o.latest fam disp honour).operate op.protected.slowProc) ((H.latest I).operate op.protected.slowProc workers)) Hosted.init ls = some m)
    {s} (hm : m.sub = some s) (hrest : m.vt.ready = []) : subs s.1 = valuesAt (o.calls s.1.outer) := by
  obtain ⟨-, -, -, ks, h1, h2, h3, -, h4, -⟩ := C132_schedule K hH hI hD hdt hpr hG h0 hw hr hm hrest
  exact C114_subscribed hpr h1 h2 h3 h4

/-- C132: the final observer gets what the inner observables send, at the same times, if none of the observables fails; also if they go on after they have been disposed. -/
theorem C132_told [DecidableEq (Operator.id (α := α)).protected.compileSlow.SlowLab] (K : h.Laws) (hH : H.Lawful o) (hI : Host.Family I fam)
    (hD : Host.Disposable I fam disp honour gone) (hdt : ∀ s n, disp ∉ I.turn s n) (hpr : Proper o fam) {workers} (hw : ∀ w, w ∈ workers) {hops ls m}
    (hr : LTS.run (Hosted.step h hops ((o.latest fam disp honour).operate (Operator.id (α := α)).protected.slowProc) ((H.latest I).operate (Operator.id (α := α)).protected.slowProc workers))
      Hosted.init ls = some m)
    {s} (hm : m.sub = some s) (hrest : m.vt.ready = []) (he : ∀ e t, (.error e, t) ∉ o.calls s.1.outer)
    (hne : ∀ i ∈ s.1.inners, ∀ e t, (.error e, t) ∉ (fam i.1 i.2.1).calls i.2.2) :
    s.2.sent = s.1.posts ∧ InTime s.2.sent ∧ (noDone s.2.sent).Perm (s.1.inners.flatMap fun i => noDone ((fam i.1 i.2.1).calls i.2.2)) := by
  obtain ⟨-, h5, h6, ks, h1, h2, h3, h4, h9, -⟩ := C132_schedule K hH hI hD hdt hpr id_computes rfl hw hr hm hrest
  obtain ⟨h7, hperm, -⟩ := arrive hpr (switch_starts honour) (switch_forwards honour) h1
  have hnil : errors (α := α) (o.calls s.1.outer) = [] := by
    rw [errors, List.filterMap_eq_nil_iff]
    rintro ⟨n, t⟩ hc
    cases n with
    | error e => exact absurd hc (he e t)
    | _ => rfl
  rw [hnil, List.nil_append] at hperm
  have h8 : Grammar (s.1.posts.map (·.1)) := by
    refine grammar_of_last (fun c hc e hce => ?_) (switched_last hpr h1 h4)
    obtain ⟨n, t⟩ := c
    dsimp only at hce
    subst hce
    have hm : (Notif.error e, t) ∈ noDone s.1.posts := List.mem_filter.mpr ⟨hc, rfl⟩
    obtain ⟨i, hi, h9⟩ := List.mem_flatMap.mp (hperm.mem_iff.mp hm)
    exact hne i hi e t (List.mem_filter.mp h9).1
  have hsent : s.2.sent = s.1.posts := by
    refine Spec.Timed.ext h5 h7 fun t => ?_
    rw [h6]
    exact cut_of_grammar (grammar_prefix (upto_prefix h7) h8)
  exact ⟨hsent, h5, by rw [hsent]; exact hperm⟩

/-- C132: one observable after the other, if they send nothing when they have been disposed; an inner observable sends nothing after the source has sent the next one, except that
it may complete. -/
theorem C132_observed [DecidableEq (Operator.id (α := α)).protected.compileSlow.SlowLab] (K : h.Laws) (hH : H.Lawful o) (hI : Host.Family I fam)
    (hD : Host.Disposable I fam disp true gone) (hdt : ∀ s n, disp ∉ I.turn s n) (hpr : Proper o fam) {workers} (hw : ∀ w, w ∈ workers) {hops ls m}
    (hr : LTS.run (Hosted.step h hops ((o.latest fam disp true).operate (Operator.id (α := α)).protected.slowProc) ((H.latest I).operate (Operator.id (α := α)).protected.slowProc workers))
      Hosted.init ls = some m)
    {s} (hm : m.sub = some s) (hrest : m.vt.ready = []) (he : ∀ e t, (.error e, t) ∉ o.calls s.1.outer)
    (hne : ∀ i ∈ s.1.inners, ∀ e t, (.error e, t) ∉ (fam i.1 i.2.1).calls i.2.2) :
    (noDone s.2.sent = s.1.inners.flatMap fun i => noDone ((fam i.1 i.2.1).calls i.2.2)) ∧
    ∀ (k : Nat) xs u si ys v, s.1.inners[k]? = some (xs, u, si) → (valuesAt (o.calls s.1.outer))[k + 1]? = some (ys, v) → ∀ c ∈ (fam xs u).calls si, u ≤ c.2 ∧ (c.1.kind ≠ .onCompleted → c.2 ≤ v) := by
  obtain ⟨hsent, -, -⟩ := C132_told K hH hI hD hdt hpr hw hr hm hrest he hne
  obtain ⟨-, -, -, ks, h1, h2, h3, -, h9, -⟩ := C132_schedule K hH hI hD hdt hpr id_computes rfl hw hr hm hrest
  obtain ⟨horder, hwin⟩ := C114_in_order hpr h1 he
  have hsub := C114_subscribed hpr h1 h2 h3 h9
  refine ⟨by rw [hsent]; exact horder, fun k xs u si ys v hk hv => ?_⟩
  rw [← hsub, subs, List.getElem?_map] at hv
  obtain ⟨⟨ys', v', sj⟩, hj, he⟩ := Option.map_eq_some_iff.mp hv
  cases he
  exact hwin k xs u si _ _ sj hk hj

/-- C132, `flat_map_latest(lambda x: interval(*f(x)))` on the virtual loop: for each value the observer gets the first `n` values of its interval, one value's after the other's, each
exactly when it is due; none that is due after the next value was sent, and all that were due before that and before the present time. -/
theorem C132_intervals [DecidableEq (Operator.id (α := Nat)).protected.compileSlow.SlowLab] (K : h.Laws) (f : ω → Int × Int) (hH : H.Lawful o)
    (hg : ∀ ls s, LTS.run o.step o.init ls = some s → Grammar ((o.calls s).map (·.1))) {workers} (hw : ∀ w, w ∈ workers) {hops ls m}
    (hr : LTS.run (Hosted.step h hops ((o.latest (intervals f) .dispose true).operate (Operator.id (α := Nat)).protected.slowProc)
      ((H.latest Interval.cancellable).operate (Operator.id (α := Nat)).protected.slowProc workers)) Hosted.init ls = some m)
    {s} (hm : m.sub = some s) (hrest : m.vt.ready = []) (he : ∀ e t, (.error e, t) ∉ o.calls s.1.outer)
    (hne : ∀ x ∈ valuesAt (o.calls s.1.outer), (f x.1).2 ≠ 0) :
    ∃ ns : List Nat, ns.length = (valuesAt (o.calls s.1.outer)).length ∧
      (noDone s.2.sent = ((valuesAt (o.calls s.1.outer)).zip ns).flatMap fun i =>
        (List.range i.2).map fun k => (.next k, Interval.due i.1.2 (f i.1.1).1 (f i.1.1).2 k)) ∧
      ∀ (i : Nat) x u n, ((valuesAt (o.calls s.1.outer)).zip ns)[i]? = some ((x, u), n) → ∀ k,
        (k < n → (Interval.due u (f x).1 (f x).2 k : Int) ≤ m.vt.time ∧ ∀ y v, (valuesAt (o.calls s.1.outer))[i + 1]? = some (y, v) → Interval.due u (f x).1 (f x).2 k ≤ v) ∧
        ((Interval.due u (f x).1 (f x).2 k : Int) < m.vt.time →
          (∀ y v, (valuesAt (o.calls s.1.outer))[i + 1]? = some (y, v) → Interval.due u (f x).1 (f x).2 k < v) → k < n) := by
  have hI := cancellable_family f
  have hD := cancellable_disposable f
  have hdt : ∀ s n, Interval.Label.dispose ∉ Interval.cancellable.turn s n := by
    intro s n h
    have := Interval.cancellable_turn h
    simp at this
  have hpr := intervals_proper f hH.clock hg
  obtain ⟨hn, -, -, ks, h1, h2, h3, h4, h5, h6, h7⟩ := C132_schedule K hH hI hD hdt hpr id_computes rfl hw hr hm hrest
  have hsub := C114_subscribed hpr h1 h2 h3 h5
  obtain ⟨hh, hpast⟩ := past hpr.source hpr.inner (switch_starts true) h1
  have hcalls : ∀ i ∈ s.1.inners, ∀ c ∈ (intervals f i.1 i.2.1).calls i.2.2, ∃ k, c.1 = .next k := by
    rintro ⟨x, u, si⟩ hi c hc
    obtain ⟨k, hk⟩ := List.getElem?_of_mem hi
    obtain ⟨⟨li, hli, -⟩, -⟩ := hpast.sources k _ _ _ hk
    obtain ⟨n, hn, -⟩ := Interval.clocked_exact (hne (x, u) (by rw [← hsub]; exact List.mem_map.mpr ⟨_, hi, rfl⟩)) hli
    have hc : c ∈ (Interval.clocked true u (f x).1 (f x).2).calls si := hc
    rw [hn] at hc
    obtain ⟨j, -, rfl⟩ := List.mem_map.mp hc
    exact ⟨j, rfl⟩
  obtain ⟨hsent, -, -⟩ := C132_told K hH hI hD hdt hpr hw hr hm hrest he (fun i hi e t hm => by
    obtain ⟨k, hk⟩ := hcalls i hi _ hm
    cases hk)
  obtain ⟨ns, n1, n2, n3, n4⟩ := C114_intervals_exact f hH.clock hg h1 h2 h3 he h5 hne
  have hl : (o.switched (intervals f) true).Lawful := nested_lawful hpr.source hpr.inner (switch_starts true) _
  have hpast : ∀ c ∈ s.1.posts, c.2 ≤ o.now s.1.outer := (hl.inTime h1).2
  rw [← hsent] at n2 hpast
  refine ⟨ns, n1, n2, fun i x u n hi k => ⟨fun hk => ⟨?_, fun y v hv => n3 i x u n hi k hk y v hv⟩, fun hlt hv => n4 (fun a k b x ha hx => h7 a k b x ha hx) (fun k e hk => ?_) i x u n hi k ?_ hv⟩⟩
  · have : (Notif.next k, Interval.due u (f x).1 (f x).2 k) ∈ noDone s.2.sent := by
      rw [n2]
      exact List.mem_flatMap.mpr ⟨_, List.mem_of_getElem? hi, List.mem_map.mpr ⟨k, List.mem_range.mpr hk, rfl⟩⟩
    have := hpast _ (List.mem_filter.mp this).1
    dsimp only at this
    omega
  · rcases h6 k _ hk with h | ⟨s, n, h⟩
    · cases h
    · have := Interval.cancellable_turn h
      simp at this
  · omega

end

/-! ## Examples -/

section Examples

/-- `interval(0, 4)` in front of `flat_map_latest(lambda _: interval(1, 2))`. -/
abbrev hostedLatest := ((Interval.clocked true 0 0 4).latest (intervals fun _ => (1, 2)) .dispose true).operate (Operator.id (α := Nat)).protected.slowProc
abbrev hostedLatestHost := (Interval.host.latest (ω := Nat) (α := Nat) Interval.cancellable).operate (Operator.id (α := Nat)).protected.slowProc demoSafe

example (hops ls m) (hr : LTS.run (Hosted.step VirtualTime.heapq hops hostedLatest hostedLatestHost) Hosted.init ls = some m) {s} (hm : m.sub = some s) (hrest : m.vt.ready = [])
    (has : (Interval.clocked true 0 0 4).calls s.1.outer = [(.next 0, 0), (.next 1, 4)]) (hnow : m.vt.time = 6) :
    noDone s.2.sent = [(.next 0, 1), (.next 1, 3), (.next 0, 5)] := by
  obtain ⟨ns, h1, h2, h3⟩ := C132_intervals VirtualTime.heapqLaws (fun _ => (1, 2)) Interval.host_lawful (fun _ _ => Interval.clocked_grammar) demoSafe_all hr hm hrest
    (by rw [has]; simp) (fun _ _ => by decide)
  rw [has] at h1 h2 h3
  match ns, h1 with
  | [a, b], _ =>
    have a1 := (h3 0 0 0 a rfl 1).2 (by rw [hnow]; decide) (fun y v hv => by cases hv; decide)
    have a2 : ¬ 2 < a := fun h => absurd (((h3 0 0 0 a rfl 2).1 h).2 1 4 rfl) (by decide)
    have b1 := (h3 1 1 4 b rfl 0).2 (by rw [hnow]; decide) (fun y v hv => by cases hv)
    have b2 : ¬ 1 < b := fun h => by have := ((h3 1 1 4 b rfl 1).1 h).1; rw [hnow] at this; exact absurd this (by decide)
    obtain rfl : a = 2 := by omega
    obtain rfl : b = 1 := by omega
    exact h2

example : shown hostedLatest hostedLatestHost (fun _ => 0) ([some .subscribe] ++ List.replicate 110 none) =
    some (7, some [(.next 0, 1), (.next 1, 3), (.next 0, 5), (.next 1, 7)]) := by decide +kernel
example : shown hostedLatest hostedLatestHost (fun _ => 2) ([some .subscribe] ++ List.replicate 125 none) = some (3, some [(.next 0, 1), (.next 1, 3)]) := by decide +kernel

end Examples
end Aio.Nested
