import Verif.Lemmas.Query
import Verif.Spec.Query
/-!
# C133: `flat_map_latest(lambda x: of_async(work(x)))` on the `VirtualTimeEventLoop`

The worker of `switch_latest` disposes the subscription to `of_async`, which cancels the task in its sleep. That task still closes its observer, and a result that is already in the mailbox
of the safe observer is still forwarded; so `of_async` does not send nothing after its disposal (C22), but no result comes that was due later.
-/

namespace Aio.Nested
open Spec Spec.Timed
open VirtualTime (Heap)
variable {SO LO TO ω α : Type}
variable {h : Heap} {o : Clocked SO LO ω} {H : Host SO LO TO}

/-- What is in front of an operator on the virtual loop does what it does alone. -/
theorem hosted_source {SM LM TM β : Type} {M : Clocked SM LM α} {HM : Host SM LM TM} (K : h.Laws) [DecidableEq TM] {op : Operator α β} [DecidableEq op.protected.compileSlow.SlowLab]
    (hM : HM.Lawful M) {workers} (hw : ∀ w, w ∈ workers) {hops ls m}
    (hr : LTS.run (Hosted.step h hops (M.operate op.protected.slowProc) (HM.operate op.protected.slowProc workers)) Hosted.init ls = some m) {s} (hm : m.sub = some s) :
    ∃ ks, LTS.run M.step M.init ks = some s.1 ∧ ∀ l, Time.act l ∈ ks → HM.Own l := by
  obtain ⟨-, ks, h1, -, h3⟩ := Hosted.C117_schedule K (Host.operate_lawful (p := op.protected.slowProc) hM hw) hr hm
  refine ⟨Clocked.sources ks, (Clocked.operate_source hM.clock h1).1, fun l hl => ?_⟩
  have : Time.act (Sum.inl l) ∈ ks := by
    obtain ⟨x, hx, he⟩ := List.mem_filterMap.mp hl
    match x with
    | .pass d => cases he
    | .act (.inl l') => cases he; exact hx
    | .act (.inr _) => cases he
  rcases h3 _ this with h | ⟨s1, t, h⟩
  · exact .inl h
  · right
    cases t with
    | inl t => simp only [Host.operate, List.mem_map] at h; obtain ⟨x, hx, he⟩ := h; cases he; exact ⟨s1.1, t, hx⟩
    | inr n => simp only [Host.operate] at h; split at h <;> simp at h

section
variable [DecidableEq TO]

/-- C133: the task of a workflow is cancelled exactly when the next value is sent, and by the time that no callback is due it has ended; it is not cancelled if there is no next value.
Also if workflows raise, and with an operator behind. -/
theorem C133_cancelled {β : Type} (K : h.Laws) (dur : ω → Nat) (res : ω → Except Err α) (hH : H.Lawful o)
    (hg : ∀ ls s, LTS.run o.step o.init ls = some s → Grammar ((o.calls s).map (·.1)))
    {op : Operator α β} [DecidableEq op.protected.compileSlow.SlowLab] {G : Story α → Story β} (hG : op.Computes G) (h0 : (G ⟨[], .running⟩).events = []) {workers} (hw : ∀ w, w ∈ workers) {hops ls m}
    (hr : LTS.run (Hosted.step h hops ((o.latest (queries dur res) .dispose false).operate op.protected.slowProc) ((H.latest Query.host).operate op.protected.slowProc workers)) Hosted.init ls = some m)
    {s} (hm : m.sub = some s) (hrest : m.vt.ready = []) :
    s.1.inners.map (fun i => (i.1, i.2.1)) = valuesAt (o.calls s.1.outer) ∧
    ∀ (i : Nat) x u q, s.1.inners[i]? = some (x, u, q) → q.since = ((valuesAt (o.calls s.1.outer))[i + 1]?).map (·.2) ∧ (q.since ≠ none → q.job.sub.src.pc = .finished) := by
  have hI : Host.Family Query.host (queries dur res) := queries_family
  have hD : Host.Disposable Query.host (queries dur res) .dispose false (fun s => s.since ≠ none) := queries_disposable
  have hdt : ∀ (s : Query.State α) n, Query.Label.dispose ∉ Query.host.turn s n := by
    intro s n h
    rcases Query.host_turn h with ⟨l, h⟩ | h <;> cases h
  have hpr : Proper o (queries dur res) := queries_proper hH.clock hg
  have hsub := C132_subscribed K hH hI hD hdt hpr hG h0 hw hr hm hrest
  have hM := Host.latest_lawful hH hI hD
  obtain ⟨ks, k1, k2⟩ := hosted_source K hM hw hr hm
  have hwhen := Host.latest_since hH hI hpr hD queries_since k1 k2
  have K' := Host.latest_kept hH hI hD ⟨ks, k1, k2⟩
  refine ⟨hsub, fun i x u q hi => ⟨?_, fun hne => ?_⟩⟩
  · obtain ⟨w1, w2⟩ := hwhen i x u q hi
    cases hv : (valuesAt (o.calls s.1.outer))[i + 1]? with
    | none =>
      cases hs : q.since with
      | none => rfl
      | some c =>
        obtain ⟨-, y, v, h1, -⟩ := w1 c hs
        rw [hv] at h1; cases h1
    | some yv =>
      obtain ⟨y, v⟩ := yv
      have hj := hv
      rw [← hsub, subs, List.getElem?_map] at hj
      obtain ⟨⟨y', v', sj⟩, h7, h8⟩ := Option.map_eq_some_iff.mp hj
      obtain ⟨rfl, rfl⟩ := Prod.mk.inj h8
      obtain ⟨c, hc, hcv⟩ := w2 y' v' sj h7
      obtain ⟨-, y2, v2, h1, h2⟩ := w1 c hc
      rw [hv] at h1
      cases h1
      rw [hc]
      exact congrArg some (by dsimp only at h2 ⊢; omega)
  · have hn := (Hosted.C117_rest K (Host.operate_lawful (p := op.protected.slowProc) hM hw) hr hm hrest).1 (.inl (.inr (.inl (i, true))))
    simp only [Host.operate, Host.latest, hi, Query.host] at hn
    obtain ⟨⟨li, hli, -⟩, -⟩ := K'.inner i x u q hi
    have hinv := Query.inv_run hli
    apply Classical.byContradiction
    intro hf
    obtain ⟨he, -⟩ := hinv.early hf
    obtain ⟨c, hc⟩ := Option.ne_none_iff_exists'.mp hne
    have hcan : q.job.sub.src.cancelled = true := by rw [he, hc]; rfl
    cases hpc : q.job.sub.src.pc with
    | fresh => simp [Job.host, hpc] at hn
    | awaiting => simp [hpc, hcan] at hn
    | finished => exact hf hpc

/-- C133, `flat_map_latest(lambda x: of_async(work(x)))` on the virtual loop, where `work(x)` takes `dur x` and returns `g x`: the observer gets the result of a value exactly when it is
due, or not at all (`got`). It does not get one that is due after the next value was sent; it gets each one that was due before the next value and before the present time. -/
theorem C133_results [DecidableEq (Operator.id (α := α)).protected.compileSlow.SlowLab] (K : h.Laws) (dur : ω → Nat) (g : ω → α) (hH : H.Lawful o)
    (hg : ∀ ls s, LTS.run o.step o.init ls = some s → Grammar ((o.calls s).map (·.1))) {workers} (hw : ∀ w, w ∈ workers) {hops ls m}
    (hr : LTS.run (Hosted.step h hops ((o.latest (queries dur fun x => .ok (g x)) .dispose false).operate (Operator.id (α := α)).protected.slowProc)
      ((H.latest Query.host).operate (Operator.id (α := α)).protected.slowProc workers)) Hosted.init ls = some m)
    {s} (hm : m.sub = some s) (hrest : m.vt.ready = []) (he : ∀ e t, (.error e, t) ∉ o.calls s.1.outer) :
    ∃ got : List Bool, got.length = (valuesAt (o.calls s.1.outer)).length ∧ InTime s.2.sent ∧
      (noDone s.2.sent).Perm (((valuesAt (o.calls s.1.outer)).zip got).flatMap fun i => if i.2 then [(.next (g i.1.1), i.1.2 + dur i.1.1)] else []) ∧
      ∀ (i : Nat) x u b, ((valuesAt (o.calls s.1.outer)).zip got)[i]? = some ((x, u), b) →
        (b = true → ((u + dur x : Nat) : Int) ≤ m.vt.time ∧ ∀ y v, (valuesAt (o.calls s.1.outer))[i + 1]? = some (y, v) → u + dur x ≤ v) ∧
        (((u + dur x : Nat) : Int) < m.vt.time → (∀ y v, (valuesAt (o.calls s.1.outer))[i + 1]? = some (y, v) → u + dur x < v) → b = true) := by
  have hI : Host.Family Query.host (queries dur fun x => .ok (g x)) := queries_family
  have hD : Host.Disposable Query.host (queries dur fun x => .ok (g x)) .dispose false (fun s => s.since ≠ none) := queries_disposable
  have hdt : ∀ (s : Query.State α) n, Query.Label.dispose ∉ Query.host.turn s n := by
    intro s n h
    rcases Query.host_turn h with ⟨l, h⟩ | h <;> cases h
  have hpr : Proper o (queries dur fun x => .ok (g x)) := queries_proper hH.clock hg
  have hsub := C132_subscribed K hH hI hD hdt hpr id_computes rfl hw hr hm hrest
  obtain ⟨hn, -⟩ := C132_schedule K hH hI hD hdt hpr id_computes rfl hw hr hm hrest
  have hM := Host.latest_lawful hH hI hD
  obtain ⟨ks, k1, k2⟩ := hosted_source K hM hw hr hm
  have hwhen := Host.latest_since hH hI hpr hD queries_since k1 k2
  have K' := Host.latest_kept hH hI hD ⟨ks, k1, k2⟩
  have hexact : ∀ (k : Nat) x u si, s.1.inners[k]? = some (x, u, si) →
      (noDone ((queries dur (fun x => .ok (g x)) x u).calls si) = [] ∨ noDone ((queries dur (fun x => .ok (g x)) x u).calls si) = [(.next (g x), u + dur x)] ∧
        u + dur x ≤ o.now s.1.outer ∧ ∀ c, si.since = some c → u + dur x ≤ c) ∧
      (u + dur x < o.now s.1.outer → (∀ c, si.since = some c → u + dur x < c) → noDone ((queries dur (fun x => .ok (g x)) x u).calls si) = [(.next (g x), u + dur x)]) := by
    intro k x u si hk
    obtain ⟨⟨li, hli, -⟩, hnow⟩ := K'.inner k x u si hk
    have hnow : si.job.now = o.now s.1.outer := hnow
    have := Query.exact_ hli
    rw [hnow] at this
    exact this
  obtain ⟨-, hin, hperm⟩ := C132_told K hH hI hD hdt hpr hw hr hm hrest he (fun i hi e t hm => by
    obtain ⟨k, hk⟩ := List.getElem?_of_mem hi
    have hm' : (Notif.error e, t) ∈ noDone ((queries dur (fun x => .ok (g x)) i.1 i.2.1).calls i.2.2) := List.mem_filter.mpr ⟨hm, rfl⟩
    rcases (hexact k _ _ _ hk).1 with h | ⟨h, -⟩
    · rw [h] at hm'; cases hm'
    · rw [h] at hm'; simp at hm')
  let got : ω × Nat × Query.State α → Bool := fun i => !(noDone ((queries dur (fun x => .ok (g x)) i.1 i.2.1).calls i.2.2)).isEmpty
  have hz : (valuesAt (o.calls s.1.outer)).zip (s.1.inners.map got) = s.1.inners.map fun i => ((i.1, i.2.1), got i) := by
    rw [← hsub, subs, List.zip_map']
  refine ⟨s.1.inners.map got, by rw [← hsub]; simp [subs], hin, ?_, fun i x u b hi => ?_⟩
  · rw [hz, List.flatMap_map]
    refine hperm.trans (List.Perm.of_eq ?_)
    rw [List.flatMap_def, List.flatMap_def]
    refine congrArg List.flatten (List.map_congr_left fun i hi => ?_)
    obtain ⟨k, hk⟩ := List.getElem?_of_mem hi
    rcases (hexact k _ _ _ hk).1 with h | ⟨h, -⟩
    · simp only [got, h]; rfl
    · simp only [got, h]; rfl
  · rw [hz, List.getElem?_map] at hi
    obtain ⟨⟨x', u', si⟩, h1, h2⟩ := Option.map_eq_some_iff.mp hi
    obtain ⟨h3, h4⟩ := Prod.mk.inj h2
    obtain ⟨rfl, rfl⟩ := Prod.mk.inj h3
    have h4 : got (x', u', si) = b := h4
    dsimp only
    obtain ⟨w1, w2⟩ := hwhen i x' u' si h1
    obtain ⟨e1, e2⟩ := hexact i x' u' si h1
    refine ⟨fun hb => ?_, fun hlt hv => ?_⟩
    · rcases e1 with h | ⟨-, h5, h6⟩
      · simp only [got, h] at h4; rw [← h4] at hb; cases hb
      · refine ⟨by omega, fun y v hy => ?_⟩
        rw [← hsub, subs, List.getElem?_map] at hy
        obtain ⟨⟨y', v', sj⟩, h7, h8⟩ := Option.map_eq_some_iff.mp hy
        obtain ⟨rfl, rfl⟩ := Prod.mk.inj h8
        obtain ⟨c, hc, hcv⟩ := w2 y' v' sj h7
        have := h6 c hc
        dsimp only
        omega
    · rw [← h4]
      have := e2 (by omega) (fun c hc => by
        obtain ⟨-, y, v, h5, h6⟩ := w1 c hc
        have := hv y v h5
        omega)
      simp only [got, this]; rfl

/-- Without ties it is determined which results come. -/
theorem answers_got {dur : ω → Nat} {g : ω → α} {now : Nat} : ∀ {vs : List (ω × Nat)} {got : List Bool}, got.length = vs.length → Spec.Query.Clear dur now vs →
    (∀ (i : Nat) x u b, (vs.zip got)[i]? = some ((x, u), b) → (b = true → u + dur x ≤ now ∧ ∀ y v, vs[i + 1]? = some (y, v) → u + dur x ≤ v) ∧
      (u + dur x < now → (∀ y v, vs[i + 1]? = some (y, v) → u + dur x < v) → b = true)) →
    ((vs.zip got).flatMap fun i => if i.2 then [((.next (g i.1.1), i.1.2 + dur i.1.1) : Notif α × Nat)] else []) =
      (Spec.Query.answers dur g now vs).map fun c => (.next c.1, c.2)
  | [], _, _, _, _ => rfl
  | (x, u) :: vs, b :: got, hl, ⟨hc1, hc2, hc3⟩, hb => by
    have ih := answers_got (dur := dur) (g := g) (now := now) (vs := vs) (got := got) (by simpa using hl) hc3 (fun i y v c hi => hb (i + 1) y v c hi)
    obtain ⟨g1, g2⟩ := hb 0 x u b rfl
    have hh : vs[0]? = vs.head? := by cases vs <;> rfl
    rw [List.zip_cons_cons, List.flatMap_cons, ih, Spec.Query.answers]
    cases b with
    | true =>
      obtain ⟨g3, g4⟩ := g1 rfl
      rw [if_pos (⟨by omega, fun c h => by have := hc2 c h; have := g4 c.1 c.2 (hh.trans h); omega⟩ : u + dur x < now ∧ ∀ c, vs.head? = some c → u + dur x < c.2)]
      rfl
    | false =>
      rw [if_neg (fun hn : u + dur x < now ∧ ∀ c, vs.head? = some c → u + dur x < c.2 => Bool.false_ne_true (g2 hn.1 fun y v h => hn.2 (y, v) (hh.symm.trans h)))]
      rfl

theorem answers_strict (dur : ω → Nat) (g : ω → α) (now : Nat) : ∀ {vs : List (ω × Nat)}, InTime vs →
    (∀ c ∈ Spec.Query.answers dur g now vs, ∀ d, vs.head? = some d → d.2 ≤ c.2) ∧ (Spec.Query.answers dur g now vs).Pairwise fun a b => a.2 < b.2
  | [], _ => ⟨nofun, .nil⟩
  | (x, u) :: vs, hi => by
    obtain ⟨h1, h2⟩ := List.pairwise_cons.mp hi
    obtain ⟨g1, g2⟩ := answers_strict dur g now h2
    have later : ∀ c ∈ Spec.Query.answers dur g now vs, u ≤ c.2 := by
      intro c hc
      cases vs with
      | nil => cases hc
      | cons d vs => exact Nat.le_trans (h1 d (.head _)) (g1 c hc d rfl)
    rw [Spec.Query.answers]
    split
    · next hh =>
      refine ⟨fun c hc d hd => ?_, List.pairwise_cons.mpr ⟨fun c hc => ?_, g2⟩⟩
      · cases hd
        rcases List.mem_cons.mp hc with rfl | hc
        · exact Nat.le_add_right _ _
        · exact later c hc
      · cases vs with
        | nil => cases hc
        | cons d vs => exact Nat.lt_of_lt_of_le (hh.2 d rfl) (g1 c hc d rfl)
    · exact ⟨fun c hc d hd => by cases hd; exact later c hc, g2⟩

/-- C133: so, if no result is due exactly when the next value is sent, nor exactly now, the observer gets the results that are due before the next value, in this order, each exactly when
it is due. -/
theorem C133_answers [DecidableEq (Operator.id (α := α)).protected.compileSlow.SlowLab] (K : h.Laws) (dur : ω → Nat) (g : ω → α) (hH : H.Lawful o)
    (hg : ∀ ls s, LTS.run o.step o.init ls = some s → Grammar ((o.calls s).map (·.1))) {workers} (hw : ∀ w, w ∈ workers) {hops ls m}
    (hr : LTS.run (Hosted.step h hops ((o.latest (queries dur fun x => .ok (g x)) .dispose false).operate (Operator.id (α := α)).protected.slowProc)
      ((H.latest Query.host).operate (Operator.id (α := α)).protected.slowProc workers)) Hosted.init ls = some m)
    {s} (hm : m.sub = some s) (hrest : m.vt.ready = []) (he : ∀ e t, (.error e, t) ∉ o.calls s.1.outer)
    (hc : Spec.Query.Clear dur m.vt.time.toNat (valuesAt (o.calls s.1.outer))) :
    noDone s.2.sent = (Spec.Query.answers dur g m.vt.time.toNat (valuesAt (o.calls s.1.outer))).map fun c => (.next c.1, c.2) := by
  obtain ⟨got, h1, h2, h3, h4⟩ := C133_results K dur g hH hg hw hr hm hrest he
  have hin : InTime (valuesAt (o.calls s.1.outer)) := by
    have hI : Host.Family Query.host (queries dur fun x => .ok (g x)) := queries_family
    have hD : Host.Disposable Query.host (queries dur fun x => .ok (g x)) .dispose false (fun s => s.since ≠ none) := queries_disposable
    obtain ⟨ks, k1, k2⟩ := hosted_source K (Host.latest_lawful hH hI hD) hw hr hm
    obtain ⟨lo, hlo, -⟩ := (Host.latest_kept hH hI hD ⟨ks, k1, k2⟩).outer
    exact inTime_values (hH.clock.inTime hlo).1
  rw [answers_got h1 hc fun i x u b hi => by
    obtain ⟨g1, g2⟩ := h4 i x u b hi
    exact ⟨fun hb => ⟨by have := (g1 hb).1; omega, (g1 hb).2⟩, fun hlt => g2 (by omega)⟩] at h3
  obtain ⟨-, h5⟩ := answers_strict dur g m.vt.time.toNat hin
  refine List.Perm.eq_of_pairwise (fun a b ha hb h6 h7 => ?_) (h2.filter _) ?_ h3
  · have ha := h3.mem_iff.mp ha
    obtain ⟨i, hi⟩ := List.getElem?_of_mem ha
    obtain ⟨j, hj⟩ := List.getElem?_of_mem hb
    obtain ⟨hi', rfl⟩ := List.getElem?_eq_some_iff.mp hi
    obtain ⟨hj', rfl⟩ := List.getElem?_eq_some_iff.mp hj
    rw [List.length_map] at hi' hj'
    simp only [List.getElem_map] at h6 h7 ⊢
    rw [List.pairwise_iff_getElem] at h5
    rcases Nat.lt_trichotomy i j with h | rfl | h
    · have := h5 i j hi' hj' h; omega
    · rfl
    · have := h5 j i hj' hi' h; omega
  · rw [List.pairwise_map]
    exact h5.imp fun h => Nat.le_of_lt h

end

/-! ## Examples -/

section Examples

/-- `interval(0, 4)` in front of `flat_map_latest(lambda n: of_async(work(n)))`; `work(1)` takes 6, the others 2. -/
abbrev hostedQuery := ((Interval.clocked true 0 0 4).latest (queries (fun n => if n = 1 then 6 else 2) fun n => Except.ok (10 * n)) .dispose false).operate
  (Operator.id (α := Nat)).protected.slowProc
abbrev hostedQueryHost := (Interval.host.latest (ω := Nat) (α := Nat) (Query.host (α := Nat))).operate (Operator.id (α := Nat)).protected.slowProc demoSafe

/-- `work(1)` is given up at 8. -/
example (hops ls m) (hr : LTS.run (Hosted.step VirtualTime.heapq hops hostedQuery hostedQueryHost) Hosted.init ls = some m) {s} (hm : m.sub = some s) (hrest : m.vt.ready = [])
    (has : (Interval.clocked true 0 0 4).calls s.1.outer = [(.next 0, 0), (.next 1, 4), (.next 2, 8)]) (hnow : m.vt.time = 11) :
    noDone s.2.sent = [(.next 0, 2), (.next 20, 10)] := by
  obtain ⟨got, h1, h0, h2, h3⟩ := C133_results VirtualTime.heapqLaws (fun n => if n = 1 then 6 else 2) (fun n => 10 * n) Interval.host_lawful (fun _ _ => Interval.clocked_grammar) demoSafe_all
    hr hm hrest (by rw [has]; simp)
  rw [has] at h1 h2 h3
  match got, h1 with
  | [a, b, c], _ =>
    obtain rfl := (h3 0 0 0 a rfl).2 (by rw [hnow]; decide) (fun y v hv => by cases hv; decide)
    obtain rfl : b = false := by
      cases b with
      | false => rfl
      | true => exact absurd (((h3 1 1 4 true rfl).1 rfl).2 2 8 rfl) (by decide)
    obtain rfl := (h3 2 2 8 c rfl).2 (by rw [hnow]; decide) (fun y v hv => by cases hv)
    have h2 : (noDone s.2.sent).Perm [(.next 0, 2), (.next 20, 10)] := h2
    have h0 : InTime (noDone s.2.sent) := h0.filter _
    refine List.Perm.eq_of_pairwise (fun a b ha hb h4 h5 => ?_) h0 (by simp) h2
    have ha := h2.mem_iff.mp ha
    simp at ha hb
    rcases ha with rfl | rfl <;> rcases hb with rfl | rfl <;> simp at h4 h5 <;> rfl

example (hops ls m) (hr : LTS.run (Hosted.step VirtualTime.heapq hops hostedQuery hostedQueryHost) Hosted.init ls = some m) {s} (hm : m.sub = some s) (hrest : m.vt.ready = [])
    (has : (Interval.clocked true 0 0 4).calls s.1.outer = [(.next 0, 0), (.next 1, 4), (.next 2, 8)]) (hnow : m.vt.time = 11) :
    noDone s.2.sent = [(.next 0, 2), (.next 20, 10)] := by
  have := C133_answers VirtualTime.heapqLaws (fun n => if n = 1 then 6 else 2) (fun n => 10 * n) Interval.host_lawful (fun _ _ => Interval.clocked_grammar) demoSafe_all
    hr hm hrest (by rw [has]; simp) (by rw [has, hnow]; simp [valuesAt, Spec.Query.Clear])
  rw [has, hnow] at this
  exact this

example : shown hostedQuery hostedQueryHost (fun _ => 0) ([some .subscribe] ++ List.replicate 113 none) = some (10, some [(.next 0, 2), (.next 20, 10)]) := by decide +kernel

/-- A result that is due exactly when the next value comes may be lost or not. -/
abbrev hostedTie := ((Interval.clocked true 0 0 4).latest (queries (fun _ => 4) fun n => Except.ok (10 * n)) .dispose false).operate (Operator.id (α := Nat)).protected.slowProc
example : shown hostedTie hostedQueryHost (fun _ => 0) ([some .subscribe] ++ List.replicate 44 none) = some (4, some []) := by decide +kernel
example : shown hostedTie hostedQueryHost (fun | .inl (.inl _) => 5 | _ => 0) ([some .subscribe] ++ List.replicate 95 none) = some (4, some [(.next 0, 4)]) := by decide +kernel

end Examples

end Aio.Nested
