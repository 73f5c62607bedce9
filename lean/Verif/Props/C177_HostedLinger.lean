import Verif.Model.HostedLinger
import Verif.Lemmas.HostedWork
import Verif.Props.C173_Linger
import Verif.Props.C133_Query
/-!
# C177: outdated results on the `VirtualTimeEventLoop`

In full: in tests with the `VirtualTimeEventLoop`, `flat_map_latest(lambda x: pipe(single(x), map_async(search)))` does not send the result of a search once the next value has been sent. It does: the
disposable of `single` is empty, so the search goes on.
-/

namespace Aio.Linger
open Spec Spec.Timed Nested
open VirtualTime (Heap)
variable {SO LO TO ω α : Type} {h : Heap} {o : Clocked SO LO ω} {H : Host SO LO TO} {dur : ω → Nat} {g : ω → α}

theorem disposable_run {x : ω} {t : Nat} {ls s} (hr : LTS.run (disposable dur g x t).step (disposable dur g x t).init ls = some s) :
    ∃ ls', LTS.run (search dur g x t).step (search dur g x t).init ls' = some s := by
  refine LTS.inv (step := (disposable dur g x t).step) (fun s => ∃ ls', LTS.run (search dur g x t).step (search dur g x t).init ls' = some s) ⟨[], rfl⟩ ?_ hr
  rintro s l s' ⟨ls', h1⟩ hs
  match l with
  | .pass d => exact ⟨_, Nested.run_pass h1 hs⟩
  | .act (some l) => exact ⟨_, Nested.run_act h1 hs⟩
  | .act none => cases hs; exact ⟨ls', h1⟩

theorem search_fair (x : ω) (t : Nat) : Flatten.Fair (search dur g x t) t := fair (Ops.map (fun x => (dur x, .ok (g x))) .nil) x t

theorem disposable_lawful (x : ω) (t : Nat) : (disposable dur g x t).Lawful := by
  have hl := (search_fair (dur := dur) (g := g) x t).lawful
  refine ⟨rfl, fun {ls s l s'} hr hst => ?_, fun {ls s d s'} hr hst => ?_⟩
  · obtain ⟨ls', h1⟩ := disposable_run hr
    cases l with
    | some l => exact hl.act h1 hst
    | none => cases hst; exact ⟨rfl, [], by simp⟩
  · obtain ⟨ls', h1⟩ := disposable_run hr
    exact hl.pass h1 hst

theorem host_lawful (x : ω) (t : Nat) : (host (α := α)).Lawful (disposable dur g x t) where
  clock := disposable_lawful x t
  names := by intro s n _ _; exact .head _
  turn := by
    intro s n _ hd
    have alone : ∀ (s' : Work.State ω α Nat) (n' : Unit) (w : Nat), n' ≠ n → (host.need s' n' = .until w → host.need s n' = .until w) := fun _ _ _ hne => absurd rfl hne
    obtain ⟨inbox, pc, now, sent⟩ := s
    cases pc with
    | waiting t =>
      cases inbox with
      | nil => exact ⟨_, rfl, alone _⟩
      | cons m rest => exact ⟨_, rfl, alone _⟩
    | running k =>
      cases k with
      | done r => cases r <;> exact ⟨_, rfl, alone _⟩
      | raise e => exact ⟨_, rfl, alone _⟩
      | wait d k => exact ⟨_, rfl, alone _⟩
      | call n k => exact ⟨_, rfl, alone _⟩
    | asleep due k =>
      have : due ≤ now := hd due rfl
      refine ⟨{ inbox, pc := .running k, now, sent }, ?_, alone _⟩
      simp [host, Work.host, LTS.run, disposable, search, clocked, Work.step, this]
    | halted => exact ⟨_, rfl, alone _⟩
  outside := by
    intro s l s' _ hl hs
    cases l with
    | some l => cases hl
    | none => cases hs; exact fun _ _ => id
  pass := by
    intro s d _ hc
    exact (Work.host_lawful (o := (Ops.map (fun x => (dur x, .ok (g x))) .nil : Ops ω α).handler (Handler.final fun _ _ => (0, none))) (s0 := 0) (gone := 0)).tick hc

theorem family : Host.Family (host (α := α)) (disposable dur g) where
  lawful := host_lawful
  start _ _ := rfl
  fresh x t n w h := by cases h

theorem nothing_happens : Host.Disposable (host (α := α)) (disposable dur g) none false (fun _ => True) where
  outside := rfl
  stop _ := ⟨_, rfl, trivial, rfl⟩
  keeps _ _ _ := trivial
  pass _ _ := trivial
  quiet h := by cases h

theorem not_turn (s : Work.State ω α Nat) (n : Unit) : none ∉ host.turn s n := by simp [host]

theorem disposable_proper (ho : o.Lawful) (hg : ∀ ls s, LTS.run o.step o.init ls = some s → Grammar ((o.calls s).map (·.1))) : Nested.Proper o (disposable dur g) where
  source := ho
  sourceGrammar := hg
  inner x t := ⟨disposable_lawful x t, rfl⟩
  innerGrammar x t ls s hr := by
    obtain ⟨ls', h1⟩ := disposable_run hr
    exact (search_fair x t).grammar ls' s h1

/-- What `search(x)` sends when the value `x` comes at time `u`. -/
abbrev answer (dur : ω → Nat) (g : ω → α) (x : ω × Nat) : Notif α × Nat := (.next (g x.1), x.2 + dur x.1)

abbrev hosted (o : Clocked SO LO ω) (dur : ω → Nat) (g : ω → α) := (o.latest (disposable dur g) none false).operate (Operator.id (α := α)).protected.slowProc
abbrev hostedHost (H : Host SO LO TO) (workers) := (H.latest (ω := ω) (α := α) (host (ω := ω) (α := α))).operate (Operator.id (α := α)).protected.slowProc workers

section
variable [DecidableEq TO] [DecidableEq (Operator.id (α := α)).protected.compileSlow.SlowLab]

/-- C177 is violated, in general: on the virtual loop, whatever else runs on it, the observer gets the result of every value exactly when its search is over, whether or not the next value has come:
of everything before the present time neither more nor less. -/
theorem C177_answered_violated (K : h.Laws) (hH : H.Lawful o) (hg : ∀ ls s, LTS.run o.step o.init ls = some s → Grammar ((o.calls s).map (·.1))) {workers} (hw : ∀ w, w ∈ workers) {hops ls m}
    (hr : LTS.run (Hosted.step h hops (hosted o dur g) (hostedHost H workers)) Hosted.init ls = some m)
    {s} (hm : m.sub = some s) (hrest : m.vt.ready = []) (he : ∀ e t, (.error e, t) ∉ o.calls s.1.outer) :
    InTime s.2.sent ∧ (∀ c ∈ noDone s.2.sent, ∃ x ∈ valuesAt (o.calls s.1.outer), c = answer dur g x) ∧
    (before m.vt.time.toNat (noDone s.2.sent)).Perm (((valuesAt (o.calls s.1.outer)).filter fun x => x.2 + dur x.1 < m.vt.time.toNat).map (answer dur g)) := by
  have hpr := disposable_proper (dur := dur) (g := g) hH.clock hg
  have hsub := C132_subscribed K hH family nothing_happens not_turn hpr id_computes rfl hw hr hm hrest
  obtain ⟨hn, -⟩ := C132_schedule K hH family nothing_happens not_turn hpr id_computes rfl hw hr hm hrest
  obtain ⟨ks, k1, k2⟩ := hosted_source K (Host.latest_lawful hH family nothing_happens) hw hr hm
  have K' := Host.latest_kept hH family nothing_happens ⟨ks, k1, k2⟩
  have hnow : o.now s.1.outer = m.vt.time.toNat := by omega
  have htold : ∀ i ∈ s.1.inners, (disposable dur g i.1 i.2.1).calls i.2.2 <+: [(.next (g i.1), i.2.1 + dur i.1), (.completed, i.2.1 + dur i.1)] ∧
      before m.vt.time.toNat ((disposable dur g i.1 i.2.1).calls i.2.2) = before m.vt.time.toNat [(.next (g i.1), i.2.1 + dur i.1), (.completed, i.2.1 + dur i.1)] := by
    rintro ⟨x, u, si⟩ hi
    obtain ⟨k, hk⟩ := List.getElem?_of_mem hi
    obtain ⟨⟨li, hli, -⟩, hs⟩ := K'.inner k x u si hk
    have hs : si.now = o.now s.1.outer := hs
    obtain ⟨li', hli'⟩ := disposable_run hli
    have := told x u hli'
    rw [hs, hnow] at this
    exact this
  obtain ⟨-, hin, hperm⟩ := C132_told K hH family nothing_happens not_turn hpr hw hr hm hrest he (fun i hi e t hmem => by
    have := (htold i hi).1.subset hmem
    simp at this)
  refine ⟨hin, fun c hc => ?_, ?_⟩
  · obtain ⟨i, hi, hc⟩ := List.mem_flatMap.mp (hperm.mem_iff.mp hc)
    obtain ⟨hc, hd⟩ := List.mem_filter.mp hc
    have := (htold i hi).1.subset hc
    simp only [List.mem_cons, List.not_mem_nil, or_false] at this
    refine ⟨(i.1, i.2.1), by rw [← hsub]; exact List.mem_map.mpr ⟨i, hi, rfl⟩, ?_⟩
    rcases this with rfl | rfl
    · rfl
    · simp at hd
  · refine (hperm.filter _).trans (.of_eq ?_)
    rw [← hsub, subs]
    clear hsub hperm
    generalize s.1.inners = is at htold
    generalize m.vt.time.toNat = T at htold
    induction is with
    | nil => rfl
    | cons i is ih =>
      rw [List.flatMap_cons, List.filter_append, ih fun j hj => htold j (by simp [hj])]
      have h1 := congrArg noDone (htold i (by simp)).2
      have comm : ∀ cs : List (Notif α × Nat), noDone (before T cs) = before T (noDone cs) := fun cs => by
        simp only [noDone, before, List.filter_filter, Bool.and_comm]
      rw [comm] at h1
      show before _ _ ++ _ = _
      rw [h1]
      by_cases hd : i.2.1 + dur i.1 < T <;> simp [hd, before, noDone]

/-- C177, the part that holds: if each search is over before the next value is sent, the observer gets the results in the order of the values, each exactly when its search is over. Missing: searches that are not over
when the next value is sent; their results should not be sent. -/
theorem C177_partial (K : h.Laws) (hH : H.Lawful o) (hg : ∀ ls s, LTS.run o.step o.init ls = some s → Grammar ((o.calls s).map (·.1))) {workers} (hw : ∀ w, w ∈ workers) {hops ls m}
    (hr : LTS.run (Hosted.step h hops (hosted o dur g) (hostedHost H workers)) Hosted.init ls = some m)
    {s} (hm : m.sub = some s) (hrest : m.vt.ready = []) (he : ∀ e t, (.error e, t) ∉ o.calls s.1.outer)
    (hover : (valuesAt (o.calls s.1.outer)).Pairwise fun a b => a.2 + dur a.1 < b.2) :
    before m.vt.time.toNat (noDone s.2.sent) = ((valuesAt (o.calls s.1.outer)).filter fun x => x.2 + dur x.1 < m.vt.time.toNat).map (answer dur g) := by
  obtain ⟨h1, -, h2⟩ := C177_answered_violated K hH hg hw hr hm hrest he
  have hs : (((valuesAt (o.calls s.1.outer)).filter fun x => x.2 + dur x.1 < m.vt.time.toNat).map (answer dur g)).Pairwise fun a b => a.2 < b.2 := by
    rw [List.pairwise_map]
    exact (hover.filter _).imp fun h => by show _ + _ < _ + _; omega
  refine List.Perm.eq_of_pairwise (fun a b ha hb h6 h7 => ?_) ((h1.filter _).filter _) (hs.imp fun h => Nat.le_of_lt h) h2
  have ha := h2.mem_iff.mp ha
  obtain ⟨i, hi⟩ := List.getElem?_of_mem ha
  obtain ⟨j, hj⟩ := List.getElem?_of_mem hb
  obtain ⟨hi', rfl⟩ := List.getElem?_eq_some_iff.mp hi
  obtain ⟨hj', rfl⟩ := List.getElem?_eq_some_iff.mp hj
  rw [List.pairwise_iff_getElem] at hs
  rcases Nat.lt_trichotomy i j with h | rfl | h
  · have := hs i j hi' hj' h; omega
  · rfl
  · have := hs j i hj' hi' h; omega

end

/-! ## Examples -/

section Examples

/-- `interval(0, 4)` in front; `search(1)` takes 5, the others 2. -/
abbrev box := hosted (Interval.clocked true 0 0 4) (fun n => if n = 1 then 5 else 2) fun n => 10 * n
abbrev boxHost := hostedHost (ω := Nat) Interval.host demoSafe

/-- Value 2 comes at 8; the result of value 1 comes at 9 nevertheless. -/
theorem C177_violated : shown box boxHost (fun _ => 0) ([some .subscribe] ++ List.replicate 132 none) = some (9, some [(.next 0, 2), (.next 10, 9)]) := by decide +kernel

example (hops ls m) (hr : LTS.run (Hosted.step VirtualTime.heapq hops box boxHost) Hosted.init ls = some m) {s} (hm : m.sub = some s) (hrest : m.vt.ready = [])
    (has : (Interval.clocked true 0 0 4).calls s.1.outer = [(.next 0, 0), (.next 1, 4), (.next 2, 8)]) (hnow : m.vt.time = 11) :
    (before 11 (noDone s.2.sent)).Perm [(.next 0, 2), (.next 10, 9), (.next 20, 10)] := by
  have := (C177_answered_violated VirtualTime.heapqLaws Interval.host_lawful (fun _ _ => Interval.clocked_grammar) demoSafe_all hr hm hrest (by rw [has]; simp)).2.2
  rw [has, hnow] at this
  exact this

/-- `C177_partial`: all searches take 2. -/
example (hops ls m) (hr : LTS.run (Hosted.step VirtualTime.heapq hops (hosted (Interval.clocked true 0 0 4) (fun _ => 2) fun n => 10 * n) boxHost) Hosted.init ls = some m) {s} (hm : m.sub = some s)
    (hrest : m.vt.ready = []) (has : (Interval.clocked true 0 0 4).calls s.1.outer = [(.next 0, 0), (.next 1, 4), (.next 2, 8)]) (hnow : m.vt.time = 11) :
    before 11 (noDone s.2.sent) = [(.next 0, 2), (.next 10, 6), (.next 20, 10)] := by
  have := C177_partial VirtualTime.heapqLaws Interval.host_lawful (fun _ _ => Interval.clocked_grammar) demoSafe_all hr hm hrest (by rw [has]; simp) (by rw [has]; simp [valuesAt])
  rw [has, hnow] at this
  exact this

end Examples

end Aio.Linger
