import Verif.Props.C112_114_Nested
/-!
# C112, C113, C114 for intervals and timers
-/

namespace Aio
open Spec Spec.Timed
variable {SO LO S SI LI ω α β : Type}

namespace Interval
variable {t0 : Nat} {seconds period : Int}

/-- How many calls a timer has made. -/
private def made : PC → Nat
  | .fresh | .sleeping _ _ => 0
  | .sending _ => 1
  | .closing | .dead => 2

/-- A timer that is left alone makes both its calls when it is due. -/
theorem timer_done {ls : List (Time Label)} {s : State}
    (hr : LTS.run (clocked true t0 seconds 0).step (clocked true t0 seconds 0).init ls = some s)
    (hd : Time.act .dispose ∉ ls) (hx : ∀ e, Time.act (.raise e) ∉ ls) (ht : t0 + seconds.toNat < s.now) :
    (clocked true t0 seconds 0).calls s = [(.next 0, t0 + seconds.toNat), (.completed, t0 + seconds.toNat)] := by
  obtain ⟨hpre, -⟩ := timer_exact hr
  obtain ⟨ms, h1, h2⟩ := clocked_run hr
  have h1 : LTS.run (promptStep seconds 0) (init t0) ms = some s := h1
  have hdue : ∀ k, due t0 seconds 0 k = t0 + seconds.toNat := by simp [due]
  have hal : s.cancelling = false ∧ s.calls.length = made s.pc := by
    refine LTS.inv_of (step := promptStep seconds 0) (fun l => l ≠ .dispose ∧ ∀ e, l ≠ .raise e)
      (fun s : State => s.cancelling = false ∧ s.calls.length = made s.pc) (s0 := init t0) (by simp [init, made]) ?_ ?_ h1
    · rintro ⟨now, pc, c, calls⟩ l t ⟨l1, l2⟩ ⟨i1, i2⟩ hs
      dsimp only at i1 i2
      subst i1
      simp only [promptStep] at hs
      split at hs
      · cases hs
      cases l <;> cases pc <;> simp [step, afterSend] at hs l1 l2 <;> simp only [made] at i2
      all_goals first | (subst hs; simp [made, i2]; done) | (obtain ⟨-, rfl⟩ := hs; simp [made, i2]; done)
    · intro l hl
      rcases h2 l hl with rfl | h
      · simp
      · exact ⟨fun he => hd (he ▸ h), fun e he => hx e (he ▸ h)⟩
  obtain ⟨p1, p2, p3, -⟩ := prompt_inv t0 seconds 0 h1
  refine hpre.eq_of_length ?_
  have hlen : ((clocked true t0 seconds 0).calls s).length = s.calls.length := by simp [clocked]
  rw [hlen, hal.2]
  cases hpc : s.pc with
  | fresh => have := p1 hpc; omega
  | sleeping w n => have := p2 w n hpc; rw [hdue] at this; omega
  | sending n => have := p3 n hpc; rw [hdue] at this; omega
  | closing => rfl
  | dead => rfl

/-- Intervals and timers keep the grammar. -/
theorem clocked_grammar {ls : List (Time Label)} {s : State}
    (hr : LTS.run (clocked true t0 seconds period).step (clocked true t0 seconds period).init ls = some s) :
    Grammar (((clocked true t0 seconds period).calls s).map (·.1)) := by
  by_cases hp : period = 0
  · subst hp
    exact grammar_prefix ((timer_exact hr).1.map _) ⟨⟨[0], .done⟩, rfl⟩
  · obtain ⟨m, hm, -⟩ := clocked_exact hp hr
    refine ⟨⟨List.range m, .running⟩, ?_⟩
    rw [hm]
    simp [Story.events, Function.comp_def]

end Interval

namespace Nested

/-- `map(lambda x: interval(*f(x)))` in front: each value of the source is made an interval. -/
def intervals (f : ω → Int × Int) (x : ω) (t : Nat) : Clocked Interval.State Interval.Label Nat := Interval.clocked true t (f x).1 (f x).2

theorem intervals_proper {o : Clocked SO LO ω} (f : ω → Int × Int) (ho : o.Lawful) (hg : ∀ ls s, LTS.run o.step o.init ls = some s → Grammar ((o.calls s).map (·.1))) :
    Proper o (intervals f) :=
  ⟨ho, hg, fun x t => ⟨Interval.clocked_lawful true t (f x).1 (f x).2, rfl⟩, fun _ _ _ _ h => Interval.clocked_grammar h⟩

/-- Nobody disposes the inner observables, and the observer's methods do not raise. -/
def Undisturbed (ls : List (Time (Nested.Label LO Interval.Label ω α))) : Prop :=
  (∀ k, Time.act (.inner k .dispose) ∉ ls) ∧ ∀ k e, Time.act (.inner k (.raise e)) ∉ ls

/-- C112, `merge` of intervals: for each interval that the source sends at a time `u`, each `k` is sent when that interval is due, and nothing else is sent. -/
theorem C112_intervals {o : Clocked SO LO ω} (f : ω → Int × Int) (ho : o.Lawful)
    (hg : ∀ ls s, LTS.run o.step o.init ls = some s → Grammar ((o.calls s).map (·.1))) {ls s}
    (hr : LTS.run (o.merged (intervals f) 0).step (o.merged (intervals f) 0).init ls = some s)
    (hp : (o.merged (intervals f) 0).Prompt (fun s => Merge.Settled s.prod) ls) (hc : Calm o ls s) (hq : Merge.Settled s.prod)
    (hne : ∀ x ∈ valuesAt (o.calls s.outer), (f x.1).2 ≠ 0) :
    (∀ k t, (.next k, t) ∈ s.posts → ∃ x u, (x, u) ∈ valuesAt (o.calls s.outer) ∧ t = Interval.due u (f x).1 (f x).2 k) ∧
    (Undisturbed ls → ∀ x u k, (x, u) ∈ valuesAt (o.calls s.outer) → Interval.due u (f x).1 (f x).2 k < o.now s.outer →
      (.next k, Interval.due u (f x).1 (f x).2 k) ∈ s.posts) := by
  have hpr := intervals_proper f ho hg
  have hsub := C112_subscribed hpr hr hp hc hq
  obtain ⟨-, hperm, -⟩ := C112_arrive hpr hr
  obtain ⟨h, hpast⟩ := past hpr.source hpr.inner (merge_starts 0) hr
  have hexact : ∀ i ∈ s.inners, ∃ k : Nat, s.inners[k]? = some i ∧ ((i.1, i.2.1) ∈ valuesAt (o.calls s.outer)) ∧
      ∃ li, LTS.run (intervals f i.1 i.2.1).step (intervals f i.1 i.2.1).init li = some i.2.2 ∧ (∀ l, Time.act l ∈ li → Time.act (.inner k l) ∈ ls) ∧
        (intervals f i.1 i.2.1).now i.2.2 = o.now s.outer := by
    rintro ⟨x, u, si⟩ hi
    obtain ⟨k, hk⟩ := List.getElem?_of_mem hi
    obtain ⟨⟨li, hli, hli'⟩, hnow⟩ := hpast.sources k _ _ _ hk
    exact ⟨k, hk, by rw [← hsub]; exact List.mem_map.mpr ⟨_, hi, rfl⟩, li, hli, hli', hnow⟩
  refine ⟨fun n t hm => ?_, fun hu x u k hm hlt => ?_⟩
  · have h1 : (Notif.next n, t) ∈ noDone s.posts := List.mem_filter.mpr ⟨hm, rfl⟩
    rcases List.mem_append.mp (hperm.mem_iff.mp h1) with h2 | h2
    · exfalso
      rw [errors, List.mem_filterMap] at h2
      obtain ⟨⟨n', t'⟩, h3, h4⟩ := h2
      cases n' with
      | error e => exact hc.noError e t' h3
      | _ => cases h4
    · obtain ⟨⟨x, u, si⟩, hi, h3⟩ := List.mem_flatMap.mp h2
      obtain ⟨k, hk, hv, li, hli, -, -⟩ := hexact _ hi
      obtain ⟨m, hm', -⟩ := Interval.clocked_exact (hne _ hv) hli
      have h4 := (List.mem_filter.mp h3).1
      rw [show (intervals f x u).calls si = _ from hm'] at h4
      obtain ⟨j, -, hj⟩ := List.mem_map.mp h4
      cases hj
      exact ⟨x, u, hv, rfl⟩
  · rw [← hsub] at hm
    obtain ⟨⟨x', u', si⟩, hi, he⟩ := List.mem_map.mp hm
    obtain ⟨rfl, rfl⟩ : x = x' ∧ u = u' := ⟨(Prod.mk.inj he).1.symm, (Prod.mk.inj he).2.symm⟩
    obtain ⟨j, hj, hv, li, hli, hli', hnow⟩ := hexact _ hi
    obtain ⟨m, hm', hall⟩ := Interval.clocked_exact (hne _ hv) hli
    have hk := hall (fun hd => hu.1 j (hli' _ hd)) (fun e he => hu.2 j e (hli' _ he)) k (by
      have : si.now = o.now s.outer := hnow
      dsimp only
      rw [this]; exact hlt)
    have h1 : (Notif.next k, Interval.due u (f x).1 (f x).2 k) ∈ (intervals f x u).calls si := by
      rw [show (intervals f x u).calls si = _ from hm']
      exact List.mem_map.mpr ⟨k, List.mem_range.mpr hk, rfl⟩
    have h2 : (Notif.next k, Interval.due u (f x).1 (f x).2 k) ∈ noDone s.posts :=
      hperm.mem_iff.mpr (List.mem_append_right _ (List.mem_flatMap.mpr ⟨_, hi, List.mem_filter.mpr ⟨h1, rfl⟩⟩))
    exact (List.mem_filter.mp h2).1

/-- C112: the same with the number of the values: of each interval the first `n` values have been sent, each once, and `n` is what is due. -/
theorem C112_intervals_exact {o : Clocked SO LO ω} (f : ω → Int × Int) (ho : o.Lawful)
    (hg : ∀ ls s, LTS.run o.step o.init ls = some s → Grammar ((o.calls s).map (·.1))) {ls s}
    (hr : LTS.run (o.merged (intervals f) 0).step (o.merged (intervals f) 0).init ls = some s)
    (hp : (o.merged (intervals f) 0).Prompt (fun s => Merge.Settled s.prod) ls) (hc : Calm o ls s) (hq : Merge.Settled s.prod)
    (hne : ∀ x ∈ valuesAt (o.calls s.outer), (f x.1).2 ≠ 0) :
    ∃ ns : List Nat, ns.length = (valuesAt (o.calls s.outer)).length ∧
      (noDone s.posts).Perm (((valuesAt (o.calls s.outer)).zip ns).flatMap fun i =>
        (List.range i.2).map fun k => (.next k, Interval.due i.1.2 (f i.1.1).1 (f i.1.1).2 k)) ∧
      (Undisturbed ls → ∀ i ∈ (valuesAt (o.calls s.outer)).zip ns, ∀ k, Interval.due i.1.2 (f i.1.1).1 (f i.1.1).2 k < o.now s.outer → k < i.2) := by
  have hpr := intervals_proper f ho hg
  have hsub := C112_subscribed hpr hr hp hc hq
  obtain ⟨-, hperm, -⟩ := C112_arrive hpr hr
  obtain ⟨h, hpast⟩ := past hpr.source hpr.inner (merge_starts 0) hr
  have h0 : (errors (o.calls s.outer) : List (Notif Nat × Nat)) = [] := by
    rw [errors, List.filterMap_eq_nil_iff]
    rintro ⟨n, t⟩ hm
    cases n with
    | error e => exact absurd hm (hc.noError e t)
    | _ => rfl
  rw [h0, List.nil_append] at hperm
  have hz : (valuesAt (o.calls s.outer)).zip (s.inners.map fun i => ((intervals f i.1 i.2.1).calls i.2.2).length) = s.inners.map fun i => ((i.1, i.2.1), ((intervals f i.1 i.2.1).calls i.2.2).length) := by
    rw [← hsub, subs, List.zip_map']
  have hexact : ∀ i ∈ s.inners, (((intervals f i.1 i.2.1).calls i.2.2) = (List.range ((intervals f i.1 i.2.1).calls i.2.2).length).map fun k => (.next k, Interval.due i.2.1 (f i.1).1 (f i.1).2 k)) ∧
      (Undisturbed ls → ∀ k, Interval.due i.2.1 (f i.1).1 (f i.1).2 k < o.now s.outer → k < ((intervals f i.1 i.2.1).calls i.2.2).length) := by
    rintro ⟨x, u, si⟩ hi
    obtain ⟨k, hk⟩ := List.getElem?_of_mem hi
    obtain ⟨⟨li, hli, hli'⟩, hnow⟩ := hpast.sources k _ _ _ hk
    obtain ⟨m, hm', hall⟩ := Interval.clocked_exact (hne (x, u) (by rw [← hsub]; exact List.mem_map.mpr ⟨_, hi, rfl⟩)) hli
    have hm' : (intervals f x u).calls si = _ := hm'
    have hlen : ((intervals f x u).calls si).length = m := by rw [hm']; simp
    dsimp only
    rw [hlen]
    exact ⟨hm', fun hu j hj => hall (fun hd => hu.1 k (hli' _ hd)) (fun e he => hu.2 k e (hli' _ he)) j (by
      have : si.now = o.now s.outer := hnow
      rw [this]; exact hj)⟩
  refine ⟨s.inners.map fun i => ((intervals f i.1 i.2.1).calls i.2.2).length, by rw [← hsub]; simp [subs], ?_, fun hu i hi k hk => ?_⟩
  · rw [hz, List.flatMap_map]
    refine hperm.trans (List.Perm.of_eq ?_)
    rw [List.flatMap_def, List.flatMap_def]
    refine congrArg List.flatten (List.map_congr_left fun i hi => ?_)
    conv => lhs; rw [(hexact i hi).1, noDone]
    rw [List.filter_eq_self.mpr]
    · intro c hc
      obtain ⟨k, -, rfl⟩ := List.mem_map.mp hc
      rfl
  · rw [hz] at hi
    obtain ⟨j, hj, rfl⟩ := List.mem_map.mp hi
    exact (hexact j hj).2 hu k hk

/-- `map(timer)` in front: each value of the source is a timer. -/
def timers (a : Int) (t : Nat) : Clocked Interval.State Interval.Label Nat := Interval.clocked true t a 0

theorem timers_proper {o : Clocked SO LO Int} (ho : o.Lawful) (hg : ∀ ls s, LTS.run o.step o.init ls = some s → Grammar ((o.calls s).map (·.1))) :
    Proper o timers :=
  ⟨ho, hg, fun x t => ⟨Interval.clocked_lawful true t x 0, rfl⟩, fun _ _ _ _ h => Interval.clocked_grammar h⟩

/-- How long the first `k` timers take, one after the other. -/
def total (as : List Int) (k : Nat) : Nat := ((as.take k).map Int.toNat).sum

theorem total_succ {as : List Int} {k : Nat} {a : Int} (h : as[k]? = some a) : total as (k + 1) = total as k + a.toNat := by
  simp [total, List.take_add_one, h]

theorem total_mono {as : List Int} {j k : Nat} (h : j ≤ k) : total as j ≤ total as k := by
  induction h with
  | refl => exact Nat.le_refl _
  | @step m _ ih =>
    cases h : as[m]? with
    | some a => rw [total_succ h]; omega
    | none => simpa [total, List.take_add_one, h] using ih

/-- C113, `concat` of timers that are sent at the same time: each one starts when the one before has completed. -/
theorem C113_timers {o : Clocked SO LO Int} (ho : o.Lawful)
    (hg : ∀ ls s, LTS.run o.step o.init ls = some s → Grammar ((o.calls s).map (·.1))) {ls s}
    (hr : LTS.run (o.merged timers 1).step (o.merged timers 1).init ls = some s)
    (hp : (o.merged timers 1).Prompt (fun s => Merge.Settled s.prod) ls) (hc : Calm o ls s) (hq : Merge.Settled s.prod) (hu : Undisturbed ls)
    {as : List Int} {t0 : Nat} (has : o.calls s.outer = as.map (fun a => (.next a, t0)) ++ [(.completed, t0)])
    (hlate : t0 + total as as.length < o.now s.outer) :
    s.posts = (List.range as.length).map (fun k => (.next 0, t0 + total as (k + 1))) ++ [(.completed, t0 + total as as.length)] := by
  have hpr := timers_proper ho hg
  obtain ⟨h0, hsucc⟩ := C113_subscribed hpr hr hp hc hq
  obtain ⟨horder, -⟩ := C113_in_order hpr hr hc.noError
  have hdone := C112_completed hpr (by omega) hr hp hc hq
  obtain ⟨h, hpast⟩ := past hpr.source hpr.inner (merge_starts 1) hr
  have hv : valuesAt (o.calls s.outer) = as.map fun a => (a, t0) := by
    rw [has]
    simp [valuesAt, Function.comp_def]
  rw [hv] at h0 hsucc
  have hcalls : ∀ (k : Nat) a u si, s.inners[k]? = some (a, u, si) → u + a.toNat < o.now s.outer →
      (timers a u).calls si = [(.next 0, u + a.toNat), (.completed, u + a.toNat)] := by
    intro k a u si hk hlt
    obtain ⟨⟨li, hli, hli'⟩, hnow⟩ := hpast.sources k _ _ _ hk
    have hnow : si.now = o.now s.outer := hnow
    exact Interval.timer_done hli (fun hd => hu.1 k (hli' _ hd)) (fun e he => hu.2 k e (hli' _ he)) (by omega)
  have hsub : ∀ k : Nat, (subs s)[k]? = (as[k]?).map fun a => (a, t0 + total as k) := by
    intro k
    induction k with
    | zero => rw [h0]; simp [total]
    | succ k ih =>
      refine Option.ext fun ⟨a, u⟩ => ?_
      rw [hsucc]
      constructor
      · rintro ⟨b, c, ys, v, si, h1, h2, h3, rfl⟩
        have h4 : as[k + 1]? = some a ∧ t0 = b := by
          rw [List.getElem?_map] at h1
          cases h5 : as[k + 1]? with
          | none => rw [h5] at h1; cases h1
          | some a' => rw [h5] at h1; cases h1; exact ⟨rfl, rfl⟩
        obtain ⟨h4, rfl⟩ := h4
        have h5 : (subs s)[k]? = some (ys, v) := by rw [subs, List.getElem?_map, h2]; rfl
        rw [ih] at h5
        obtain ⟨ys', h6, h7⟩ := Option.map_eq_some_iff.mp h5
        obtain ⟨rfl, rfl⟩ := Prod.mk.inj h7
        have h8 := total_succ h6
        have h9 : total as (k + 1) ≤ total as as.length := by
          obtain ⟨hlt, -⟩ := List.getElem?_eq_some_iff.mp h6
          exact total_mono (by omega)
        rw [hcalls k _ _ _ h2 (by omega)] at h3
        simp at h3
        rw [h4]
        simp
        omega
      · intro h1
        obtain ⟨a', h4, h5⟩ := Option.map_eq_some_iff.mp h1
        obtain ⟨rfl, rfl⟩ := Prod.mk.inj h5
        obtain ⟨hlt, -⟩ := List.getElem?_eq_some_iff.mp h4
        have h6 : as[k]? = some as[k] := List.getElem?_eq_getElem (by omega)
        have h8 := total_succ h6
        have h9 : total as (k + 1) ≤ total as as.length := total_mono (by omega)
        rw [h6, subs, List.getElem?_map] at ih
        obtain ⟨⟨ys, v, si⟩, h2, h7⟩ := Option.map_eq_some_iff.mp ih
        obtain ⟨rfl, rfl⟩ := Prod.mk.inj h7
        refine ⟨t0, t0 + total as (k + 1), _, _, si, by simp [h4], h2, ?_, by omega⟩
        rw [hcalls k _ _ _ h2 (by omega), h8]
        simp
        omega
  have hin : ∀ (k : Nat) i, s.inners[k]? = some i → k < as.length ∧
      (timers i.1 i.2.1).calls i.2.2 = [(.next 0, t0 + total as (k + 1)), (.completed, t0 + total as (k + 1))] := by
    rintro k ⟨a, u, si⟩ hk
    have h1 := hsub k
    rw [subs, List.getElem?_map, hk] at h1
    obtain ⟨a', h4, h5⟩ := Option.map_eq_some_iff.mp h1.symm
    obtain ⟨rfl, rfl⟩ := Prod.mk.inj h5
    obtain ⟨hlt, -⟩ := List.getElem?_eq_some_iff.mp h4
    have h8 := total_succ h4
    have h9 : total as (k + 1) ≤ total as as.length := total_mono (by omega)
    refine ⟨hlt, ?_⟩
    rw [hcalls k _ _ _ hk (by omega), h8, Nat.add_assoc]
  have hlen : s.inners.length = as.length := by
    have h1 : subs s = List.mapIdx (fun k a => (a, t0 + total as k)) as := List.ext_getElem? fun k => by
      rw [hsub, List.getElem?_mapIdx]
    simpa [subs] using congrArg List.length h1
  have hflat : (s.inners.flatMap fun i => noDone ((timers i.1 i.2.1).calls i.2.2)) = (List.range as.length).map (fun k => (.next 0, t0 + total as (k + 1))) := by
    rw [← range_inners (b := 0) (f := fun k => [((.next 0 : Notif Nat), t0 + total as (k + 1))]) fun k i hk => by rw [(hin k i hk).2]; rfl]
    rw [hlen, ← List.map_eq_flatMap]
  rw [hflat] at horder
  have hupto : ∀ {t : Nat} {c : Nat}, c ≤ t → (Notif.completed, c) ∈ s.posts → Notif.completed ∈ upto t s.posts := fun hct hm =>
    List.mem_map.mpr ⟨_, List.mem_filter.mpr ⟨hm, by simpa using hct⟩, rfl⟩
  have hsrc : ∀ t, (story (upto t (o.calls s.outer))).fin = .done ↔ t0 ≤ t := by
    intro t
    by_cases ht : t0 ≤ t
    · rw [has, upto_all (by intro c hc; simp at hc; rcases hc with ⟨_, _, rfl⟩ | rfl <;> exact ht)]
      simp only [List.map_append, List.map_map, Function.comp_def, List.map_cons, List.map_nil, ht, iff_true]
      exact congrArg Story.fin (story_events ⟨as, .done⟩)
    · rw [has, upto_none (by intro c hc; simp at hc; rcases hc with ⟨_, _, rfl⟩ | rfl <;> dsimp only <;> omega)]
      simp [ht]
  have hone : ∀ t u, (story (upto t [((.next 0 : Notif Nat), u), (.completed, u)])).fin = .done ↔ u ≤ t := by
    intro t u
    by_cases ht : u ≤ t <;> simp [upto, ht]
  have hd : ∀ t, Notif.completed ∈ upto t s.posts ↔ t0 + total as as.length ≤ t := by
    intro t
    rw [hdone, hsrc]
    constructor
    · rintro ⟨h1, h2⟩
      cases hk : as.length with
      | zero => simp [total, h1]
      | succ n =>
        have h3 : s.inners[n]? = some s.inners[n] := List.getElem?_eq_getElem (by omega)
        have h4 := h2 _ (List.mem_of_getElem? h3)
        rw [(hin _ _ h3).2, hone] at h4
        exact h4
    · intro h1
      refine ⟨by omega, fun i hi => ?_⟩
      obtain ⟨k, hk⟩ := List.getElem?_of_mem hi
      obtain ⟨h2, h3⟩ := hin k i hk
      rw [h3, hone]
      have := total_mono (as := as) (show k + 1 ≤ as.length from h2)
      omega
  rcases C112_last hpr (by omega) hr with h1 | ⟨c, h1⟩
  · have h2 := (hd _).mpr (Nat.le_refl _)
    rw [h1, horder] at h2
    obtain ⟨⟨n, t⟩, h2, rfl⟩ := List.mem_map.mp h2
    obtain ⟨k, -, h3⟩ := List.mem_map.mp (List.mem_filter.mp h2).1
    cases h3
  · rw [horder] at h1
    have h2 : ∀ t, Notif.completed ∈ upto t s.posts ↔ c ≤ t := by
      intro t
      rw [h1]
      simp [upto]
    have h3 := (h2 _).symm.trans (hd c)
    have h4 := (h2 _).symm.trans (hd (t0 + total as as.length))
    rw [h1, show c = t0 + total as as.length by omega]

/-- C113 for the observer of a `concat` of timers. -/
theorem C113_timers_observed {o : Clocked SO LO Int} (ho : o.Lawful)
    (hg : ∀ ls s, LTS.run o.step o.init ls = some s → Grammar ((o.calls s).map (·.1))) {ls s}
    (hr : LTS.run ((o.merged timers 1).operate (Operator.id (α := Nat)).protected.slowProc).step ((o.merged timers 1).operate (Operator.id (α := Nat)).protected.slowProc).init ls = some s)
    (hp : ((o.merged timers 1).operate (Operator.id (α := Nat)).protected.slowProc).Prompt
      (fun s => Merge.Settled s.1.prod ∧ (Operator.id (α := Nat)).protected.slowProc.Quiescent s.2.ps) ls)
    (hqu : (Operator.id (α := Nat)).protected.slowProc.Quiescent s.2.ps)
    (hc : Calm o (Clocked.sources ls) s.1) (hq : Merge.Settled s.1.prod) (hu : Undisturbed (Clocked.sources ls))
    {as : List Int} {t0 : Nat} (has : o.calls s.1.outer = as.map (fun a => (.next a, t0)) ++ [(.completed, t0)])
    (hlate : t0 + total as as.length < o.now s.1.outer) :
    s.2.sent = (List.range as.length).map (fun k => (.next 0, t0 + total as (k + 1))) ++ [(.completed, t0 + total as as.length)] := by
  obtain ⟨h1, h2, h3, h4⟩ := C112_observed (timers_proper ho hg) (merge_starts 1) id_computes rfl (rest := fun s => Merge.Settled s.prod) hr hp hqu
  have h5 := C113_timers ho hg h1 h2 hc hq hu has hlate
  obtain ⟨h6, -⟩ := C112_arrive (timers_proper ho hg) h1
  have h7 : Grammar (s.1.posts.map (·.1)) := by
    refine ⟨⟨List.replicate as.length 0, .done⟩, ?_⟩
    rw [h5]
    simp [Story.events, Function.comp_def, List.map_const']
  rw [← h5]
  refine Spec.Timed.ext h3 h6 fun t => ?_
  rw [h4]
  exact cut_of_grammar (grammar_prefix (upto_prefix h6) h7)

/-- An inner observable is disposed only once the source has sent the next one. -/
def Replaced (o : Clocked SO LO ω) (fam : ω → Nat → Clocked Interval.State Interval.Label α) (ls : List (Time (Nested.Label LO Interval.Label ω α))) : Prop :=
  ∀ ls₁ i ls₂ s₁, ls = ls₁ ++ Time.act (.inner i .dispose) :: ls₂ →
    LTS.run (o.switched fam true).step (o.switched fam true).init ls₁ = some s₁ → i + 1 < (valuesAt (o.calls s₁.outer)).length

theorem switched_member {o : Clocked SO LO ω} (f : ω → Int × Int) (ho : o.Lawful)
    (hg : ∀ ls s, LTS.run o.step o.init ls = some s → Grammar ((o.calls s).map (·.1))) {ls s}
    (hr : LTS.run (o.switched (intervals f) true).step (o.switched (intervals f) true).init ls = some s)
    (hp : (o.switched (intervals f) true).Prompt (fun s => Switch.Settled s.prod) ls) (hf : NoFailure ls)
    (hq : Switch.Settled s.prod) (hne : ∀ x ∈ valuesAt (o.calls s.outer), (f x.1).2 ≠ 0) (hrep : Replaced o (intervals f) ls) (hnr : ∀ k e, Time.act (.inner k (.raise e)) ∉ ls)
    {i k : Nat} {x : ω} {w : Nat} {si} (h1 : s.inners[i]? = some (x, w, si)) (hnow : Interval.due w (f x).1 (f x).2 k < o.now s.outer)
    (hnext : ∀ y v, (valuesAt (o.calls s.outer))[i + 1]? = some (y, v) → Interval.due w (f x).1 (f x).2 k < v) :
    (.next k, Interval.due w (f x).1 (f x).2 k) ∈ (intervals f x w).calls si := by
  have hpr := intervals_proper f ho hg
  have hsub := C114_subscribed hpr hr hp hf hq
  obtain ⟨h, hpast⟩ := past hpr.source hpr.inner (switch_starts true) hr
  have hi : (valuesAt (o.calls s.outer))[i]? = some (x, w) := by rw [← hsub, subs, List.getElem?_map, h1]; rfl
  have hv := hne _ (List.mem_of_getElem? hi)
  dsimp only at hv
  have key : ∀ {ls₁ : List (Time (Nested.Label LO Interval.Label ω Nat))} {s₁ si₁ li}, LTS.run (intervals f x w).step (intervals f x w).init li = some si₁ →
      (∀ l, Time.act l ∈ li → Time.act (.inner i l) ∈ ls₁) → (∀ l, l ∈ ls₁ → l ∈ ls) → (Time.act (.inner i .dispose)) ∉ ls₁ →
      (intervals f x w).now si₁ = o.now s₁ → Interval.due w (f x).1 (f x).2 k < o.now s₁ →
      (Notif.next k, Interval.due w (f x).1 (f x).2 k) ∈ (intervals f x w).calls si₁ := by
    intro ls₁ s₁ si₁ li hli hli' hsub' hnd hnow' hlt
    obtain ⟨m, hm', hall⟩ := Interval.clocked_exact hv hli
    have hk := hall (fun hd => hnd (hli' _ hd)) (fun e he => hnr i e (hsub' _ (hli' _ he))) k (by
      have : si₁.now = o.now s₁ := hnow'
      rw [this]; exact hlt)
    rw [show (intervals f x w).calls si₁ = _ from hm']
    exact List.mem_map.mpr ⟨k, List.mem_range.mpr hk, rfl⟩
  by_cases hd : Time.act (.inner i .dispose) ∈ ls
  · obtain ⟨ls₁, ls₂, hls, hfirst⟩ := List.eq_append_cons_of_mem hd
    rw [hls] at hr
    obtain ⟨s₁, hr₁, hr₂⟩ := LTS.run_append.mp hr
    obtain ⟨h₁, hpast₁⟩ := past hpr.source hpr.inner (switch_starts true) hr₁
    obtain ⟨h₂, new, hpast₂, -, hnew, -⟩ := past_more hpr.source hpr.inner (switch_starts true) hpast₁ hr₂
    have hrep₁ := hrep ls₁ i ls₂ s₁ hls hr₁
    have hpre : valuesAt (o.calls s₁.outer) <+: valuesAt (o.calls s.outer) := by
      rw [← hpast₁.outer, ← hpast₂.outer, outersAt_append, valuesAt, valuesAt, List.filterMap_append]
      exact List.prefix_append ..
    obtain ⟨⟨y, v⟩, hyv⟩ : ∃ y, (valuesAt (o.calls s₁.outer))[i + 1]? = some y := ⟨_, List.getElem?_eq_getElem hrep₁⟩
    have hvlt := hnext y v (by
      obtain ⟨r, hr⟩ := hpre
      rw [← hr, List.getElem?_append_left hrep₁]; exact hyv)
    have hvnow : v ≤ o.now s₁.outer := by
      have h3 := mem_values.mp (List.mem_of_getElem? hyv)
      rw [← hpast₁.outer] at h3
      obtain ⟨c, hc, hcv⟩ := mem_outersAt h3
      have := hpast₁.time.2 c hc
      dsimp only at hcv
      omega
    have hex : ∃ z, s₁.inners[i]? = some z := by
      obtain ⟨s₂, h3, -⟩ := LTS.run_cons.mp hr₂
      cases hz : s₁.inners[i]? with
      | some z => exact ⟨z, rfl⟩
      | none =>
        have h4 : (o.switched (intervals f) true).act s₁ (.inner i .dispose) = some s₂ := h3
        simp [Clocked.switched, Clocked.nested, hz] at h4
    obtain ⟨⟨z, w₁, si₁⟩, hz⟩ := hex
    have hzw : z = x ∧ w₁ = w := by
      have h3 : (s.inners.map fun i => (i.1, i.2.1))[i]? = some (x, w) := by rw [List.getElem?_map, h1]; rfl
      have h4 : (s₁.inners.map fun i => (i.1, i.2.1))[i]? = some (z, w₁) := by rw [List.getElem?_map, hz]; rfl
      obtain ⟨h5, -⟩ := List.getElem?_eq_some_iff.mp h4
      rw [hnew, List.getElem?_append_left h5, h4] at h3
      exact Prod.mk.inj (Option.some.inj h3)
    obtain ⟨rfl, rfl⟩ := hzw
    obtain ⟨⟨li, hli, hli'⟩, hnow'⟩ := hpast₁.sources i _ _ _ hz
    have hmem₁ := key hli hli' (fun l hl => by rw [hls]; exact List.mem_append_left _ hl) hfirst hnow' (by omega)
    rw [← hpast₁.inner i _ _ _ hz] at hmem₁
    rw [← hpast₂.inner i _ _ _ h1, innersAt_append]
    exact List.mem_append_left _ hmem₁
  · obtain ⟨⟨li, hli, hli'⟩, hnow'⟩ := hpast.sources i _ _ _ h1
    exact key hli hli' (fun _ h => h) hd hnow' hnow

/-- C114, `switch_latest` of intervals: what is sent is what the intervals are due to send until the source sends the next one. -/
theorem C114_intervals {o : Clocked SO LO ω} (f : ω → Int × Int) (ho : o.Lawful)
    (hg : ∀ ls s, LTS.run o.step o.init ls = some s → Grammar ((o.calls s).map (·.1))) {ls s}
    (hr : LTS.run (o.switched (intervals f) true).step (o.switched (intervals f) true).init ls = some s)
    (hp : (o.switched (intervals f) true).Prompt (fun s => Switch.Settled s.prod) ls) (hf : NoFailure ls) (he : ∀ e t, (.error e, t) ∉ o.calls s.outer)
    (hq : Switch.Settled s.prod) (hne : ∀ x ∈ valuesAt (o.calls s.outer), (f x.1).2 ≠ 0) :
    (∀ k t, (.next k, t) ∈ s.posts → ∃ (i : Nat) (x : ω) (u : Nat), (valuesAt (o.calls s.outer))[i]? = some (x, u) ∧ t = Interval.due u (f x).1 (f x).2 k ∧
      ∀ y v, (valuesAt (o.calls s.outer))[i + 1]? = some (y, v) → t ≤ v) ∧
    (Replaced o (intervals f) ls → (∀ k e, Time.act (.inner k (.raise e)) ∉ ls) → ∀ (i k : Nat) (x : ω) (u : Nat),
      (valuesAt (o.calls s.outer))[i]? = some (x, u) → Interval.due u (f x).1 (f x).2 k < o.now s.outer →
      (∀ y v, (valuesAt (o.calls s.outer))[i + 1]? = some (y, v) → Interval.due u (f x).1 (f x).2 k < v) → (.next k, Interval.due u (f x).1 (f x).2 k) ∈ s.posts) := by
  have hpr := intervals_proper f ho hg
  have hsub := C114_subscribed hpr hr hp hf hq
  obtain ⟨horder, hwin⟩ := C114_in_order hpr hr he
  obtain ⟨h, hpast⟩ := past hpr.source hpr.inner (switch_starts true) hr
  refine ⟨fun k t hm => ?_, fun hrep hnr i k x u hi hnow hnext => ?_⟩
  · have h1 : (Notif.next k, t) ∈ noDone s.posts := List.mem_filter.mpr ⟨hm, rfl⟩
    rw [horder] at h1
    obtain ⟨⟨x, u, si⟩, h2, h3⟩ := List.mem_flatMap.mp h1
    obtain ⟨i, hi⟩ := List.getElem?_of_mem h2
    obtain ⟨⟨li, hli, -⟩, -⟩ := hpast.sources i _ _ _ hi
    have hv : (valuesAt (o.calls s.outer))[i]? = some (x, u) := by rw [← hsub, subs, List.getElem?_map, hi]; rfl
    obtain ⟨m, hm', -⟩ := Interval.clocked_exact (hne _ (List.mem_of_getElem? hv)) hli
    have h4 := (List.mem_filter.mp h3).1
    have h5 := h4
    rw [show (intervals f x u).calls si = _ from hm'] at h5
    obtain ⟨j, -, hj⟩ := List.mem_map.mp h5
    cases hj
    refine ⟨i, x, u, hv, rfl, fun y v hx => ?_⟩
    rw [← hsub, subs, List.getElem?_map] at hx
    obtain ⟨⟨y, w, sj⟩, h6, h7⟩ := Option.map_eq_some_iff.mp hx
    obtain ⟨rfl, rfl⟩ := Prod.mk.inj h7
    exact (hwin i _ _ _ _ _ _ hi h6 _ h4).2 (by simp [Notif.kind])
  · have hi' := hi
    rw [← hsub, subs, List.getElem?_map] at hi'
    obtain ⟨⟨x, w, si⟩, h1, h2⟩ := Option.map_eq_some_iff.mp hi'
    obtain ⟨rfl, rfl⟩ := Prod.mk.inj h2
    have h2 : (Notif.next k, Interval.due w (f x).1 (f x).2 k) ∈ noDone s.posts := by
      rw [horder]
      exact List.mem_flatMap.mpr ⟨_, List.mem_of_getElem? h1, List.mem_filter.mpr ⟨switched_member f ho hg hr hp hf hq hne hrep hnr h1 hnow hnext, rfl⟩⟩
    exact (List.mem_filter.mp h2).1

/-- C114: the same with the number and the order of the values: of each interval the first `n` values have been sent, each once, one interval after the other, and `n` is what is due
before the next one comes. -/
theorem C114_intervals_exact {o : Clocked SO LO ω} (f : ω → Int × Int) (ho : o.Lawful)
    (hg : ∀ ls s, LTS.run o.step o.init ls = some s → Grammar ((o.calls s).map (·.1))) {ls s}
    (hr : LTS.run (o.switched (intervals f) true).step (o.switched (intervals f) true).init ls = some s)
    (hp : (o.switched (intervals f) true).Prompt (fun s => Switch.Settled s.prod) ls) (hf : NoFailure ls) (he : ∀ e t, (.error e, t) ∉ o.calls s.outer)
    (hq : Switch.Settled s.prod) (hne : ∀ x ∈ valuesAt (o.calls s.outer), (f x.1).2 ≠ 0) :
    ∃ ns : List Nat, ns.length = (valuesAt (o.calls s.outer)).length ∧
      (noDone s.posts = ((valuesAt (o.calls s.outer)).zip ns).flatMap fun i =>
        (List.range i.2).map fun k => (.next k, Interval.due i.1.2 (f i.1.1).1 (f i.1.1).2 k)) ∧
      (∀ (i : Nat) x u n, ((valuesAt (o.calls s.outer)).zip ns)[i]? = some ((x, u), n) → ∀ k < n, ∀ y v, (valuesAt (o.calls s.outer))[i + 1]? = some (y, v) →
        Interval.due u (f x).1 (f x).2 k ≤ v) ∧
      (Replaced o (intervals f) ls → (∀ k e, Time.act (.inner k (.raise e)) ∉ ls) → ∀ (i : Nat) x u n, ((valuesAt (o.calls s.outer)).zip ns)[i]? = some ((x, u), n) →
        ∀ k, Interval.due u (f x).1 (f x).2 k < o.now s.outer →
          (∀ y v, (valuesAt (o.calls s.outer))[i + 1]? = some (y, v) → Interval.due u (f x).1 (f x).2 k < v) → k < n) := by
  have hpr := intervals_proper f ho hg
  have hsub := C114_subscribed hpr hr hp hf hq
  obtain ⟨horder, hwin⟩ := C114_in_order hpr hr he
  obtain ⟨h, hpast⟩ := past hpr.source hpr.inner (switch_starts true) hr
  have hz : (valuesAt (o.calls s.outer)).zip (s.inners.map fun i => ((intervals f i.1 i.2.1).calls i.2.2).length) =
      s.inners.map fun i => ((i.1, i.2.1), ((intervals f i.1 i.2.1).calls i.2.2).length) := by
    rw [← hsub, subs, List.zip_map']
  have hexact : ∀ i ∈ s.inners, (intervals f i.1 i.2.1).calls i.2.2 =
      (List.range ((intervals f i.1 i.2.1).calls i.2.2).length).map fun k => (.next k, Interval.due i.2.1 (f i.1).1 (f i.1).2 k) := by
    rintro ⟨x, u, si⟩ hi
    obtain ⟨k, hk⟩ := List.getElem?_of_mem hi
    obtain ⟨⟨li, hli, hli'⟩, hnow⟩ := hpast.sources k _ _ _ hk
    obtain ⟨m, hm', -⟩ := Interval.clocked_exact (hne (x, u) (by rw [← hsub]; exact List.mem_map.mpr ⟨_, hi, rfl⟩)) hli
    have hm' : (intervals f x u).calls si = _ := hm'
    have hlen : ((intervals f x u).calls si).length = m := by rw [hm']; simp
    dsimp only
    rw [hlen]
    exact hm'
  refine ⟨s.inners.map fun i => ((intervals f i.1 i.2.1).calls i.2.2).length, by rw [← hsub]; simp [subs], ?_, fun i x u n hi k hk y v hy => ?_, fun hrep hnr i x u n hi k hk hv => ?_⟩
  · rw [hz, List.flatMap_map, horder, List.flatMap_def, List.flatMap_def]
    refine congrArg List.flatten (List.map_congr_left fun i hi => ?_)
    conv => lhs; rw [hexact i hi, noDone]
    rw [List.filter_eq_self.mpr]
    intro c hc
    obtain ⟨k, -, rfl⟩ := List.mem_map.mp hc
    rfl
  · rw [hz, List.getElem?_map] at hi
    obtain ⟨⟨x', u', si⟩, h1, h2⟩ := Option.map_eq_some_iff.mp hi
    obtain ⟨h3, h4⟩ := Prod.mk.inj h2
    obtain ⟨rfl, rfl⟩ := Prod.mk.inj h3
    rw [← hsub, subs, List.getElem?_map] at hy
    obtain ⟨⟨y', w, sj⟩, h6, h7⟩ := Option.map_eq_some_iff.mp hy
    obtain ⟨rfl, rfl⟩ := Prod.mk.inj h7
    refine (hwin i _ _ _ _ _ _ h1 h6 (.next k, _) ?_).2 (by simp [Notif.kind])
    rw [hexact _ (List.mem_of_getElem? h1)]
    exact List.mem_map.mpr ⟨k, List.mem_range.mpr (by rw [h4]; exact hk), rfl⟩
  · rw [hz, List.getElem?_map] at hi
    obtain ⟨⟨x', u', si⟩, h1, h2⟩ := Option.map_eq_some_iff.mp hi
    obtain ⟨h3, h4⟩ := Prod.mk.inj h2
    obtain ⟨rfl, rfl⟩ := Prod.mk.inj h3
    have h5 := switched_member f ho hg hr hp hf hq hne hrep hnr h1 hk hv
    rw [hexact _ (List.mem_of_getElem? h1)] at h5
    obtain ⟨j, hj, hje⟩ := List.mem_map.mp h5
    have := Notif.next.inj (Prod.mk.inj hje).1
    rw [← h4, ← this]
    exact List.mem_range.mp hj

/-! ## Something without timers as a source -/

theorem _root_.Aio.Source.clocked_lawful (q : Source S LO α) (t0 : Nat) : (q.clocked t0).Lawful where
  init := rfl
  act {ls s l t} _ h := by
    obtain ⟨s', -, rfl⟩ := Option.map_eq_some_iff.mp h
    exact ⟨rfl, _, rfl⟩
  pass {ls s d t} _ h := by cases h; exact ⟨rfl, rfl⟩

/-- What it sends is what it sends without a clock. -/
theorem _root_.Aio.Source.Grows.clocked_run {q : Source S LO α} (hq : q.Grows) {t0 : Nat} {ls s} (hr : LTS.run (q.clocked t0).step (q.clocked t0).init ls = some s) :
    (∃ ms, LTS.run q.step q.init ms = some s.1) ∧ ((q.clocked t0).calls s).map (·.1) = q.out s.1 := by
  refine LTS.inv_hist (fun _ (s : S × Nat × List (Notif α × Nat)) => (∃ ms, LTS.run q.step q.init ms = some s.1) ∧ ((q.clocked t0).calls s).map (·.1) = q.out s.1)
    (s0 := (q.clocked t0).init) ⟨⟨[], rfl⟩, hq.init.symm⟩ ?_ hr
  rintro ls s l t ⟨⟨ms, h1⟩, h2⟩ hs
  cases l with
  | pass d => cases hs; exact ⟨⟨ms, h1⟩, h2⟩
  | act l =>
    obtain ⟨s', h3, rfl⟩ := Option.map_eq_some_iff.mp (show (q.clocked t0).act s l = some t from hs)
    refine ⟨⟨ms ++ [l], LTS.run_append.mpr ⟨_, h1, LTS.run_cons.mpr ⟨_, h3, rfl⟩⟩⟩, ?_⟩
    simp only [Source.clocked] at h2 ⊢
    rw [List.map_append, h2, List.map_map, ← hq.drop h3]
    simp [Function.comp_def]

/-- `of_seq`, subscribed at time `t0`. -/
abbrev ofSeqAt (t0 : Nat) (xs : List α) := (ofSeq true xs none).source.clocked t0

theorem ofSeq_lawful (t0 : Nat) (xs : List α) : (ofSeqAt t0 xs).Lawful := Source.clocked_lawful _ t0

theorem ofSeq_grammar {t0 : Nat} {xs : List α} : ∀ ls s, LTS.run (ofSeqAt t0 xs).step (ofSeqAt t0 xs).init ls = some s →
    Grammar (((ofSeqAt t0 xs).calls s).map (·.1)) := by
  intro ls s hr
  obtain ⟨⟨ms, h1⟩, h2⟩ := (Producer.source_grows (ofSeq true xs none)).clocked_run hr
  rw [h2]
  have hw : Grammar (ofSeqWorker xs none false).out := by
    rw [ofSeqWorker_posts]
    exact ⟨⟨xs, .done⟩, by simp [Story.events]⟩
  have h3 : (s.1.1.fresh = true → s.1.2 = []) ∧ Grammar s.1.2 := by
    refine LTS.inv (step := (ofSeq true xs none).source.step) (fun c : OneShot × List (Notif α) => (c.1.fresh = true → c.2 = []) ∧ Grammar c.2)
      (s0 := (ofSeq true xs none).source.init) ⟨fun _ => rfl, ⟨⟨[], .running⟩, rfl⟩⟩ ?_ h1
    rintro ⟨⟨f, c⟩, out⟩ l t ⟨i1, i2⟩ hs
    cases l with
    | none => cases hs; exact ⟨i1, i2⟩
    | some l =>
      cases f with
      | false => simp [Producer.source, ofSeq, oneShot] at hs
      | true =>
        dsimp only at i1 i2
        obtain rfl := i1 rfl
        cases c <;> simp [Producer.source, ofSeq, oneShot] at hs <;> subst hs
        · exact ⟨fun h => (by cases h), hw⟩
        · exact ⟨fun h => (by cases h), i2⟩
  exact h3.2

/-! ## Examples -/

section Examples
local notation "out" => Time.act (Nested.Label.outer (some ()))
local notation "recv" => Time.act (Nested.Label.own Merge.Label.receive)
local notation "subd" => Time.act (Nested.Label.own Merge.Label.subscribed)
local notation "disd" => Time.act (Nested.Label.own Merge.Label.disposed)
local notation "src" => fun l => Time.act (Nested.Label.outer l)
local notation "inn" => fun k l => Time.act (Nested.Label.inner k l)

/-- `merge` of `interval(1, 2)` and `interval(2, 2)` -/
abbrev demoMerge := (ofSeqAt 5 [((1 : Int), (2 : Int)), (2, 2)]).merged (intervals id) 0
abbrev demoMergeRun : List (Time (Nested.Label (Option Unit) Interval.Label (Int × Int) Nat)) :=
  [out, recv, subd, recv, subd, inn 0 .start, inn 1 .start, recv, .pass 1, inn 0 .wake, inn 0 .ret, .pass 1, inn 1 .wake, inn 1 .ret, .pass 1,
   inn 0 .wake, inn 0 .ret, .pass 1]

theorem run_any {c : Clocked S LO α} {ls : List (Time LO)} {P : S → Bool} (h : (LTS.run c.step c.init ls).any P = true) :
    ∃ s, LTS.run c.step c.init ls = some s ∧ P s = true := by
  cases hr : LTS.run c.step c.init ls with
  | none => rw [hr] at h; cases h
  | some s => rw [hr] at h; exact ⟨s, rfl, h⟩

/-- Something holds of each step of a run, and of the state before. -/
def along {S L : Type} (step : S → L → Option S) (P : S → L → Bool) : S → List L → Bool
  | _, [] => true
  | s, l :: ls => P s l && match step s l with | some t => along step P t ls | none => true

theorem along_at {S L : Type} {step : S → L → Option S} {P : S → L → Bool} {l : L} {ls₂ : List L} : ∀ {ls₁ : List L} {s s₁ : S}, along step P s (ls₁ ++ l :: ls₂) = true →
    LTS.run step s ls₁ = some s₁ → P s₁ l = true := by
  intro ls₁
  induction ls₁ with
  | nil =>
    intro s s₁ h hr
    cases hr
    rw [List.nil_append, along, Bool.and_eq_true] at h
    exact h.1
  | cons l' ls₁ ih =>
    intro s s₁ h hr
    obtain ⟨t, h1, h2⟩ := LTS.run_cons.mp hr
    rw [List.cons_append, along, Bool.and_eq_true, h1] at h
    exact ih h.2 h2

def settled (s : Merge.State ω) : Bool := match s.pc with | .halted => true | .waiting => s.inbox.isEmpty | _ => false
theorem settled_of {s : Merge.State ω} (h : settled s = true) : Merge.Settled s := by
  rw [settled] at h
  split at h
  · exact .inl ‹_›
  · exact .inr ⟨‹_›, List.isEmpty_iff.mp h⟩
  · cases h
def switchSettled (s : Switch.State ω) : Bool := match s.pc with | .halted => true | .waiting => s.inbox.isEmpty | _ => false
theorem switchSettled_of {s : Switch.State ω} (h : switchSettled s = true) : Switch.Settled s := by
  rw [switchSettled] at h
  split at h
  · exact .inl ‹_›
  · exact .inr ⟨‹_›, List.isEmpty_iff.mp h⟩
  · cases h

example : ∃ s, LTS.run demoMerge.step demoMerge.init demoMergeRun = some s ∧ demoMerge.Prompt (fun s => Merge.Settled s.prod) demoMergeRun ∧
    Calm (ofSeqAt 5 [((1 : Int), (2 : Int)), (2, 2)]) demoMergeRun s ∧ Merge.Settled s.prod ∧ Undisturbed demoMergeRun ∧
    valuesAt ((ofSeqAt 5 [((1 : Int), (2 : Int)), (2, 2)]).calls s.outer) = [((1, 2), 5), ((2, 2), 5)] ∧
    s.posts = [(.next 0, 6), (.next 0, 7), (.next 1, 8)] ∧ demoMerge.now s = 9 := by
  obtain ⟨s, hs, h⟩ := run_any (c := demoMerge) (ls := demoMergeRun)
    (P := fun s => settled s.prod && s.posts == [(.next 0, 6), (.next 0, 7), (.next 1, 8)] && demoMerge.now s == 9 &&
      (ofSeqAt 5 [((1 : Int), (2 : Int)), (2, 2)]).calls s.outer == [(.next (1, 2), 5), (.next (2, 2), 5), (.completed, 5)]) (by decide +kernel)
  simp only [Bool.and_eq_true, beq_iff_eq] at h
  obtain ⟨⟨⟨h1, h2⟩, h3⟩, h4⟩ := h
  exact ⟨s, hs, Clocked.Prompt.of_rests (idle := fun s : Nested _ _ _ _ _ => settled s.prod) (fun _ => settled_of) (by decide +kernel),
    ⟨by simp [NoFailure], by simp, by rw [h4]; simp⟩, settled_of h1, by simp [Undisturbed], by rw [h4]; rfl, h2, h3⟩

/-- `concat` of `timer(2)`, `timer(0)` and `timer(3)` -/
abbrev demoConcat := (ofSeqAt 5 [2, 0, (3 : Int)]).merged timers 1
abbrev demoConcatRun : List (Time (Nested.Label (Option Unit) Interval.Label Int Nat)) :=
  [out, recv, subd, recv, recv, recv, inn 0 .start, .pass 2, inn 0 .wake, inn 0 .ret, recv, subd, inn 0 .ret, inn 1 .start, inn 1 .wake, inn 1 .ret, recv, subd,
   inn 1 .ret, inn 2 .start, .pass 3, inn 2 .wake, inn 2 .ret, recv, inn 2 .ret, .pass 1]

example : ∃ s, LTS.run demoConcat.step demoConcat.init demoConcatRun = some s ∧ demoConcat.Prompt (fun s => Merge.Settled s.prod) demoConcatRun ∧
    Calm (ofSeqAt 5 [2, 0, (3 : Int)]) demoConcatRun s ∧ Merge.Settled s.prod ∧ Undisturbed demoConcatRun ∧
    (ofSeqAt 5 [2, 0, (3 : Int)]).calls s.outer = [2, 0, 3].map (fun a => (.next a, 5)) ++ [(.completed, 5)] ∧ demoConcat.now s = 11 ∧
    s.posts = [(.next 0, 7), (.next 0, 7), (.next 0, 10), (.completed, 10)] := by
  obtain ⟨s, hs, h⟩ := run_any (c := demoConcat) (ls := demoConcatRun)
    (P := fun s => settled s.prod && demoConcat.now s == 11 &&
      (ofSeqAt 5 [2, 0, (3 : Int)]).calls s.outer == [(.next 2, 5), (.next 0, 5), (.next 3, 5), (.completed, 5)]) (by decide +kernel)
  simp only [Bool.and_eq_true, beq_iff_eq] at h
  obtain ⟨⟨h1, h3⟩, h4⟩ := h
  have hp : demoConcat.Prompt (fun s => Merge.Settled s.prod) demoConcatRun :=
    Clocked.Prompt.of_rests (idle := fun s : Nested _ _ _ _ _ => settled s.prod) (fun _ => settled_of) (by decide +kernel)
  have hc : Calm (ofSeqAt 5 [2, 0, (3 : Int)]) demoConcatRun s := ⟨by simp [NoFailure], by simp, by rw [h4]; simp⟩
  have hu : Undisturbed demoConcatRun := by simp [Undisturbed]
  refine ⟨s, hs, hp, hc, settled_of h1, hu, by rw [h4]; rfl, h3, ?_⟩
  exact C113_timers (ofSeq_lawful 5 _) ofSeq_grammar hs hp hc (settled_of h1) hu (as := [2, 0, 3]) (by rw [h4]; rfl) (by rw [show (ofSeqAt 5 [2, 0, (3 : Int)]).now s.outer = 11 from h3]; decide)

/-- `switch_latest`: for each value of `interval(1, 3)` an `interval(1, 1)` -/
abbrev demoSwitch := (Interval.clocked true 0 1 3).switched (intervals fun _ => (1, 1)) true
abbrev demoSwitchRun : List (Time (Nested.Label Interval.Label Interval.Label Nat Nat)) :=
  [src .start, .pass 1, src .wake, src .ret, recv, subd, inn 0 .start, .pass 1, inn 0 .wake, inn 0 .ret, .pass 1, inn 0 .wake, inn 0 .ret, .pass 1,
   src .wake, src .ret, recv, inn 0 .dispose, disd, subd, inn 0 .thrown, inn 1 .start, .pass 1, inn 1 .wake, inn 1 .ret]

example : ∃ s, LTS.run demoSwitch.step demoSwitch.init demoSwitchRun = some s ∧ demoSwitch.Prompt (fun s => Switch.Settled s.prod) demoSwitchRun ∧
    NoFailure demoSwitchRun ∧ Switch.Settled s.prod ∧ Replaced (Interval.clocked true 0 1 3) (intervals fun _ => (1, 1)) demoSwitchRun ∧
    valuesAt ((Interval.clocked true 0 1 3).calls s.outer) = [(0, 1), (1, 4)] ∧ demoSwitch.now s = 5 ∧
    s.posts = [(.next 0, 2), (.next 1, 3), (.next 0, 5)] := by
  obtain ⟨s, hs, h⟩ := run_any (c := demoSwitch) (ls := demoSwitchRun)
    (P := fun s => switchSettled s.prod && demoSwitch.now s == 5 && (Interval.clocked true 0 1 3).calls s.outer == [(.next 0, 1), (.next 1, 4)] &&
      s.posts == [(.next 0, 2), (.next 1, 3), (.next 0, 5)]) (by decide +kernel)
  simp only [Bool.and_eq_true, beq_iff_eq] at h
  obtain ⟨⟨⟨h1, h2⟩, h3⟩, h4⟩ := h
  refine ⟨s, hs, Clocked.Prompt.of_rests (idle := fun s : Nested _ _ _ _ _ => switchSettled s.prod) (fun _ => switchSettled_of) (by decide +kernel), by simp [NoFailure],
    switchSettled_of h1, ?_, by rw [h3]; rfl, h2, h4⟩
  intro ls₁ i ls₂ s₁ hls hr
  have h5 : along demoSwitch.step (fun s l => match l with
    | .act (.inner i .dispose) => decide (i + 1 < (valuesAt ((Interval.clocked true 0 1 3).calls s.outer)).length)
    | _ => true) demoSwitch.init demoSwitchRun = true := by decide +kernel
  rw [hls] at h5
  have h6 := along_at h5 hr
  exact of_decide_eq_true h6

end Examples

end Nested
end Aio
