import Verif.Lemmas.Shared
import Verif.Props.C119_SearchBox
/-!
# C120: pipelines behind one subject, merged: each of them follows the subject on its own, exactly its delay behind
-/

namespace Aio
open Spec Spec.Timed Spec.Delay Spec.Shared Nested
variable {SO LO S SI LI ω α β ν : Type}

namespace Shared

theorem valuesAt_prefix {a b : List (Notif α × Nat)} (h : a <+: b) : valuesAt a <+: valuesAt b := h.filterMap _
theorem placed_sublist [DecidableEq ω] (x : ω) {a b : List (Notif (ω × β) × Nat)} (h : a.Sublist b) : (places x (valuesAt a)).Sublist (places x (valuesAt b)) :=
  (h.filterMap _).filterMap _
theorem placed_perm [DecidableEq ω] (x : ω) {a b : List (Notif (ω × β) × Nat)} (h : a.Perm b) : (places x (valuesAt a)).Perm (places x (valuesAt b)) :=
  (h.filterMap _).filterMap _

/-! ## one pipeline -/

section
variable {d : ω → Nat} {g : ω → ν → β} {x : ω} {t : Nat}

theorem delayed_lawful (n t : Nat) : ((Clocked.typed t : Clocked _ _ ν).through (Delay.stage true n)).Lawful :=
  Clocked.through_lawful (Clocked.typed_lawful t) (Delay.stage_lawful true n)

theorem delayed_run {n : Nat} {ls s} (hr : LTS.run ((Clocked.typed t : Clocked _ _ ν).through (Delay.stage true n)).step ((Clocked.typed t).through (Delay.stage true n)).init ls = some s) :
    OnlyValues (((Clocked.typed t).through (Delay.stage true n)).calls s) := by
  have h := (Delay.C107_exact (Clocked.typed_lawful t) n hr).1
  have hv := Clocked.typed_values t (Clocked.clocks (Clocked.typed_lawful t) (Delay.stage_lawful true n) hr).1
  intro c hc
  obtain ⟨c', hc', rfl⟩ := List.mem_map.mp (h.subset hc)
  exact hv c' hc'

theorem delayed_grammar {n : Nat} : ∀ ls s, LTS.run ((Clocked.typed t : Clocked _ _ ν).through (Delay.stage true n)).step ((Clocked.typed t).through (Delay.stage true n)).init ls = some s →
    Grammar ((((Clocked.typed t : Clocked _ _ ν).through (Delay.stage true n)).calls s).map (·.1)) := by
  intro ls s hr
  rw [(delayed_run hr).eq]
  exact ⟨⟨(valuesAt (((Clocked.typed t).through (Delay.stage true n)).calls s)).map (·.1), .running⟩, by simp [Story.events, End.events]⟩

theorem follower_lawful : (Clocked.follower d g x t).Lawful ∧ (Clocked.follower d g x t).now (Clocked.follower d g x t).init = t :=
  ⟨Clocked.operate_lawful (delayed_lawful _ _) _, rfl⟩

theorem follower_sent {ls s} (hr : LTS.run (Clocked.follower d g x t).step (Clocked.follower d g x t).init ls = some s) :
    s.2.sent = (valuesAt (((Clocked.typed t).through (Delay.stage true (d x))).calls s.1)).map fun c => (.next (x, g x c.1), c.2) := by
  have hq : ∀ ps, (map fun v : ν => .ok (x, g x v)).direct.proc.Quiescent ps := fun _ l => nomatch l
  have h := Clocked.operate_values (delayed_lawful (d x) t) (C27_map fun v => (x, g x v)).direct (F := fun cs => cs.map fun c => ((x, g x c.1), c.2)) rfl
    (fun cs u hi => ⟨by rw [InTime, List.pairwise_map]; exact hi, congrArg (Story.mk · .running) (upto_map (fun v => (x, g x v)) u cs).symm⟩) delayed_grammar hr (fun _ _ _ _ _ _ => hq _) (hq _)
    (delayed_run (Clocked.operate_source (delayed_lawful _ _) hr).1)
  rw [h, List.map_map]
  rfl

theorem follower_grammar : ∀ ls s, LTS.run (Clocked.follower d g x t).step (Clocked.follower d g x t).init ls = some s →
    Grammar (((Clocked.follower d g x t).calls s).map (·.1)) :=
  Clocked.operate_grammar (delayed_lawful (d x) t) (C27_map fun v => (x, g x v)).direct delayed_grammar

theorem follower_listens : Listens (Clocked.follower d g) move isMove (fun s => valuesAt s.1.1.2) where
  init _ _ := rfl
  give x t li s v s' _ h := by
    simp only [Clocked.follower, Clocked.operate, Clocked.through, move, Clocked.typed] at h
    split at h
    · cases h
    · next u hu =>
      obtain ⟨w, -, rfl⟩ := Option.map_eq_some_iff.mp hu
      cases h
      simp [valuesAt, Clocked.follower, Clocked.operate, Clocked.through, Clocked.typed]
  other x t s l s' hl h := by
    match l with
    | .inl (.inl v) => cases hl
    | .inl (.inr m) =>
      simp only [Clocked.follower, Clocked.operate, Clocked.through] at h
      split at h
      · cases h
      · next u hu =>
        split at hu
        · obtain ⟨w, -, rfl⟩ := Option.map_eq_some_iff.mp hu
          cases h
          rfl
        · cases hu
  pass x t s n s' h := by
    simp only [Clocked.follower, Clocked.operate, Clocked.through, Clocked.typed, Option.map_map, Option.map_eq_some_iff] at h
    obtain ⟨w, -, rfl⟩ := h
    rfl

/-- What one pipeline sends, given what it has got from the subject. -/
theorem follower_follows {ls s} (hr : LTS.run (Clocked.follower d g x t).step (Clocked.follower d g x t).init ls = some s)
    (hd : Time.act (.inl (.inr (.dispose 0))) ∉ ls) (hx : Time.act (.inl (.inr (.raise 0))) ∉ ls) :
    ∃ out, s.2.sent = out.map (fun c => (.next (x, c.1), c.2)) ∧ out <+: (valuesAt s.1.1.2).map (fun c => (g x c.1, c.2 + d x)) ∧
      ∀ (k : Nat) c, (valuesAt s.1.1.2)[k]? = some c → c.2 + d x < (Clocked.follower d g x t).now s → out[k]? = some (g x c.1, c.2 + d x) := by
  have r1 := (Clocked.operate_source (delayed_lawful _ _) hr).1
  have hm : ∀ l : Delay.Label ν, Time.act (.inl (.inr l)) ∉ ls → Time.act (Sum.inr l) ∉ Clocked.sources ls := by
    intro l hl h
    obtain ⟨y, hy, hye⟩ := List.mem_filterMap.mp h
    split at hye <;> cases hye
    exact hl hy
  obtain ⟨h1, h2⟩ := Delay.C107_exact (Clocked.typed_lawful t) (d x) r1
  have h2 := h2 (hm _ hd) (hm _ hx)
  have hv : OnlyValues s.1.1.2 := Clocked.typed_values t (Clocked.clocks (Clocked.typed_lawful t) (Delay.stage_lawful true (d x)) r1).1
  generalize hcs : ((Clocked.typed t).through (Delay.stage true (d x))).calls s.1 = cs at h1 h2
  rw [show shifted (d x) ((Clocked.typed t).calls s.1.1) = ((valuesAt s.1.1.2).map fun c => (c.1, c.2 + d x)).map fun c => (.next c.1, c.2) from by
    rw [List.map_map]
    conv => lhs; rw [shifted, show (Clocked.typed t).calls s.1.1 = s.1.1.2 from rfl, hv.eq, List.map_map]
    rfl] at h1
  obtain ⟨m, hm⟩ : ∃ m, cs = (((valuesAt s.1.1.2).map fun c => (c.1, c.2 + d x)).take m).map fun c => (.next c.1, c.2) :=
    ⟨cs.length, by rw [List.map_take]; exact List.prefix_iff_eq_take.mp h1⟩
  have hcv : valuesAt cs = ((valuesAt s.1.1.2).map fun c => (c.1, c.2 + d x)).take m := by rw [hm, valuesAt_map]
  refine ⟨(valuesAt cs).map fun c => (g x c.1, c.2), by rw [follower_sent hr, hcs, List.map_map]; rfl, ?_, fun k c hc ht => ?_⟩
  · have h4 := valuesAt_prefix h1
    rw [valuesAt_map] at h4
    have := h4.map fun c => (g x c.1, c.2)
    rw [List.map_map] at this
    exact this
  · have h5 := h2 k (.next c.1, c.2) (by
      rw [show (Clocked.typed t).calls s.1.1 = s.1.1.2 from rfl, hv.eq, List.getElem?_map, hc]; rfl) ht
    rw [hm, List.getElem?_map] at h5
    obtain ⟨y, hy, hye⟩ := Option.map_eq_some_iff.mp h5
    obtain ⟨e1, e2⟩ := Prod.mk.inj hye
    rw [List.getElem?_map, hcv, hy, Option.map_some, Notif.next.inj e1, e2]

end

/-! ## all of them -/

/-- Nothing fails, nobody disposes a subscription or raises. -/
structure Undisturbed (o : Clocked SO LO ω) (ls : List (Time (Shared.Label LO ((ν ⊕ Delay.Label ν) ⊕ Empty) ω (ω × β) ν)))
    (s : Shared SO (Merge.State ω) (((Nat × List (Notif ν × Nat)) × Delay.State ν) × Timed (Unit × Unit) (Notif ν) (Notif (ω × β))) ω (ω × β) ν) : Prop where
  subscribe : Time.act (.net (.own .subscribeFails)) ∉ ls
  release : Time.act (.net (.own .disposeFails)) ∉ ls
  cancel : Time.act (.net (.own .cancel)) ∉ ls
  dispose : ∀ k, Time.act (.net (.inner k (.inl (.inr (.dispose 0))))) ∉ ls
  raise : ∀ k, Time.act (.net (.inner k (.inl (.inr (.raise 0))))) ∉ ls
  source : ∀ e t, (.error e, t) ∉ o.calls s.net.outer

theorem flatMap_one {ι κ γ : Type} (key : ι → κ) (F : ι → List γ) {i : ι} : ∀ {L : List ι}, (L.map key).Nodup → i ∈ L → (∀ j ∈ L, key j ≠ key i → F j = []) →
    L.flatMap F = F i := by
  intro L
  induction L with
  | nil => intro _ h; cases h
  | cons j L ih =>
    intro hn hi h
    obtain ⟨h1, h2⟩ := List.nodup_cons.mp hn
    rw [List.flatMap_cons]
    rcases List.mem_cons.mp hi with rfl | hi
    · rw [show L.flatMap F = [] from List.flatMap_eq_nil_iff.mpr fun k hk => h k (List.mem_cons_of_mem _ hk) fun he => h1 (List.mem_map.mpr ⟨k, hk, he⟩), List.append_nil]
    · rw [h j List.mem_cons_self fun he => h1 (he ▸ List.mem_map.mpr ⟨i, hi, rfl⟩), List.nil_append]
      exact ih h2 hi fun k hk => h k (List.mem_cons_of_mem _ hk)

theorem valuesAt_noDone (cs : List (Notif α × Nat)) : valuesAt (noDone cs) = valuesAt cs := by
  induction cs with
  | nil => rfl
  | cons c cs ih =>
    obtain ⟨n, t⟩ := c
    cases n with
    | next v => exact congrArg ((v, t) :: ·) ih
    | error e => exact ih
    | completed => exact ih

theorem places_same [DecidableEq ω] (x : ω) (out : List (β × Nat)) : places x (out.map fun c => ((x, c.1), c.2)) = out := by
  induction out with
  | nil => rfl
  | cons c out ih => simpa [places] using ih

theorem places_other [DecidableEq ω] {x y : ω} (h : y ≠ x) (out : List (β × Nat)) : places x (out.map fun c => ((y, c.1), c.2)) = [] := by
  simp [places, h]

section
variable {o : Clocked SO LO ω} {d : ω → Nat} {g : ω → ν → β} (ho : o.Lawful) (hog : ∀ ls s, LTS.run o.step o.init ls = some s → Grammar ((o.calls s).map (·.1)))
include ho hog

theorem timeflies_proper : Proper o (Clocked.follower d g) := ⟨ho, hog, fun _ _ => follower_lawful, fun _ _ => follower_grammar⟩

variable {ls} {s : Shared SO (Merge.State ω) (((Nat × List (Notif ν × Nat)) × Delay.State ν) × Timed (Unit × Unit) (Notif ν) (Notif (ω × β))) ω (ω × β) ν}
  (hr : LTS.run (o.timeflies d g).step (o.timeflies d g).init ls = some s)
include hr

/-- C120, in any schedule: every pipeline gets from the subject what is sent after its subscription, in that order. -/
theorem C120_heard : ∀ i ∈ s.net.inners, Since i.2.1 s.sent (valuesAt i.2.2.1.1.2) :=
  Shared.since ho (fun _ _ => follower_lawful) (merge_starts 0) follower_listens hr

variable (hp : (o.timeflies d g).Prompt (fun s => Merge.Settled s.net.prod) ls) (hs : Merge.Settled s.net.prod) (hu : Undisturbed o ls s)
include hp hs hu

/-- C120: on a loop that is not overloaded every label's pipeline is subscribed when the label is sent. -/
theorem C120_subscribed : subs s.net = valuesAt (o.calls s.net.outer) := by
  obtain ⟨ms, hn⟩ := net_run hr
  have hl : ∀ l, Time.act (.net (.own l)) ∉ ls → Time.act (.own l) ∉ ms := fun l hl h => (hn.labels _ h).elim hl fun ⟨k, v, h⟩ => by cases h
  exact C112_subscribed (timeflies_proper ho hog) hn.run (hn.prompt _ hp) ⟨⟨hl _ hu.subscribe, hl _ hu.release⟩, hl _ hu.cancel, hu.source⟩ hs

/-- C120: each label follows the subject exactly its own delay behind, whatever the other labels do. -/
theorem C120_follows [DecidableEq ω] (hd : ((valuesAt (o.calls s.net.outer)).map (·.1)).Nodup) {x : ω} {u : Nat} (hx : (x, u) ∈ valuesAt (o.calls s.net.outer)) :
    Follows (g x) (d x) u (o.now s.net.outer) s.sent (places x (valuesAt s.net.posts)) := by
  have hsub := C120_subscribed ho hog hr hp hs hu
  obtain ⟨ms, hn⟩ := net_run hr
  obtain ⟨hist, hpast⟩ := past ho (fun _ _ => follower_lawful) (merge_starts 0) hn.run
  have hout : ∀ i ∈ s.net.inners, ∃ out, i.2.2.2.sent = out.map (fun c => (.next (i.1, c.1), c.2)) ∧ out <+: (valuesAt i.2.2.1.1.2).map (fun c => (g i.1 c.1, c.2 + d i.1)) ∧
      ∀ (k : Nat) c, (valuesAt i.2.2.1.1.2)[k]? = some c → c.2 + d i.1 < o.now s.net.outer → out[k]? = some (g i.1 c.1, c.2 + d i.1) := by
    intro i hi
    obtain ⟨k, hk⟩ := List.getElem?_of_mem hi
    obtain ⟨y, t, si⟩ := i
    obtain ⟨⟨li, h1, h2⟩, h3⟩ := hpast.sources k y t si hk
    have hl : ∀ l, Time.act (.net (.inner k (.inl (.inr l)))) ∉ ls → Time.act (.inl (.inr l)) ∉ li := fun l hl h =>
      (hn.labels _ (h2 _ h)).elim hl fun ⟨k', v, h⟩ => by cases h
    have := follower_follows h1 (hl _ (hu.dispose k)) (hl _ (hu.raise k))
    rw [h3] at this
    exact this
  have hval : ∀ {out : List (β × Nat)} {y : ω}, valuesAt (noDone (out.map fun c => ((.next (y, c.1), c.2) : Notif (ω × β) × Nat))) = out.map fun c => ((y, c.1), c.2) := by
    intro out y
    rw [valuesAt_noDone, show out.map (fun c => ((.next (y, c.1), c.2) : Notif (ω × β) × Nat)) = (out.map fun c => ((y, c.1), c.2)).map (fun c => (.next c.1, c.2)) from by
      rw [List.map_map]; rfl, valuesAt_map]
  obtain ⟨-, h2, h3⟩ := C112_arrive (timeflies_proper ho hog) hn.run
  have herr : (errors (o.calls s.net.outer) : List (Notif (ω × β) × Nat)) = [] := by
    rw [errors, List.filterMap_eq_nil_iff]
    rintro ⟨n, t⟩ hc
    cases n with
    | error e => exact absurd hc (hu.source e t)
    | _ => rfl
  rw [← hsub] at hx hd
  obtain ⟨i, hi, he⟩ := List.mem_map.mp hx
  obtain ⟨rfl, rfl⟩ := Prod.mk.inj he
  obtain ⟨out, e1, e2, e3⟩ := hout i hi
  have hpl : places i.1 (valuesAt s.net.posts) = out := by
    have hs2 := placed_sublist i.1 (h3 i hi)
    rw [show (Clocked.follower d g i.1 i.2.1).calls i.2.2 = i.2.2.2.sent from rfl, e1, hval, places_same, valuesAt_noDone] at hs2
    have hq2 := placed_perm i.1 h2
    have hflat : places i.1 (valuesAt (s.net.inners.flatMap fun i => noDone ((Clocked.follower d g i.1 i.2.1).calls i.2.2))) = out := by
      have hF : places i.1 (valuesAt (s.net.inners.flatMap fun i => noDone ((Clocked.follower d g i.1 i.2.1).calls i.2.2))) =
          s.net.inners.flatMap fun j => places i.1 (valuesAt (noDone ((Clocked.follower d g j.1 j.2.1).calls j.2.2))) := by
        rw [places, valuesAt, List.filterMap_flatMap, List.filterMap_flatMap]
        rfl
      rw [hF, flatMap_one (fun j => j.1) _ (by simpa [subs, Function.comp_def] using hd) hi]
      · rw [show (Clocked.follower d g i.1 i.2.1).calls i.2.2 = i.2.2.2.sent from rfl, e1, hval, places_same]
      · intro j hj hne
        obtain ⟨out', f1, -⟩ := hout j hj
        rw [show (Clocked.follower d g j.1 j.2.1).calls j.2.2 = j.2.2.2.sent from rfl, f1, hval, places_other hne]
    rw [herr, List.nil_append, hflat, valuesAt_noDone] at hq2
    exact (hs2.eq_of_length hq2.length_eq.symm).symm
  rw [hpl]
  exact ⟨_, C120_heard ho hog hr i hi, e2, e3⟩

/-- C120: nothing else is posted: no errors, no values but those for the labels, and no completion once there is a label. -/
theorem C120_nothing_else : (∀ e t, (.error e, t) ∉ s.net.posts) ∧ (∀ c ∈ valuesAt s.net.posts, ∃ u, (c.1.1, u) ∈ valuesAt (o.calls s.net.outer)) ∧
    ∀ t, (.completed, t) ∈ s.net.posts → valuesAt (o.calls s.net.outer) = [] := by
  have hsub := C120_subscribed ho hog hr hp hs hu
  obtain ⟨ms, hn⟩ := net_run hr
  have hl : ∀ l, Time.act (.net (.own l)) ∉ ls → Time.act (.own l) ∉ ms := fun l hl h => (hn.labels _ h).elim hl fun ⟨k, v, h⟩ => by cases h
  have hc := C112_completed (timeflies_proper ho hog) (Int.le_refl 0) hn.run (hn.prompt _ hp) ⟨⟨hl _ hu.subscribe, hl _ hu.release⟩, hl _ hu.cancel, hu.source⟩ hs
  obtain ⟨hist, hpast⟩ := past ho (fun _ _ => follower_lawful) (merge_starts 0) hn.run
  have hcalls : ∀ i ∈ s.net.inners, ∃ out : List (β × Nat), (Clocked.follower d g i.1 i.2.1).calls i.2.2 = out.map fun c => (.next (i.1, c.1), c.2) := by
    intro i hi
    obtain ⟨k, hk⟩ := List.getElem?_of_mem hi
    obtain ⟨y, t, si⟩ := i
    obtain ⟨⟨li, h1, -⟩, -⟩ := hpast.sources k y t si hk
    exact ⟨_, (follower_sent h1).trans (by rw [show (fun c : ν × Nat => ((.next (y, g y c.1), c.2) : Notif (ω × β) × Nat)) = (fun c : β × Nat => (.next (y, c.1), c.2)) ∘ fun c => (g y c.1, c.2) from rfl,
      ← List.map_map])⟩
  obtain ⟨-, h2, -⟩ := C112_arrive (timeflies_proper ho hog) hn.run
  have hmem : ∀ n t, n ≠ .completed → (n, t) ∈ s.net.posts → ∃ i ∈ s.net.inners, ∃ v : β, n = .next (i.1, v) := by
    intro n t hne h
    have h := h2.subset (List.mem_filter.mpr ⟨h, by cases n <;> first | rfl | exact absurd rfl hne⟩)
    rcases List.mem_append.mp h with h | h
    · obtain ⟨⟨m, u⟩, h3, h4⟩ := List.mem_filterMap.mp h
      cases m with
      | error e => exact absurd h3 (hu.source e u)
      | _ => cases h4
    · obtain ⟨i, hi, h3⟩ := List.mem_flatMap.mp h
      obtain ⟨out, h4⟩ := hcalls i hi
      rw [h4] at h3
      obtain ⟨c, -, h5⟩ := List.mem_map.mp (List.mem_filter.mp h3).1
      exact ⟨i, hi, c.1, (Prod.mk.inj h5).1.symm⟩
  refine ⟨fun e t h => ?_, fun c hc => ?_, fun t h => ?_⟩
  · obtain ⟨i, -, v, h⟩ := hmem _ t (by simp) h
    cases h
  · obtain ⟨i, hi, v, h⟩ := hmem _ _ (by simp) (mem_values.mp hc)
    refine ⟨i.2.1, ?_⟩
    rw [← hsub, (Prod.mk.inj (Notif.next.inj h)).1]
    exact List.mem_map.mpr ⟨i, hi, rfl⟩
  · have h3 := ((hc t).mp (List.mem_map.mpr ⟨_, List.mem_filter.mpr ⟨h, by simp⟩, rfl⟩)).2
    rw [← hsub, subs, List.map_eq_nil_iff]
    refine List.eq_nil_iff_forall_not_mem.mpr fun i hi => ?_
    obtain ⟨out, h4⟩ := hcalls i hi
    have h5 := h3 i hi
    rw [h4, show (out.map fun c => ((.next (i.1, c.1), c.2) : Notif (ω × β) × Nat)) = (out.map fun c => ((i.1, c.1), c.2)).map (fun c => (.next c.1, c.2)) from by
      rw [List.map_map]; rfl, upto_map, story_nexts] at h5
    cases h5

omit ho hog hr hp hs hu in
/-- C120: when nothing is sent at the very time of the subscription, this is everything that is sent later. -/
theorem C120_since {u : Nat} {sent got : List (ν × Nat)} (h : Since u sent got) (hn : ∀ c ∈ sent, c.2 ≠ u) : got = sent.filter fun c => u < c.2 := by
  obtain ⟨old, rfl, h1, h2⟩ := h
  rw [List.filter_append, List.filter_eq_nil_iff.mpr, List.nil_append, List.filter_eq_self.mpr]
  · intro c hc
    have := h2 c hc
    have := hn c (List.mem_append_right _ hc)
    simp; omega
  · intro c hc
    have := h1 c hc
    simp; omega

end

/-! ## an example -/

section Examples

/-- Two letters, the second one second behind and 12 to the right. -/
abbrev demoFlies := (ofSeqAt 0 [0, 1]).timeflies (fun i : Nat => i) (fun i (x : Nat) => x + 12 * i)
abbrev FlyLabel := Time (Shared.Label (Option Unit) ((Nat ⊕ Delay.Label Nat) ⊕ Empty) Nat (Nat × Nat) Nat)
abbrev merging (l : Merge.Label Nat (Nat × Nat)) : FlyLabel := .act (.net (.own l))
abbrev letter (k : Nat) (l : Delay.Label Nat) : FlyLabel := .act (.net (.inner k (.inl (.inr l))))
abbrev demoFliesRun : List FlyLabel :=
  [.act (.send 5), .act (.net (.outer (some ()))), merging .receive, merging .subscribed, .act (.send 7), merging .receive, merging .subscribed, merging .receive,
   letter 0 (.start 0), letter 1 (.start 0), letter 0 (.receive 0), letter 0 (.ret 0), .pass 1, .act (.send 100), letter 1 (.receive 0), letter 0 (.receive 0), letter 0 (.ret 0),
   .pass 1, .act (.send 200), letter 1 (.wake 0), letter 1 (.ret 0), letter 0 (.receive 0), letter 0 (.ret 0), letter 1 (.receive 0), .pass 1]

example : ∃ s, LTS.run demoFlies.step demoFlies.init demoFliesRun = some s ∧ demoFlies.Prompt (fun s => Merge.Settled s.net.prod) demoFliesRun ∧ Merge.Settled s.net.prod ∧
    Undisturbed (ofSeqAt 0 [0, 1]) demoFliesRun s ∧ (ofSeqAt 0 [0, 1]).calls s.net.outer = [(.next 0, 0), (.next 1, 0), (.completed, 0)] ∧
    s.sent = [(5, 0), (7, 0), (100, 1), (200, 2)] ∧ s.net.posts = [(.next (0, 7), 0), (.next (0, 100), 1), (.next (1, 112), 2), (.next (0, 200), 2)] ∧
    (ofSeqAt 0 [0, 1]).now s.net.outer = 3 ∧
    Follows (fun x => x + 12) 1 0 3 s.sent (places 1 (valuesAt s.net.posts)) := by
  obtain ⟨s, hs, h⟩ := run_any (c := demoFlies) (ls := demoFliesRun)
    (P := fun s => settled s.net.prod && (ofSeqAt 0 [0, 1]).calls s.net.outer == [(.next 0, 0), (.next 1, 0), (.completed, 0)] &&
      s.sent == [(5, 0), (7, 0), (100, 1), (200, 2)] && s.net.posts == [(.next (0, 7), 0), (.next (0, 100), 1), (.next (1, 112), 2), (.next (0, 200), 2)] &&
      (ofSeqAt 0 [0, 1]).now s.net.outer == 3) (by decide +kernel)
  simp only [Bool.and_eq_true, beq_iff_eq] at h
  obtain ⟨⟨⟨⟨h1, h2⟩, h3⟩, h4⟩, h5⟩ := h
  have hu : Undisturbed (ofSeqAt 0 [0, 1]) demoFliesRun s := ⟨by simp, by simp, by simp, by simp, by simp, by rw [h2]; simp⟩
  have hp : demoFlies.Prompt (fun s => Merge.Settled s.net.prod) demoFliesRun :=
    Clocked.Prompt.of_rests (idle := fun s : Shared _ _ _ _ _ _ => settled s.net.prod) (fun _ => settled_of) (by decide +kernel)
  refine ⟨s, hs, hp, settled_of h1, hu, h2, h3, h4, h5, ?_⟩
  have := C120_follows (ofSeq_lawful 0 _) ofSeq_grammar hs hp (settled_of h1) hu (by rw [h2]; decide) (x := 1) (u := 0) (by rw [h2]; decide)
  rw [h5] at this
  exact this

end Examples
end Shared
end Aio
