import Verif.Spec.Behind
import Verif.Lemmas.Behind
import Verif.Lemmas.Chains
import Verif.Props.C20_26_Create
import Verif.Props.C27_30_Map
import Verif.Props.C35_40_Merge
import Verif.Props.C41_42_Switch
/-!
# C85 flat_map and merge, C86 concat_map and concat, C87 flat_map_latest
-/

namespace Aio
open Spec
open Merge (innerCalls outerCalls arrivals noDone NoFailure unfinished Lawful sent)
variable {FS FL S β ω α : Type}

/-! ### the three ways to be in front -/

theorem Delivers.sends {St Lab : Type} {p : Proc St Lab (Notif β) (Notif ω)} {dom : List (Notif β) → Prop}
    {G : Story β → Story ω} (h : Delivers p dom G) :
    p.feeder.Sends (fun es => dom (Proc.inputs es)) p.Quiescent (fun es => G (story (Proc.inputs es))) :=
  ⟨fun es s out he hd => h.prefix_ es s out (p.feeder_exec he) hd,
   fun es s out he hd hq => h.all es s out (p.feeder_exec he) hd hq⟩

theorem Producer.Delivers.sends {L : Type} {p : Producer S L ω} {ok : List (Producer.Label L) → Prop} {st : Story ω}
    (h : p.Delivers ok st.events) :
    p.feeder.Sends (fun ls => Producer.NoRaise ls ∧ ok ls) p.Idle (fun _ => st) where
  prefix_ ls s out he hd := by
    obtain ⟨h1, h2⟩ := p.feeder_exec he
    have h0 : p.feeder.init.received = [] := rfl
    rw [h0, List.nil_append] at h2
    rw [← h2]; exact h.prefix_ ls s h1 hd.1 hd.2
  all ls s out he hd hq := by
    obtain ⟨h1, h2⟩ := p.feeder_exec he
    have h0 : p.feeder.init.received = [] := rfl
    rw [h0, List.nil_append] at h2
    rw [← h2]; exact h.all ls s h1 hd.1 hd.2 hq

namespace Behind
variable {f : Feeder FS FL ω} {ok : List FL → Prop} {quiet : FS → Prop} {T : List FL → Story ω}

theorem story_prefix_fin {st : Story ω} {ns : List (Notif ω)} (h : ns <+: st.events) :
    (story ns).fin = .running ∨ (story ns).fin = st.fin := by
  by_cases hr : (story ns).fin = .running
  · exact .inl hr
  · obtain ⟨t, ht⟩ := h
    have h1 : story (ns ++ t) = story ns := story_append_of_ended hr
    rw [ht, story_events] at h1
    exact .inr (by rw [← h1])

theorem story_prefix_vals {st : Story ω} {ns : List (Notif ω)} (h : ns <+: st.events) : (story ns).vals <+: st.vals := by
  obtain ⟨t, ht⟩ := h
  by_cases hr : (story ns).fin = .running
  · have h1 := story_append_of_running (ys := t) hr
    rw [ht, story_events] at h1
    rw [h1]; exact List.prefix_append ..
  · have h1 : story (ns ++ t) = story ns := story_append_of_ended hr
    rw [ht, story_events] at h1
    rw [h1]; exact List.prefix_refl _

theorem lawful_of {ls : List (Label FL ω α)} {ls' : List (Producer.Label (Merge.Label ω α))} {st : Story ω}
    (h : ls'.filter (fun l => !isOuter l) = backs ls) (hp : outerCalls (Producer.owns ls') <+: st.events) (ht : Tame ls) :
    Lawful (Producer.owns ls') :=
  ⟨grammar_prefix hp ⟨_, rfl⟩, fun k => by rw [inner_backs h k]; exact ht k⟩

theorem fin_of {ls : List (Label FL ω α)} {ls' : List (Producer.Label (Merge.Label ω α))}
    (h : ls'.filter (fun l => !isOuter l) = backs ls) (k : Nat) : Merge.fin k (Producer.owns ls') = fin k ls := by
  rw [Merge.fin, inner_backs h k]; rfl

theorem noError_of {ms : List (Merge.Label ω α)} {st : Story ω} (hp : outerCalls ms <+: st.events)
    (hf : ∀ e, st.fin ≠ .failed e) (e : Err) : .outer (.error e) ∉ ms := by
  intro hm
  have h1 : .error e ∈ outerCalls ms := by
    simp only [outerCalls, List.mem_filterMap]; exact ⟨_, hm, rfl⟩
  have h2 := hp.subset h1
  rw [Story.events] at h2
  rcases List.mem_append.mp h2 with h3 | h3
  · simp at h3
  · cases hs : st.fin with
    | running => rw [hs] at h3; simp [End.events] at h3
    | done => rw [hs] at h3; simp [End.events] at h3
    | failed e' => exact hf e' hs

theorem stopped_of {ls : List (Label FL ω α)} {ls' : List (Producer.Label (Merge.Label ω α))} {st : Story ω}
    (h : ls'.filter (fun l => !isOuter l) = backs ls) (hp : outerCalls (Producer.owns ls') <+: st.events)
    (hf : ∀ e, st.fin ≠ .failed e) (hc : .cancel ∉ deeds ls) : ¬ Merge.Stopped (Producer.owns ls') := by
  rintro (hm | ⟨e, hm⟩)
  · exact noCancel_deeds h hc hm
  · exact noError_of hp hf e hm

theorem arrivals_of {ls : List (Label FL ω α)} {ls' : List (Producer.Label (Merge.Label ω α))} {st : Story ω}
    (h : ls'.filter (fun l => !isOuter l) = backs ls) (hp : outerCalls (Producer.owns ls') <+: st.events)
    (hf : ∀ e, st.fin ≠ .failed e) : arrivals (Producer.owns ls') = arrivals (deeds ls) := by
  rcases arrivals_split (grammar_prefix hp ⟨st, rfl⟩) with ⟨-, h1⟩ | ⟨e, a, b, h1, -, -⟩
  · rw [h1, innerArrivals_deeds h]
  · rcases story_prefix_fin hp with h2 | h2
    · rw [h1] at h2; cases h2
    · exact absurd (h2 ▸ h1) (hf e)

theorem flattens {mx : Int} (hm : 0 ≤ mx) (hs : f.Sends ok quiet T) : Flattens f (mergeInner mx : Producer _ (Merge.Label ω α) α) mx ok quiet T where
  order hr hk ht := by
    obtain ⟨out, ls', h1, h2, rfl, h4⟩ := split hr
    have hp := hs.prefix_ _ _ _ h1 hk
    exact (Merge.C37_order h2 (lawful_of h4 hp ht)).trans (story_prefix_vals hp)
  all hr hk ht hf hc hne hq hse := by
    obtain ⟨out, ls', h1, h2, h3, h4⟩ := split hr
    have ha := hs.all _ _ _ h1 hk hq
    have hp := hs.prefix_ _ _ _ h1 hk
    rw [← h3] at hp
    have := Merge.C37_prompt hm h2 (lawful_of h4 hp ht) (noFailure_deeds h4 hf) (stopped_of h4 hp hne hc) hse
    rw [sent, h3, ha, story_events] at this
    refine this.imp id fun ⟨h5, h6⟩ => ⟨h5, ?_⟩
    rw [← h6, unfinished, unfinished]
    congr 2
    congr 1
    funext k
    rw [Merge.fin, Merge.fin, inner_backs h4]
  values hr hk ht hn hne := by
    obtain ⟨out, ls', h1, h2, h3, h4⟩ := split hr
    have hp := hs.prefix_ _ _ _ h1 hk
    rw [← h3] at hp
    have := Merge.C35_forwards hm h2 (noRaise_backs h4 hn) (lawful_of h4 hp ht)
    rwa [arrivals_of h4 hp hne] at this
  fails {ls s e} hr hk ht hn he := by
    obtain ⟨out, ls', h1, h2, h3, h4⟩ := split hr
    have hp := hs.prefix_ _ _ _ h1 hk
    rw [← h3] at hp
    have hw := lawful_of h4 hp ht
    have h5 := Merge.C35_forwards hm h2 (noRaise_backs h4 hn) hw
    rcases arrivals_split hw.outer with ⟨h6, h7⟩ | ⟨e', a, b, h6, h7, h8⟩
    · refine ⟨arrivals (deeds ls), [], by simp, ?_, fun hq _ => ?_⟩
      · rw [h7, innerArrivals_deeds h4] at h5
        exact h5.1.trans (cut_mono (List.prefix_append ..))
      · have ha := hs.all _ _ _ h1 hk hq
        rw [h3, ha, story_events] at h6
        exact absurd he (h6 e)
    · have : e' = e := by
        rcases story_prefix_fin hp with h9 | h9
        · rw [h9] at h6; cases h6
        · rw [h9, he] at h6; cases h6; rfl
      subst this
      have hcut : cut (arrivals (Producer.owns ls')) = cut (a ++ [.error e']) := by
        rw [h8]
        by_cases hrun : (story a).fin = .running
        · rw [cut_append_of_running hrun, cut_append_of_running hrun]
          simp [cut, story]
        · rw [cut_append_of_ended hrun, cut_append_of_ended hrun]
      rw [hcut] at h5
      exact ⟨a, b, by rw [← innerArrivals_deeds h4, h7], h5.1, fun _ hd => h5.2 hd⟩
  onlyWhenDone hr hk ht hn hc := by
    obtain ⟨out, ls', h1, h2, h3, h4⟩ := split hr
    have hp := hs.prefix_ _ _ _ h1 hk
    rw [← h3] at hp
    obtain ⟨h5, h6, h7⟩ := Merge.C38_only_when_done hm h2 (noRaise_backs h4 hn) (lawful_of h4 hp ht) hc
    have h8 := Merge.story_of_prefix_done hp h5
    rw [sent, h8, story_events] at h6
    rw [h8, story_events] at h5
    exact ⟨h5, h6, fun k hk => by rw [← fin_of h4]; exact h7 k hk⟩
  whenDone {ls s} hr hk ht hn hf hc hq hse hd hdn hin := by
    obtain ⟨out, ls', h1, h2, h3, h4⟩ := split hr
    have hp := hs.prefix_ _ _ _ h1 hk
    rw [← h3] at hp
    have ha := hs.all _ _ _ h1 hk hq
    have hne : ∀ e, (T (fronts ls)).fin ≠ .failed e := by rw [hdn]; simp
    have := Merge.C38_when_done hm h2 (noRaise_backs h4 hn) (lawful_of h4 hp ht) (noFailure_deeds h4 hf)
      (stopped_of h4 hp hne hc) hse hd (by rw [h3, ha, story_events]; exact hdn) (fun k hk => by rw [fin_of h4]; exact hin k hk)
    rwa [arrivals_of h4 hp hne] at this

theorem concats (hs : f.Sends ok quiet T) : Concats f (concatInner : Producer _ (Merge.Label ω α) α) ok quiet T := by
  intro src ls s hr hk hn hne hin
  obtain ⟨out, ls', h1, h2, h3, h4⟩ := split hr
  have hp := hs.prefix_ _ _ _ h1 hk
  rw [← h3] at hp
  obtain ⟨h5, h6⟩ := Merge.C40_concat (src := src) (os := (T (fronts ls)).vals) (f := (T (fronts ls)).fin) hne h2
    (noRaise_backs h4 hn) ⟨hp, fun k o hko => by rw [inner_backs h4]; exact hin k o hko⟩
  refine ⟨h5, fun hall hf hc hq hse hd => h6 ⟨?_, ?_⟩ (noFailure_deeds h4 hf) (noCancel_deeds h4 hc) hse hd⟩
  · rw [h3, hs.all _ _ _ h1 hk hq]
  · intro k o hko; rw [inner_backs h4]; exact hall k o hko

theorem switches {honour : Bool} (hs : f.Sends ok quiet T) : Switches f (switchLatest honour : Producer _ (Merge.Label ω α) α) honour ok quiet T where
  order hr hk ht := by
    obtain ⟨out, ls', h1, h2, h3, h4⟩ := split hr
    have hp := hs.prefix_ _ _ _ h1 hk
    rw [← h3] at hp
    obtain ⟨h5, h6⟩ := Switch.C41_order h2 (lawful_of h4 hp ht)
    refine ⟨h5.trans (story_prefix_vals hp), fun hq hse hf => ?_⟩
    have := h6 hse (noFailure_deeds h4 hf)
    rw [sent, h3, hs.all _ _ _ h1 hk hq, story_events] at this
    exact this
  latest hh {ls s s' i n} hr hk hn hst ht := by
    subst hh
    obtain ⟨out, ls', h1, h2, h3, h4⟩ := split hr
    have hp := hs.prefix_ _ _ _ h1 hk
    rw [← h3] at hp
    simp only [step] at hst
    obtain ⟨b, h5, rfl⟩ := Option.map_eq_some_iff.mp hst
    refine Switch.C41_latest h2 h5 hn ⟨?_, fun k => ?_⟩
    · have : outerCalls (Producer.owns ls' ++ [.inner i n]) = outerCalls (Producer.owns ls') := by simp [outerCalls]
      rw [this]; exact grammar_prefix hp ⟨_, rfl⟩
    · have hk' := ht k
      have h6 : innerCalls k (deeds (ls ++ [.back (.own (.inner i n))])) = innerCalls k (Producer.owns ls' ++ [.inner i n]) := by
        rw [innerCalls, innerCalls, deeds, backs, List.filterMap_append, List.filterMap_append, List.filterMap_append,
          List.filterMap_append]
        have := inner_backs h4 k
        rw [innerCalls, innerCalls, deeds] at this
        rw [this]
        rfl
      rwa [h6] at hk'
  older hr hc h1 h2 := by
    obtain ⟨out, ls', -, h3, -, h4⟩ := split hr
    exact Switch.C41_older_disposed h3 (noCancel_deeds h4 hc) h1 h2
  values hr hk ht hn hc hne := by
    obtain ⟨out, ls', h1, h2, h3, h4⟩ := split hr
    have hp := hs.prefix_ _ _ _ h1 hk
    rw [← h3] at hp
    have := Switch.C41_forwards h2 (noRaise_backs h4 hn) (lawful_of h4 hp ht) (noCancel_deeds h4 hc)
    rwa [arrivals_of h4 hp hne] at this
  fails {ls s e} hr hk ht hn hc he := by
    obtain ⟨out, ls', h1, h2, h3, h4⟩ := split hr
    have hp := hs.prefix_ _ _ _ h1 hk
    rw [← h3] at hp
    have hw := lawful_of h4 hp ht
    have h5 := Switch.C41_forwards h2 (noRaise_backs h4 hn) hw (noCancel_deeds h4 hc)
    rcases arrivals_split hw.outer with ⟨h6, h7⟩ | ⟨e', a, b, h6, h7, h8⟩
    · refine ⟨arrivals (deeds ls), [], by simp, ?_, fun hq _ => ?_⟩
      · rw [h7, innerArrivals_deeds h4] at h5
        exact h5.1.trans (cut_mono (List.prefix_append ..))
      · have ha := hs.all _ _ _ h1 hk hq
        rw [h3, ha, story_events] at h6
        exact absurd he (h6 e)
    · have : e' = e := by
        rcases story_prefix_fin hp with h9 | h9
        · rw [h9] at h6; cases h6
        · rw [h9, he] at h6; cases h6; rfl
      subst this
      have hcut : cut (arrivals (Producer.owns ls')) = cut (a ++ [.error e']) := by
        rw [h8]
        by_cases hrun : (story a).fin = .running
        · rw [cut_append_of_running hrun, cut_append_of_running hrun]
          simp [cut, story]
        · rw [cut_append_of_ended hrun, cut_append_of_ended hrun]
      rw [hcut] at h5
      exact ⟨a, b, by rw [← innerArrivals_deeds h4, h7], h5.1, fun _ hd => h5.2 hd⟩

end Behind

theorem Operator.Computes.merges {op : Operator β ω} {G : Story β → Story ω} (h : op.Computes G) {mx : Int} (hm : 0 ≤ mx) :
    (⟨op, mergeInner mx⟩ : Flattened β ω α _).Merges mx G :=
  ⟨Behind.flattens hm h.guarded.sends, Behind.flattens hm h.direct.sends⟩

theorem Operator.Computes.mirrors {op : Operator β ω} {G : Story β → Story ω} (h : op.Computes G) (honour : Bool) :
    (⟨op, switchLatest honour⟩ : Flattened β ω α _).Mirrors honour G :=
  ⟨Behind.switches h.guarded.sends, Behind.switches h.direct.sends⟩

/-! ## C85 -/

/-- C85. `flat_map(g)`. -/
theorem C85_flat_map (g : β → ω) : (flatMap fun x => .ok (g x) : Flattened β ω α _).Merges 0 (mapped g) :=
  (C27_map g).merges (Int.le_refl 0)

/-- C85. `flat_map_async(g)`. -/
theorem C85_flat_map_async (g : β → ω) : (flatMapAsync fun x => .ok (g x) : Flattened β ω α _).Merges 0 (mapped g) :=
  (C27_map_async g).merges (Int.le_refl 0)

/-- C85. `flat_mapi(g)`: the mapper also gets the position. -/
theorem C85_flat_mapi (g : β → Nat → ω) : (flatMapi fun x i => .ok (g x i) : Flattened β ω α _).Merges 0
    fun s => ⟨s.vals.mapIdx fun i x => g x i, s.fin⟩ :=
  (C29_mapi g).merges (Int.le_refl 0)

/-- C85. `flat_mapi_async(g)`. -/
theorem C85_flat_mapi_async (g : β → Nat → ω) : (flatMapiAsync fun x i => .ok (g x i) : Flattened β ω α _).Merges 0
    fun s => ⟨s.vals.mapIdx fun i x => g x i, s.fin⟩ :=
  (C29_mapi_async g).merges (Int.le_refl 0)

/-- C85. A mapper that raises: the results for the earlier values are merged, and an `Exception` ends the stream (`CancelledError` leaves it without an end, C91). (Behind a
source that calls directly the exception goes to the source instead, see `C28_violated_direct_source`.) -/
theorem C85_flat_map_raising (g : β → Except Err ω) :
    Behind.Flattens (flatMap g : Flattened β ω α _).front.protected.proc.feeder (flatMap g : Flattened β ω α _).back 0
      (fun _ => True) (flatMap g : Flattened β ω α _).front.protected.proc.Quiescent
      (fun es => tryEach (fun x => (g x).map some) (story (Proc.inputs es)).vals (story (Proc.inputs es)).fin) :=
  Behind.flattens (Int.le_refl 0) ((map_acts (f := g)).delivers.sends (G := fun s => tryEach (fun x => (g x).map some) s.vals s.fin))

/-- C85. The same for `flat_map_async`. -/
theorem C85_flat_map_async_raising (g : β → Except Err ω) :
    Behind.Flattens (flatMapAsync g : Flattened β ω α _).front.protected.proc.feeder (flatMapAsync g : Flattened β ω α _).back 0
      (fun _ => True) (flatMapAsync g : Flattened β ω α _).front.protected.proc.Quiescent
      (fun es => tryEach (fun x => (g x).map some) (story (Proc.inputs es)).vals (story (Proc.inputs es)).fin) :=
  C85_flat_map_raising g

/-- C85. The same for `flat_mapi`. -/
theorem C85_flat_mapi_raising (g : β → Nat → Except Err ω) :
    Behind.Flattens (flatMapi g : Flattened β ω α _).front.protected.proc.feeder (flatMapi g : Flattened β ω α _).back 0
      (fun _ => True) (flatMapi g : Flattened β ω α _).front.protected.proc.Quiescent
      (fun es => tryEach (fun x => (g x.1 x.2).map some) (story (Proc.inputs es)).vals.zipIdx (story (Proc.inputs es)).fin) :=
  Behind.flattens (Int.le_refl 0) ((zip_infinite_acts.compose (starmap_acts (f := g))).delivers.sends
    (G := fun s => tryEach (fun x => (g x.1 x.2).map some) s.vals.zipIdx s.fin))

/-- C85. `merge(other)(source)` and `source.merge(other)` (`os = [source, other]`), and any `pipe(of_seq(os), merge_inner(mx))`:
the front is the source `of_seq`. -/
theorem C85_merge (kill : Bool) (os : List ω) {mx : Int} (hm : 0 ≤ mx) :
    Behind.Flattens (ofSeq kill os none).feeder (mergeInner mx : Producer _ (Merge.Label ω α) α) mx
      (fun ls => Producer.NoRaise ls ∧ Producer.Kept ls) (ofSeq kill os none).Idle (fun _ => ⟨os, .done⟩) :=
  Behind.flattens hm (Producer.Delivers.sends (st := ⟨os, .done⟩) (C20_from_iterable_partial kill os))

/-! ## C86 -/

/-- C86. `concat_map(g)`. -/
theorem C86_concat_map (g : β → ω) : (concatMap fun x => .ok (g x) : Flattened β ω α _).Concatenates (mapped g) :=
  ⟨Behind.concats (C27_map g).guarded.sends, Behind.concats (C27_map g).direct.sends⟩

/-- C86. What `concat_map` does if the source or the mapper fails: it is `merge_inner(1)` behind the mapper, so that the error is delivered after what came before it. -/
theorem C86_concat_map_raising (g : β → Except Err ω) :
    Behind.Flattens (concatMap g : Flattened β ω α _).front.protected.proc.feeder (concatMap g : Flattened β ω α _).back 1
      (fun _ => True) (concatMap g : Flattened β ω α _).front.protected.proc.Quiescent
      (fun es => tryEach (fun x => (g x).map some) (story (Proc.inputs es)).vals (story (Proc.inputs es)).fin) :=
  Behind.flattens (by decide) ((map_acts (f := g)).delivers.sends (G := fun s => tryEach (fun x => (g x).map some) s.vals s.fin))

/-- C86. `concat_seq(os)`; with `os = [source, other]`: `concat(other)(source)` and `source.concat(other)`. -/
theorem C86_concat_seq (kill : Bool) (os : List ω) :
    Behind.Concats (ofSeq kill os none).feeder (concatInner : Producer _ (Merge.Label ω α) α)
      (fun ls => Producer.NoRaise ls ∧ Producer.Kept ls) (ofSeq kill os none).Idle (fun _ => ⟨os, .done⟩) :=
  Behind.concats (Producer.Delivers.sends (st := ⟨os, .done⟩) (C20_from_iterable_partial kill os))

/-! ## C87 -/

/-- C87. `flat_map_latest(g)`. -/
theorem C87_flat_map_latest (honour : Bool) (g : β → ω) :
    (flatMapLatest honour fun x => .ok (g x) : Flattened β ω α _).Mirrors honour (mapped g) :=
  (C27_map g).mirrors honour

/-- C87. `flat_map_latest_async(g)`. -/
theorem C87_flat_map_latest_async (honour : Bool) (g : β → ω) :
    (flatMapLatestAsync honour fun x => .ok (g x) : Flattened β ω α _).Mirrors honour (mapped g) :=
  (C27_map_async g).mirrors honour

/-- C87. A mapper that raises: the results for the earlier values are mirrored, and an `Exception` ends the stream. -/
theorem C87_flat_map_latest_raising (honour : Bool) (g : β → Except Err ω) :
    Behind.Switches (flatMapLatest honour g : Flattened β ω α _).front.protected.proc.feeder (flatMapLatest honour g : Flattened β ω α _).back honour
      (fun _ => True) (flatMapLatest honour g : Flattened β ω α _).front.protected.proc.Quiescent
      (fun es => tryEach (fun x => (g x).map some) (story (Proc.inputs es)).vals (story (Proc.inputs es)).fin) :=
  Behind.switches ((map_acts (f := g)).delivers.sends (G := fun s => tryEach (fun x => (g x).map some) s.vals s.fin))

/-! ### Examples -/

namespace Behind

/-- `pipe(subject, flat_map(lambda x: inner[x + 1]))`; the subject sends 1 and 2 and completes, the inner observables'
values overlap. -/
def demoLabels : List (Label (Proc.Ev (Notif Nat) Empty) Nat Nat) :=
  [.front (.feed (.next 1)), .back (.own .receive), .back (.own .subscribed), .front (.feed (.next 2)),
   .back (.own (.inner 0 (.next 10))), .back (.own .receive), .back (.own .subscribed), .back (.own (.inner 1 (.next 20))),
   .front (.feed .completed), .back (.own (.inner 0 (.next 11))), .back (.own .receive), .back (.own (.inner 0 .completed)),
   .back (.own (.inner 1 .completed)), .back (.own .receive), .back (.own .receive),
   .back .receive, .back .ret, .back .receive, .back .ret, .back .receive, .back .ret, .back .receive, .back .ret, .back .ret]

def demoFlat : Flattened Nat Nat Nat (Merge.State Nat) := flatMap fun x => .ok (x + 1)

example : (exec demoFlat.front.direct.proc.feeder demoFlat.back demoLabels).map
    (fun s => (s.back.received, s.back.src.started)) =
      some ([.next 10, .next 20, .next 11, .completed], [2, 3]) := by decide

example : Proc.inputs (fronts demoLabels) = [.next 1, .next 2, .completed] := by decide
example : arrivals (deeds demoLabels) = [.next 10, .next 20, .next 11] := by decide
example : NoFailure (deeds demoLabels) ∧ .cancel ∉ deeds demoLabels := by
  refine ⟨⟨by decide, by decide⟩, by decide⟩

/-- `concat_seq` of two inner observables: the second one is subscribed when the first one has completed. -/
def demoConcat : List (Label (Producer.Label Unit) Nat Nat) :=
  [.front (.own ()), .front .receive, .front .ret, .back (.own .receive), .back (.own .subscribed), .front .receive, .front .ret,
   .front .receive, .front .ret, .front .ret, .back (.own .receive), .back (.own .receive), .back (.own (.inner 0 (.next 10))),
   .back (.own (.inner 0 .completed)), .back (.own .receive), .back (.own .subscribed), .back (.own (.inner 1 (.next 20))),
   .back (.own (.inner 1 .completed)), .back (.own .receive), .back .receive, .back .ret, .back .receive, .back .ret,
   .back .receive, .back .ret, .back .ret]

example : (exec (ofSeq true [7, 8] none).feeder (concatInner : Producer _ (Merge.Label Nat Nat) Nat)
    demoConcat).map (fun s => (s.back.received, s.back.src.started)) =
      some ([.next 10, .next 20, .completed], [7, 8]) := by decide

/-- `flat_map_latest`: the first inner observable is disposed when the second one comes. -/
example : (exec (flatMapLatest true fun x => .ok (x + 1) : Flattened Nat Nat Nat _).front.direct.proc.feeder
    (flatMapLatest true fun x => .ok (x + 1) : Flattened Nat Nat Nat _).back
    [.front (.feed (.next 1)), .back (.own .receive), .back (.own .subscribed), .back (.own (.inner 1 (.next 10))),
     .front (.feed (.next 2)), .back (.own .receive), .back (.own .disposed), .back (.own .subscribed),
     .back (.own (.inner 2 (.next 20))), .back .receive, .back .ret, .back .receive, .back .ret]).map
    (fun s => (s.back.received, s.back.src.started, s.back.src.disposed)) =
      some ([.next 10, .next 20], [2, 3], [1]) := by decide

end Behind
end Aio
