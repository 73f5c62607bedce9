import Verif.Spec.Piped
import Verif.Lemmas.Piped
import Verif.Props.C25_Interval
import Verif.Props.C35_40_Merge
import Verif.Props.C45_52_Filtering
import Verif.Props.C85_87_FlatMap
/-!
# C101, C102, C103: pipelines behind any source
-/

namespace Aio
open Spec
variable {S L FS FL α β ω γ : Type}

/-! ## C101 -/

/-- More input, more output. -/
theorem Delivers.mono {St Lab : Type} {p : Proc St Lab (Notif α) (Notif γ)} {dom : List (Notif α) → Prop} {G : Story α → Story γ}
    (h : Delivers p dom G) {xs ys : List (Notif α)} (hx : dom xs) (hy : dom ys) (hp : xs <+: ys) :
    (G (story xs)).events <+: (G (story ys)).events := by
  obtain ⟨zs, rfl⟩ := hp
  obtain ⟨ls, t, o, hw, hq⟩ := Proc.can_finish h.ends (p.feedAll p.init xs).1
  have h1 := Proc.exec_append _ (Proc.exec_map_feed p p.init xs) hw
  have e1 := h.all _ _ _ h1 (by simpa using hx) hq
  have h2 := Proc.exec_append _ h1 (Proc.exec_map_feed p t zs)
  have e2 := h.prefix_ _ _ _ h2 (by simpa using hy)
  simp only [Proc.inputs_append, Proc.inputs_map_feed, Proc.inputs_map_step, List.append_nil] at e1 e2
  rw [← e1]
  exact (List.prefix_append _ _).trans e2

/-- C101, whatever the source: at any time the final observer has got an initial part of what the operators make of the calls that the
source has made, and all of it when the workers have nothing left to do; they always get there. So the final observer sees the Rx
grammar. -/
theorem C101_delivers {q : Source S L α} (hq : q.Grows) {c : Chain α γ} {dom : List (Notif α) → Prop} {G : Story α → Story γ}
    (hG : Delivers c.proc dom G) {ls : List (Piped.Label L c)} {s : Piped.State S c}
    (hr : LTS.run (Piped.step q c) (Piped.init q c) ls = some s) (hd : dom (q.out s.src)) :
    s.outs <+: (G (story (q.out s.src))).events ∧ Grammar s.outs ∧
    (c.slowProc.Quiescent s.ps → s.outs = (G (story (q.out s.src))).events) ∧
    ∃ (ws : List c.compileSlow.SlowLab) (s' : Piped.State S c), LTS.run (Piped.step q c) s (ws.map .worker) = some s' ∧ s'.src = s.src ∧ c.slowProc.Quiescent s'.ps := by
  obtain ⟨-, es, h1, h2⟩ := Piped.split hq hr
  rw [← h2] at hd ⊢
  have h3 := hG.slow.prefix_ es _ _ h1 hd
  refine ⟨h3, grammar_prefix h3 ⟨_, rfl⟩, hG.slow.all es _ _ h1 hd, ?_⟩
  obtain ⟨ws, t, out, hw, hqu⟩ := Proc.can_finish hG.slow.ends s.ps
  exact ⟨ws, _, Piped.run_workers ws s hw, rfl, hqu⟩

/-- C101, composed: if the source posts the stream `T`, operators that compute `G` make it send `G T`. (`dom`: what the operators may
rely on; nothing if they are behind a safe observer, the Rx grammar if they are called directly.) -/
theorem C101_pipe {q : Source S L α} (hq : q.Grows) {c : Chain α γ} {dom : List (Notif α) → Prop} {G : Story α → Story γ}
    (hG : Delivers c.proc dom G) (hdom : ∀ ns, Grammar ns → dom ns) {ok quiet : List L → S → Prop} {T : List L → Story α}
    (hT : q.Posts ok quiet T) (hd : ∀ ls s, LTS.run q.step q.init ls = some s → ok ls s → dom (q.out s)) :
    (q.pipe c).Sends (fun ls s => ok (Piped.sources ls) s.src) (fun ls s => quiet (Piped.sources ls) s.src ∧ c.slowProc.Quiescent s.ps)
      (fun ls => G (T (Piped.sources ls))) := by
  refine ⟨fun ls s hr hok => ?_, fun ls s hr hok hqu => ?_⟩
  · obtain ⟨h1, -⟩ := Piped.split hq hr
    refine (C101_delivers hq hG hr (hd _ _ h1 hok)).1.trans ?_
    have := hG.mono (hdom _ ⟨_, rfl⟩) (hdom _ ⟨_, rfl⟩) (hT.prefix_ _ _ h1 hok)
    simpa using this
  · obtain ⟨h1, -⟩ := Piped.split hq hr
    have h2 := (C101_delivers hq hG hr (hd _ _ h1 hok)).2.2.1 hqu.2
    rw [hT.all _ _ h1 hok hqu.1] at h2
    exact h2

/-- A source that sends a stream posts it. -/
theorem Source.Sends.posts {q : Source S L α} {ok quiet : List L → S → Prop} {T : List L → Story α} (h : q.Sends ok quiet T) :
    q.Posts ok quiet T := by
  refine ⟨fun ls s hr hok => ?_, fun ls s hr hok hqu => ?_⟩
  · have h1 := h.prefix_ ls s hr hok
    have h2 := cut_of_grammar (grammar_prefix h1 ⟨_, rfl⟩)
    rw [← cut, h2]; exact h1
  · rw [h.all ls s hr hok hqu, story_events]

/-! ### merge -/

theorem Producer.acts_run (p : Producer S L α) (hp : ∀ s, p.dispose s = s) {ls : List (Option L)} {s : S × List (Notif α)}
    (hr : LTS.run p.source.step p.source.init ls = some s) : LTS.run p.solo (p.init, []) (Producer.acts ls) = some s := by
  refine LTS.inv_hist (fun ls (s : S × List (Notif α)) => LTS.run p.solo (p.init, []) (Producer.acts ls) = some s) rfl ?_ hr
  intro ls s l s' ih h
  have ha : Producer.acts (ls ++ [l]) = Producer.acts ls ++ Producer.acts [l] := List.filterMap_append ..
  rw [ha]
  cases l with
  | none =>
    simp only [Producer.source, Option.some.injEq, hp] at h
    subst h
    simpa [Producer.acts] using ih
  | some l =>
    exact LTS.run_append.mpr ⟨s, ih, LTS.run_cons.mpr ⟨s', h, rfl⟩⟩

namespace Merge
variable {mx : Int}

theorem merged_of {ls : List (Label ω α)} {s : State ω} {posts : List (Notif α)} (hm : 0 ≤ mx)
    (hr : LTS.run (mergeInner mx).solo (State.initial, []) ls = some (s, posts)) (hw : Lawful ls) :
    (story posts).events <+: (merged ls).events ∧ (NoFailure ls → ¬ Stopped ls → Settled s → story posts = merged ls) := by
  have hmono : (story (arrivals ls)).events <+: (merged ls).events := by
    rw [merged]
    split
    · exact cut_mono (List.prefix_append ..)
    · exact List.prefix_refl _
  rcases posts_shape hm hr hw with h | h
  · refine ⟨h ▸ hmono, fun hf hs hq => ?_⟩
    have : ¬ Finished ls := by
      intro hfin
      have h1 := settled_completed hm hr hw hf hs hq hfin.1 (fun k hk => hfin.2 k (Nat.lt_of_lt_of_le hk (started_prefix hr hw).length_le))
      rw [h] at h1
      exact arrivals_noDone _ h1
    rw [merged, if_neg this, h]
  · have hc : .completed ∈ posts := by rw [h]; simp
    obtain ⟨h1, h2, h3⟩ := completed_posted hm hr hw hc
    have hfin : Finished ls := ⟨h1, by rw [← h2]; exact h3⟩
    rw [merged, if_pos hfin, h]
    exact ⟨List.prefix_refl _, fun _ _ _ => rfl⟩

/-- `merge_inner(mx)` posts the merged stream. -/
theorem posts (hm : 0 ≤ mx) : (mergeInner mx : Producer _ (Label ω α) α).source.Posts (fun ls _ => Lawful (Producer.acts ls))
    (fun ls s => NoFailure (Producer.acts ls) ∧ ¬ Stopped (Producer.acts ls) ∧ Settled s.1) (fun ls => merged (Producer.acts ls)) :=
  ⟨fun _ _ hr hok => (merged_of hm (Producer.acts_run _ (fun _ => rfl) hr) hok).1, fun _ _ hr hok hq => (merged_of hm (Producer.acts_run _ (fun _ => rfl) hr) hok).2 hq.1 hq.2.1 hq.2.2⟩

end Merge

/-- C101 for `pipe(source, merge_inner(mx), op)`: the operators get the merged stream. -/
theorem C101_merge {mx : Int} (hm : 0 ≤ mx) {op : Operator α γ} {G : Story α → Story γ} (hG : op.Computes G) :
    ((mergeInner mx : Producer _ (Merge.Label ω α) α).source.pipe op.protected).Sends
      (fun ls _ => Merge.Lawful (Producer.acts (Piped.sources ls)))
      (fun ls s => (Merge.NoFailure (Producer.acts (Piped.sources ls)) ∧ ¬ Merge.Stopped (Producer.acts (Piped.sources ls)) ∧
        Merge.Settled s.src.1) ∧ op.protected.slowProc.Quiescent s.ps)
      (fun ls => G (Merge.merged (Producer.acts (Piped.sources ls)))) :=
  C101_pipe (Producer.source_grows _) hG.guarded (fun _ _ => trivial) (Merge.posts hm) (fun _ _ _ _ => trivial)

/-! ### concat -/

/-- `merge_inner(1)` sends the inner observables' streams one after the other. -/
theorem Merge.concat_sends (src : ω → Story α) (os : List ω) (f : End) (hf : ∀ e, f ≠ .failed e) :
    (concatInner : Producer _ (Merge.Label ω α) α).source.Sends (fun ls s => Merge.Scripted src os f (Producer.acts ls) s.1)
      (fun ls s => Merge.Played src os f (Producer.acts ls) s.1 ∧ Merge.NoFailure (Producer.acts ls) ∧ .cancel ∉ Producer.acts ls ∧
        Merge.Settled s.1) (fun _ => concat (os.map src) f) :=
  ⟨fun _ _ hr hok => (Merge.concat_posts hf (Producer.acts_run _ (fun _ => rfl) hr) hok).1,
   fun _ _ hr hok hq => (Merge.concat_posts hf (Producer.acts_run _ (fun _ => rfl) hr) hok).2 hq.1 hq.2.1 hq.2.2.1 hq.2.2.2⟩

/-- C101 for `pipe(concat(o1, o2, ...), op)`: the operators make of it what they make of the concatenated streams. -/
theorem C101_concat {op : Operator α γ} {G : Story α → Story γ} (hG : op.Computes G) (src : ω → Story α) (os : List ω) (f : End)
    (hf : ∀ e, f ≠ .failed e) :
    ((concatInner : Producer _ (Merge.Label ω α) α).source.pipe op.protected).Sends
      (fun ls s => Merge.Scripted src os f (Producer.acts (Piped.sources ls)) s.src.1)
      (fun ls s => (Merge.Played src os f (Producer.acts (Piped.sources ls)) s.src.1 ∧ Merge.NoFailure (Producer.acts (Piped.sources ls)) ∧
        .cancel ∉ Producer.acts (Piped.sources ls) ∧ Merge.Settled s.src.1) ∧ op.protected.slowProc.Quiescent s.ps)
      (fun _ => G (concat (os.map src) f)) :=
  C101_pipe (Producer.source_grows _) hG.guarded (fun _ _ => trivial) (Merge.concat_sends src os f hf).posts (fun _ _ _ _ => trivial)

/-! ### switch_latest -/

theorem Switch.posts (honour : Bool) : (switchLatest honour : Producer _ (Merge.Label ω α) α).source.Posts
    (fun ls _ => Merge.Lawful (Producer.acts ls) ∧ .cancel ∉ Producer.acts ls) (fun ls _ => Merge.sent (Producer.acts ls) ≠ [])
    (fun ls => Switch.mirrored (Producer.acts ls)) := by
  refine ⟨fun ls s hr hok => ?_, fun ls s hr hok hne => ?_⟩
  all_goals
    have hq := Switch.quiet_run (Producer.acts_run _ (fun _ => rfl) hr) hok.1 hok.2
    have hoff := Switch.offered_eq_sent hok.1
  · show (story s.2).events <+: _
    rcases hq.shape with h | h
    · rw [h, Switch.mirrored]
      split
      · exact cut_mono (List.prefix_append ..)
      · exact List.prefix_refl _
    · have hc : .completed ∈ s.2 := by rw [h]; simp
      obtain ⟨h1, h2, -⟩ := hq.posted hc
      have h3 : (story (Merge.outerCalls (Producer.acts ls))).fin = .done :=
        fin_of_mem_completed hok.1.outer (Switch.mem_outerCalls.mp h1)
      rw [h, Switch.mirrored, if_pos ⟨h3, by rw [← hoff, h2]; rfl⟩]
      exact List.prefix_refl _
  · show story s.2 = _
    have hnot : ¬ ((story (Merge.outerCalls (Producer.acts ls))).fin = .done ∧ (Merge.sent (Producer.acts ls)).length = 0) :=
      fun h => hne (List.length_eq_zero_iff.mp h.2)
    rw [Switch.mirrored, if_neg hnot]
    rcases hq.shape with h | h
    · rw [h]
    · exact absurd ((hq.posted (by rw [h]; simp)).2.1 ▸ hoff).symm hne

/-- C101 for `pipe(source, switch_latest, op)`. -/
theorem C101_switch (honour : Bool) {op : Operator α γ} {G : Story α → Story γ} (hG : op.Computes G) :
    ((switchLatest honour : Producer _ (Merge.Label ω α) α).source.pipe op.protected).Sends
      (fun ls _ => Merge.Lawful (Producer.acts (Piped.sources ls)) ∧ .cancel ∉ Producer.acts (Piped.sources ls))
      (fun ls s => Merge.sent (Producer.acts (Piped.sources ls)) ≠ [] ∧ op.protected.slowProc.Quiescent s.ps)
      (fun ls => G (Switch.mirrored (Producer.acts (Piped.sources ls)))) :=
  C101_pipe (Producer.source_grows _) hG.guarded (fun _ _ => trivial) (Switch.posts honour) (fun _ _ _ _ => trivial)

/-! ### flat_map, in the middle of a pipeline -/

namespace Behind
variable {f : Feeder FS FL ω} {ok : List FL → Prop} {quiet : FS → Prop} {T : List FL → Story ω} {mx : Int}

theorem posts (hs : f.Sends ok quiet T) (hm : 0 ≤ mx) : (Behind.source f (mergeInner mx : Producer _ (Merge.Label ω α) α)).Posts
    (fun ls _ => ok (fronts ls) ∧ Tame ls ∧ ∀ e, (T (fronts ls)).fin ≠ .failed e)
    (fun ls s => Merge.NoFailure (deeds ls) ∧ .cancel ∉ deeds ls ∧ quiet s.front ∧ Merge.Settled s.back.src)
    (fun ls => flattened (T (fronts ls)) ls) := by
  have key : ∀ {ls : List (Label FL ω α)} {s}, Reaches f (mergeInner mx) ls s → ok (fronts ls) → Tame ls → (∀ e, (T (fronts ls)).fin ≠ .failed e) →
      ((story s.back.posts).events <+: (flattened (T (fronts ls)) ls).events) ∧
      (Merge.NoFailure (deeds ls) → .cancel ∉ deeds ls → quiet s.front → Merge.Settled s.back.src →
        story s.back.posts = flattened (T (fronts ls)) ls) := by
    intro ls s hr hok ht hne
    obtain ⟨out, ls', h1, h2, h3, h4⟩ := split hr
    have hp := hs.prefix_ _ _ _ h1 hok
    rw [← h3] at hp
    obtain ⟨h5, h6⟩ := Merge.merged_of hm (Merge.solo_of h2) (lawful_of h4 hp ht)
    have harr := arrivals_of h4 hp hne
    refine ⟨h5.trans ?_, fun hf hc hq hse => ?_⟩
    · rw [Merge.merged, harr]
      split
      · next hfin =>
        have h7 := Merge.story_of_prefix_done hp hfin.1
        have h8 : (T (fronts ls)).fin = .done ∧ ∀ k < (T (fronts ls)).vals.length, Merge.fin k (deeds ls) = .done := by
          refine ⟨by have := hfin.1; rwa [h7, story_events] at this, fun k hk => ?_⟩
          have := hfin.2 k (by rw [Merge.sent, h7, story_events]; exact hk)
          rwa [fin_of h4] at this
        rw [flattened, if_pos h8]
        exact List.prefix_refl _
      · rw [flattened]
        split
        · exact cut_mono (List.prefix_append ..)
        · exact List.prefix_refl _
    · rw [h6 (noFailure_deeds h4 hf) (stopped_of h4 hp hne hc) hse, Merge.merged, flattened, harr]
      have ha := hs.all _ _ _ h1 hok hq
      have hiff : Merge.Finished (Producer.owns ls') ↔
          (T (fronts ls)).fin = .done ∧ ∀ k < (T (fronts ls)).vals.length, Merge.fin k (deeds ls) = .done := by
        rw [Merge.Finished, Merge.sent, h3, ha, story_events]
        refine and_congr Iff.rfl (forall_congr' fun k => ?_)
        rw [fin_of h4]; rfl
      by_cases hfin : Merge.Finished (Producer.owns ls')
      · rw [if_pos hfin, if_pos (hiff.mp hfin)]
      · rw [if_neg hfin, if_neg fun h => hfin (hiff.mpr h)]
  exact ⟨fun ls s hr hok => (key hr hok.1 hok.2.1 hok.2.2).1,
    fun ls s hr hok hq => (key hr hok.1 hok.2.1 hok.2.2).2 hq.1 hq.2.1 hq.2.2.1 hq.2.2.2⟩

end Behind

/-- C101 for `flat_map` (and `merge`, ...) in the middle of a pipeline: `front` makes the inner observables `T`, what they send is
merged, and the operators behind get the merged stream. -/
theorem C101_flat_map {f : Feeder FS FL ω} {ok : List FL → Prop} {quiet : FS → Prop} {T : List FL → Story ω} (hs : f.Sends ok quiet T)
    {mx : Int} (hm : 0 ≤ mx) {op : Operator α γ} {G : Story α → Story γ} (hG : op.Computes G) :
    ((Behind.source f (mergeInner mx : Producer _ (Merge.Label ω α) α)).pipe op.protected).Sends
      (fun ls _ => ok (Behind.fronts (Piped.sources ls)) ∧ Behind.Tame (Piped.sources ls) ∧ ∀ e, (T (Behind.fronts (Piped.sources ls))).fin ≠ .failed e)
      (fun ls s => (Merge.NoFailure (Behind.deeds (Piped.sources ls)) ∧ .cancel ∉ Behind.deeds (Piped.sources ls) ∧ quiet s.src.front ∧
        Merge.Settled s.src.back.src) ∧ op.protected.slowProc.Quiescent s.ps)
      (fun ls => G (Behind.flattened (T (Behind.fronts (Piped.sources ls))) (Piped.sources ls))) :=
  C101_pipe (Behind.source_grows _ _) hG.guarded (fun _ _ => trivial) (Behind.posts hs hm) (fun _ _ _ _ => trivial)

theorem Source.feeder_exec {q : Source S L ω} (hq : q.Grows) {ls : List L} : ∀ {s t : S} {out : List (Notif ω)},
    q.feeder.exec s ls = some (t, out) → LTS.run q.step s ls = some t ∧ q.out s ++ out = q.out t := by
  induction ls with
  | nil => intro s t out h; cases h; simp [LTS.run]
  | cons l ls ih =>
    intro s t out h
    obtain ⟨u, o, v, o', h1, h2, h3⟩ := Feeder.exec_cons.mp h
    cases h3
    simp only [Source.feeder, Option.map_eq_some_iff, Prod.mk.injEq] at h1
    obtain ⟨w, h1, rfl, rfl⟩ := h1
    obtain ⟨h4, h5⟩ := ih h2
    refine ⟨LTS.run_cons.mpr ⟨_, h1, h4⟩, ?_⟩
    rw [← List.append_assoc, hq.drop h1, h5]

/-- C101: a pipeline can stand in front of `flat_map` again, and so on: what a source sends is what `flat_map`'s front makes. -/
theorem C101_front {q : Source S L ω} (hq : q.Grows) {ok : List L → S → Prop} {ok' : List L → Prop} {quiet : List L → S → Prop} {quiet' : S → Prop}
    {T : List L → Story ω} (h : q.Sends ok quiet T) (hok : ∀ ls s, ok' ls → ok ls s) (hqu : ∀ ls s, ok' ls → quiet' s → quiet ls s) :
    q.feeder.Sends ok' quiet' T := by
  refine ⟨fun ls s out he h1 => ?_, fun ls s out he h1 h2 => ?_⟩
  all_goals
    obtain ⟨h3, h4⟩ := Source.feeder_exec hq he
    have h0 : q.out q.feeder.init = [] := hq.init
    rw [h0, List.nil_append] at h4
  · rw [h4]; exact h.prefix_ ls s h3 (hok _ _ h1)
  · rw [h4]; exact h.all ls s h3 (hok _ _ h1) (hqu _ _ h1 h2)

/-! ## C102 -/

namespace Running
open EndToEnd (futOf futOf_append futOf_events)

/-- Nobody gives up, and subscribing and disposing work. -/
def Patient (ls : List (Label L γ)) : Prop :=
  ∀ l ∈ ls, l ≠ .main .timeout ∧ l ≠ .main .cancel ∧ (∀ e, l ≠ .main (.subscribeRaises e)) ∧ ∀ e, l ≠ .main (.disposeRaises e)

/-- The future that a stream makes: only its first end counts. -/
theorem futOf_story (ns : List (Notif γ)) : (futOf ns).fut = (futOf (story ns).events).fut := by
  obtain ⟨r, hr⟩ := cut_prefix ns
  have hs : (story ns).events ++ r = ns := hr
  cases hf : (story ns).fin with
  | running =>
    have := running_eq_map hf
    conv => lhs; rw [this]
    rw [Story.events, hf]
    simp [End.events]
  | failed e =>
    rw [futOf_events]
    conv => lhs; rw [← hs]
    rw [Story.events, hf]
    cases hst : story ns with
    | mk vs fin =>
      rw [hst] at hf; dsimp only at hf; subst hf
      have := Awaitable.C15_error vs e (r.map .call)
      simpa [futOf, End.events, verdict, Awaitable.sends, Function.comp_def] using this
  | done =>
    rw [futOf_events]
    conv => lhs; rw [← hs]
    rw [Story.events, hf]
    cases hst : story ns with
    | mk vs fin =>
      rw [hst] at hf; dsimp only at hf; subst hf
      rcases List.eq_nil_or_concat vs with rfl | ⟨init, v, rfl⟩
      · have := Awaitable.C15_no_value (α := γ) (r.map .call)
        simpa [futOf, End.events, verdict, Awaitable.sends, Function.comp_def] using this
      · have := Awaitable.C15_last_value init v (r.map .call)
        simpa [futOf, End.events, verdict, Awaitable.sends, Function.comp_def, List.concat_eq_append] using this

/-- What `wait_for` makes of the future. -/
private def says : Awaitable.Fut γ → RunUntil.Outcome γ → Prop
  | .pending, _ => False
  | .result v, o => o = .value v
  | .exception e, o => o = .raised e
  | .cancelled, o => o = .cancelled

private theorem says_iff {ns : List (Notif γ)} {o : RunUntil.Outcome γ} : says (futOf ns).fut o ↔ verdict (story ns) = some o := by
  rw [futOf_story, futOf_events]
  rcases story ns with ⟨vs, _ | e | _⟩
  · simp [verdict, says]
  · simp only [verdict, says, Option.some.injEq]; exact eq_comm
  · cases h : vs.getLast? <;> simp only [verdict, h, says, Option.some.injEq] <;> exact eq_comm

private theorem verdict_append {a b : List (Notif γ)} {o : RunUntil.Outcome γ} (h : verdict (story a) = some o) :
    verdict (story (a ++ b)) = some o := by
  rw [story_append_of_ended]
  · exact h
  · intro hf
    cases hs : story a with
    | mk vs fin => rw [hs] at hf h; dsimp only at hf; subst hf; cases h

private structure Inv (q : Source S L γ) (s : State S γ) : Prop where
  obv : s.run.phase = .subscribing ∨ s.run.phase = .waiting → s.run.obv = futOf (q.out s.src)
  over : ∀ o, s.run.phase = .disposing o ∨ s.run.phase = .done o → verdict (story (q.out s.src)) = some o

private theorem inv_reach {q : Source S L γ} (hq : q.Grows) {ls : List (Label L γ)} {s : State S γ}
    (hr : LTS.run (step q) (init q) ls = some s) (hp : Patient ls) : Inv q s := by
  refine LTS.inv_of (step := step q) (fun l => l ≠ .main .timeout ∧ l ≠ .main .cancel ∧ (∀ e, l ≠ .main (.subscribeRaises e)) ∧
    ∀ e, l ≠ .main (.disposeRaises e)) (Inv q) ?_ ?_ hp hr
  · refine ⟨fun _ => ?_, fun o h => ?_⟩
    · show _ = futOf (q.out q.init); rw [hq.init]; rfl
    · rcases h with h | h <;> cases h
  intro s l s' hl h hs
  cases l with
  | source l =>
    simp only [step, Option.map_eq_some_iff] at hs
    obtain ⟨t, ht, rfl⟩ := hs
    have hd := hq.drop ht
    refine ⟨fun hp => ?_, fun o ho => ?_⟩
    · dsimp only at hp ⊢; rw [h.obv hp, ← hd, futOf_append]; simp
    · dsimp only at ho ⊢; rw [← hd]; exact verdict_append (h.over o ho)
  | main l =>
    cases l with
    | obv l => cases hs
    | timeout => exact absurd rfl hl.1
    | cancel => exact absurd rfl hl.2.1
    | subscribeRaises e => exact absurd rfl (hl.2.2.1 e)
    | disposeRaises e => exact absurd rfl (hl.2.2.2 e)
    | subscribed =>
      simp only [step, RunUntil.step, Option.map_eq_some_iff] at hs
      obtain ⟨r, hs, rfl⟩ := hs
      cases hph : s.run.phase with
      | subscribing =>
        rw [hph] at hs
        cases hs
        exact ⟨fun _ => h.obv (.inl hph), fun o ho => (by rcases ho with ho | ho <;> cases ho)⟩
      | _ => rw [hph] at hs; cases hs
    | resume =>
      simp only [step, Option.map_eq_some_iff] at hs
      obtain ⟨r, hs, rfl⟩ := hs
      simp only [RunUntil.step] at hs
      cases hph : s.run.phase with
      | waiting =>
        have hobv := h.obv (.inr hph)
        have leave : ∀ o, says s.run.obv.fut o → Inv q { s with run := s.run.leave o } := by
          intro o ho
          rw [hobv] at ho
          refine ⟨fun h => (by rcases h with h | h <;> cases h), fun o' h' => ?_⟩
          rcases h' with h' | h' <;> cases h'
          exact says_iff.mp ho
        rw [hph] at hs
        cases hfut : s.run.obv.fut <;> rw [hfut] at hs <;> cases hs
        all_goals exact leave _ (by rw [hfut]; rfl)
      | _ => rw [hph] at hs; cases hs
    | disposed =>
      simp only [step, RunUntil.step, Option.map_eq_some_iff] at hs
      obtain ⟨r, hs, rfl⟩ := hs
      cases hph : s.run.phase with
      | disposing o =>
        rw [hph] at hs
        cases hs
        refine ⟨fun h => (by rcases h with h | h <;> cases h), fun o' h' => ?_⟩
        rcases h' with h' | h' <;> cases h'
        exact h.over o (.inl hph)
      | _ => rw [hph] at hs; cases hs

/-- The source does not notice `run`. -/
theorem sources_run {q : Source S L γ} {ls : List (Label L γ)} {s : State S γ} (hr : LTS.run (step q) (init q) ls = some s) :
    LTS.run q.step q.init (sources ls) = some s.src := by
  refine LTS.inv_hist (step := step q) (fun ls s => LTS.run q.step q.init (sources ls) = some s.src) (s0 := init q) rfl ?_ hr
  intro ls s l s' ih h
  have ha : sources (ls ++ [l]) = sources ls ++ sources [l] := List.filterMap_append ..
  rw [ha]
  cases l with
  | source l =>
    simp only [step, Option.map_eq_some_iff] at h
    obtain ⟨t, ht, rfl⟩ := h
    exact LTS.run_append.mpr ⟨_, ih, LTS.run_cons.mpr ⟨_, ht, rfl⟩⟩
  | main l =>
    have : s'.src = s.src := by
      cases l with
      | obv l => cases h
      | subscribed | subscribeRaises | resume | timeout | cancel | disposed | disposeRaises =>
        simp only [step, Option.map_eq_some_iff] at h
        obtain ⟨r, -, rfl⟩ := h; rfl
    rw [this]
    simpa [sources] using ih

/-- C102, whatever the source or pipeline: if `run` is over, the stream has ended, and `run` has returned its last value, raised its
error, or raised CancelledError if it completed without a value. -/
theorem C102_result {q : Source S L γ} (hq : q.Grows) {ls : List (Label L γ)} {s : State S γ}
    (hr : LTS.run (step q) (init q) ls = some s) (hp : Patient ls) {o : RunUntil.Outcome γ} (h : s.run.phase = .done o) :
    verdict (story (q.out s.src)) = some o := (inv_reach hq hr hp).over o (.inr h)

/-- C102, progress: once the stream has ended, `run` gets to its end with steps of its own. -/
theorem C102_can_finish {q : Source S L γ} (hq : q.Grows) {ls : List (Label L γ)} {s : State S γ}
    (hr : LTS.run (step q) (init q) ls = some s) (hp : Patient ls) {o : RunUntil.Outcome γ} (hv : verdict (story (q.out s.src)) = some o) :
    ∃ (ms : List (RunUntil.Label γ)) (s' : State S γ), (∀ m ∈ ms, m = .subscribed ∨ m = .resume ∨ m = .disposed) ∧ LTS.run (step q) s (ms.map .main) = some s' ∧ s'.run.phase = .done o ∧
      s'.src = s.src := by
  have hinv := inv_reach hq hr hp
  have disposing : ∀ s : State S γ, s.run.phase = .disposing o → LTS.run (step q) s [.main .disposed] = some { s with run := { s.run with phase := .done o } } := by
    intro s h
    simp [LTS.run, step, RunUntil.step, h]
  have waiting : ∀ s : State S γ, s.run.phase = .waiting → s.run.obv = futOf (q.out s.src) → verdict (story (q.out s.src)) = some o →
      ∃ s', LTS.run (step q) s [.main .resume, .main .disposed] = some s' ∧ s'.run.phase = .done o ∧ s'.src = s.src := by
    intro s h hobv hv
    have hsay := says_iff.mpr hv
    rw [← hobv] at hsay
    have : step q s (.main .resume) = some { s with run := s.run.leave o } := by
      cases hf : s.run.obv.fut <;> rw [hf] at hsay <;> simp only [says] at hsay <;> subst hsay <;>
        simp [step, RunUntil.step, h, hf]
    exact ⟨_, LTS.run_cons.mpr ⟨_, this, disposing _ rfl⟩, rfl, rfl⟩
  cases hph : s.run.phase with
  | subscribing =>
    obtain ⟨s', h1, h2, h3⟩ := waiting { s with run := { s.run with phase := .waiting } } rfl (hinv.obv (.inl hph)) hv
    refine ⟨[.subscribed, .resume, .disposed], s', by simp, LTS.run_cons.mpr ⟨_, ?_, h1⟩, h2, h3⟩
    simp [step, RunUntil.step, hph]
  | waiting =>
    obtain ⟨s', h1, h2, h3⟩ := waiting s hph (hinv.obv (.inr hph)) hv
    exact ⟨[.resume, .disposed], s', by simp, h1, h2, h3⟩
  | disposing o' =>
    have := hinv.over o' (.inl hph)
    rw [hv] at this; cases this
    exact ⟨[.disposed], _, by simp, disposing s hph, rfl, rfl⟩
  | done o' =>
    have := hinv.over o' (.inr hph)
    rw [hv] at this; cases this
    exact ⟨[], s, by simp, rfl, hph, rfl⟩

/-- C102, composed with C101: `run` over a source or pipeline that posts the stream `T`. -/
theorem C102_run {q : Source S L γ} (hq : q.Grows) {ok quiet : List L → S → Prop} {T : List L → Story γ} (hT : q.Posts ok quiet T)
    {ls : List (Label L γ)} {s : State S γ} (hr : LTS.run (step q) (init q) ls = some s) (hp : Patient ls) (hok : ok (sources ls) s.src) :
    (∀ o, s.run.phase = .done o → verdict (T (sources ls)) = some o) ∧
    (∀ o, quiet (sources ls) s.src → verdict (T (sources ls)) = some o →
      ∃ (ms : List (RunUntil.Label γ)) (s' : State S γ), (∀ m ∈ ms, m = .subscribed ∨ m = .resume ∨ m = .disposed) ∧
        LTS.run (step q) s (ms.map .main) = some s' ∧ s'.run.phase = .done o) := by
  have hs := sources_run hr
  refine ⟨fun o h => ?_, fun o hqu hv => ?_⟩
  · have hv := C102_result hq hr hp h
    obtain ⟨u, hu, hut⟩ := EndToEnd.prefix_events (hT.prefix_ _ _ hs hok)
    have hst : story (q.out s.src) = u := by rw [← story_events u, ← hu, story_events]
    rw [← hut, ← hst]
    · exact hv
    · rw [← hst]
      intro hf
      cases hs : story (q.out s.src) with
      | mk vs fin => rw [hs] at hf hv; dsimp only at hf; subst hf; cases hv
  · rw [← hT.all _ _ hs hok hqu] at hv
    obtain ⟨ms, s', h1, h2, h3, -⟩ := C102_can_finish hq hr hp hv
    exact ⟨ms, s', h1, h2, h3⟩

end Running

/-! ## C103 -/

namespace Interval
variable {t0 : Nat} {seconds period : Int}

theorem calls_length (hp : period ≠ 0) {ls : List Label} {s : State} (hr : LTS.run (step seconds period) (init t0) ls = some s) :
    s.calls.length = sends ls := by
  refine LTS.inv_hist (step := step seconds period) (fun ls s => s.calls.length = sends ls) (s0 := init t0) rfl ?_ hr
  intro ls s l s' ih h
  have ha : sends (ls ++ [l]) = sends ls + sends [l] := by simp [sends]
  rw [ha, ← ih]
  rcases s with ⟨now, pc, c, calls⟩
  cases l <;> cases pc <;> simp only [step, afterSend, hp, if_false, reduceCtorEq, Option.some.injEq] at h
  all_goals try split at h
  all_goals try simp only [reduceCtorEq, Option.some.injEq] at h
  all_goals first
    | (subst h; simp [sends])
    | simp at h

/-- C103: an interval sends 0, 1, 2, ... -/
theorem source_sends (hp : period ≠ 0) : (Interval.source t0 seconds period).Sends (fun _ _ => True) (fun _ _ => True)
    (fun ls => ⟨List.range (sends ls), .running⟩) := by
  have : ∀ {ls s}, LTS.run (Interval.source t0 seconds period).step (Interval.source t0 seconds period).init ls = some s →
      (Interval.source t0 seconds period).out s = Story.events ⟨List.range (sends ls), .running⟩ := by
    intro ls s hr
    obtain ⟨n, hn⟩ := C25_no_terminal t0 seconds period hp hr
    have h1 := calls_length hp hr
    have h2 := congrArg List.length hn
    simp at h2
    show s.calls.map (·.2) = _
    rw [hn, ← h1, h2]
    simp [Story.events, End.events]
  exact ⟨fun _ _ hr _ => this hr ▸ List.prefix_refl _, fun _ _ hr _ _ => this hr⟩

/-- `timer` sends at most 0 and then completes. -/
theorem timer_sends : (Interval.source t0 seconds 0).Sends (fun _ _ => True) (fun _ s => s.pc = .closing ∨ (s.pc = .dead ∧ s.calls.length = 2))
    (fun _ => ⟨[0], .done⟩) := by
  refine ⟨fun _ _ hr _ => C25_timer t0 seconds hr, fun _ s hr _ hq => ?_⟩
  have h := LTS.inv (Inv t0 seconds 0) (inv_init t0 seconds 0) (fun _ _ _ => inv_step) hr
  have hp := C25_timer t0 seconds hr
  rcases h.shape with ⟨n, h1, h2⟩ | ⟨h1, -⟩
  · rcases hq with hq | ⟨-, hq⟩
    · exact absurd hq h2
    · exact hp.eq_of_length (by simpa using hq)
  · exact h1

end Interval

/-- C103: whatever the operators behind an interval are, they make of it what they make of 0, 1, 2, ... -/
theorem C103_operators {op : Operator Nat γ} {G : Story Nat → Story γ} (hG : op.Computes G) (t0 : Nat) (seconds period : Int) (hp : period ≠ 0) :
    ((Interval.source t0 seconds period).pipe op.direct).Sends (fun _ _ => True) (fun _ s => True ∧ op.direct.slowProc.Quiescent s.ps)
      (fun ls => G ⟨List.range (Interval.sends (Piped.sources ls)), .running⟩) :=
  C101_pipe (Interval.source_grows _ _ _) hG.direct (fun _ h => h) (Interval.source_sends hp).posts
    (fun _ s hr _ => by
      have := (Interval.source_sends hp).prefix_ _ s hr trivial
      exact grammar_prefix this ⟨_, rfl⟩)

/-- C103 for `timer(seconds)`: the operators behind it get 0 and the completion. -/
theorem C103_timer {op : Operator Nat γ} {G : Story Nat → Story γ} (hG : op.Computes G) (t0 : Nat) (seconds : Int) :
    ((Interval.source t0 seconds 0).pipe op.direct).Sends (fun _ _ => True)
      (fun _ s => (s.src.pc = .closing ∨ (s.src.pc = .dead ∧ s.src.calls.length = 2)) ∧ op.direct.slowProc.Quiescent s.ps)
      (fun _ => G ⟨[0], .done⟩) :=
  C101_pipe (Interval.source_grows _ _ _) hG.direct (fun _ h => h) Interval.timer_sends.posts
    (fun _ s hr _ => grammar_prefix (Interval.timer_sends.prefix_ _ s hr trivial) ⟨_, rfl⟩)

namespace Interval
variable {t0 : Nat} {seconds period : Int}

/-- `pipe(interval(seconds, period), take(n))` -/
abbrev taken (t0 : Nat) (seconds period : Int) (n : Nat) := (Interval.source t0 seconds period).pipe (takeOp (n : Int) : Operator Nat Nat).direct

theorem take_range (n k : Nat) (hn : 0 < n) : Spec.take n ⟨List.range k, .running⟩ = if n ≤ k then ⟨List.range n, .done⟩ else ⟨List.range k, .running⟩ := by
  simp only [Spec.take, List.length_range, Int.toNat_natCast, List.take_range]
  rcases Nat.lt_or_ge k n with h | h
  · rw [if_neg (by omega), if_neg (by omega), Nat.min_eq_right (by omega)]
  · rw [if_pos (by omega), if_pos h, Nat.min_eq_left h]

theorem takeOp_computes (n : Nat) : (takeOp (n : Int) : Operator α α).Computes (Spec.take n) := by
  obtain ⟨op, h1, h2⟩ := C47_take (α := α) (n : Int) (by omega)
  rw [take, if_neg (by omega)] at h1
  cases h1; exact h2

/-- C103: `pipe(interval(s, p), take(n))` sends 0, ..., n-1 and completes. -/
theorem C103_take (hp : period ≠ 0) (n : Nat) (hn : 0 < n) :
    (taken t0 seconds period n).Sends (fun _ _ => True)
      (fun ls s => n ≤ sends (Piped.sources ls) ∧ (takeOp (n : Int) : Operator Nat Nat).direct.slowProc.Quiescent s.ps) (fun _ => ⟨List.range n, .done⟩) := by
  have h := C103_operators (takeOp_computes (α := Nat) n) t0 seconds period hp
  refine ⟨fun ls s hr hok => (h.prefix_ ls s hr hok).trans ?_, fun ls s hr hok hq => ?_⟩
  · rw [take_range n _ hn]
    split
    · exact List.prefix_refl _
    · next hlt =>
      have hm : List.range n = List.range (sends (Piped.sources ls) + (n - sends (Piped.sources ls))) := by congr 1; omega
      simp only [hm, Story.events, End.events, List.append_nil, List.range_add, List.map_append, List.append_assoc]
      exact List.prefix_append _ _
  · have := h.all ls s hr hok ⟨trivial, hq.2⟩
    rwa [take_range n _ hn, if_pos hq.1] at this

theorem times (t0 : Nat) (seconds period : Int) {ls : List Label} {s : State} (hr : LTS.run (step seconds period) (init t0) ls = some s) :
    ∀ c ∈ s.calls, c.1 ≤ s.now := by
  refine LTS.inv (step := step seconds period) (fun s : State => ∀ c ∈ s.calls, c.1 ≤ s.now) (by simp [init]) ?_ hr
  rintro ⟨now, pc, c, calls⟩ l s' ih h
  dsimp only at ih
  cases l <;> cases pc <;> simp only [step, afterSend, reduceCtorEq, Option.some.injEq] at h
  all_goals try split at h
  all_goals try simp only [reduceCtorEq, Option.some.injEq] at h
  all_goals try split at h
  all_goals try subst h
  all_goals intro x hx
  all_goals dsimp only at hx ⊢
  all_goals first
    | exact ih x hx
    | exact Nat.le_succ_of_le (ih x hx)
    | (simp only [List.mem_append, List.mem_singleton] at hx
       rcases hx with hx | rfl
       · exact ih x hx
       · exact Nat.le_refl _)

private theorem sent_of_sends (hp : period ≠ 0) {ls : List Label} {s : State} (hr : LTS.run (step seconds period) (init t0) ls = some s)
    {k : Nat} (hk : k < sends ls) : ∃ t, (t, k) ∈ sent s ∧ t ≤ s.now := by
  obtain ⟨n, hn⟩ := C25_no_terminal t0 seconds period hp hr
  have h1 := calls_length hp hr
  have h2 := congrArg List.length hn
  simp at h2
  have hmem : Notif.next k ∈ s.calls.map (·.2) := by
    rw [hn]; simp; omega
  obtain ⟨⟨t, x⟩, hx, hx'⟩ := List.mem_map.mp hmem
  dsimp only at hx'; subst hx'
  exact ⟨t, List.mem_filterMap.mpr ⟨_, hx, rfl⟩, times t0 seconds period hr _ hx⟩

/-- C103: `run(pipe(interval(s, p), take(n)))` returns n-1, not before s + (n-1)p; and it can return once the interval has sent n values. -/
theorem C103_run (hp : period ≠ 0) (n : Nat) (hn : 0 < n) {ls : List (Running.Label _ Nat)} {s : Running.State _ Nat}
    (hr : LTS.run (Running.step (taken t0 seconds period n)) (Running.init (taken t0 seconds period n)) ls = some s) (hpa : Running.Patient ls) :
    (∀ o, s.run.phase = .done o → o = .value (some (n - 1)) ∧ t0 + seconds.toNat + (n - 1) * period.toNat ≤ s.src.src.now) ∧
    (n ≤ sends (Piped.sources (Running.sources ls)) → (takeOp (n : Int) : Operator Nat Nat).direct.slowProc.Quiescent s.src.ps →
      ∃ (ms : List (RunUntil.Label Nat)) (s' : Running.State _ Nat), (∀ m ∈ ms, m = .subscribed ∨ m = .resume ∨ m = .disposed) ∧
        LTS.run (Running.step (taken t0 seconds period n)) s (ms.map .main) = some s' ∧ s'.run.phase = .done (.value (some (n - 1)))) := by
  have hv : verdict (⟨List.range n, .done⟩ : Story Nat) = some (.value (some (n - 1))) := by
    obtain ⟨m, rfl⟩ : ∃ m, n = m + 1 := ⟨n - 1, by omega⟩
    simp [verdict, List.range_succ]
  have hg := Source.pipe_grows (Interval.source t0 seconds period) (takeOp (n : Int) : Operator Nat Nat).direct
  obtain ⟨h1, h2⟩ := Running.C102_run hg (C103_take hp n hn).posts hr hpa trivial
  refine ⟨fun o ho => ?_, fun hk hq => h2 _ ⟨hk, hq⟩ hv⟩
  refine ⟨?_, ?_⟩
  · have := h1 o ho
    rw [hv] at this
    exact (Option.some.inj this).symm
  · have h3 := (Running.C102_run hg (C103_operators (takeOp_computes (α := Nat) n) t0 seconds period hp).posts hr hpa trivial).1 o ho
    have hk : n ≤ sends (Piped.sources (Running.sources ls)) := by
      rcases Nat.lt_or_ge (sends (Piped.sources (Running.sources ls))) n with hlt | hge
      · rw [take_range n _ hn, if_neg (by omega)] at h3
        cases h3
      · exact hge
    have h4 := (Piped.split (Interval.source_grows _ _ _) (Running.sources_run hr)).1
    obtain ⟨t, ht, hle⟩ := sent_of_sends hp h4 (k := n - 1) (by omega)
    exact Nat.le_trans (C25_never_early t0 seconds period h4 t (n - 1) ht) hle

/-- C103: on a loop that is not overloaded, when the time has come and everything is at rest, all n values and the completion have been
sent (nobody disposes the subscription before, and `take` does not raise). -/
theorem C103_in_time (hp : period ≠ 0) (n : Nat) (hn : 0 < n) {ls : List (Piped.Label Label _)} {s : Piped.State State _}
    (hr : LTS.run (taken t0 seconds period n).step (taken t0 seconds period n).init ls = some s)
    (hprompt : LTS.run (promptStep seconds period) (init t0) (Piped.sources ls) = some s.src)
    (hb : busy s.src = false) (hd : s.src.pc ≠ .dead) (hq : (takeOp (n : Int) : Operator Nat Nat).direct.slowProc.Quiescent s.ps)
    (hnow : t0 + seconds.toNat + (n - 1) * period.toNat ≤ s.src.now) : s.outs = (List.range n).map .next ++ [.completed] := by
  have h := C25_on_schedule t0 seconds period hprompt hb hd (n - 1) hnow
  have h4 := (Piped.split (Interval.source_grows _ _ _) hr).1
  obtain ⟨m, hm⟩ := C25_no_terminal t0 seconds period hp h4
  have h1 := calls_length hp h4
  have h2 := congrArg List.length hm
  simp at h2
  have hmem : Notif.next (n - 1) ∈ s.src.calls.map (·.2) := by
    obtain ⟨⟨t, x⟩, hx, hx'⟩ := List.mem_filterMap.mp h
    cases x with
    | next v =>
      simp at hx'
      exact List.mem_map.mpr ⟨_, hx, by simp [hx'.2]⟩
    | error e => simp at hx'
    | completed => simp at hx'
  rw [hm] at hmem
  simp at hmem
  exact (C103_take hp n hn).all ls s hr trivial ⟨by omega, hq⟩

end Interval

/-! ## Examples -/

namespace Interval

private abbrev u : Piped.Label Label (takeOp 2 : Operator Nat Nat).direct := .worker (.inl ())
private abbrev v : Piped.Label Label (takeOp 2 : Operator Nat Nat).direct := .worker (.inr ())

/-- `pipe(interval(2, 3), take(2))`, subscribed at 5: `take` hands on a value while the interval's task waits for it. -/
abbrev demoPipe : List (Piped.Label Label (takeOp 2 : Operator Nat Nat).direct) :=
  [.source .start, .source .tick, .source .tick, .source .wake, u, u, v, v, .source .ret, .source .tick, .source .tick, .source .tick,
   .source .wake, u, u, u, .source .ret, v, v, v, v]

example : (LTS.run (taken 5 2 3 2).step (taken 5 2 3 2).init demoPipe).map (fun s => (s.outs, s.src.now)) =
    some ([.next 0, .next 1, .completed], 10) := by decide
example : 2 ≤ sends (Piped.sources demoPipe) := by decide
-- the hypotheses of `C103_in_time`
example : (LTS.run (promptStep 2 3) (init 5) (Piped.sources demoPipe)).map (fun s => (busy s, decide (s.pc = .dead), s.now)) =
    some (false, false, 10) := by decide
example : (LTS.run (Running.step (taken 5 2 3 2)) (Running.init (taken 5 2 3 2))
    (.main .subscribed :: demoPipe.map .source ++ [.main .resume, .main .disposed])).map (fun s => s.run.phase) =
    some (.done (.value (some 1))) := by decide
-- before the interval has sent two values, `run` waits
example : (LTS.run (Running.step (taken 5 2 3 2)) (Running.init (taken 5 2 3 2))
    (.main .subscribed :: (demoPipe.take 12).map .source ++ [.main .resume])).isNone = true := by decide

end Interval

/-- `pipe(merge([7, 8]), take(2))`: the two inner observables send alternately. -/
abbrev Merge.demoPipe : List (Piped.Label (Option (Merge.Label Nat Nat)) (takeOp 2 : Operator Nat Nat).protected) :=
  ([some (.outer (.next 7)), some (.outer (.next 8)), some (.outer .completed), some .receive, some .subscribed, some .receive, some .subscribed,
    some .receive, some (.inner 1 (.next 30)), some (.inner 0 (.next 10)), some (.inner 1 .completed), some (.inner 0 (.next 11)),
    some (.inner 0 .completed), some .receive, some .receive].map .source) ++
  ([.inl (), .inl (), .inl (), .inl (), .inl (), .inl (), .inl (), .inl (), .inr (.inl ()), .inr (.inl ()), .inr (.inl ()), .inr (.inl ()), .inr (.inl ()),
    .inr (.inr ()), .inr (.inr ()), .inr (.inr ()), .inr (.inr ()), .inr (.inr ()), .inr (.inr ())].map .worker)

example : (LTS.run ((mergeInner 0 : Producer _ (Merge.Label Nat Nat) Nat).source.pipe (takeOp 2).protected).step
    ((mergeInner 0 : Producer _ (Merge.Label Nat Nat) Nat).source.pipe (takeOp 2).protected).init Merge.demoPipe).map (fun s => s.outs) =
    some [.next 30, .next 10, .completed] := by decide
example : Spec.take 2 (Merge.merged (Producer.acts (Piped.sources Merge.demoPipe))) = ⟨[30, 10], .done⟩ := by decide

/-- The pieces fit together: `pipe(interval(s, p), take(n), flat_map(f), op)`. -/
example {op : Operator β γ} {G : Story β → Story γ} (hG : op.Computes G) (t0 : Nat) (s p : Int) (hp : p ≠ 0) (n : Nat) (hn : 0 < n) :=
  C101_flat_map (C101_front (ok' := fun ls => n ≤ Interval.sends (Piped.sources ls)) (Source.pipe_grows _ _) (Interval.C103_take (t0 := t0) (seconds := s) hp n hn)
    (fun _ _ _ => trivial) (quiet' := fun s => (takeOp (n : Int) : Operator Nat Nat).direct.slowProc.Quiescent s.ps) (fun _ _ h h' => ⟨h, h'⟩)) (mx := 0) (by decide) hG

end Aio
