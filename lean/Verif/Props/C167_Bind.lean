import Verif.Lemmas.Bind
import Verif.Props.C112_114_Timers
/-!
# C167: `flat_map` obeys the monad laws, with all times
-/

namespace Aio
open Spec Spec.Timed Spec.Bind
variable {S S' L L' SO LO SI LI SJ LJ ω ω' α β : Type}

namespace FlatMap

/-- It keeps the grammar, does not fail, makes its calls at the times that it says, and is subscribed at the time `t0`. -/
structure Good (q : Clocked S L α) (t0 : Nat) : Prop where
  lawful : q.Lawful
  start : q.now q.init = t0
  grammar : ∀ ls s, LTS.run q.step q.init ls = some s → Grammar ((q.calls s).map (·.1))
  noError : ∀ ls s, LTS.run q.step q.init ls = some s → ∀ e t, (.error e, t) ∉ q.calls s

/-- What is sent up to each time, and whether it has completed then. -/
structure Plan (α : Type) where
  values : Nat → List (α × Nat)
  ended : Nat → Prop

def Plays (q : Clocked S L α) (p : Plan α) : Prop :=
  ∀ ls s, LTS.run q.step q.init ls = some s → ∀ t < q.now s,
    (upTo t (valuesAt (q.calls s))).Perm (p.values t) ∧ (.completed ∈ upto t (q.calls s) ↔ p.ended t)

theorem Plays.alike {q : Clocked S L α} {r : Clocked S' L' α} {p : Plan α} (hq : Plays q p) (hr : Plays r p) : Alike q r :=
  fun ls s ls' s' h h' t ht ht' => ⟨(hq ls s h t ht).1.trans (hr ls' s' h' t ht').1.symm, (hq ls s h t ht).2.trans (hr ls' s' h' t ht').2.symm⟩

open Classical in
/-- What two observables send that look the same. -/
noncomputable def common (q : Clocked S L α) (r : Clocked S' L' α) : Plan α where
  values t :=
    if h : ∃ ls s, LTS.run q.step q.init ls = some s ∧ t < q.now s then upTo t (valuesAt (q.calls h.choose_spec.choose))
    else if h : ∃ ls s, LTS.run r.step r.init ls = some s ∧ t < r.now s then upTo t (valuesAt (r.calls h.choose_spec.choose)) else []
  ended t := (∃ ls s, LTS.run q.step q.init ls = some s ∧ t < q.now s ∧ .completed ∈ upto t (q.calls s)) ∨
    ∃ ls s, LTS.run r.step r.init ls = some s ∧ t < r.now s ∧ .completed ∈ upto t (r.calls s)

theorem Alike.symm {q : Clocked S L α} {r : Clocked S' L' α} (h : Alike q r) : Alike r q :=
  fun ls s ls' s' hr hr' t ht ht' => ⟨(h _ _ _ _ hr' hr t ht' ht).1.symm, (h _ _ _ _ hr' hr t ht' ht).2.symm⟩

theorem common_plays {q : Clocked S L α} {r : Clocked S' L' α} (hq : Determinate q) (hr : Determinate r) (h : Alike q r) : Plays q (common q r) ∧ Plays r (common q r) := by
  constructor
  · refine fun ls s hs t ht => ⟨?_, fun g => .inl ⟨ls, s, hs, ht, g⟩, ?_⟩
    · have g : ∃ ls s, LTS.run q.step q.init ls = some s ∧ t < q.now s := ⟨ls, s, hs, ht⟩
      simp only [common]
      rw [dif_pos g]
      exact (hq _ _ _ _ hs g.choose_spec.choose_spec.1 t ht g.choose_spec.choose_spec.2).1
    · rintro (⟨ls', s', g1, g2, g3⟩ | ⟨ls', s', g1, g2, g3⟩)
      · exact (hq _ _ _ _ hs g1 t ht g2).2.mpr g3
      · exact (h _ _ _ _ hs g1 t ht g2).2.mpr g3
  · refine fun ls s hs t ht => ⟨?_, fun g => .inr ⟨ls, s, hs, ht, g⟩, ?_⟩
    · have g : ∃ ls s, LTS.run r.step r.init ls = some s ∧ t < r.now s := ⟨ls, s, hs, ht⟩
      simp only [common]
      split
      next g' => exact (Alike.symm h _ _ _ _ hs g'.choose_spec.choose_spec.1 t ht g'.choose_spec.choose_spec.2).1
      · exact (hr _ _ _ _ hs g.choose_spec.choose_spec.1 t ht g.choose_spec.choose_spec.2).1
    · rintro (⟨ls', s', g1, g2, g3⟩ | ⟨ls', s', g1, g2, g3⟩)
      · exact (h _ _ _ _ g1 hs t g2 ht).2.mp g3
      · exact (hr _ _ _ _ hs g1 t ht g2).2.mpr g3

theorem own_plays {q : Clocked S L α} (hq : Determinate q) : Plays q (common q q) := (common_plays hq hq hq).1

/-- The plan of `flat_map`: of each value of the source, what its observable sends. -/
def Plan.bind (p : Plan ω) (f : ω → Nat → Plan α) : Plan α where
  values t := (p.values t).flatMap fun x => (f x.1 x.2).values t
  ended t := p.ended t ∧ ∀ x ∈ p.values t, (f x.1 x.2).ended t

theorem settled_iff {s : Merge.State ω} : settled s = true ↔ Merge.Settled s := by
  unfold settled Merge.Settled
  cases s.pc <;> simp

theorem rest_spec {s : State SO SI ω α} (h : rest s = true) : Merge.Settled s.1.prod ∧ (safe (α := α)).protected.slowProc.Quiescent s.2.ps := by
  simp only [rest, Bool.and_eq_true, List.all_eq_true, Option.isNone_iff_eq_none] at h
  refine ⟨settled_iff.mp h.1, fun l => h.2 l ?_⟩
  match l with
  | .inl () => exact .head _
  | .inr () => exact .tail _ (.head _)

variable {o : Clocked SO LO ω} {fam : ω → Nat → Clocked SI LI α} {t0 : Nat}

theorem proper (ho : Good o t0) (hf : ∀ x t, Good (fam x t) t) : Nested.Proper o fam :=
  ⟨ho.lawful, ho.grammar, fun x t => ⟨(hf x t).lawful, (hf x t).start⟩, fun x t => (hf x t).grammar⟩

/-- What is known of a run. -/
structure Facts (o : Clocked SO LO ω) (fam : ω → Nat → Clocked SI LI α) (ks : List (Time (Nested.Label LO LI ω α))) (s : State SO SI ω α) : Prop where
  run : LTS.run (o.merged fam 0).step (o.merged fam 0).init ks = some s.1
  prompt : (o.merged fam 0).Prompt (fun s => Merge.Settled s.prod) ks
  calm : Nested.Calm o ks s.1
  grammar : Grammar (s.1.posts.map (·.1))
  noError : ∀ e t, (.error e, t) ∉ s.1.posts
  sent : InTime s.2.sent ∧ s.2.sent.map (·.1) <+: s.1.posts.map (·.1)
  past : ∀ t < o.now s.1.outer, upto t s.2.sent = upto t s.1.posts

theorem values_grammar : ∀ {ns : List (Notif α)}, .completed ∉ ns → (∀ e, .error e ∉ ns) → ∃ vs : List α, ns = vs.map .next
  | [], _, _ => ⟨[], rfl⟩
  | .next v :: ns, h1, h2 => by
    obtain ⟨vs, rfl⟩ := values_grammar (ns := ns) (fun h => h1 (by simp [h])) fun e h => h2 e (by simp [h])
    exact ⟨v :: vs, rfl⟩
  | .error e :: ns, _, h2 => absurd (by simp) (h2 e)
  | .completed :: ns, h1, _ => absurd (by simp) h1

theorem facts (ho : Good o t0) (hf : ∀ x t, Good (fam x t) t) {ls s} (hr : LTS.run (o.flatMapped fam).step (o.flatMapped fam).init ls = some s) : ∃ ks, Facts o fam ks s := by
  have hpr := proper ho hf
  obtain ⟨h1, h2, h3⟩ := Clocked.only_run hr
  have hl : (o.merged fam 0).Lawful := Nested.nested_lawful hpr.source hpr.inner (Nested.merge_starts 0) 0
  obtain ⟨g1, g2⟩ := Clocked.operate_source hl h1
  have hok : ∀ l, Time.act l ∈ Clocked.sources ls → ok (.inl l : Label LO LI ω α) = true := by
    intro l hl
    obtain ⟨x, hx, he⟩ := List.mem_filterMap.mp hl
    refine h3 _ ?_
    match x, he with
    | .act (.inl l), he => cases he; exact hx
  have hprompt := Clocked.Prompt.source hl (rest := fun s => Merge.Settled s.prod) (busy := fun t => (safe (α := α)).protected.slowProc.Quiescent t.ps) h1
    fun a d b s he ha => rest_spec (h2 a d b s he ha)
  obtain ⟨h, hpast⟩ := Nested.past hpr.source hpr.inner (Nested.merge_starts 0) g1
  obtain ⟨lo, hlo, -⟩ := hpast.source
  have hcalm : Nested.Calm o (Clocked.sources ls) s.1 :=
    ⟨⟨fun h => absurd (hok _ h) (by simp [ok]), fun h => absurd (hok _ h) (by simp [ok])⟩, fun h => absurd (hok _ h) (by simp [ok]), ho.noError _ _ hlo⟩
  obtain ⟨-, hperm, -⟩ := Nested.C112_arrive hpr g1
  have hne : ∀ e t, (.error e, t) ∉ s.1.posts := by
    intro e t hm
    have h1 : (Notif.error e, t) ∈ noDone s.1.posts := List.mem_filter.mpr ⟨hm, rfl⟩
    have h2 := hperm.mem_iff.mp h1
    rw [errors_nil (ho.noError _ _ hlo), List.nil_append, List.mem_flatMap] at h2
    obtain ⟨⟨x, u, si⟩, hi, h3⟩ := h2
    obtain ⟨k, hk⟩ := List.getElem?_of_mem hi
    obtain ⟨⟨li, hli, -⟩, -⟩ := hpast.sources k _ _ _ hk
    exact (hf x u).noError _ _ hli e t (List.mem_filter.mp h3).1
  have hgr : Grammar (s.1.posts.map (·.1)) := by
    have hnd : ∃ vs : List α, (noDone s.1.posts).map (·.1) = vs.map .next := by
      refine values_grammar (fun h => ?_) fun e h => ?_
      · obtain ⟨⟨n, t⟩, hm, rfl⟩ := List.mem_map.mp h
        have := (List.mem_filter.mp hm).2
        cases this
      · obtain ⟨⟨n, t⟩, hm, rfl⟩ := List.mem_map.mp h
        exact hne e t (List.mem_filter.mp hm).1
    obtain ⟨vs, hvs⟩ := hnd
    rcases Nested.C112_last hpr (Int.le_refl 0) g1 with h | ⟨c, h⟩
    · exact ⟨⟨vs, .running⟩, by rw [h, hvs]; simp [Story.events, End.events]⟩
    · exact ⟨⟨vs, .done⟩, by rw [h, List.map_append, hvs]; simp [Story.events, End.events]⟩
  have hgood := Clocked.operate_good hl (F := fun ns => (story ns).events) (dom := fun _ => True) (id_computes.guarded.slow.all) rfl (fun _ _ _ => trivial) h1
    fun a d b s he ha => (rest_spec (h2 a d b s he ha)).2
  refine ⟨_, g1, hprompt, hcalm, hgr, hne, ⟨hgood.sent.1, ?_⟩, fun t ht => ?_⟩
  · obtain ⟨es, e1, e2⟩ := hgood.exec
    have := id_computes.guarded.slow.prefix_ es _ _ e1 trivial
    rw [e2, g2] at this
    have hcut : (story (s.1.posts.map (·.1))).events = s.1.posts.map (·.1) := cut_of_grammar hgr
    exact hcut ▸ this
  · have h5 := hgood.past t ht
    rw [g2] at h5
    have hin := (hl.inTime g1).1
    rw [h5]
    exact cut_of_grammar (grammar_prefix (upto_prefix hin) hgr)

/-- `flat_map` of what keeps the rules keeps the rules. -/
theorem good (ho : Good o t0) (hf : ∀ x t, Good (fam x t) t) : Good (o.flatMapped fam) t0 where
  lawful := by
    have hpr := proper ho hf
    exact Clocked.only_lawful (Clocked.operate_lawful (Nested.nested_lawful hpr.source hpr.inner (Nested.merge_starts 0) 0) _) _ _
  start := ho.start
  grammar ls s hr := by
    obtain ⟨ks, h⟩ := facts ho hf hr
    exact grammar_prefix h.sent.2 h.grammar
  noError ls s hr e t hm := by
    obtain ⟨ks, h⟩ := facts ho hf hr
    obtain ⟨⟨n, u⟩, h1, h2⟩ := List.mem_map.mp (h.sent.2.subset (List.mem_map.mpr ⟨_, hm, rfl⟩))
    dsimp only at h2
    subst h2
    exact h.noError e u h1

/-- `flat_map` follows the plan. -/
theorem plays (ho : Good o t0) (hf : ∀ x t, Good (fam x t) t) {p : Plan ω} {pf : ω → Nat → Plan α} (hp : Plays o p) (hpf : ∀ x t, Plays (fam x t) (pf x t)) :
    Plays (o.flatMapped fam) (p.bind pf) := by
  intro ls s hr t ht
  have hpr := proper ho hf
  obtain ⟨ks, h⟩ := facts ho hf hr
  replace ht : t < o.now s.1.outer := ht
  obtain ⟨hh, hpast⟩ := Nested.past hpr.source hpr.inner (Nested.merge_starts 0) h.run
  obtain ⟨lo, hlo, -⟩ := hpast.source
  have hsubs : upTo t (Nested.subs s.1) = upTo t (valuesAt (o.calls s.1.outer)) :=
    upTo_ext (Nested.subs_after hpr (Nested.merge_starts 0) h.run).1 (Nested.inTime_values (hpr.source.inTime hlo).1)
      fun u hu => Nested.subscribed_past hpr h.run h.prompt h.calm (by omega)
  have hposts : upTo t s.2.sent = upTo t s.1.posts :=
    upTo_ext h.sent.1 (Nested.C112_arrive hpr h.run).1 fun u hu => h.past u (by omega)
  have hinner : ∀ i ∈ s.1.inners, (upTo t (valuesAt ((fam i.1 i.2.1).calls i.2.2))).Perm ((pf i.1 i.2.1).values t) ∧
      (.completed ∈ upto t ((fam i.1 i.2.1).calls i.2.2) ↔ (pf i.1 i.2.1).ended t) ∧ (t < i.2.1 → upTo t (valuesAt ((fam i.1 i.2.1).calls i.2.2)) = []) ∧
      Grammar (upto t ((fam i.1 i.2.1).calls i.2.2)) := by
    rintro ⟨x, u, si⟩ hi
    obtain ⟨k, hk⟩ := List.getElem?_of_mem hi
    obtain ⟨⟨li, hli, -⟩, hnow⟩ := hpast.sources k _ _ _ hk
    obtain ⟨a1, a2⟩ := hpf x u li si hli t (by omega)
    refine ⟨a1, a2, fun hu => ?_, grammar_prefix (upto_prefix ((hf x u).lawful.inTime hli).1) ((hf x u).grammar _ _ hli)⟩
    rw [upTo, List.filter_eq_nil_iff]
    rintro ⟨v, c⟩ hm
    obtain ⟨⟨n, c'⟩, h3, h4⟩ := List.mem_filterMap.mp hm
    have := ((hf x u).lawful.after hli).2 _ h3
    rw [(hf x u).start] at this
    cases n with
    | next w => cases h4; dsimp only at this hu ⊢; simp; omega
    | _ => cases h4
  have hmem : ∀ x u, (x, u) ∈ p.values t ↔ ∃ i ∈ s.1.inners, i.2.1 ≤ t ∧ x = i.1 ∧ u = i.2.1 := by
    intro x u
    rw [← ((hp lo _ hlo t ht).1.mem_iff), ← hsubs, upTo, List.mem_filter, Nested.subs, List.mem_map]
    constructor
    · rintro ⟨⟨i, hi, he⟩, hle⟩
      cases he
      exact ⟨i, hi, by simpa using hle, rfl, rfl⟩
    · rintro ⟨i, hi, hle, rfl, rfl⟩
      exact ⟨⟨i, hi, rfl⟩, by simpa using hle⟩
  constructor
  · show (upTo t (valuesAt s.2.sent)).Perm _
    rw [upTo_valuesAt, hposts, ← upTo_valuesAt]
    have h1 : (valuesAt s.1.posts).Perm (s.1.inners.flatMap fun i => valuesAt ((fam i.1 i.2.1).calls i.2.2)) := by
      obtain ⟨-, hperm, -⟩ := Nested.C112_arrive hpr h.run
      rw [errors_nil h.calm.noError, List.nil_append] at hperm
      have := hperm.filterMap (fun c : Notif α × Nat => match c with | (.next v, t) => some (v, t) | _ => none)
      have h2 : (valuesAt (noDone s.1.posts)).Perm (valuesAt (s.1.inners.flatMap fun i => noDone ((fam i.1 i.2.1).calls i.2.2))) := this
      rw [valuesAt_noDone, valuesAt_flatMap] at h2
      simpa only [valuesAt_noDone] using h2
    have h2 : (upTo t (valuesAt s.1.posts)).Perm (s.1.inners.flatMap fun i => upTo t (valuesAt ((fam i.1 i.2.1).calls i.2.2))) := by
      rw [← upTo_flatMap]; exact h1.filter _
    refine h2.trans ?_
    rw [← flatMap_filter (p := fun i => i.2.1 ≤ t) fun i hi hn => (hinner i hi).2.2.1 (by simpa using hn)]
    refine (flatMap_perm (g := fun i => (pf i.1 i.2.1).values t) fun i hi => (hinner i (List.mem_filter.mp hi).1).1).trans ?_
    have h3 : (s.1.inners.filter fun i => i.2.1 ≤ t).flatMap (fun i => (pf i.1 i.2.1).values t) = (upTo t (Nested.subs s.1)).flatMap fun x => (pf x.1 x.2).values t := by
      rw [upTo, Nested.subs, List.filter_map, List.flatMap_map]; rfl
    rw [h3, hsubs]
    exact (hp lo _ hlo t ht).1.flatMap_right _
  · show .completed ∈ upto t s.2.sent ↔ _
    rw [h.past t ht, Nested.completed_past hpr h.run h.prompt h.calm ht,
      Hot.done_iff (grammar_prefix (upto_prefix (hpr.source.inTime hlo).1) (hpr.sourceGrammar _ _ hlo)), (hp lo _ hlo t ht).2]
    refine and_congr_right fun _ => ⟨fun g x hx => ?_, fun g i hi hle => ?_⟩
    · obtain ⟨x, u⟩ := x
      obtain ⟨i, hi, hle, rfl, rfl⟩ := (hmem x u).mp hx
      exact (hinner i hi).2.1.mp ((Hot.done_iff (hinner i hi).2.2.2).mp (g i hi hle))
    · exact (Hot.done_iff (hinner i hi).2.2.2).mpr ((hinner i hi).2.1.mpr (g (i.1, i.2.1) ((hmem _ _).mpr ⟨i, hi, hle, rfl, rfl⟩)))

theorem Plays.congr {q : Clocked S L α} {t0 : Nat} (hg : Good q t0) {p p' : Plan α} (hp : Plays q p) (hv : ∀ t, t0 ≤ t → p'.values t = p.values t ∧ (p'.ended t ↔ p.ended t))
    (hb : ∀ t, t < t0 → p'.values t = [] ∧ ¬ p'.ended t) : Plays q p' := by
  intro ls s hr t ht
  rcases Nat.lt_or_ge t t0 with hlt | hge
  · have h0 : ∀ c ∈ q.calls s, t < c.2 := fun c hc => by have := (hg.lawful.after hr).2 c hc; rw [hg.start] at this; omega
    obtain ⟨h1, h2⟩ := hb t hlt
    rw [h1, upto_none h0]
    refine ⟨?_, by simp [h2]⟩
    have : upTo t (valuesAt (q.calls s)) = [] := by
      rw [upTo_valuesAt, show upTo t (q.calls s) = [] from List.filter_eq_nil_iff.mpr fun c hc => by have := h0 c hc; simp; omega]
      rfl
    rw [this]
  · rw [(hv t hge).1, (hv t hge).2]
    exact hp ls s hr t ht

/-! ## `single` -/

def singlePlan (x : α) (t0 : Nat) : Plan α := ⟨fun t => if t0 ≤ t then [(x, t0)] else [], fun t => t0 ≤ t⟩

theorem single_good (x : α) (t0 : Nat) : Good (Once.clocked x t0) t0 where
  lawful := Once.lawful x t0
  start := rfl
  grammar ls s hr := grammar_prefix ((Once.exact_ hr).1.map _) ⟨⟨[x], .done⟩, rfl⟩
  noError ls s hr e t hm := by
    have := (Once.exact_ hr).1.subset hm
    simp at this

theorem single_plays (x : α) (t0 : Nat) : Plays (Once.clocked x t0) (singlePlan x t0) := by
  refine Plays.congr (single_good x t0) (p := ⟨fun t => if t0 ≤ t then [(x, t0)] else [], fun t => t0 ≤ t⟩) ?_ (fun t _ => ⟨rfl, Iff.rfl⟩) fun t ht =>
    ⟨if_neg (by omega), by simp only [singlePlan]; omega⟩
  intro ls s hr t ht
  have hs := Once.inv_run hr
  by_cases hlt : t0 ≤ t
  · have := (Once.exact_ hr).2 (by have : t < s.now := ht; omega)
    rw [this]
    simp [valuesAt, upTo, upto, hlt]
  · have h0 : ∀ c ∈ (Once.clocked x t0).calls s, c.2 = t0 := fun c hc => by
      have := (Once.exact_ hr).1.subset hc
      simp at this
      rcases this with rfl | rfl <;> rfl
    have h1 : upTo t ((Once.clocked x t0).calls s) = [] := List.filter_eq_nil_iff.mpr fun c hc => by have := h0 c hc; simp; omega
    have h2 : upto t ((Once.clocked x t0).calls s) = [] := upto_none fun c hc => by have := h0 c hc; omega
    rw [upTo_valuesAt, h1, h2]
    simp [hlt, valuesAt]

/-! ## the laws -/

/-- C167: what `flat_map` sends depends on the time only, if that is so for the source and for the observables that the function returns. -/
theorem C167_determinate (ho : Good o t0) (hf : ∀ x t, Good (fam x t) t) (hd : Determinate o) (hdf : ∀ x t, Determinate (fam x t)) :
    Good (o.flatMapped fam) t0 ∧ Determinate (o.flatMapped fam) :=
  have := plays ho hf (own_plays hd) fun x t => own_plays (hdf x t)
  ⟨good ho hf, this.alike this⟩

/-- C167: sources and functions that look the same may be replaced by one another. -/
theorem C167_congruence {o' : Clocked S L ω} {fam' : ω → Nat → Clocked S' L' α} {t0' : Nat} (ho : Good o t0) (ho' : Good o' t0') (hf : ∀ x t, Good (fam x t) t) (hf' : ∀ x t, Good (fam' x t) t)
    (hd : Determinate o) (hd' : Determinate o') (hdf : ∀ x t, Determinate (fam x t)) (hdf' : ∀ x t, Determinate (fam' x t))
    (hsame : Alike o o') (hsame' : ∀ x t, Alike (fam x t) (fam' x t)) : Alike (o.flatMapped fam) (o'.flatMapped fam') :=
  (plays ho hf (common_plays hd hd' hsame).1 fun x t => (common_plays (hdf x t) (hdf' x t) (hsame' x t)).1).alike
    (plays ho' hf' (common_plays hd hd' hsame).2 fun x t => (common_plays (hdf x t) (hdf' x t) (hsame' x t)).2)

/-- C167, left identity: `pipe(single(x), flat_map(f))` is like `f(x)`. -/
theorem C167_left (x : ω) (hf : ∀ x t, Good (fam x t) t) (hd : ∀ x t, Determinate (fam x t)) : Alike ((Once.clocked x t0).flatMapped fam) (fam x t0) := by
  have hpf := fun x t => own_plays (hd x t)
  refine (plays (single_good x t0) hf (single_plays x t0) hpf).alike (Plays.congr (hf x t0) (hpf x t0) (fun t ht => ?_) fun t ht => ?_)
  · simp [Plan.bind, singlePlan, ht]
  · simp [Plan.bind, singlePlan, Nat.not_le.mpr ht]

/-- C167, right identity: `pipe(m, flat_map(single))` is like `m`. -/
theorem C167_right (ho : Good o t0) (hd : Determinate o) : Alike (o.flatMapped singles) o := by
  obtain ⟨p, hp⟩ : ∃ p, Plays o p := ⟨_, own_plays hd⟩
  have hp' := plays ho single_good hp single_plays
  intro ls s ls' s' hr hr' t ht ht'
  have hle : ∀ x ∈ p.values t, x.2 ≤ t := fun x hx => by
    have := ((hp ls' s' hr' t ht').1.mem_iff).mpr hx
    simpa using (List.mem_filter.mp this).2
  have hbv : ((p.bind singlePlan).values t) = p.values t := by
    have : ∀ l : List (ω × Nat), (∀ x ∈ l, x.2 ≤ t) → (l.flatMap fun x => (singlePlan x.1 x.2).values t) = l := by
      intro l
      induction l with
      | nil => intro _; rfl
      | cons a l ih =>
        intro h
        rw [List.flatMap_cons, ih fun x hx => h x (by simp [hx])]
        simp [singlePlan, h a (by simp)]
    exact this _ hle
  have hbe : (p.bind singlePlan).ended t ↔ p.ended t := by
    simp only [Plan.bind, singlePlan]
    exact ⟨And.left, fun h => ⟨h, hle⟩⟩
  obtain ⟨a1, a2⟩ := hp' ls s hr t ht
  obtain ⟨b1, b2⟩ := hp ls' s' hr' t ht'
  exact ⟨a1.trans (hbv ▸ b1.symm), a2.trans (hbe.trans b2.symm)⟩

/-- C167, associativity: `pipe(m, flat_map(f), flat_map(g))` is like `pipe(m, flat_map(lambda x: pipe(f(x), flat_map(g))))`. -/
theorem C167_associative {fam' : α → Nat → Clocked SJ LJ β} (ho : Good o t0) (hf : ∀ x t, Good (fam x t) t) (hg : ∀ y t, Good (fam' y t) t)
    (hdo : Determinate o) (hdf : ∀ x t, Determinate (fam x t)) (hdg : ∀ y t, Determinate (fam' y t)) :
    Alike ((o.flatMapped fam).flatMapped fam') (o.flatMapped fun x t => (fam x t).flatMapped fam') := by
  obtain ⟨p, hp⟩ : ∃ p, Plays o p := ⟨_, own_plays hdo⟩
  have hpf := fun x t => own_plays (hdf x t)
  have hpg := fun x t => own_plays (hdg x t)
  have h1 := plays (good ho hf) hg (plays ho hf hp hpf) hpg
  have h2 := plays ho (fun x t => good (hf x t) hg) hp fun x t => plays (hf x t) hg (hpf x t) hpg
  have he : ∀ (pf : ω → Nat → Plan α) (pg : α → Nat → Plan β), (p.bind pf).bind pg = p.bind fun x t => (pf x t).bind pg := by
    intro pf pg
    simp only [Plan.bind, List.flatMap_assoc, Plan.mk.injEq, true_and]
    funext t
    simp only [List.mem_flatMap, eq_iff_iff, and_assoc]
    refine and_congr_right fun _ => ⟨fun ⟨a, b⟩ x hx => ⟨a x hx, fun y hy => b y ⟨x, hx, hy⟩⟩, fun h => ⟨fun x hx => (h x hx).1, fun y ⟨x, hx, hy⟩ => (h x hx).2 y hy⟩⟩
  exact Plays.alike (he _ _ ▸ h1) h2

/-! ## `interval` and `timer` -/

theorem intervals_run {seconds period : Int} {t : Nat} {ls s} (hr : LTS.run (intervals seconds period t).step (intervals seconds period t).init ls = some s) :
    LTS.run (Interval.clocked true t seconds period).step (Interval.clocked true t seconds period).init ls = some s ∧ Time.act .dispose ∉ ls ∧ ∀ e, Time.act (.raise e) ∉ ls := by
  obtain ⟨h1, -, h2⟩ := Clocked.only_run hr
  exact ⟨h1, fun h => absurd (h2 _ h) (by simp), fun e h => absurd (h2 _ h) (by simp)⟩

theorem range_upTo {f : Nat → Nat} {t n m : Nat} (hn : ∀ k, f k ≤ t → k < n) (hle : n ≤ m) :
    upTo t ((List.range m).map fun k => (k, f k)) = upTo t ((List.range n).map fun k => (k, f k)) := by
  obtain ⟨d, rfl⟩ := Nat.le.dest hle
  have h0 : upTo t (((List.range d).map (n + ·)).map fun k => (k, f k)) = [] := by
    rw [upTo, List.filter_eq_nil_iff]
    intro c hc
    simp only [List.mem_map, List.mem_range] at hc
    obtain ⟨k, ⟨j, -, rfl⟩, rfl⟩ := hc
    have := hn (n + j)
    simp only [decide_eq_true_eq]
    omega
  rw [upTo] at h0 ⊢
  rw [List.range_add, List.map_append, List.filter_append, h0, List.append_nil, upTo]

/-- C167: `interval` and `timer` are such observables. -/
theorem C167_interval (seconds period : Int) (t0 : Nat) : Good (intervals seconds period t0) t0 ∧ Determinate (intervals seconds period t0) := by
  by_cases hz : period = 0
  · subst hz
    have key : ∀ {ls s}, LTS.run (intervals seconds 0 t0).step (intervals seconds 0 t0).init ls = some s →
        (intervals seconds 0 t0).calls s <+: [(.next 0, t0 + seconds.toNat), (.completed, t0 + seconds.toNat)] ∧
        (t0 + seconds.toNat < s.now → (intervals seconds 0 t0).calls s = [(.next 0, t0 + seconds.toNat), (.completed, t0 + seconds.toNat)]) := by
      intro ls s hr
      obtain ⟨h1, h2, h3⟩ := intervals_run hr
      exact ⟨(Interval.timer_exact h1).1, Interval.timer_done h1 h2 h3⟩
    refine ⟨⟨Clocked.only_lawful (Interval.clocked_lawful ..) _ _, rfl, fun ls s hr => Interval.clocked_grammar (intervals_run hr).1, fun ls s hr e t hm => ?_⟩, ?_⟩
    · have := (key hr).1.subset hm
      simp at this
    · have hp : Plays (intervals seconds 0 t0) ⟨fun t => if t0 + seconds.toNat ≤ t then [(0, t0 + seconds.toNat)] else [], fun t => t0 + seconds.toNat ≤ t⟩ := by
        intro ls s hr t ht
        by_cases hle : t0 + seconds.toNat ≤ t
        · rw [(key hr).2 (by have : t < s.now := ht; omega)]
          simp [valuesAt, upTo, upto, hle]
        · have h0 : ∀ c ∈ (intervals seconds 0 t0).calls s, c.2 = t0 + seconds.toNat := fun c hc => by
            have := (key hr).1.subset hc
            simp at this
            rcases this with rfl | rfl <;> rfl
          have h1 : upTo t ((intervals seconds 0 t0).calls s) = [] := List.filter_eq_nil_iff.mpr fun c hc => by have := h0 c hc; simp; omega
          have h2 : upto t ((intervals seconds 0 t0).calls s) = [] := upto_none fun c hc => by have := h0 c hc; omega
          rw [upTo_valuesAt, h1, h2]
          simp [hle, valuesAt]
      exact hp.alike hp
  · have key : ∀ {ls s}, LTS.run (intervals seconds period t0).step (intervals seconds period t0).init ls = some s → ∃ n,
        (intervals seconds period t0).calls s = (List.range n).map (fun k => (.next k, Interval.due t0 seconds period k)) ∧
        ∀ k, Interval.due t0 seconds period k < s.now → k < n := by
      intro ls s hr
      obtain ⟨h1, h2, h3⟩ := intervals_run hr
      obtain ⟨n, h4, h5⟩ := Interval.clocked_exact hz h1
      exact ⟨n, h4, h5 h2 h3⟩
    refine ⟨⟨Clocked.only_lawful (Interval.clocked_lawful ..) _ _, rfl, fun ls s hr => Interval.clocked_grammar (intervals_run hr).1, fun ls s hr e t hm => ?_⟩, ?_⟩
    · obtain ⟨n, h1, -⟩ := key hr
      rw [h1] at hm
      simp at hm
    · intro ls s ls' s' hr hr' t ht ht'
      obtain ⟨n, h1, h2⟩ := key hr
      obtain ⟨m, h3, h4⟩ := key hr'
      have hv : ∀ n, valuesAt ((List.range n).map fun k => ((.next k, Interval.due t0 seconds period k) : Notif Nat × Nat)) =
          (List.range n).map fun k => (k, Interval.due t0 seconds period k) := by
        intro n; simp [valuesAt, List.filterMap_map, Function.comp_def]
      rw [h1, h3, hv, hv]
      refine ⟨?_, by simp [upto]⟩
      have g1 : ∀ k, Interval.due t0 seconds period k ≤ t → k < n := fun k hk => h2 k (by have : t < s.now := ht; omega)
      have g2 : ∀ k, Interval.due t0 seconds period k ≤ t → k < m := fun k hk => h4 k (by have : t < s'.now := ht'; omega)
      rcases Nat.le_total n m with h | h
      · rw [range_upTo g1 h]
      · rw [range_upTo g2 h]

/-! ## a case -/

/-- A schedule: the first step of the list that is possible, and time passes if there is none. -/
def greedy (q : Clocked S L α) (steps : List L) : Nat → S → List (Time L) × S
  | 0, s => ([], s)
  | n + 1, s =>
    match steps.findSome? fun l => (q.act s l).map fun t => (l, t) with
    | some (l, t) => ((.act l) :: (greedy q steps n t).1, (greedy q steps n t).2)
    | none =>
      match q.pass s 1 with
      | some t => ((.pass 1) :: (greedy q steps n t).1, (greedy q steps n t).2)
      | none => ([], s)

theorem greedy_run (q : Clocked S L α) (steps : List L) : ∀ n s, LTS.run q.step s (greedy q steps n s).1 = some (greedy q steps n s).2
  | 0, s => rfl
  | n + 1, s => by
    rw [greedy]
    split
    next l t h =>
      obtain ⟨l', -, h⟩ := List.exists_of_findSome?_eq_some h
      obtain ⟨t', h, he⟩ := Option.map_eq_some_iff.mp h
      cases he
      exact LTS.run_cons.mpr ⟨_, h, greedy_run q steps n _⟩
    · split
      next t h => exact LTS.run_cons.mpr ⟨_, h, greedy_run q steps n _⟩
      · rfl

/-- The segments of `flat_map`, with up to `n` inner observables. -/
def steps (n : Nat) (outer : List LO) (inner : List LI) : List (Label LO LI ω α) :=
  outer.map (fun l => .inl (.outer l)) ++ (List.range n).flatMap (fun k => inner.map fun l => .inl (.inner k l)) ++
    [.inl (.own .receive), .inl (.own .subscribed), .inl (.own .disposed), .inr (.inl ()), .inr (.inr ())]

abbrev timerSteps : List Interval.Label := [.start, .wake, .ret]

/-- `interval(1, 2)`, each `n` of which is made `interval(1 + n, 3)`, each `m` of which is made `timer(2 + m)`. -/
abbrev demoM := intervals 1 2 0
abbrev demoF (n : Nat) (t : Nat) := intervals (1 + n) 3 t
abbrev demoG (n : Nat) (t : Nat) := intervals (2 + n) 0 t
abbrev demoLeft := (demoM.flatMapped demoF).flatMapped demoG
abbrev demoRight := demoM.flatMapped fun n t => (demoF n t).flatMapped demoG
abbrev demoLeftSteps := steps (ω := Nat) (α := Nat) 4 (steps (ω := Nat) (α := Nat) 4 timerSteps timerSteps) timerSteps
abbrev demoRightSteps := steps (ω := Nat) (α := Nat) 4 timerSteps (steps (ω := Nat) (α := Nat) 2 timerSteps timerSteps)

example : Alike demoLeft demoRight :=
  C167_associative (C167_interval 1 2 0).1 (fun n t => (C167_interval (1 + n) 3 t).1) (fun n t => (C167_interval (2 + n) 0 t).1) (C167_interval 1 2 0).2 (fun n t => (C167_interval (1 + n) 3 t).2)
    fun n t => (C167_interval (2 + n) 0 t).2

example : (demoLeft.calls (greedy demoLeft demoLeftSteps 150 demoLeft.init).2, demoLeft.now (greedy demoLeft demoLeftSteps 150 demoLeft.init).2) =
    ([(.next 0, 4), (.next 0, 7), (.next 0, 8)], 8) := by decide +kernel
example : (demoRight.calls (greedy demoRight demoRightSteps 150 demoRight.init).2, demoRight.now (greedy demoRight demoRightSteps 150 demoRight.init).2) =
    ([(.next 0, 4), (.next 0, 7), (.next 0, 8)], 8) := by decide +kernel

/-- The other two laws, and a source that completes: `pipe(single(5), flat_map(lambda x: timer(x)))` and `pipe(timer(2), flat_map(single))`. -/
abbrev demoUnit := (Once.clocked 5 0).flatMapped fun n t => intervals (n : Nat) 0 t
abbrev demoSame := (intervals 2 0 0).flatMapped singles

example : Alike demoUnit (intervals 5 0 0) := C167_left 5 (fun n t => (C167_interval n 0 t).1) fun n t => (C167_interval n 0 t).2
example : Alike demoSame (intervals 2 0 0) := C167_right (C167_interval 2 0 0).1 (C167_interval 2 0 0).2

example : (demoUnit.calls (greedy demoUnit (steps 1 [.receive, .ret] timerSteps) 60 demoUnit.init).2) = [(.next 0, 5), (.completed, 5)] := by decide +kernel
example : (demoSame.calls (greedy demoSame (steps 1 timerSteps [.receive, .ret]) 60 demoSame.init).2) = [(.next 0, 2), (.completed, 2)] := by decide +kernel

end FlatMap
end Aio
