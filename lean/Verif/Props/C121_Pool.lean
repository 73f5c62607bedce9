import Verif.Spec.Pool
import Verif.Props.C112_114_Timers
/-!
# C121: `merge_inner(k)` is a pool of `k` slots
-/

namespace Aio
open Spec Spec.Timed Spec.Pool
variable {SO LO S SI LI ω α β : Type}

namespace Merge
variable {mx : Int}

/-- the worker goes on when it has subscribed an inner observable -/
theorem step_started_alive {s s' : State ω} {l : Label ω α} {o : List (Notif α)} (h : step mx s l = some (s', o)) (hne : s'.started ≠ s.started) :
    s'.alive = true := by
  rcases step_started h with h1 | ⟨rfl, xs, h1⟩
  · exact absurd h1 hne
  · simp only [step] at h
    split at h
    next msg q hp hq =>
      simp only [Option.some.injEq] at h
      have h2 := congrArg Prod.fst h
      dsimp only at h2
      rw [← h2] at hne ⊢
      cases msg with
      | inner xs =>
        simp only [update] at hne ⊢
        split
        · rfl
        next hn => rw [if_neg hn] at hne; exact absurd rfl hne
      | innerCompleted k =>
        simp only [update] at hne ⊢
        cases hqu : s.model.queue with
        | cons x q' => rfl
        | nil =>
          exfalso
          simp only [hqu] at hne
          split at hne <;> exact hne rfl
      | completed => exact absurd rfl hne
      | dispose =>
        simp only [update] at hne
        split at hne <;> exact absurd rfl hne
    next => cases h

theorem fin_done_snoc {ls : List (Label ω α)} {l : Label ω α} {k : Nat} (h : fin k ls = .done) : fin k (ls ++ [l]) = .done := by
  rw [fin, innerCalls_snoc, story_append_of_ended (by rw [show (story (innerCalls k ls)).fin = .done from h]; simp)]
  exact h

/-- Before an inner observable is subscribed, all but `mx - 1` of those before it have completed. -/
theorem slot_run (hm : 0 < mx) {ls : List (Label ω α)} {s : State ω} {posts : List (Notif α)}
    (hr : LTS.run (mergeInner mx).solo (State.initial, []) ls = some (s, posts)) (hw : Lawful ls) :
    ∀ i < s.started.length, ((((List.range i).filter fun j => fin j ls ≠ .done).length : Nat) : Int) < mx := by
  refine LTS.inv_reach (step := (mergeInner mx).solo) (fun ls (c : State ω × List (Notif α)) => Lawful ls →
    ∀ i < c.1.started.length, ((((List.range i).filter fun j => fin j ls ≠ .done).length : Nat) : Int) < mx) (s0 := (State.initial, []))
    (fun _ i hi => by cases hi) ?_ hr hw
  rintro ls ⟨s, posts⟩ l ⟨s', posts'⟩ hr ih hs hw i hi
  have hr' : LTS.run (mergeInner mx).solo (State.initial, []) (ls ++ [l]) = some (s', posts') := LTS.run_append.mpr ⟨_, hr, LTS.run_cons.mpr ⟨_, hs, rfl⟩⟩
  have hinv := inv_run hr' hw
  clear hr'
  simp only [Producer.solo, mergeInner, Option.map_eq_some_iff, Prod.mk.injEq] at hs
  obtain ⟨⟨t, o⟩, h1, rfl, rfl⟩ := hs
  dsimp only at ih hi hinv
  have old : i < s.started.length → ((((List.range i).filter fun j => fin j (ls ++ [l]) ≠ .done).length : Nat) : Int) < mx := by
    intro hi
    have h2 := ih hw.of_append i hi
    have h3 : ((List.range i).filter fun j => fin j (ls ++ [l]) ≠ .done).length ≤ ((List.range i).filter fun j => fin j ls ≠ .done).length := by
      refine length_le_of_subset (List.nodup_range.filter _) fun k hk => ?_
      simp only [List.mem_filter, decide_eq_true_eq] at hk ⊢
      exact ⟨hk.1, fun hd => hk.2 (fin_done_snoc hd)⟩
    omega
  by_cases hlt : i < s.started.length
  · exact old hlt
  · have halive := step_started_alive h1 (fun e => by rw [e] at hi; exact hlt hi)
    have hl := hinv.live halive
    have hlen : t.started.length = i + 1 := by
      rcases step_started h1 with h2 | ⟨-, xs, h2⟩
      · rw [h2] at hi; exact absurd hi hlt
      · rw [h2, List.length_append, List.length_singleton] at hi ⊢
        omega
    have hfi : fin i (ls ++ [l]) = .running := by
      rw [fin, innerCalls_snoc]
      have h0 : innerCalls i ls = [] := fresh_run hr i (by omega)
      rcases step_started h1 with h2 | ⟨rfl, xs, h2⟩
      · rw [h2] at hi; exact absurd hi hlt
      · simp only [h0, List.append_nil]; rfl
    have hle : ((List.range (i + 1)).filter fun j => fin j (ls ++ [l]) ≠ .done).length ≤ t.live.length := by
      refine length_le_of_subset (List.nodup_range.filter _) fun k hk => ?_
      simp only [List.mem_filter, List.mem_range, decide_eq_true_eq] at hk
      exact Classical.byContradiction fun hn => hk.2 (hl.gone k (by omega) hn)
    rw [List.range_succ, List.filter_append, List.length_append] at hle
    have : ([i].filter fun j => fin j (ls ++ [l]) ≠ .done).length = 1 := by simp [hfi]
    have := (hl.slots hm).1
    omega

end Merge

namespace Nested
section
variable {o : Clocked SO LO ω} {fam : ω → Nat → Clocked SI LI α}

/-- What the inner observables have sent, in the order in which they were subscribed. -/
def histories (fam : ω → Nat → Clocked SI LI α) (s : Nested SO S SI ω α) : List (List (Notif α × Nat)) :=
  s.inners.map fun i => (fam i.1 i.2.1).calls i.2.2

theorem fin_done {cs : List (Notif α × Nat)} (hi : InTime cs) (hg : Grammar (cs.map (·.1))) (t : Nat) :
    (story (upto t cs)).fin = .done ↔ completedBy t cs = true := by
  have hg := grammar_prefix (upto_prefix (t := t) hi) hg
  rw [completedBy, List.any_eq_true]
  constructor
  · intro hd
    have hm : (Notif.completed : Notif α) ∈ upto t cs := by
      obtain ⟨⟨vs, f⟩, he⟩ := hg
      rw [he, story_events] at hd
      dsimp only at hd
      rw [he, hd]
      simp [Story.events, End.events]
    rw [upto, List.mem_map] at hm
    obtain ⟨⟨n, c⟩, hm, rfl⟩ := hm
    obtain ⟨h1, h2⟩ := List.mem_filter.mp hm
    exact ⟨_, h1, by simpa using h2⟩
  · rintro ⟨⟨n, c⟩, hm, hc⟩
    cases n with
    | completed =>
      exact Switch.fin_of_mem_completed hg (by
        rw [upto, List.mem_map]
        exact ⟨_, List.mem_filter.mpr ⟨hm, by simpa using hc⟩, rfl⟩)
    | _ => cases hc

/-- The positions at which `P` does not hold and those at which it does. -/
theorem split_range (n : Nat) (P : Nat → Bool) : ((List.range n).filter fun j => !P j).length + ((List.range n).filter P).length = n := by
  induction n with
  | zero => rfl
  | succ n ih =>
    rw [List.range_succ, List.filter_append, List.filter_append, List.length_append, List.length_append]
    cases h : P n <;> simp [h] <;> omega

theorem filter_take {ι : Type} (P : ι → Bool) (Q : Nat → Bool) (L : List ι) (i : Nat) (h : ∀ j x, L[j]? = some x → Q j = P x)
    (hn : ∀ j, L.length ≤ j → Q j = false) : ((L.take i).filter P).length = ((List.range i).filter Q).length := by
  induction i with
  | zero => simp
  | succ i ih =>
    rw [List.range_succ, List.filter_append, List.length_append, ← ih, List.take_add_one, List.filter_append, List.length_append]
    congr 1
    cases hx : L[i]? with
    | none => simp [hn i (by simpa using hx)]
    | some x => simp only [Option.toList, List.filter_cons, List.filter_nil, h i x hx]; split <;> rfl

/-- What is known about the slots at the end of time `t`. -/
theorem pool_upto (hpr : Proper o fam) {k : Nat} (hk : 0 < k) {ls s} (hr : LTS.run (o.merged fam k).step (o.merged fam k).init ls = some s)
    (hp : (o.merged fam k).Prompt (fun s => Merge.Settled s.prod) ls) (hc : Calm o ls s) (hq : Merge.Settled s.prod) (t : Nat) :
    (upto t (subs s)).length ≤ (upto t (valuesAt (o.calls s.outer))).length ∧
    (∀ i < (upto t (subs s)).length, i < k + completions t ((histories fam s).take i)) ∧
    ((upto t (subs s)).length = (upto t (valuesAt (o.calls s.outer))).length ∨ (upto t (subs s)).length = k + completions t (histories fam s)) ∧
    (completions t (histories fam s) = completions t ((histories fam s).take (upto t (subs s)).length)) := by
  obtain ⟨-, hsub⟩ := subs_after hpr (merge_starts k) hr
  obtain ⟨h, hpast⟩ := past hpr.source hpr.inner (merge_starts k) hr
  obtain ⟨lo, hlo, -⟩ := hpast.source
  have hit := (hpr.source.inTime hlo).1
  by_cases ht : o.now o.init ≤ t
  · obtain ⟨ls₁, s₁, h₁, hsn, hq₁⟩ := snapshot hpr.source hpr.inner (merge_starts k) hr hp ht (.inr hq)
    have hw₁ := hsn.past.lawful hpr
    rw [hsn.upto_subs, upto_values hit (hpr.sourceGrammar _ _ hlo), hsn.outer]
    have hpre := (Merge.started_prefix hsn.solo hw₁).length_le
    have hmono : s₁.prod.started.length ≤ s.inners.length := by
      obtain ⟨new, e1, -⟩ := hsn.news
      have e2 := congrArg List.length e1
      have e3 := congrArg List.length hsn.past.started
      simp at e2 e3
      omega
    have hfresh : ∀ j, s₁.prod.started.length ≤ j → Merge.fin j (h₁.map (·.1)) = .running := fun j hj => by
      rw [Merge.fin, Merge.fresh_run hsn.solo j hj]; rfl
    have hcount : ∀ i, completions t ((histories fam s).take i) = ((List.range i).filter fun j => decide (Merge.fin j (h₁.map (·.1)) = .done)).length := by
      intro i
      refine filter_take _ _ _ i ?_ ?_
      · intro j cs hj
        rw [histories, List.getElem?_map, Option.map_eq_some_iff] at hj
        obtain ⟨⟨xs, u, si⟩, hj, rfl⟩ := hj
        obtain ⟨⟨li, hli, -⟩, -⟩ := hpast.sources j xs u si hj
        have h1 := fin_done ((hpr.inner xs u).1.inTime hli).1 (hpr.innerGrammar xs u li _ hli) t
        have h2 := hsn.inner j xs u si hj
        rw [h2] at h1
        rw [Bool.eq_iff_iff, decide_eq_true_eq]
        exact h1
      · intro j hj
        rw [hfresh j (by rw [histories, List.length_map] at hj; omega)]
        rfl
    have hall : completions t (histories fam s) = completions t ((histories fam s).take s₁.prod.started.length) := by
      have e1 := hcount (histories fam s).length
      rw [List.take_length] at e1
      rw [e1, hcount]
      have e2 : (histories fam s).length = s₁.prod.started.length + (s.inners.length - s₁.prod.started.length) := by rw [histories, List.length_map]; omega
      rw [e2, List.range_add, List.filter_append, List.length_append, List.filter_map, List.length_map]
      rw [Nat.add_eq_left, List.length_eq_zero_iff, List.filter_eq_nil_iff]
      intro j _
      simp [hfresh]
    have hnot : ∀ i, ((List.range i).filter fun j => decide (Merge.fin j (h₁.map (·.1)) ≠ .done)).length + completions t ((histories fam s).take i) = i := by
      intro i
      rw [hcount]
      have := split_range i fun j => decide (Merge.fin j (h₁.map (·.1)) = .done)
      simpa using this
    refine ⟨hpre, fun i hi => ?_, ?_, hall⟩
    · have h1 := Merge.slot_run (by omega) hsn.solo hw₁ i hi
      have h2 := hnot i
      omega
    · rcases Merge.settled_started (by omega) hsn.solo hw₁ (hsn.past.noFailure hsn.sub hc.noFailure) (hc.notStopped hsn) hq₁ with h1 | ⟨-, h1⟩
      · left; rw [h1]; rfl
      · right
        have h2 := hnot s₁.prod.started.length
        rw [Merge.unfinished] at h1
        rw [hall]
        omega
  · have e1 : upto t (subs s) = [] := upto_none fun c hc => by have := hsub c hc; omega
    have e2 : upto t (valuesAt (o.calls s.outer)) = [] := upto_none fun c hc => by
      have := (hpr.source.after hlo).2 _ (mem_values.mp hc); dsimp only at this; omega
    rw [e1, e2]
    refine ⟨Nat.le_refl _, fun i hi => (by cases hi), .inl rfl, ?_⟩
    rw [List.length_nil, List.take_zero, completions, completions, List.filter_nil, List.length_nil, List.length_eq_zero_iff, List.filter_eq_nil_iff]
    intro cs hcs
    obtain ⟨⟨xs, u, si⟩, hi, rfl⟩ := List.mem_map.mp hcs
    obtain ⟨j, hj⟩ := List.getElem?_of_mem hi
    obtain ⟨⟨li, hli, -⟩, -⟩ := hpast.sources j xs u si hj
    rw [completedBy, List.any_eq_true]
    rintro ⟨⟨n, c⟩, hm, hcc⟩
    have h1 := ((hpr.inner xs u).1.after hli).2 _ hm
    have h2 := hsub (xs, u) (List.mem_map.mpr ⟨_, hi, rfl⟩)
    rw [(hpr.inner xs u).2] at h1
    cases n with
    | completed => simp at hcc; dsimp only at h1 h2; omega
    | _ => cases hcc

/-- C121: the inner observables are subscribed in the order in which the source sends them. -/
theorem C121_order (hpr : Proper o fam) {mx : Int} {ls s} (hr : LTS.run (o.merged fam mx).step (o.merged fam mx).init ls = some s) :
    (subs s).map (·.1) <+: (valuesAt (o.calls s.outer)).map (·.1) := by
  obtain ⟨h, hpast⟩ := past hpr.source hpr.inner (merge_starts mx) hr
  obtain ⟨lo, hlo, -⟩ := hpast.source
  have hpre := Merge.started_prefix (Producer.soloAt_run hpast.run) (hpast.lawful hpr)
  have h1 : Merge.sent (h.map (·.1)) = (valuesAt (o.calls s.outer)).map (·.1) := by
    have hb : ∀ c ∈ o.calls s.outer, c.2 ≤ o.now s.outer := (hpr.source.inTime hlo).2
    have := upto_values (hpr.source.inTime hlo).1 (hpr.sourceGrammar _ _ hlo) (o.now s.outer)
    rw [upto_all hb, upto_all (cs := valuesAt (o.calls s.outer)) fun c hc => hb _ (mem_values.mp hc)] at this
    rw [Merge.sent, outersAt_map, hpast.outer, this]
  have h2 : s.prod.started = (subs s).map (·.1) := by rw [← hpast.started, subs, List.map_map]; rfl
  dsimp only at hpre
  rw [h1, h2] at hpre
  exact hpre

/-- C121: at every time `t`, with `k` slots on a loop that is not overloaded, as many inner observables have been subscribed as the source has sent
by then, or as there are slots and completions by then, whichever is less. -/
theorem C121_count (hpr : Proper o fam) {k : Nat} (hk : 0 < k) {ls s} (hr : LTS.run (o.merged fam k).step (o.merged fam k).init ls = some s)
    (hp : (o.merged fam k).Prompt (fun s => Merge.Settled s.prod) ls) (hc : Calm o ls s) (hq : Merge.Settled s.prod) (t : Nat) :
    (upto t (subs s)).length = min (upto t (valuesAt (o.calls s.outer))).length (k + completions t (histories fam s)) := by
  obtain ⟨h1, h2, h3, h4⟩ := pool_upto hpr hk hr hp hc hq t
  have h5 : (upto t (subs s)).length ≤ k + completions t (histories fam s) := by
    rw [h4]
    generalize hn : (upto t (subs s)).length = n at *
    cases n with
    | zero => omega
    | succ n =>
      have := h2 n (by omega)
      have h6 : completions t ((histories fam s).take n) ≤ completions t ((histories fam s).take (n + 1)) := by
        rw [completions, completions, List.take_add_one, List.filter_append, List.length_append]
        omega
      omega
  omega

/-- C121: an inner observable has been subscribed by time `t` exactly if by then the source has sent it, and of those sent before it all but at most
`k - 1` have completed. -/
theorem C121_begun (hpr : Proper o fam) {k : Nat} (hk : 0 < k) {ls s} (hr : LTS.run (o.merged fam k).step (o.merged fam k).init ls = some s)
    (hp : (o.merged fam k).Prompt (fun s => Merge.Settled s.prod) ls) (hc : Calm o ls s) (hq : Merge.Settled s.prod) (t i : Nat) :
    (∃ x u, (subs s)[i]? = some (x, u) ∧ u ≤ t) ↔
      (∃ x a, (valuesAt (o.calls s.outer))[i]? = some (x, a) ∧ a ≤ t) ∧ i < k + completions t ((histories fam s).take i) := by
  obtain ⟨hsi, -⟩ := subs_after hpr (merge_starts k) hr
  obtain ⟨h, hpast⟩ := past hpr.source hpr.inner (merge_starts k) hr
  obtain ⟨lo, hlo, -⟩ := hpast.source
  have hvi := inTime_values (hpr.source.inTime hlo).1
  obtain ⟨h1, h2, h3, -⟩ := pool_upto hpr hk hr hp hc hq t
  have e1 : (∃ x u, (subs s)[i]? = some (x, u) ∧ u ≤ t) ↔ i < (upto t (subs s)).length := by
    rw [index_upto hsi]
    exact ⟨fun ⟨x, u, a, b⟩ => ⟨_, a, b⟩, fun ⟨x, a, b⟩ => ⟨_, _, a, b⟩⟩
  have e2 : (∃ x u, (valuesAt (o.calls s.outer))[i]? = some (x, u) ∧ u ≤ t) ↔ i < (upto t (valuesAt (o.calls s.outer))).length := by
    rw [index_upto hvi]
    exact ⟨fun ⟨x, u, a, b⟩ => ⟨_, a, b⟩, fun ⟨x, a, b⟩ => ⟨_, _, a, b⟩⟩
  rw [e1, e2]
  refine ⟨fun hi => ⟨by omega, h2 i hi⟩, fun ⟨g1, g2⟩ => ?_⟩
  have h6 : completions t ((histories fam s).take i) ≤ completions t (histories fam s) :=
    ((List.take_sublist i (histories fam s)).filter _).length_le
  omega

end

/-! ## Example -/

section Examples
local notation "out" => Time.act (Nested.Label.outer (some ()))
local notation "recv" => Time.act (Nested.Label.own Merge.Label.receive)
local notation "subd" => Time.act (Nested.Label.own Merge.Label.subscribed)
local notation "inn" => fun k l => Time.act (Nested.Label.inner k l)

/-- `timer(3)`, `timer(1)` and `timer(2)` in two slots: the third begins when the second has completed -/
abbrev demoPool := (ofSeqAt 5 [3, 1, (2 : Int)]).merged timers 2
abbrev demoPoolRun : List (Time (Nested.Label (Option Unit) Interval.Label Int Nat)) :=
  [out, recv, subd, recv, subd, recv, recv, inn 0 .start, inn 1 .start, .pass 1, inn 1 .wake, inn 1 .ret, recv, subd, inn 1 .ret, inn 2 .start, .pass 2,
   inn 0 .wake, inn 0 .ret, recv, inn 0 .ret, inn 2 .wake, inn 2 .ret, recv, inn 2 .ret, .pass 1]

example : ∃ s, LTS.run demoPool.step demoPool.init demoPoolRun = some s ∧ demoPool.Prompt (fun s => Merge.Settled s.prod) demoPoolRun ∧
    Calm (ofSeqAt 5 [3, 1, (2 : Int)]) demoPoolRun s ∧ Merge.Settled s.prod ∧ subs s = [(3, 5), (1, 5), (2, 6)] ∧
    valuesAt ((ofSeqAt 5 [3, 1, (2 : Int)]).calls s.outer) = [(3, 5), (1, 5), (2, 5)] ∧
    completions 5 (histories timers s) = 0 ∧ completions 6 (histories timers s) = 1 ∧ completions 8 (histories timers s) = 3 ∧
    s.posts = [(.next 0, 6), (.next 0, 8), (.next 0, 8), (.completed, 8)] := by
  obtain ⟨s, hs, h⟩ := run_any (c := demoPool) (ls := demoPoolRun)
    (P := fun s => settled s.prod && subs s == [(3, 5), (1, 5), (2, 6)] &&
      (ofSeqAt 5 [3, 1, (2 : Int)]).calls s.outer == [(.next 3, 5), (.next 1, 5), (.next 2, 5), (.completed, 5)] &&
      completions 5 (histories timers s) == 0 && completions 6 (histories timers s) == 1 && completions 8 (histories timers s) == 3 &&
      s.posts == [(.next 0, 6), (.next 0, 8), (.next 0, 8), (.completed, 8)]) (by decide +kernel)
  simp only [Bool.and_eq_true, beq_iff_eq] at h
  obtain ⟨⟨⟨⟨⟨⟨h1, h2⟩, h3⟩, h4⟩, h5⟩, h6⟩, h7⟩ := h
  exact ⟨s, hs, Clocked.Prompt.of_rests (idle := fun s : Nested _ _ _ _ _ => settled s.prod) (fun _ => settled_of) (by decide +kernel),
    ⟨by simp [NoFailure], by simp, by rw [h3]; simp⟩, settled_of h1, h2, by rw [h3]; rfl, h4, h5, h6, h7⟩

end Examples
end Nested
end Aio
