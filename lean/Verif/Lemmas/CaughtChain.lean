import Verif.Lemmas.Caught
/-!
# `catch` on a clock: which source is subscribed when
-/

namespace Aio
open Spec Spec.Timed
variable {C S S₁ S₂ L L₁ L₂ ω α : Type}

namespace Catch
variable {hd : Handler C ω} {honour : Bool}

/-- Only the source that was subscribed last makes calls, and only when no other is about to be subscribed. -/
theorem call_last {ls : List (Label α)} {s : State C ω} {out} {k : Nat} {n : Notif α} (hi : Inv hd ls s out) (hk : k < s.started.length)
    (hw : Lawful (ls ++ [.call k n])) : k + 1 = s.started.length ∧ pending s.frames = [] := by
  have hrun : fin k ls = .running := by
    have := hw k
    rw [calls_snoc] at this
    simp only [if_true] at this
    exact grammar_snoc this
  have hlast : k + 1 = s.started.length := by
    rcases Nat.lt_or_ge (k + 1) s.started.length with hlt | hge
    · obtain ⟨e, he, -⟩ := hi.chain k _ (List.getElem?_eq_getElem hlt)
      rw [hrun] at he; cases he
    · omega
  refine ⟨hlast, ?_⟩
  rcases hi.pend with hp | ⟨xs, -, e, he, -⟩
  · exact hp
  · rw [← hlast, Nat.add_sub_cancel, hrun] at he; cases he

/-- The observer gets the calls of the sources, one source after the other; each source was made by the handler for the error of the one
before, and if `prompt` it was subscribed at that moment. -/
structure Chain (hd : Handler C ω) (prompt : Prop) (now : Nat) (h : List (Label α × Nat)) (st : State C ω × List (Notif α × Nat) × List (ω × Nat)) : Prop where
  inv : Inv hd (h.map (·.1)) st.1 (st.2.1.map (·.1))
  started : st.2.2.map (·.1) = st.1.started
  pend : ∀ xs ∈ pending st.1.frames, ∃ e te, (.error e, te) ∈ callsAt (st.1.started.length - 1) h ∧ te ≤ now ∧ (prompt → te = now) ∧ Made hd e xs
  chain : ∀ (k : Nat) ys u, st.2.2[k + 1]? = some (ys, u) → ∃ e te, (.error e, te) ∈ callsAt k h ∧ te ≤ u ∧ (prompt → te = u) ∧ Made hd e ys
  sent : st.2.1 = (List.range st.1.started.length).flatMap fun k => noErrors (callsAt k h)

theorem noErrors_append (a b : List (Notif α × Nat)) : noErrors (a ++ b) = noErrors a ++ noErrors b := List.filter_append ..

theorem flat_succ {ι : Type} (f : Nat → List ι) (n : Nat) : (List.range (n + 1)).flatMap f = (List.range n).flatMap f ++ f n := by
  simp [List.range_succ]

theorem chain_step {prompt : Prop} {now : Nat} {h : List (Label α × Nat)} {st st'} {l : Label α} (hc : Chain hd prompt now h st)
    (hs : nextAt hd honour st (l, now) = some st') (hw : Lawful ((h ++ [(l, now)]).map (·.1))) : Chain hd prompt now (h ++ [(l, now)]) st' := by
  obtain ⟨ctl, sent, bs⟩ := st
  simp only [nextAt, Option.map_eq_some_iff] at hs
  obtain ⟨⟨ctl', o⟩, hst, rfl⟩ := hs
  have hmap : (h ++ [(l, now)]).map (·.1) = h.map (·.1) ++ [l] := by simp
  rw [hmap] at hw
  have hinv' := inv_step hc.inv hst hw
  have hc1 := hc.started
  have hc2 := hc.pend
  have hc3 := hc.chain
  have hc4 := hc.sent
  dsimp only at hc1 hc2 hc3 hc4 hst
  have hlenb : bs.length = ctl.started.length := by rw [← hc1, List.length_map]
  obtain ⟨new, hnew⟩ := started_step hst
  have hdrop : ctl'.started.drop bs.length = new := by rw [hnew, hlenb, List.drop_left]
  have hstarted : (bs ++ (ctl'.started.drop bs.length).map fun xs => (xs, now)).map (·.1) = ctl'.started := by
    rw [hdrop, List.map_append, hc1, hnew, List.map_map]
    simp [Function.comp_def]
  have hinv'' : Inv hd ((h ++ [(l, now)]).map (·.1)) ctl' ((sent ++ o.map fun n => (n, now)).map (·.1)) := by
    rw [hmap, List.map_append, List.map_map]
    simpa [Function.comp_def] using hinv'
  -- the calls are at least those before
  have hmono : ∀ k c, c ∈ callsAt k h → c ∈ callsAt k (h ++ [(l, now)]) := fun k c hm => by
    rw [callsAt_append]; exact List.mem_append_left _ hm
  -- what is to be shown if nothing was subscribed
  have same : ctl'.started = ctl.started →
      (∀ xs ∈ pending ctl'.frames, xs ∈ pending ctl.frames ∨ ∃ e, (.error e, now) ∈ callsAt (ctl.started.length - 1) (h ++ [(l, now)]) ∧ Made hd e xs) →
      (List.range ctl.started.length).flatMap (fun k => noErrors (callsAt k (h ++ [(l, now)]))) =
        (List.range ctl.started.length).flatMap (fun k => noErrors (callsAt k h)) ++ o.map (fun n => (n, now)) →
      Chain hd prompt now (h ++ [(l, now)]) (ctl', sent ++ o.map (fun n => (n, now)), bs ++ (ctl'.started.drop bs.length).map fun xs => (xs, now)) := by
    intro g1 g2 g3
    refine ⟨hinv'', hstarted, ?_, ?_, ?_⟩
    · intro xs hx
      dsimp only at hx ⊢
      rw [g1]
      rcases g2 xs hx with hx | ⟨e, he, hm⟩
      · obtain ⟨e, te, a1, a2⟩ := hc2 xs hx
        exact ⟨e, te, hmono _ _ a1, a2⟩
      · exact ⟨e, now, he, Nat.le_refl _, fun _ => rfl, hm⟩
    · intro k ys u hk
      have : new = [] := by rw [g1] at hnew; simpa using hnew
      dsimp only at hk ⊢
      rw [hdrop, this, List.map_nil, List.append_nil] at hk
      obtain ⟨e, te, a1, a2⟩ := hc3 k ys u hk
      exact ⟨e, te, hmono _ _ a1, a2⟩
    · dsimp only
      rw [g1, g3, hc4]
  -- what is to be shown if `xs` was subscribed
  have more : ∀ xs, ctl'.started = ctl.started ++ [xs] → pending ctl'.frames = [] → o = [] →
      (∃ e te, (.error e, te) ∈ callsAt (ctl.started.length - 1) (h ++ [(l, now)]) ∧ te ≤ now ∧ (prompt → te = now) ∧ Made hd e xs) →
      (List.range ctl.started.length).flatMap (fun k => noErrors (callsAt k (h ++ [(l, now)]))) =
        (List.range ctl.started.length).flatMap (fun k => noErrors (callsAt k h)) →
      Chain hd prompt now (h ++ [(l, now)]) (ctl', sent ++ o.map (fun n => (n, now)), bs ++ (ctl'.started.drop bs.length).map fun xs => (xs, now)) := by
    rintro xs g1 g2 rfl ⟨e, te, g3⟩ g4
    have hn : new = [xs] := List.append_cancel_left (hnew.symm.trans g1)
    have hpos := hc.inv.pos
    dsimp only at hpos
    refine ⟨hinv'', hstarted, by rw [g2]; simp, ?_, ?_⟩
    · intro k ys u hk
      dsimp only at hk ⊢
      rw [hdrop, hn] at hk
      rcases Nat.lt_or_ge (k + 1) bs.length with hlt | hge
      · rw [List.getElem?_append_left hlt] at hk
        obtain ⟨e, te, a1, a2⟩ := hc3 k ys u hk
        exact ⟨e, te, hmono _ _ a1, a2⟩
      · have hlt := (List.getElem?_eq_some_iff.mp hk).1
        simp only [List.length_append, List.map_cons, List.map_nil, List.length_singleton] at hlt
        have hk1 : k + 1 = bs.length := by omega
        rw [hk1, List.getElem?_append_right (Nat.le_refl _)] at hk
        simp at hk
        obtain ⟨rfl, rfl⟩ := hk
        exact ⟨e, te, by rw [show k = ctl.started.length - 1 by omega]; exact g3⟩
    · dsimp only
      have hfr : callsAt ctl.started.length (h ++ [(l, now)]) = [] := by
        have := hinv''.fresh ctl.started.length
        have hcl := callsAt_map ctl.started.length (h ++ [(l, now)])
        rcases hlc : l with _ | _ | _ | _ | _
        · rename_i j n
          subst hlc
          rw [callsAt_append, callsAt_cons]
          have h1 : callsAt ctl.started.length h = [] := by
            have := hc.inv.fresh _ (Nat.le_refl _)
            rw [callsAt_map] at this
            simpa using this
          have hj : j < ctl.started.length := by
            simp only [step] at hst
            split at hst
            · next hj => exact hj.1
            · cases hst
          rw [h1]
          dsimp only
          rw [if_neg (by omega)]
          rfl
        all_goals
          subst hlc
          rw [callsAt_append, callsAt_cons]
          have h1 : callsAt ctl.started.length h = [] := by
            have := hc.inv.fresh _ (Nat.le_refl _)
            rw [callsAt_map] at this
            simpa using this
          rw [h1]
          rfl
      rw [g1, List.length_append, List.length_singleton, flat_succ, g4, hfr, hc4]
      simp [noErrors]
  -- the segments that are not calls
  have silent : (∀ k n, l ≠ .call k n) → ∀ k, callsAt k (h ++ [(l, now)]) = callsAt k h := by
    intro hl k
    rw [callsAt_append, callsAt_cons]
    cases l with
    | call k n => exact absurd rfl (hl k n)
    | _ => simp [callsAt]
  cases l with
  | call k n =>
    have hst0 := hst
    simp only [step] at hst
    split at hst
    next hk =>
      obtain ⟨hlast, hpend⟩ := call_last hc.inv hk.1 hw
      dsimp only at hlast hpend
      have hck : callsAt k (h ++ [(Label.call k n, now)]) = callsAt k h ++ [(n, now)] := by
        rw [callsAt_append, callsAt_cons]; simp [callsAt]
      have hcj : ∀ j, j ≠ k → callsAt j (h ++ [(Label.call k n, now)]) = callsAt j h := fun j hj => by
        rw [callsAt_append, callsAt_cons]; simp [callsAt, Ne.symm hj]
      have htot : (List.range ctl.started.length).flatMap (fun k' => noErrors (callsAt k' (h ++ [(Label.call k n, now)]))) =
          (List.range ctl.started.length).flatMap (fun k => noErrors (callsAt k h)) ++ noErrors [(n, now)] := by
        have hpre : (List.range k).flatMap (fun k' => noErrors (callsAt k' (h ++ [(Label.call k n, now)]))) =
            (List.range k).flatMap (fun k => noErrors (callsAt k h)) := by
          rw [List.flatMap, List.flatMap]
          congr 1
          apply List.map_congr_left
          intro j hj
          rw [hcj j (by have := List.mem_range.mp hj; omega)]
        rw [← hlast, flat_succ, flat_succ, hck, noErrors_append, hpre, List.append_assoc]
      cases n with
      | next v => cases hst; exact same rfl (fun xs hx => .inl hx) htot
      | completed => cases hst; exact same rfl (fun xs hx => .inl hx) htot
      | error e =>
        dsimp only at hst
        have herr : (Notif.error e, now) ∈ callsAt (ctl.started.length - 1) (h ++ [(Label.call k (.error e), now)]) := by
          rw [← hlast, Nat.add_sub_cancel, hck]; simp
        split at hst
        next c xs he =>
          have hm : Made hd e xs := ⟨ctl.c, by rw [he]⟩
          simp only [Option.some.injEq, Prod.mk.injEq] at hst
          obtain ⟨hct, ho⟩ := hst
          subst ho
          cases hdis : ctl.disposable with
          | none =>
            have ha : ctl' = { ctl with c := c, frames := ctl.frames ++ [.subscribing ctl.started.length], started := ctl.started ++ [xs] } := by
              rw [← hct]; simp [action, hdis]
            exact more xs (by rw [ha]) (by rw [ha, pending_append, hpend]; rfl) rfl ⟨e, now, herr, Nat.le_refl _, fun _ => rfl, hm⟩
              (by simpa [noErrors] using htot)
          | some d =>
            have ha : ctl' = { ctl with c := c, frames := ctl.frames ++ [.disposing xs d] } := by
              rw [← hct]; simp [action, hdis]
            refine same (by rw [ha]) ?_ (by simpa [noErrors] using htot)
            intro ys hy
            rw [ha] at hy
            dsimp only at hy
            rw [pending_append, hpend] at hy
            obtain rfl : ys = xs := by simpa [pending] using hy
            exact .inr ⟨e, herr, hm⟩
        next c x he =>
          cases hst
          exact same rfl (fun xs hx => .inl hx) (by simpa [noErrors] using htot)
    next => cases hst
  | disposed j =>
    have hsil := silent (by simp)
    have hst0 := hst
    simp only [step] at hst
    split at hst
    next xs d hj =>
      obtain ⟨a, b, h1, h2, -⟩ := split_at hj
      have hp1 : pending ctl.frames = pending a ++ xs :: pending b := by
        rw [h1, pending_append]; rfl
      have hmem : xs ∈ pending ctl.frames := by rw [hp1]; simp
      have hpa : pending a = [] ∧ pending b = [] := by
        rcases hc.inv.pend with hp | ⟨ys, hp, -⟩
        · dsimp only at hp; rw [hp] at hp1; simp at hp1
        · dsimp only at hp
          rw [hp] at hp1
          cases hpa : pending a with
          | nil => rw [hpa] at hp1; simp only [List.nil_append, List.cons.injEq] at hp1; exact ⟨rfl, hp1.2.symm⟩
          | cons y ys => rw [hpa] at hp1; simp at hp1
      obtain ⟨e, te, a1, a2⟩ := hc2 xs hmem
      simp only [Option.some.injEq, Prod.mk.injEq] at hst
      obtain ⟨rfl, rfl⟩ := hst
      refine more xs rfl ?_ rfl ⟨e, te, hmono _ _ a1, a2⟩ (by simp only [hsil])
      dsimp only
      rw [h2, pending_append, hpa.1]
      simpa [pending] using hpa.2
    next => cases hst
  | subscribed j =>
    have hsil := silent (by simp)
    simp only [step] at hst
    split at hst
    next k hj =>
      obtain ⟨a, b, h1, -, h3⟩ := split_at hj
      cases hst
      refine same rfl (fun xs hx => .inl ?_) (by simp only [hsil]; simp)
      dsimp only at hx
      rw [h3, pending_append] at hx
      rw [h1, pending_append]
      exact hx
    next => cases hst
  | fails j =>
    have hsil := silent (by simp)
    simp only [step] at hst
    split at hst
    next hj =>
      obtain ⟨a, b, h1, -, h3⟩ := split_at (List.getElem?_eq_getElem hj)
      cases hst
      refine same rfl (fun xs hx => .inl ?_) (by simp only [hsil]; simp)
      dsimp only at hx
      rw [h3, pending_append] at hx
      rw [h1, pending_append]
      rcases List.mem_append.mp hx with hx | hx
      · exact List.mem_append_left _ hx
      · refine List.mem_append_right _ ?_
        rw [show ctl.frames[j] :: b = [ctl.frames[j]] ++ b from rfl, pending_append]
        exact List.mem_append_right _ hx
    next => cases hst
  | cancel =>
    have hsil := silent (by simp)
    simp only [step] at hst
    split at hst
    · cases hst
      exact same rfl (fun xs hx => .inl hx) (by simp only [hsil]; simp)
    · cases hst

theorem Chain.mono {p p' : Prop} (hp : p' → p) {now h st} (hc : Chain (α := α) hd p now h st) : Chain hd p' now h st :=
  ⟨hc.inv, hc.started, fun xs hx => (hc.pend xs hx).imp fun _ h => h.imp fun _ h => ⟨h.1, h.2.1, fun hq => h.2.2.1 (hp hq), h.2.2.2⟩,
    fun k ys u hk => (hc.chain k ys u hk).imp fun _ h => h.imp fun _ h => ⟨h.1, h.2.1, fun hq => h.2.2.1 (hp hq), h.2.2.2⟩, hc.sent⟩

theorem chain_run {prompt : Prop} {now : Nat} : ∀ {h2 h : List (Label α × Nat)} {st st'}, Chain hd prompt now h st →
    LTS.run (nextAt hd honour) st h2 = some st' → (∀ x ∈ h2, x.2 = now) → Lawful ((h ++ h2).map (·.1)) → Chain hd prompt now (h ++ h2) st' := by
  intro h2
  induction h2 with
  | nil => intro h st st' hc hr _ _; cases hr; rw [List.append_nil]; exact hc
  | cons x h2 ih =>
    intro h st st' hc hr ht hw
    obtain ⟨l, t⟩ := x
    obtain rfl : t = now := ht (l, t) List.mem_cons_self
    obtain ⟨st1, e1, e2⟩ := LTS.run_cons.mp hr
    have hw1 : Lawful ((h ++ [(l, t)]).map (·.1)) := fun k => grammar_prefix (by
      rw [show (h ++ (l, t) :: h2).map (·.1) = (h ++ [(l, t)]).map (·.1) ++ h2.map (·.1) by simp]
      simp only [calls, List.filterMap_append]
      exact List.prefix_append ..) (hw k)
    have := ih (chain_step hc e1 hw1) e2 (fun y hy => ht y (List.mem_cons_of_mem _ hy)) (by simpa using hw)
    simpa using this

end Catch

namespace Caught
open Catch

/-- The sources keep the grammar and make their calls at the times that they say; a source's clock starts with the time of its subscription. -/
structure Proper (fam : ω → Nat → Clocked S L α) : Prop where
  lawful : ∀ xs t, (fam xs t).Lawful ∧ (fam xs t).now (fam xs t).init = t
  grammar : ∀ xs t ls s, LTS.run (fam xs t).step (fam xs t).init ls = some s → Grammar (((fam xs t).calls s).map (·.1))

theorem Past.grammar {fam : ω → Nat → Clocked S L α} (hf : Proper fam) {hd : Handler C ω} {honour : Bool} {c : C} {x : ω} {t0 : Nat} {ls s h}
    (hp : Past fam hd honour c x t0 ls s h) : Lawful (h.map (·.1)) := by
  intro k
  rw [callsAt_map]
  rcases Nat.lt_or_ge k s.srcs.length with hlt | hge
  · obtain ⟨⟨xs, t, si⟩, hk⟩ : ∃ i, s.srcs[k]? = some i := ⟨_, List.getElem?_eq_getElem hlt⟩
    obtain ⟨li, hli, -⟩ := (hp.sources k xs t si hk).1
    rw [hp.calls k xs t si hk]
    exact hf.grammar xs t li si hli
  · rw [hp.fresh k hge]
    exact ⟨⟨[], .running⟩, rfl⟩

/-- Time passes only when no activation of `action` is suspended. -/
abbrev Idle (s : Caught C S ω α) : Prop := s.ctl.frames = []

theorem past {fam : ω → Nat → Clocked S L α} (hf : Proper fam) {hd : Handler C ω} {honour : Bool} {c : C} {x : ω} {t0 : Nat} {ls s}
    (hr : LTS.run (Clocked.caught fam hd honour c x t0).step (Clocked.caught fam hd honour c x t0).init ls = some s) :
    ∃ h, Past fam hd honour c x t0 ls s h ∧
      Catch.Chain hd ((Clocked.caught fam hd honour c x t0).Prompt Idle ls) s.now h (s.ctl, s.sent, births s) := by
  refine LTS.inv_reach (step := (Clocked.caught fam hd honour c x t0).step) (fun ls s => ∃ h, Past fam hd honour c x t0 ls s h ∧
      Catch.Chain hd ((Clocked.caught fam hd honour c x t0).Prompt Idle ls) s.now h (s.ctl, s.sent, births s)) ?_ ?_ hr
  · refine ⟨[], past_init hf.lawful hd honour c x t0, ?_, rfl, ?_, ?_, ?_⟩
    · exact inv_run (honour := honour) (c := c) (x := x) (ls := []) rfl fun k => ⟨⟨[], .running⟩, rfl⟩
    · intro xs hx; cases hx
    · intro k ys u hk; cases hk
    · simp [Clocked.caught, start, callsAt, noErrors]
  · rintro ls s l s' hr0 ⟨h, hp, hc⟩ hst
    obtain ⟨h2, a1, a2, a3, a4⟩ := past_step hf.lawful hp hst
    refine ⟨h ++ h2, a1, ?_⟩
    cases l with
    | act l =>
      obtain ⟨st, e1, e2⟩ := LTS.run_append.mp a1.run
      rw [hp.run] at e1
      cases e1
      dsimp only at a3
      rw [a3, Nat.add_zero]
      exact chain_run (hc.mono fun h => Clocked.Prompt.init h) e2 a2 (a1.grammar hf)
    | pass d =>
      obtain ⟨rfl, b1, b2, b3⟩ := a4 d rfl
      rw [List.append_nil, b1, b2, b3]
      have hc' := hc.mono fun h : (Clocked.caught fam hd honour c x t0).Prompt Idle (ls ++ [.pass d]) => Clocked.Prompt.init h
      refine ⟨hc'.inv, hc'.started, ?_, hc'.chain, hc'.sent⟩
      intro xs hx
      obtain ⟨e, te, g1, g2, -, g4⟩ := hc'.pend xs hx
      refine ⟨e, te, g1, by dsimp only at a3; omega, fun hpr => ?_, g4⟩
      have : s.ctl.frames = [] := Clocked.Prompt.last (rest := Idle) hpr hr0
      dsimp only at hx
      rw [this] at hx
      cases hx

theorem caught_lawful {fam : ω → Nat → Clocked S L α} (hf : Proper fam) (hd : Handler C ω) (honour : Bool) (c : C) (x : ω) (t0 : Nat) :
    (Clocked.caught fam hd honour c x t0).Lawful := by
  refine ⟨rfl, ?_, ?_⟩
  · intro ls s l t hr h
    obtain ⟨h0, hp, -⟩ := past hf hr
    obtain ⟨h2, a1, a2, a3, -⟩ := past_step hf.lawful hp (l := .act l) h
    refine ⟨a3, ?_⟩
    obtain ⟨u, e1, e2⟩ := LTS.run_append.mp a1.run
    rw [hp.run] at e1
    cases e1
    have key : ∀ (h2 : List (Catch.Label α × Nat)) (u v), LTS.run (nextAt hd honour) u h2 = some v →
        (∀ x ∈ h2, x.2 = s.now) → ∃ ns : List (Notif α), v.2.1 = u.2.1 ++ ns.map fun n => (n, s.now) := by
      intro h2
      induction h2 with
      | nil => intro u v hr _; cases hr; exact ⟨[], by simp⟩
      | cons x h2 ih =>
        intro u v hr hx
        obtain ⟨w, e1, e2⟩ := LTS.run_cons.mp hr
        obtain ⟨ns, hns⟩ := ih w v e2 fun y hy => hx y (List.mem_cons_of_mem _ hy)
        simp only [nextAt, Option.map_eq_some_iff] at e1
        obtain ⟨⟨r, out⟩, e3, rfl⟩ := e1
        exact ⟨out ++ ns, by rw [hns, hx x List.mem_cons_self]; simp⟩
    exact key h2 _ _ e2 a2
  · intro ls s d t hr h
    simp only [Clocked.caught] at h
    split at h
    · cases h; exact ⟨rfl, rfl⟩
    · cases h

end Caught
end Aio
