import Verif.Props.C174_HostedCatch
/-!
# C175: `retry` on the `VirtualTimeEventLoop`

In full: when the source of `retry(n)` has failed for the last time, the observer gets the error and the program goes on. It does not: `fail(error)`, which `factory` returns
then (transform.py:442), is caught as well, and is subscribed again and again (C44). On the `VirtualTimeEventLoop` the time does not pass any more then: a test that waits for
anything that needs time does not end.
-/

namespace Aio.Caught
open Spec Spec.Timed Catch
open VirtualTime (Heap)
variable {S L T α : Type} {h : Heap} {src : Nat → Clocked S L α} {H : Host S L T} {n : Int} {t0 : Nat}

/-- What the source has to satisfy: as `Host.Family`. -/
structure Hosts (H : Host S L T) (src : Nat → Clocked S L α) : Prop where
  lawful : ∀ t, H.Lawful (src t)
  start : ∀ t, (src t).now (src t).init = t
  fresh : ∀ t n w, H.need (src t).init n ≠ .until w
  grammar : ∀ t ls s, LTS.run (src t).step (src t).init ls = some s → Grammar (((src t).calls s).map (·.1))

/-! ## `fail` -/

theorem failAt_lawful (t : Nat) (e : Err) : (failAt (α := α) t e).Lawful := Source.clocked_lawful _ t

theorem failAt_inv {t : Nat} {e : Err} {ls s} (hr : LTS.run (failAt (α := α) t e).step (failAt (α := α) t e).init ls = some s) :
    (failAt (α := α) t e).calls s = [] ∨ ∃ u, (failAt (α := α) t e).calls s = [(.error e, u)] ∧ s.1.1.fresh = false := by
  refine (LTS.inv (step := (failAt (α := α) t e).step) (fun s => s.1.2 = s.2.2.map (·.1) ∧ ((s.2.2 = []) ∨ ∃ u, s.2.2 = [(.error e, u)] ∧ s.1.1.fresh = false))
    (s0 := (failAt (α := α) t e).init) ⟨rfl, .inl rfl⟩ ?_ hr).2
  rintro ⟨⟨⟨f, c⟩, out⟩, now, sent⟩ l s' ⟨i1, i2⟩ hs
  dsimp only at i1 i2
  subst i1
  match l with
  | .pass d => cases hs; exact ⟨rfl, i2⟩
  | .act none => cases hs; rcases i2 with rfl | ⟨u, rfl, hf⟩ <;> simp_all [Producer.source, failing, oneShot]
  | .act (some ()) =>
    cases f with
    | false => cases hs
    | true =>
      rcases i2 with rfl | ⟨u, -, h⟩
      · cases c with
        | false => cases hs; exact ⟨rfl, .inr ⟨now, rfl, rfl⟩⟩
        | true => cases hs; exact ⟨rfl, .inl rfl⟩
      · cases h

theorem failAt_grammar {t : Nat} {e : Err} {ls s} (hr : LTS.run (failAt (α := α) t e).step (failAt (α := α) t e).init ls = some s) :
    Grammar (((failAt (α := α) t e).calls s).map (·.1)) := by
  rcases failAt_inv hr with h | ⟨u, h, -⟩ <;> rw [h]
  · exact ⟨⟨[], .running⟩, rfl⟩
  · exact ⟨⟨[], .failed e⟩, rfl⟩

theorem failAt_hosted (t : Nat) (e : Err) : (OneShot.host (α := α)).Lawful (failAt t e) where
  clock := failAt_lawful t e
  names := by intro s t _ _; simp [OneShot.host]
  turn := by
    intro s t hr hd
    obtain ⟨⟨⟨f, c⟩, out⟩, now, sent⟩ := s
    cases f with
    | false => exact ⟨_, rfl, fun t' w h => id⟩
    | true => cases c <;> exact ⟨_, rfl, fun t' w h => absurd rfl h⟩
  outside := by intro s l s' _ h; cases h
  pass := by intro s d hr hc; exact ⟨_, rfl, fun t => rfl⟩

/-- When its task cannot go on, it has failed. -/
theorem failAt_rest {t : Nat} {e : Err} {s} (hr : (OneShot.host (α := α)).Reach (failAt t e) s) (hn : OneShot.host.need s () ≠ .soon) : ∃ u, (.error e, u) ∈ (failAt t e).calls s := by
  obtain ⟨ls, hr, ho⟩ := hr
  have key : s.1.1.cancelled = false ∧ (s.1.1.fresh = false → ∃ u, (.error e, u) ∈ s.2.2) := by
    refine LTS.inv_hist (step := (failAt (α := α) t e).step) (fun ls s => (∀ l, Time.act l ∈ ls → (OneShot.host (α := α)).Own l) →
      s.1.1.cancelled = false ∧ (s.1.1.fresh = false → ∃ u, (.error e, u) ∈ s.2.2)) (s0 := (failAt (α := α) t e).init) ?_ ?_ hr ho
    · intro _; exact ⟨rfl, fun h => by cases h⟩
    · rintro ls ⟨⟨⟨f, c⟩, out⟩, now, sent⟩ l s' ih hs ho
      obtain ⟨i1, i2⟩ := ih fun l hl => ho l (by simp [hl])
      dsimp only at i1 i2
      subst i1
      match l with
      | .pass d => cases hs; exact ⟨rfl, i2⟩
      | .act none =>
        rcases ho none (by simp) with h | ⟨s, t, h⟩
        · cases h
        · simp only [OneShot.host] at h; split at h <;> simp at h
      | .act (some ()) =>
        cases f with
        | false => cases hs
        | true =>
          cases hs
          refine ⟨rfl, fun _ => ⟨now, ?_⟩⟩
          have : ∀ (out : List (Notif α)), (Notif.error e, now) ∈ sent ++ ((out ++ [Notif.error e]).drop out.length).map fun c => (c, now) := by
            intro out; simp
          exact this out
  refine key.2 ?_
  cases hf : s.1.1.fresh with
  | false => rfl
  | true => simp [OneShot.host, hf] at hn

/-! ## `retry` -/

theorem attempts_family (hs : Hosts H src) : Host.Family (H.sum (OneShot.host (α := α))) (attempts src) where
  lawful xs t := by
    cases xs with
    | source => exact Host.left_lawful (hs.lawful t)
    | fail e => exact Host.right_lawful (failAt_hosted t e)
  start xs t := by
    cases xs with
    | source => exact hs.start t
    | fail e => rfl
  fresh xs t n w := by
    cases xs with
    | source =>
      cases n with
      | inl n => exact hs.fresh t n w
      | inr n => exact fun h => by cases h
    | fail e =>
      cases n with
      | inl n => exact fun h => by cases h
      | inr n => exact fun h => by cases h

theorem attempts_proper (hs : Hosts H src) : Proper (attempts src) where
  lawful xs t := ⟨((attempts_family hs).lawful xs t).clock, (attempts_family hs).start xs t⟩
  grammar xs t ls s hr := by
    cases xs with
    | source =>
      obtain ⟨s₁, ls₁, rfl, h1, -⟩ := left_run hr
      exact hs.grammar t ls₁ s₁ h1
    | fail e =>
      obtain ⟨s₁, ls₁, rfl, h1, -⟩ := right_run hr
      exact failAt_grammar h1

/-- The number of the last attempt: one retry, however large `n`. -/
abbrev lastAttempt (n : Int) : Nat := if n = 0 then 0 else 1

/-- When the last attempt has failed, a task can go on. -/
theorem spinning (hs : Hosts H src) {ks s} (h1 : LTS.run (retried src n t0).step (retried src n t0).init ks = some s)
    (ho : ∀ l, Time.act l ∈ ks → (retryHost (α := α) H).Own l) (hn : ∀ t, (retryHost (α := α) H).need s t ≠ .soon)
    {xs t si e te} (hk : s.srcs[lastAttempt n]? = some (xs, t, si)) (he : (.error e, te) ∈ (attempts src xs t).calls si) : False := by
  have hf := attempts_proper hs
  have P := Host.caught_parts (I := H.sum (OneShot.host (α := α))) hf ⟨ks, h1, ho⟩
  have hidle := Host.caught_idle hn
  obtain ⟨hist, hp, hc⟩ := past hf h1
  have hrun := nextAt_run hp.run
  have hlaw := hp.grammar hf
  have hnof : Catch.NoFailure (hist.map (·.1)) := by
    intro j hj
    obtain ⟨⟨l, u⟩, hm, hl⟩ := List.mem_map.mp hj
    dsimp only at hl
    subst hl
    obtain ⟨j', h | h⟩ := (Host.caught_own ho).2 _ (hp.own _ hm rfl) <;> cases h
  have hfin : ∀ (k : Nat) xs t si e te, s.srcs[k]? = some (xs, t, si) → (.error e, te) ∈ (attempts src xs t).calls si →
      (story (Catch.calls k (hist.map (·.1)))).fin = .failed e := by
    intro k xs t si e te hk he
    have hg := hlaw k
    rw [callsAt_map, hp.calls k xs t si hk] at hg ⊢
    exact failed_of_mem hg (List.mem_map.mpr ⟨_, he, rfl⟩)
  have hnext : ∀ (k : Nat) xs t si e te, s.srcs[k]? = some (xs, t, si) → (.error e, te) ∈ (attempts src xs t).calls si → k + 1 < s.srcs.length := by
    intro k xs t si e te hk he
    rw [P.started]
    rcases Catch.continues hrun hlaw hnof (by intro xs d hm; rw [hidle] at hm; cases hm) (hfin k xs t si e te hk he) with h | ⟨u, e', h⟩
    · exact h
    · simp only [factory] at h; split at h <;> cases h
  -- the last one is a source that has not failed
  obtain ⟨⟨ys, u, sj⟩, hj⟩ : ∃ i, s.srcs[s.srcs.length - 1]? = some i :=
    ⟨_, List.getElem?_eq_getElem (by have := (List.getElem?_eq_some_iff.mp hk).1; omega)⟩
  have hys : ys = .source := by
    cases ys with
    | source => rfl
    | fail e' =>
      exfalso
      obtain ⟨g1, -⟩ := P.source _ _ _ _ hj
      obtain ⟨s₂, rfl, g2⟩ := Host.right_reach g1
      have := hn (.inl (s.srcs.length - 1, .inr ()))
      simp only [Host.caught, hj] at this
      obtain ⟨v, hv⟩ := failAt_rest g2 this
      have := hnext _ _ _ _ e' v hj hv
      omega
  subst hys
  have hlong := hnext _ _ _ _ _ _ hk he
  have hstart : ∀ k : Nat, s.ctl.started[k]? = (s.srcs[k]?).map (·.1) := by
    intro k
    have := hc.started
    dsimp only at this
    rw [← this, births, List.map_map, List.getElem?_map]
    rfl
  have hlast : s.ctl.started[s.srcs.length - 1]? = some .source := by rw [hstart, hj]; rfl
  have hzero : s.ctl.started[0]? = some .source := Catch.started_zero hrun
  have hcount := C44_violated_count hrun
  dsimp only at hcount
  have two : ∀ (l : List Attempt) (i : Nat), 0 < i → l[0]? = some .source → l[i]? = some .source → 2 ≤ l.count .source := by
    intro l i hi h0 h2
    match l, i with
    | a :: l, i + 1 =>
      simp at h0 h2; subst h0
      have : 0 < l.count Attempt.source := List.count_pos_iff.mpr (List.mem_of_getElem? h2)
      rw [List.count_cons_self]; omega
  by_cases hn0 : n = 0
  · subst hn0
    have h0 : lastAttempt 0 = 0 := rfl
    rw [h0] at hlong
    simp only [if_true] at hcount
    have := two _ _ (by omega) hzero hlast
    omega
  · rw [lastAttempt, if_neg hn0] at hlong hk
    rw [if_neg hn0] at hcount
    -- the one before has failed
    obtain ⟨⟨zs, v, sk⟩, hz⟩ : ∃ i, s.srcs[0]? = some i := ⟨_, List.getElem?_eq_getElem (by omega)⟩
    obtain ⟨e0, te0, a1, -⟩ := hc.chain 0 xs t (by simp only [births, List.getElem?_map, hk]; rfl)
    rw [hp.calls 0 _ _ _ hz] at a1
    have hone := (C44_once_partial hn0 hrun hlaw hnof (by intro xs d hm; rw [hidle] at hm; cases hm) (hfin 0 _ _ _ _ _ hz a1)).1
    have three : ∀ (l : List Attempt) (i : Nat), 1 < i → l[0]? = some .source → l[1]? = some .source → l[i]? = some .source → 3 ≤ l.count .source := by
      intro l i hi h0 h1 h2
      match l, i with
      | a :: l, i + 1 =>
        simp at h0 h1 h2; subst h0
        have := two l i (by omega) (by simpa using h1) h2
        rw [List.count_cons_self]; omega
    have := three _ _ (by omega) hzero hone hlast
    omega

/-- If a task can go on whenever source number `k` has failed, time does not pass after that. -/
theorem frozen [DecidableEq T] {C : Type} {hd : Handler C Attempt} {c : C} (K : h.Laws) (hs : Hosts H src) {k : Nat}
    (spin : ∀ {ks s}, LTS.run (Clocked.caught (attempts src) hd false c .source t0).step (Clocked.caught (attempts src) hd false c .source t0).init ks = some s →
      (∀ l, Time.act l ∈ ks → (attemptHost (C := C) (α := α) H).Own l) → (∀ t, (attemptHost (C := C) (α := α) H).need s t ≠ .soon) →
      ∀ {xs t si e te}, s.srcs[k]? = some (xs, t, si) → (.error e, te) ∈ (attempts src xs t).calls si → False) {hops ls m}
    (hr : LTS.run (Hosted.step h hops (Clocked.caught (attempts src) hd false c .source t0) (attemptHost (C := C) (α := α) H)) Hosted.init ls = some m) {s} (hm : m.sub = some s)
    {xs t si e te} (hk : s.srcs[k]? = some (xs, t, si)) (he : (.error e, te) ∈ (attempts src xs t).calls si) : m.vt.time = te ∧ m.vt.ready ≠ [] := by
  have hI := attempts_family hs
  have hf := attempts_proper hs
  have hl := Host.caught_lawful (hd := hd) (c := c) (x := .source) (t0 := t0) hI hf
  obtain ⟨hn, ks, h1, h2, h3⟩ := Hosted.C117_schedule K hl hr hm
  refine ⟨?_, fun hrest => spin h1 h3 (Hosted.C117_rest K hl hr hm hrest).1 hk he⟩
  obtain ⟨hist, hp, hfrozen⟩ := LTS.inv_reach (step := (Clocked.caught (attempts src) hd false c .source t0).step) (fun ks s => (∀ l, Time.act l ∈ ks → (attemptHost (C := C) (α := α) H).Own l) →
      (Clocked.caught (attempts src) hd false c .source t0).Prompt (fun s => ∀ t, (attemptHost (C := C) (α := α) H).need s t ≠ .soon) ks →
      ∃ hist, Past (attempts src) hd false c .source t0 ks s hist ∧ ∀ e te, (.error e, te) ∈ callsAt k hist → te = s.now)
      (s0 := (Clocked.caught (attempts src) hd false c .source t0).init) (by
        intro _ _
        exact ⟨[], past_init hf.lawful hd false c .source t0, fun e te h => by cases h⟩) (by
      rintro ks s l s' hr0 ih hst ho hpr
      have ho' : ∀ l, Time.act l ∈ ks → (attemptHost (C := C) (α := α) H).Own l := fun l hl => ho l (by simp [hl])
      obtain ⟨hist, g1, g2⟩ := ih ho' (Clocked.Prompt.init hpr)
      obtain ⟨h2, a1, a2, a3, a4⟩ := past_step hf.lawful g1 hst
      refine ⟨hist ++ h2, a1, fun e te hm => ?_⟩
      rw [callsAt_append] at hm
      cases l with
      | act l =>
        dsimp only at a3
        rw [a3, Nat.add_zero]
        rcases List.mem_append.mp hm with hm | hm
        · exact g2 e te hm
        · rw [callsAt, List.mem_filterMap] at hm
          obtain ⟨⟨l, u⟩, hm, hx⟩ := hm
          have hu := a2 _ hm
          dsimp only at hu
          subst hu
          cases l <;> simp at hx
          exact hx.2.2.symm
      | pass d =>
        obtain ⟨rfl, -⟩ := a4 d rfl
        rw [show callsAt (α := α) k [] = [] from rfl, List.append_nil] at hm
        exfalso
        have hrest := Clocked.Prompt.last (rest := fun s => ∀ t, (attemptHost (C := C) (α := α) H).need s t ≠ .soon) hpr hr0
        rcases Nat.lt_or_ge k s.srcs.length with hlt | hge
        · obtain ⟨⟨xs, t, si⟩, hk⟩ : ∃ i, s.srcs[k]? = some i := ⟨_, List.getElem?_eq_getElem hlt⟩
          rw [g1.calls _ _ _ _ hk] at hm
          exact spin hr0 ho' hrest hk hm
        · rw [g1.fresh _ hge] at hm; cases hm) h1 h3 h2
  have := hfrozen e te (by rw [hp.calls _ _ _ _ hk]; exact he)
  have hn : (s.now : Int) = m.vt.time := hn
  omega

/-- C175 is false: from the time `te` on at which the source has failed for the last time (the second, or for `n = 0` the first), whatever else runs on the loop, there is always a callback
that is due, and it remains `te`. -/
theorem C175_violated [DecidableEq T] (K : h.Laws) (hs : Hosts H src) {hops ls m}
    (hr : LTS.run (Hosted.step h hops (retried src n t0) (retryHost (α := α) H)) Hosted.init ls = some m) {s} (hm : m.sub = some s)
    {xs t si e te} (hk : s.srcs[lastAttempt n]? = some (xs, t, si)) (he : (.error e, te) ∈ (attempts src xs t).calls si) :
    m.vt.time = te ∧ m.vt.ready ≠ [] :=
  frozen K hs (fun h1 ho hn _ _ _ _ _ hk he => spinning hs h1 ho hn hk he) hr hm hk he

/-- C175, the part that holds: as long as the last attempt has not failed, the observer has got the values of the attempts, one after the other, at the times at which they were sent, and whenever
no callback is due, an attempt that has failed was followed by the next one at that very time. Missing: that the error of the last attempt is delivered, and that the time passes after it. -/
theorem C175_partial [DecidableEq T] (K : h.Laws) (hs : Hosts H src) {hops ls m}
    (hr : LTS.run (Hosted.step h hops (retried src n t0) (retryHost (α := α) H)) Hosted.init ls = some m) {s} (hm : m.sub = some s) (hrest : m.vt.ready = []) :
    s.sent = s.srcs.flatMap (fun i => noErrors ((attempts src i.1 i.2.1).calls i.2.2)) ∧ s.srcs.length ≤ lastAttempt n + 1 ∧ (∀ i ∈ s.srcs, i.1 = .source) ∧
    ∀ (k : Nat) xs t si ys u sj, s.srcs[k]? = some (xs, t, si) → s.srcs[k + 1]? = some (ys, u, sj) → ∃ e, (.error e, u) ∈ (attempts src xs t).calls si := by
  have hI := attempts_family hs
  have hf := attempts_proper hs
  have hl := Host.caught_lawful (hd := factory) (c := n) (x := .source) (t0 := t0) hI hf
  obtain ⟨hn, ks, h1, h2, h3⟩ := Hosted.C117_schedule K hl hr hm
  obtain ⟨-, -, -, hpr, -⟩ := C174_schedule K hI hf hr hm
  have hpr : (retried src n t0).Prompt Idle ks := fun a d b s he ha => Host.caught_idle (h2 a d b s he ha)
  obtain ⟨hist, hp, hc⟩ := past hf h1
  have hchain : ∀ (k : Nat) xs t si ys u sj, s.srcs[k]? = some (xs, t, si) → s.srcs[k + 1]? = some (ys, u, sj) → ∃ e, (.error e, u) ∈ (attempts src xs t).calls si := by
    intro k xs t si ys u sj hk hk'
    obtain ⟨e, te, a1, -, a3, -⟩ := hc.chain k ys u (by simp only [births, List.getElem?_map, hk']; rfl)
    rw [hp.calls k _ _ _ hk, a3 hpr] at a1
    exact ⟨e, a1⟩
  have hlen : s.srcs.length ≤ lastAttempt n + 1 := by
    rcases Nat.lt_or_ge (lastAttempt n + 1) s.srcs.length with hlt | hge
    · exfalso
      obtain ⟨⟨xs, t, si⟩, hk⟩ : ∃ i, s.srcs[lastAttempt n]? = some i := ⟨_, List.getElem?_eq_getElem (by omega)⟩
      obtain ⟨⟨ys, u, sj⟩, hk'⟩ : ∃ i, s.srcs[lastAttempt n + 1]? = some i := ⟨_, List.getElem?_eq_getElem hlt⟩
      obtain ⟨e, he⟩ := hchain _ _ _ _ _ _ _ hk hk'
      exact (C175_violated K hs hr hm hk he).2 hrest
    · exact hge
  refine ⟨C174_in_order K hI hf hr hm, hlen, fun i hi => ?_, hchain⟩
  obtain ⟨k, hk⟩ := List.getElem?_of_mem hi
  obtain ⟨xs, t, si⟩ := i
  have hrun := nextAt_run hp.run
  have hst : s.ctl.started[k]? = some xs := by
    have := hc.started
    dsimp only at this
    rw [← this, births]
    simp [hk]
  dsimp only
  match k with
  | 0 =>
    have := Catch.started_zero hrun
    dsimp only at this
    rw [hst] at this
    cases this; rfl
  | 1 =>
    have hn0 : n ≠ 0 := by
      rintro rfl
      have := (List.getElem?_eq_some_iff.mp hk).1
      have h0 : lastAttempt 0 = 0 := rfl
      omega
    obtain ⟨⟨zs, v, sk⟩, hz⟩ : ∃ i, s.srcs[0]? = some i := ⟨_, List.getElem?_eq_getElem (by have := (List.getElem?_eq_some_iff.mp hk).1; omega)⟩
    obtain ⟨e0, a1⟩ := hchain 0 _ _ _ _ _ _ hz hk
    have hlaw := hp.grammar hf
    have hfin : (story (Catch.calls 0 (hist.map (·.1)))).fin = .failed e0 := by
      have hg := hlaw 0
      rw [callsAt_map, hp.calls 0 _ _ _ hz] at hg ⊢
      exact failed_of_mem hg (List.mem_map.mpr ⟨_, a1, rfl⟩)
    have hidle := Host.caught_idle (Hosted.C117_rest K hl hr hm hrest).1
    have := (C44_once_partial hn0 hrun hlaw (by
      intro j hj
      obtain ⟨⟨l, u⟩, hm, hl⟩ := List.mem_map.mp hj
      dsimp only at hl
      subst hl
      obtain ⟨j', h | h⟩ := (Host.caught_own h3).2 _ (hp.own _ hm rfl) <;> cases h) (by intro xs d hm; rw [hidle] at hm; cases hm) hfin).1
    dsimp only at this
    rw [hst] at this
    cases this; rfl
  | k + 2 =>
    have := (List.getElem?_eq_some_iff.mp hk).1
    have : lastAttempt n ≤ 1 := by simp only [lastAttempt]; split <;> omega
    omega

/-! ## Examples -/

section Examples

/-- `of_async(work)` where `work` raises after 2, and `retry(3)`; other code sleeps until 9. -/
theorem brokenJob_hosts : Hosts (Job.host (α := Nat)) brokenJob :=
  ⟨fun t => (brokenJob_hosted t).1, fun t => rfl, fun t => (brokenJob_hosted t).2.2, brokenJob_grammar⟩

def stuckRun (k : Nat) : Option (Int × Bool × Option (List (Attempt × Nat) × List (Notif Nat × Nat))) :=
  (Hosted.play (fun _ => 1) (retried brokenJob 3 0) (retryHost (Job.host (α := Nat))) Hosted.init
    ([some .subscribe, some (.loop (.callAt 9))] ++ List.replicate k none)).map fun m => (m.vt.time, m.vt.ready.isEmpty, m.sub.map fun s => (births s, s.sent))

set_option synthInstance.maxSize 1000 in
/-- The last attempt fails at 4; `fail` has been subscribed thrice, nothing was sent, and it is still 4. -/
example : stuckRun 100 = some (4, false, some ([(.source, 0), (.source, 2), (.fail (.user 1), 4), (.fail (.user 1), 4), (.fail (.user 1), 4)], [])) := by decide +kernel

set_option synthInstance.maxSize 1000 in
/-- `C175_partial`: at time 2 the first attempt has failed, the second one sleeps, and no callback is due. -/
example : stuckRun 41 = some (2, true, some ([(.source, 0), (.source, 2)], [])) := by decide +kernel

example {hops ls m} (hr : LTS.run (Hosted.step VirtualTime.heapq hops (retried brokenJob 3 0) (retryHost (Job.host (α := Nat)))) Hosted.init ls = some m) {s} (hm : m.sub = some s)
    {xs t si e te} (hk : s.srcs[1]? = some (xs, t, si)) (he : (.error e, te) ∈ (attempts brokenJob xs t).calls si) : m.vt.time = te ∧ m.vt.ready ≠ [] :=
  C175_violated VirtualTime.heapqLaws brokenJob_hosts hr hm hk he

end Examples
end Aio.Caught
