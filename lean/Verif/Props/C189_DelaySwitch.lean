import Verif.Props.C118_Deadline
import Verif.Props.C187_DelayMerge
/-!
# C189: `delay` and `switch_latest`

`pipe(source, switch_latest, delay(e))` and `switch_latest` over the same observables with `delay(e)` behind each of them.
-/

namespace Aio
open Spec Spec.Timed Spec.Delay Spec.Ripe Nested
variable {SO LO SI LI S ω α : Type} {o : Clocked SO LO ω} {fam : ω → Nat → Clocked SI LI α} {e : Nat}

namespace DelaySwitch

/-- `pipe(source, switch_latest, delay(e))` -/
abbrev outside (o : Clocked SO LO ω) (fam : ω → Nat → Clocked SI LI α) (e : Nat) := (o.switched fam true).through (Delay.stage true e)

/-- `pipe(source, map(lambda xs: pipe(xs, delay(e))), switch_latest)`, also `flat_map_latest(lambda xs: pipe(xs, delay(e)))` -/
abbrev inside (o : Clocked SO LO ω) (fam : ω → Nat → Clocked SI LI α) (e : Nat) := o.switched (DelayMerge.delayed fam e) true

/-- An inner observable's `delay` is disposed only once the source has sent the next observable. -/
def Replaced (o : Clocked SO LO ω) (fam : ω → Nat → Clocked SI LI α) (e : Nat) (ls : List (Time (Nested.Label LO (LI ⊕ Delay.Label α) ω α))) : Prop :=
  ∀ ls₁ i ls₂ s₁, ls = ls₁ ++ Time.act (.inner i (.inr (.dispose 0))) :: ls₂ →
    LTS.run (inside o fam e).step (inside o fam e).init ls₁ = some s₁ → i + 1 < (valuesAt (o.calls s₁.outer)).length

/-- An inner observable goes on from where it was. -/
theorem follows_step {p : Producer S (Merge.Label ω α) α} {started : S → List ω} {base : Nat} {s l s'}
    (hst : (o.nested fam p started base).step s l = some s') {k : Nat} {x : ω} {w : Nat} {si : SI} (hk : s.inners[k]? = some (x, w, si)) :
    ∃ si' li, s'.inners[k]? = some (x, w, si') ∧ LTS.run (fam x w).step si li = some si' := by
  have stay : s'.inners[k]? = s.inners[k]? → ∃ si' li, s'.inners[k]? = some (x, w, si') ∧ LTS.run (fam x w).step si li = some si' :=
    fun h => ⟨si, [], by rw [h, hk], rfl⟩
  match l with
  | .pass d =>
    simp only [Clocked.step, Clocked.nested] at hst
    split at hst
    next t is h1 h2 =>
      cases hst
      obtain ⟨i1, i2⟩ := passAll_get h2
      have h3 : (is.map fun i => (i.1, i.2.1))[k]? = some (x, w) := by rw [i1, List.getElem?_map, hk]; rfl
      rw [List.getElem?_map] at h3
      obtain ⟨⟨y, v, sj⟩, h4, h5⟩ := Option.map_eq_some_iff.mp h3
      cases h5
      obtain ⟨si2, h6, h7⟩ := i2 k _ _ _ h4
      rw [hk] at h6
      cases h6
      exact ⟨sj, [.pass d], h4, LTS.run_cons.mpr ⟨_, h7, rfl⟩⟩
    · cases hst
  | .act (.outer l) =>
    simp only [Clocked.step, Clocked.nested] at hst
    split at hst
    · cases hst
    next t h1 => exact stay (by rw [(work_run hst).2.2])
  | .act (.inner j l) =>
    simp only [Clocked.step, Clocked.nested] at hst
    split at hst
    · cases hst
    next xs t0 sj h1 =>
      split at hst
      · cases hst
      next t h2 =>
        have h3 := (work_run hst).2.2
        dsimp only at h3
        by_cases hj : j = k
        · subst hj
          rw [hk] at h1
          cases h1
          refine ⟨t, [.act l], ?_, LTS.run_cons.mpr ⟨_, h2, rfl⟩⟩
          rw [h3, List.getElem?_set_self (List.getElem?_eq_some_iff.mp hk).1]
        · exact stay (by rw [h3, List.getElem?_set_ne hj])
  | .act (.own l) =>
    simp only [Clocked.step, Clocked.nested] at hst
    split at hst
    · obtain ⟨u, h1, h2⟩ := Option.map_eq_some_iff.mp hst
      subst h2
      refine stay ?_
      have h3 := (work_run h1).2.2
      simp only [subscribed, h3]
      rw [List.getElem?_append_left (List.getElem?_eq_some_iff.mp hk).1]
    · cases hst

theorem follows {p : Producer S (Merge.Label ω α) α} {started : S → List ω} {base : Nat} : ∀ {ls s s'}, LTS.run (o.nested fam p started base).step s ls = some s' →
    ∀ {k : Nat} {x : ω} {w : Nat} {si : SI}, s.inners[k]? = some (x, w, si) → ∃ si' li, s'.inners[k]? = some (x, w, si') ∧ LTS.run (fam x w).step si li = some si'
  | [], s, s', h => fun hk => by cases h; exact ⟨_, [], hk, rfl⟩
  | l :: ls, s, s', h => fun hk => by
    obtain ⟨u, h1, h2⟩ := LTS.run_cons.mp h
    obtain ⟨si, l1, h3, h4⟩ := follows_step h1 hk
    obtain ⟨sj, l2, h5, h6⟩ := follows h2 h3
    exact ⟨sj, l1 ++ l2, h5, LTS.run_append.mpr ⟨_, h4, h6⟩⟩

/-- What is sent later bears a later time. -/
theorem later {S L : Type} {q : Clocked S L α} (hq : q.Lawful) {ls₁ s₁} (h1 : LTS.run q.step q.init ls₁ = some s₁) : ∀ {ls₂ s₂}, LTS.run q.step s₁ ls₂ = some s₂ →
    ∀ {c}, c ∈ q.calls s₂ → c ∈ q.calls s₁ ∨ q.now s₁ ≤ c.2 := by
  intro ls₂
  induction ls₂ generalizing ls₁ s₁ with
  | nil => intro s₂ h c hc; simp only [LTS.run] at h; cases h; exact .inl hc
  | cons l ls ih =>
    intro s₂ h c hc
    obtain ⟨u, hu, h⟩ := LTS.run_cons.mp h
    have := ih (ls₁ := ls₁ ++ [l]) (LTS.run_append.mpr ⟨_, h1, LTS.run_cons.mpr ⟨u, hu, rfl⟩⟩) h hc
    cases l with
    | pass d =>
      obtain ⟨g1, g2⟩ := hq.pass h1 hu
      rw [g1, g2] at this
      exact this.imp_right fun h => by omega
    | act l =>
      obtain ⟨g1, ns, g2⟩ := hq.act h1 hu
      rw [g1, g2] at this
      rcases this with h | h
      · rcases List.mem_append.mp h with h | h
        · exact .inl h
        · obtain ⟨n, -, rfl⟩ := List.mem_map.mp h
          exact .inr (Nat.le_refl _)
      · exact .inr h

/-- C189: with `delay(e)` behind, what the inner observables sent, each until the next one was subscribed, is sent `e` later, in this order, also if another one has arrived in the meantime. -/
theorem C189_outside (hpr : Proper o fam) {ls s} (hr : LTS.run (outside o fam e).step (outside o fam e).init ls = some s)
    (h1 : Time.act (.inr (.dispose 0)) ∉ ls) (h2 : Time.act (.inr (.raise 0)) ∉ ls) (he : ∀ x t, (.error x, t) ∉ o.calls s.1.outer) :
    sentBefore (o.now s.1.outer) (noDone ((outside o fam e).calls s)) = s.1.inners.flatMap fun i => ripe e (o.now s.1.outer) ((fam i.1 i.2.1).calls i.2.2) := by
  have hl : (o.switched fam true).Lawful := nested_lawful hpr.source hpr.inner (switch_starts true) 1
  obtain ⟨r1, -⟩ := Clocked.clocks hl (Delay.stage_lawful true e) hr
  have a := (C114_in_order hpr r1 he).1
  have t := DelayMerge.told hl hr h1 h2
  rw [show (o.switched fam true).now s.1 = o.now s.1.outer from rfl, show (o.switched fam true).calls s.1 = s.1.posts from rfl] at t
  rw [t, ripe, a, List.map_flatMap, sentBefore, List.filter_flatMap]
  rfl

/-- C189: with `delay(e)` inside, whatever is sent was sent by an inner observable `e` before, and the next inner observable has not been subscribed before it is sent. -/
theorem C189_inside (hpr : Proper o fam) {ls s} (hr : LTS.run (inside o fam e).step (inside o fam e).init ls = some s)
    (he : ∀ x t, (.error x, t) ∉ o.calls s.outer) {n : Notif α} {u : Nat} (hm : (n, u) ∈ noDone s.posts) :
    ∃ (k : Nat) (x : ω) (w : Nat) (si : SI × Delay.State α) (t : Nat), s.inners[k]? = some (x, w, si) ∧ (n, t) ∈ (fam x w).calls si.1 ∧ u = t + e ∧
      ∀ y v sj, s.inners[k + 1]? = some (y, v, sj) → t + e ≤ v := by
  have hpr' := DelayMerge.delayed_proper (e := e) hpr
  obtain ⟨a1, a2⟩ := C114_in_order hpr' hr he
  obtain ⟨h, hp⟩ := Nested.past hpr'.source hpr'.inner (switch_starts true) hr
  rw [a1] at hm
  obtain ⟨⟨x, w, si⟩, hi, hx⟩ := List.mem_flatMap.mp hm
  obtain ⟨hx, hk'⟩ := List.mem_filter.mp hx
  obtain ⟨k, hk⟩ := List.mem_iff_getElem?.mp hi
  obtain ⟨⟨li, b1, -⟩, -⟩ := hp.sources k _ _ _ hk
  have g := (Delay.C107_exact (hpr.inner x w).1 e b1).1.subset hx
  rw [shifted] at g
  obtain ⟨⟨n', t⟩, c1, c2⟩ := List.mem_map.mp g
  cases c2
  refine ⟨k, x, w, si, t, hk, c1, rfl, fun y v sj hj => ?_⟩
  exact (a2 k _ _ _ _ _ _ hk hj _ hx).2 (by cases n' <;> simp_all [Notif.kind])

/-- C189: and on a loop that is not overloaded everything is sent for which the source leaves enough time. -/
theorem C189_inside_all (hpr : Proper o fam) {ls s} (hr : LTS.run (inside o fam e).step (inside o fam e).init ls = some s)
    (he : ∀ x t, (.error x, t) ∉ o.calls s.outer) (hrep : Replaced o fam e ls) (hra : ∀ k, Time.act (.inner k (.inr (.raise 0))) ∉ ls)
    {k : Nat} {x : ω} {w : Nat} {si : SI × Delay.State α} (hk : s.inners[k]? = some (x, w, si)) {n : Notif α} {t : Nat} (hm : (n, t) ∈ noDone ((fam x w).calls si.1))
    (hnow : t + e < o.now s.outer) (hnext : ∀ y v, (valuesAt (o.calls s.outer))[k + 1]? = some (y, v) → t + e < v) : (n, t + e) ∈ s.posts := by
  have hpr' := DelayMerge.delayed_proper (e := e) hpr
  obtain ⟨a1, -⟩ := C114_in_order hpr' hr he
  obtain ⟨h, hp⟩ := Nested.past hpr'.source hpr'.inner (switch_starts true) hr
  obtain ⟨hm, hn⟩ := List.mem_filter.mp hm
  have hq := (hpr.inner x w).1
  have key : ∀ {sk : SI × Delay.State α} {li}, LTS.run (DelayMerge.delayed fam e x w).step (DelayMerge.delayed fam e x w).init li = some sk → Time.act (.inr (.dispose 0)) ∉ li →
      Time.act (.inr (.raise 0)) ∉ li → (n, t) ∈ (fam x w).calls sk.1 → t + e < (fam x w).now sk.1 → (n, t + e) ∈ (DelayMerge.delayed fam e x w).calls sk := by
    intro sk li hli d1 d2 hc ht
    obtain ⟨j, hj⟩ := List.mem_iff_getElem?.mp hc
    exact List.mem_of_getElem? ((Delay.C107_exact hq e hli).2 d1 d2 j _ hj ht)
  have sent : (n, t + e) ∈ (DelayMerge.delayed fam e x w).calls si → (n, t + e) ∈ s.posts := fun hx => by
    have : (n, t + e) ∈ noDone s.posts := by
      rw [a1]; exact List.mem_flatMap.mpr ⟨_, List.mem_of_getElem? hk, List.mem_filter.mpr ⟨hx, by cases n <;> exact hn⟩⟩
    exact (List.mem_filter.mp this).1
  apply sent
  by_cases hd : Time.act (.inner k (.inr (.dispose 0))) ∈ ls
  · obtain ⟨ls₁, ls₂, hls, hfirst⟩ := List.eq_append_cons_of_mem hd
    have hr' := hr
    rw [hls] at hr'
    obtain ⟨s₁, hr₁, hr₂⟩ := LTS.run_append.mp hr'
    obtain ⟨h₁, hp₁⟩ := Nested.past hpr'.source hpr'.inner (switch_starts true) hr₁
    obtain ⟨h₂, new, hp₂, -, hnew, -⟩ := past_more hpr'.source hpr'.inner (switch_starts true) hp₁ hr₂
    have hrep₁ := hrep ls₁ k ls₂ s₁ hls hr₁
    have hpre : valuesAt (o.calls s₁.outer) <+: valuesAt (o.calls s.outer) := by
      rw [← hp₁.outer, ← hp₂.outer, outersAt_append, valuesAt, valuesAt, List.filterMap_append]
      exact List.prefix_append ..
    obtain ⟨⟨y, v⟩, hyv⟩ : ∃ y, (valuesAt (o.calls s₁.outer))[k + 1]? = some y := ⟨_, List.getElem?_eq_getElem hrep₁⟩
    have hvlt := hnext y v (by
      obtain ⟨r, hr⟩ := hpre
      rw [← hr, List.getElem?_append_left hrep₁]; exact hyv)
    have hvnow : v ≤ o.now s₁.outer := by
      have h3 := mem_values.mp (List.mem_of_getElem? hyv)
      rw [← hp₁.outer] at h3
      obtain ⟨c, hc, hcv⟩ := mem_outersAt h3
      have := hp₁.time.2 c hc
      dsimp only at hcv
      omega
    have hex : ∃ z, s₁.inners[k]? = some z := by
      obtain ⟨s₂, h3, -⟩ := LTS.run_cons.mp hr₂
      cases hz : s₁.inners[k]? with
      | some z => exact ⟨z, rfl⟩
      | none =>
        have h4 : (inside o fam e).act s₁ (.inner k (.inr (.dispose 0))) = some s₂ := h3
        simp [Clocked.switched, Clocked.nested, hz] at h4
    obtain ⟨⟨z, w₁, si₁⟩, hz⟩ := hex
    obtain ⟨si', lf, f1, f2⟩ := follows hr₂ hz
    rw [hk] at f1
    cases f1
    obtain ⟨⟨li, hli, hli'⟩, hnow'⟩ := hp₁.sources k _ _ _ hz
    have hs1 := (Clocked.clocks hq (Delay.stage_lawful true e) hli).1
    have hs2 := (Clocked.clocks hq (Delay.stage_lawful true e) (LTS.run_append.mpr ⟨_, hli, f2⟩)).1
    have hsplit : Clocked.sources (li ++ lf) = Clocked.sources li ++ Clocked.sources lf := List.filterMap_append ..
    rw [hsplit] at hs2
    obtain ⟨m, hm1, hm2⟩ := LTS.run_append.mp hs2
    rw [hs1] at hm1
    cases hm1
    have hn1 : (fam x w).now si₁.1 = o.now s₁.outer := hnow'
    have hm1 : (n, t) ∈ (fam x w).calls si₁.1 := by
      rcases later hq hs1 hm2 hm with h | h
      · exact h
      · dsimp only at h; omega
    have := key hli (fun h => hfirst (hli' _ h)) (fun h => hra k (by rw [hls]; exact List.mem_append_left _ (hli' _ h))) hm1 (by omega)
    exact ((Clocked.through_lawful hq (Delay.stage_lawful true e)).grows hli f2).subset this
  · obtain ⟨⟨li, hli, hli'⟩, hnow'⟩ := hp.sources k _ _ _ hk
    have hn1 : (fam x w).now si.1 = o.now s.outer := hnow'
    exact key hli (fun h => hd (hli' _ h)) (fun h => hra k (hli' _ h)) hm (by rw [hn1]; exact hnow)

/-- C189: so with `delay` inside nothing is sent that is not sent with `delay` behind, if the same inner observables have sent the same by the same time. -/
theorem C189_fewer (hpr : Proper o fam) {ls s} (hr : LTS.run (outside o fam e).step (outside o fam e).init ls = some s)
    (h1 : Time.act (.inr (.dispose 0)) ∉ ls) (h2 : Time.act (.inr (.raise 0)) ∉ ls) (he : ∀ x t, (.error x, t) ∉ o.calls s.1.outer)
    {ls' s'} (hr' : LTS.run (inside o fam e).step (inside o fam e).init ls' = some s') (he' : ∀ x t, (.error x, t) ∉ o.calls s'.outer)
    (hsame : (s'.inners.map fun i => (fam i.1 i.2.1).calls i.2.2.1) = s.1.inners.map fun i => (fam i.1 i.2.1).calls i.2.2)
    {n : Notif α} {u : Nat} (hu : u < o.now s.1.outer) (hm : (n, u) ∈ noDone s'.posts) : (n, u) ∈ (outside o fam e).calls s := by
  obtain ⟨k, x, w, si, t, hk, hc, rfl, -⟩ := C189_inside hpr hr' he' hm
  have h3 : (fam x w).calls si.1 ∈ s.1.inners.map fun i => (fam i.1 i.2.1).calls i.2.2 := by
    rw [← hsame]; exact List.mem_map.mpr ⟨_, List.mem_of_getElem? hk, rfl⟩
  obtain ⟨i, hi, hie⟩ := List.mem_map.mp h3
  have hn : (n, t) ∈ noDone ((fam i.1 i.2.1).calls i.2.2) := by
    rw [hie]
    refine List.mem_filter.mpr ⟨hc, ?_⟩
    have := (List.mem_filter.mp hm).2
    cases n <;> exact this
  have h4 : (n, t + e) ∈ sentBefore (o.now s.1.outer) (noDone ((outside o fam e).calls s)) := by
    rw [C189_outside hpr hr h1 h2 he]
    exact List.mem_flatMap.mpr ⟨i, hi, List.mem_filter.mpr ⟨List.mem_map.mpr ⟨_, hn, rfl⟩, decide_eq_true hu⟩⟩
  exact (List.mem_filter.mp (List.mem_filter.mp h4).1).1

section Examples

/-- for each value of `interval(1, 4)` an `interval(1, 2)`, with `delay(2)` -/
abbrev demoSource := Interval.clocked true 0 1 4
abbrev demoFam : Nat → Nat → Clocked Interval.State Interval.Label Nat := intervals fun _ => (1, 2)
abbrev demoOutside := outside demoSource demoFam 2
abbrev demoInside := inside demoSource demoFam 2
abbrev demoLate := demoSource.switched (DelayMerge.delayed demoFam 2) false
abbrev steps {LI : Type} (inner : List LI) : List (Nested.Label Interval.Label LI Nat Nat) :=
  DelayMerge.ticks.map .outer ++ [.own .receive, .own .disposed, .own .subscribed] ++ (List.range 2).flatMap (fun k => inner.map fun l => .inner k l)

/-- A schedule up to some point, some steps, and a schedule from there. -/
def twoPhases {S L : Type} (q : Clocked S L α) (labels : List L) (n : Nat) (mid : List L) (m : Nat) : List (Time L) :=
  let first := (FlatMap.greedy q labels n q.init).1 ++ mid.map .act
  first ++ (FlatMap.greedy q labels m ((LTS.run q.step q.init first).getD q.init)).1

/-- The second interval is subscribed at 5; the first one is disposed then. -/
def demoOutRun := twoPhases demoOutside ((steps DelayMerge.ticks).map .inl ++ DelayMerge.delays.map .inr) 26 [.inl (.inner 0 .dispose), .inl (.inner 0 .thrown)] 13
def demoInRun := twoPhases demoInside (steps (DelayMerge.ticks.map .inl ++ DelayMerge.delays.map .inr)) 27
  [.inner 0 (.inr (.dispose 0)), .inner 0 (.inl .dispose), .inner 0 (.inl .thrown), .inner 0 (.inr (.kill 0))] 8
/-- The same, only that the worker of the first `delay` is not cancelled. -/
def demoLateRun := twoPhases demoLate (steps (DelayMerge.ticks.map .inl ++ DelayMerge.delays.map .inr)) 27
  [.inner 0 (.inr (.dispose 0)), .inner 0 (.inl .dispose), .inner 0 (.inl .thrown)] 10
def demoOut := (LTS.run demoOutside.step demoOutside.init demoOutRun).getD demoOutside.init
def demoIn := (LTS.run demoInside.step demoInside.init demoInRun).getD demoInside.init
def demoLateEnd := (LTS.run demoLate.step demoLate.init demoLateRun).getD demoLate.init

private theorem ran {S L : Type} {q : Clocked S L α} {ls : List (Time L)} (h : (LTS.run q.step q.init ls).isSome = true) :
    LTS.run q.step q.init ls = some ((LTS.run q.step q.init ls).getD q.init) := by
  cases hr : LTS.run q.step q.init ls with
  | none => rw [hr] at h; cases h
  | some s => rfl

theorem demoOut_run : LTS.run demoOutside.step demoOutside.init demoOutRun = some demoOut := ran (by decide +kernel)
theorem demoIn_run : LTS.run demoInside.step demoInside.init demoInRun = some demoIn := ran (by decide +kernel)
theorem demoLate_run : LTS.run demoLate.step demoLate.init demoLateRun = some demoLateEnd := ran (by decide +kernel)

/-- C189: the converse is false: the value that the first interval sends at 4 is sent at 6 with `delay` behind, and is lost with `delay` inside, as the second one is subscribed at 5. In both runs the
same inner observables have sent the same by the same time. -/
theorem C189_order :
    LTS.run demoOutside.step demoOutside.init demoOutRun = some demoOut ∧ LTS.run demoInside.step demoInside.init demoInRun = some demoIn ∧
    demoSource.now demoIn.outer = demoSource.now demoOut.1.outer ∧
    (demoIn.inners.map fun i => (demoFam i.1 i.2.1).calls i.2.2.1) = (demoOut.1.inners.map fun i => (demoFam i.1 i.2.1).calls i.2.2) ∧
    demoOutside.calls demoOut = [(.next 0, 4), (.next 1, 6), (.next 0, 8)] ∧ demoIn.posts = [(.next 0, 4)] :=
  ⟨demoOut_run, demoIn_run, by decide +kernel, by decide +kernel, by decide +kernel, by decide +kernel⟩

/-- C189: this needs that the worker of a disposed `delay` is cancelled in its sleep (`MailboxProcessor.start(worker, token)`, timeshift.py:84, code of another package). `delay` itself looks at the token only
before it takes the next message (57), and `switch_latest` does not look at who sends (transform.py:268-269). If the worker is not cancelled, the value of the replaced observable is sent at 6, although the next one was
subscribed at 5. -/
theorem C189_late :
    LTS.run demoLate.step demoLate.init demoLateRun = some demoLateEnd ∧ Time.act (.inner 0 (.inr (.dispose 0))) ∈ demoLateRun ∧
    demoLateEnd.inners.map (·.2.1) = [1, 5] ∧ demoLateEnd.posts = [(.next 0, 4), (.next 1, 6)] :=
  ⟨demoLate_run, List.mem_append_left _ (List.mem_append_right _ (by simp)), by decide +kernel, by decide +kernel⟩

theorem demo_proper : Proper demoSource demoFam :=
  intervals_proper _ (Interval.clocked_lawful true 0 1 4) fun _ _ h => Interval.clocked_grammar h

/-- The hypotheses of `C189_fewer`, and with them those of `C189_outside` and `C189_inside`, are met. -/
example : (.next 0, 4) ∈ demoOutside.calls demoOut := by
  have h0 : demoOutRun.all (fun | .act (.inr (.dispose 0)) | .act (.inr (.raise 0)) => false | _ => true) = true := by decide +kernel
  have hc : demoSource.calls demoOut.1.outer = [(.next 0, 1), (.next 1, 5)] := by decide +kernel
  have hc' : demoSource.calls demoIn.outer = [(.next 0, 1), (.next 1, 5)] := by decide +kernel
  refine C189_fewer demo_proper demoOut_run (fun h => by simpa using List.all_eq_true.mp h0 _ h) (fun h => by simpa using List.all_eq_true.mp h0 _ h) ?_ demoIn_run ?_ C189_order.2.2.2.1
    (by decide +kernel) (by decide +kernel)
  · intro x t; rw [hc]; simp
  · intro x t; rw [hc']; simp

theorem demo_replaced : Replaced demoSource demoFam 2 demoInRun := by
  intro ls₁ i ls₂ s₁ hls hr
  have h5 : along demoInside.step (fun s l => match l with
    | .act (.inner i (.inr (.dispose 0))) => decide (i + 1 < (valuesAt (demoSource.calls s.outer)).length)
    | _ => true) demoInside.init demoInRun = true := by decide +kernel
  rw [hls] at h5
  have h6 := along_at h5 hr
  exact of_decide_eq_true h6

/-- And those of `C189_inside_all`. -/
example : (.next 0, 4) ∈ demoIn.posts := by
  have h0 : demoInRun.all (fun | .act (.inner _ (.inr (.raise 0))) => false | _ => true) = true := by decide +kernel
  have hc' : demoSource.calls demoIn.outer = [(.next 0, 1), (.next 1, 5)] := by decide +kernel
  have hn : demoSource.now demoIn.outer = 8 := by decide +kernel
  have hl : (demoIn.inners[0]?.map fun i => (i.1, i.2.1, (demoFam i.1 i.2.1).calls i.2.2.1)) = some (0, 1, [(.next 0, 2), (.next 1, 4)]) := by decide +kernel
  obtain ⟨⟨x, w, si⟩, hk, h1⟩ := Option.map_eq_some_iff.mp hl
  simp only [Prod.mk.injEq] at h1
  obtain ⟨rfl, rfl, h1⟩ := h1
  refine C189_inside_all demo_proper demoIn_run ?_ demo_replaced (fun k h => by simpa using List.all_eq_true.mp h0 _ h) hk (n := .next 0) (t := 2) ?_ (by rw [hn]; decide) ?_
  · intro x t; rw [hc']; simp
  · rw [h1]; decide
  · intro y v h
    rw [hc'] at h
    cases h
    decide

end Examples
end DelaySwitch
end Aio
