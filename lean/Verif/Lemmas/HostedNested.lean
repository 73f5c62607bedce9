import Verif.Model.HostedNested
import Verif.Lemmas.HostedParts
import Verif.Lemmas.Jobs
import Verif.Props.C112_114_Timers
/-!
# `merge_inner` on the `VirtualTimeEventLoop`
-/

namespace Aio
variable {SO LO TO SI LI TI ω α : Type}

namespace Merge

theorem turn_some {mx : Int} {s : State ω} (hd : s.pc ≠ .disposing []) :
    (turn (α := α) s = [] ∧ Settled s) ∨ ∃ l s' out, turn (α := α) s = [l] ∧ Nested.own l = true ∧ step mx s l = some (s', out) := by
  obtain ⟨inbox, model, pc, started, disposed⟩ := s
  cases pc with
  | waiting =>
    cases inbox with
    | nil => exact .inl ⟨rfl, .inr ⟨rfl, rfl⟩⟩
    | cons m q => exact .inr ⟨.receive, _, _, rfl, rfl, rfl⟩
  | subscribing m => exact .inr ⟨.subscribed, _, _, rfl, rfl, rfl⟩
  | disposing ks =>
    match ks with
    | [] => exact absurd rfl hd
    | [k] => exact .inr ⟨.disposed, _, _, rfl, rfl, rfl⟩
    | k :: k' :: ks => exact .inr ⟨.disposed, _, _, rfl, rfl, rfl⟩
  | halted => exact .inl ⟨rfl, .inl rfl⟩

theorem step_disposing {mx : Int} {s s' : State ω} {l : Label ω α} {out : List (Notif α)} (h : step mx s l = some (s', out)) (hd : s.pc ≠ .disposing []) :
    s'.pc ≠ .disposing [] := by
  have cont : ∀ (s : State ω) m, (s.continue m).pc ≠ .disposing [] := by
    intro s m
    simp only [State.continue]
    split <;> simp
  cases l with
  | outer n => cases n <;> (simp only [step, Option.some.injEq, Prod.mk.injEq] at h; obtain ⟨rfl, -⟩ := h; exact hd)
  | inner k n =>
    simp only [step] at h
    split at h
    · cases n <;> (simp only [Option.some.injEq, Prod.mk.injEq] at h; obtain ⟨rfl, -⟩ := h; exact hd)
    · cases h
  | cancel => simp only [step, Option.some.injEq, Prod.mk.injEq] at h; obtain ⟨rfl, -⟩ := h; exact hd
  | receive =>
    simp only [step] at h
    split at h
    next msg q hp hq =>
      simp only [Option.some.injEq] at h
      cases msg with
      | inner xs =>
        simp only [update] at h
        split at h <;> (obtain ⟨rfl, -⟩ := Prod.mk.inj h; first | exact cont _ _ | simp [State.subscribe])
      | innerCompleted k =>
        simp only [update] at h
        split at h
        · obtain ⟨rfl, -⟩ := Prod.mk.inj h; simp [State.subscribe]
        · split at h <;> (obtain ⟨rfl, -⟩ := Prod.mk.inj h; exact cont _ _)
      | completed =>
        simp only [update] at h
        obtain ⟨rfl, -⟩ := Prod.mk.inj h; exact cont _ _
      | dispose =>
        simp only [update] at h
        split at h
        · obtain ⟨rfl, -⟩ := Prod.mk.inj h; exact cont _ _
        next hne => obtain ⟨rfl, -⟩ := Prod.mk.inj h; simpa using hne
    next => cases h
  | subscribed => simp only [step] at h; split at h <;> simp at h; obtain ⟨rfl, -⟩ := h; exact cont _ _
  | subscribeFails => simp only [step] at h; split at h <;> simp at h; obtain ⟨rfl, -⟩ := h; simp
  | disposed =>
    simp only [step] at h; split at h <;> simp at h
    · obtain ⟨rfl, -⟩ := h; simp
    · obtain ⟨rfl, -⟩ := h; exact cont _ _
  | disposeFails => simp only [step] at h; split at h <;> simp at h; obtain ⟨rfl, -⟩ := h; simp

end Merge

namespace Host
open Nested
variable {o : Clocked SO LO ω} {fam : ω → Nat → Clocked SI LI α} {mx : Int} {H : Host SO LO TO} {I : Host SI LI TI}

/-- What inner observables have to satisfy: they begin with tasks that are not asleep. -/
structure Family (I : Host SI LI TI) (fam : ω → Nat → Clocked SI LI α) : Prop where
  lawful : ∀ xs t, I.Lawful (fam xs t)
  start : ∀ xs t, (fam xs t).now (fam xs t).init = t
  fresh : ∀ xs t n w, I.need (fam xs t).init n ≠ .until w

theorem Family.clocks (hI : Family I fam) : Fam fam := fun xs t => ⟨(hI.lawful xs t).clock, hI.start xs t⟩

theorem merged_own {ls : List (Time (Nested.Label LO LI ω α))} (ho : ∀ l, Time.act l ∈ ls → (H.merged (ω := ω) (α := α) I).Own l) :
    (∀ l, Time.act (.outer l) ∈ ls → H.Own l) ∧ (∀ k l, Time.act (.inner k l) ∈ ls → I.Own l) ∧
    ∀ l, Time.act (.own l) ∈ ls → l = .receive ∨ l = .subscribed ∨ l = .disposed := by
  refine ⟨fun l hl => ?_, fun k l hl => ?_, fun l hl => ?_⟩
  · rcases ho _ hl with h | ⟨s, t, h⟩
    · exact .inl h
    · match t with
      | .inl t => simp only [merged, List.mem_map] at h; obtain ⟨x, hx, he⟩ := h; cases he; exact .inr ⟨_, t, hx⟩
      | .inr (.inl (k, t)) => simp only [merged] at h; split at h <;> simp at h
      | .inr (.inr ()) => simp [merged] at h
  · rcases ho _ hl with h | ⟨s, t, h⟩
    · exact .inl h
    · match t with
      | .inl t => simp [merged] at h
      | .inr (.inl (k', t)) =>
        simp only [merged] at h
        split at h
        next i hi => simp only [List.mem_map] at h; obtain ⟨x, hx, he⟩ := h; cases he; exact .inr ⟨_, t, hx⟩
        next => cases h
      | .inr (.inr ()) => simp [merged] at h
  · rcases ho _ hl with h | ⟨s, t, h⟩
    · cases h
    · match t with
      | .inl t => simp [merged] at h
      | .inr (.inl (k', t)) => simp only [merged] at h; split at h <;> simp at h
      | .inr (.inr ()) =>
        simp only [merged, List.mem_map] at h
        obtain ⟨x, hx, he⟩ := h
        cases he
        simp only [Merge.turn] at hx
        split at hx
        · split at hx <;> simp at hx; simp [hx]
        · simp at hx; simp [hx]
        · simp at hx; simp [hx]
        · cases hx

structure Parts (o : Clocked SO LO ω) (fam : ω → Nat → Clocked SI LI α) (H : Host SO LO TO) (I : Host SI LI TI) (s : Nested SO (Merge.State ω) SI ω α) : Prop where
  outer : H.Reach o s.outer
  inner : ∀ (k : Nat) xs t si, s.inners[k]? = some (xs, t, si) → I.Reach (fam xs t) si ∧ (fam xs t).now si = o.now s.outer
  started : s.inners.length = s.prod.started.length
  worker : s.prod.pc ≠ .disposing []

theorem merged_parts (hH : H.Lawful o) (hI : Family I fam) {s} (hr : (H.merged I).Reach (o.merged fam mx) s) : Parts o fam H I s := by
  obtain ⟨ls, hr, ho⟩ := hr
  obtain ⟨o1, o2, -⟩ := merged_own ho
  obtain ⟨h, hp⟩ := past hH.clock hI.clocks (merge_starts mx) hr
  refine ⟨?_, fun k xs t si hk => ?_, ?_, ?_⟩
  · obtain ⟨lo, h1, h2⟩ := hp.source
    exact ⟨lo, h1, fun l hl => o1 l (h2 l hl)⟩
  · obtain ⟨⟨li, h1, h2⟩, h3⟩ := hp.sources k xs t si hk
    exact ⟨⟨li, h1, fun l hl => o2 k l (h2 l hl)⟩, h3⟩
  · rw [← hp.started, List.length_map]
  · refine LTS.inv (step := (mergeInner (ω := ω) (α := α) mx).soloAt) (fun x => x.1.pc ≠ .disposing []) (s0 := ((mergeInner (ω := ω) (α := α) mx).init, [])) (by simp [mergeInner, Merge.State.initial]) ?_ hp.run
    intro x l y hx hs
    simp only [Producer.soloAt, Option.map_eq_some_iff] at hs
    obtain ⟨⟨s', out⟩, hs, rfl⟩ := hs
    exact Merge.step_disposing hs hx

/-- Calls of the source and of inner observables that were subscribed are always taken. -/
theorem work_calls {t : Nat} : ∀ {ls : List (Merge.Label ω α)} (s : Nested SO (Merge.State ω) SI ω α),
    (∀ l ∈ ls, (∃ n, l = .outer n) ∨ ∃ k n, l = .inner k n ∧ k < s.prod.started.length) →
    ∃ prod posts, work (mergeInner mx) t s ls = some { s with prod, posts } ∧ prod.started = s.prod.started
  | [], s, _ => ⟨s.prod, s.posts, rfl, rfl⟩
  | l :: ls, s, h => by
    have : ∃ prod out, Merge.step mx s.prod l = some (prod, out) ∧ prod.started = s.prod.started := by
      rcases h l (by simp) with ⟨n, rfl⟩ | ⟨k, n, rfl, hk⟩
      · cases n <;> exact ⟨_, _, rfl, rfl⟩
      · simp only [Merge.step, if_pos hk]
        cases n <;> exact ⟨_, _, rfl, rfl⟩
    obtain ⟨prod, out, h1, h2⟩ := this
    obtain ⟨prod', posts, h3, h4⟩ := work_calls (t := t) (ls := ls) { s with prod := prod, posts := s.posts ++ out.map fun n => (n, t) } (fun l hl => by
      have := h l (by simp [hl])
      rw [← h2] at this
      exact this)
    refine ⟨prod', posts, ?_, h4.trans h2⟩
    simp only [work, mergeInner, h1]
    exact h3

theorem merged_outer : ∀ {as : List LO} (s : Nested SO (Merge.State ω) SI ω α) {u : SO}, LTS.run o.act s.outer as = some u →
    ∃ prod posts, LTS.run (o.merged fam mx).act s (as.map .outer) = some { s with outer := u, prod, posts } ∧ prod.started = s.prod.started
  | [], s, u, h => by cases h; exact ⟨s.prod, s.posts, rfl, rfl⟩
  | a :: as, s, u, h => by
    obtain ⟨u1, h1, h2⟩ := LTS.run_cons.mp h
    obtain ⟨prod, posts, h3, h4⟩ := work_calls (mx := mx) (t := o.now s.outer) (ls := ((o.calls u1).drop (o.calls s.outer).length).map fun c => .outer c.1)
      { s with outer := u1 } (by
        intro l hl
        obtain ⟨c, -, rfl⟩ := List.mem_map.mp hl
        exact .inl ⟨_, rfl⟩)
    obtain ⟨prod', posts', h5, h6⟩ := merged_outer { s with outer := u1, prod, posts } h2
    refine ⟨prod', posts', LTS.run_cons.mpr ⟨_, ?_, h5⟩, h6.trans h4⟩
    simp only [Clocked.merged, Clocked.nested, h1]
    exact h3

theorem merged_inner {k : Nat} {xs : ω} {t0 : Nat} : ∀ {as : List LI} (s : Nested SO (Merge.State ω) SI ω α) {si si' : SI}, s.inners[k]? = some (xs, t0, si) →
    k < s.prod.started.length → LTS.run (fam xs t0).act si as = some si' →
    ∃ prod posts, LTS.run (o.merged fam mx).act s (as.map (.inner k)) = some { s with inners := s.inners.set k (xs, t0, si'), prod, posts } ∧ prod.started = s.prod.started
  | [], s, si, si', hk, _, h => by
    cases h
    refine ⟨s.prod, s.posts, ?_, rfl⟩
    have : s.inners.set k (xs, t0, si) = s.inners := by
      apply List.ext_getElem?
      intro j
      by_cases hj : k = j
      · subst hj; rw [hk, List.getElem?_set_self ((List.getElem?_eq_some_iff.mp hk).1)]
      · rw [List.getElem?_set_ne hj]
    rw [this]; rfl
  | a :: as, s, si, si', hk, hs, h => by
    obtain ⟨u1, h1, h2⟩ := LTS.run_cons.mp h
    have hlt := (List.getElem?_eq_some_iff.mp hk).1
    obtain ⟨prod, posts, h3, h4⟩ := work_calls (mx := mx) (t := o.now s.outer)
      (ls := (((fam xs t0).calls u1).drop ((fam xs t0).calls si).length).map fun c => .inner (k + 0) c.1)
      { s with inners := s.inners.set k (xs, t0, u1) } (by
        intro l hl
        obtain ⟨c, -, rfl⟩ := List.mem_map.mp hl
        exact .inr ⟨_, _, rfl, hs⟩)
    obtain ⟨prod', posts', h5, h6⟩ := merged_inner (k := k) { s with inners := s.inners.set k (xs, t0, u1), prod, posts }
      (by simp [hlt]) (by rw [h4]; exact hs) h2
    refine ⟨prod', posts', LTS.run_cons.mpr ⟨{ s with inners := s.inners.set k (xs, t0, u1), prod, posts }, ?_, ?_⟩, h6.trans h4⟩
    · simp only [Clocked.merged, Clocked.nested, hk, h1]
      exact h3
    · rw [h5]; simp

theorem passAll_some {d : Nat} : ∀ (is : List (ω × Nat × SI)), (∀ i ∈ is, ∃ si, (fam i.1 i.2.1).pass i.2.2 d = some si ∧ ∀ n, I.need si n = I.need i.2.2 n) →
    ∃ is', passAll fam d is = some is' ∧ is'.length = is.length ∧ ∀ (k : Nat) i i', is[k]? = some i → is'[k]? = some i' → ∀ n, I.need i'.2.2 n = I.need i.2.2 n
  | [], _ => ⟨[], rfl, rfl, fun k i i' h => (by cases h)⟩
  | (xs, t, si) :: is, h => by
    obtain ⟨si', h1, h2⟩ := h (xs, t, si) (by simp)
    obtain ⟨is', h3, h4, h5⟩ := passAll_some is fun i hi => h i (by simp [hi])
    refine ⟨(xs, t, si') :: is', by simp only [passAll]; rw [h1, h3], by simp [h4], fun k i i' hk hk' => ?_⟩
    cases k with
    | zero => cases hk; cases hk'; exact h2
    | succ k => exact h5 k i i' hk hk'

theorem merged_lawful (hH : H.Lawful o) (hI : Family I fam) : (H.merged I).Lawful (o.merged fam mx) where
  clock := nested_lawful hH.clock hI.clocks (merge_starts mx) 0
  names := by
    intro s t hr hn
    have P := merged_parts hH hI hr
    simp only [merged, List.mem_append, List.mem_map, List.mem_flatMap, List.mem_singleton, List.mem_range]
    match t with
    | .inl t => exact .inl ⟨t, hH.names P.outer hn, rfl⟩
    | .inr (.inr ()) => exact .inr (.inr rfl)
    | .inr (.inl (k, t)) =>
      simp only [merged] at hn
      cases hk : s.inners[k]? with
      | none => rw [hk] at hn; exact absurd rfl hn
      | some i =>
        obtain ⟨xs, t0, si⟩ := i
        rw [hk] at hn
        refine .inr (.inl ⟨k, (List.getElem?_eq_some_iff.mp hk).1, ?_⟩)
        rw [hk]
        exact List.mem_map.mpr ⟨t, (hI.lawful xs t0).names (P.inner k xs t0 si hk).1 hn, rfl⟩
  turn := by
    intro s t hr hd
    have P := merged_parts hH hI hr
    have worker : ∀ (s s' : Nested SO (Merge.State ω) SI ω α) w, (H.merged I).need s' (.inr (.inr ())) = .until w → (H.merged I).need s (.inr (.inr ())) = .until w := by
      intro s s' w; simp only [merged]; split <;> split <;> simp
    match t with
    | .inl t =>
      obtain ⟨u, h1, h2⟩ := hH.turn (t := t) P.outer hd
      obtain ⟨prod, posts, h3, -⟩ := merged_outer (fam := fam) (mx := mx) s h1
      refine ⟨_, h3, fun t' w hne => ?_⟩
      match t' with
      | .inl t' => exact h2 t' w fun h => hne (by rw [h])
      | .inr (.inl (k, t')) => exact id
      | .inr (.inr ()) => exact worker _ _ w
    | .inr (.inl (k, t)) =>
      cases hk : s.inners[k]? with
      | none => exact ⟨s, by simp [merged, hk, LTS.run], fun _ _ _ h => h⟩
      | some i =>
        obtain ⟨xs, t0, si⟩ := i
        obtain ⟨g1, g2⟩ := P.inner k xs t0 si hk
        obtain ⟨si', h1, h2⟩ := (hI.lawful xs t0).turn (t := t) g1 (fun w hw => by
          rw [g2]; exact hd w (by simp only [merged, hk]; exact hw))
        have hlt := (List.getElem?_eq_some_iff.mp hk).1
        obtain ⟨prod, posts, h3, -⟩ := merged_inner (o := o) (mx := mx) s hk (by rw [← P.started]; exact hlt) h1
        refine ⟨_, (by simp only [merged, hk]; exact h3), fun t' w hne => ?_⟩
        match t' with
        | .inl t' => exact id
        | .inr (.inl (j, t')) =>
          simp only [merged]
          by_cases hj : k = j
          · subst hj
            rw [List.getElem?_set_self hlt, hk]
            exact h2 t' w fun h => hne (by rw [h])
          · rw [List.getElem?_set_ne hj]; exact id
        | .inr (.inr ()) => exact worker _ _ w
    | .inr (.inr ()) =>
      rcases Merge.turn_some (α := α) (mx := mx) P.worker with ⟨h1, -⟩ | ⟨l, prod, out, h1, h2, h3⟩
      · exact ⟨s, by simp [merged, h1, LTS.run], fun _ _ _ h => h⟩
      · refine ⟨_, by simp only [merged, h1, List.map_cons, List.map_nil, LTS.run, Clocked.merged, Clocked.nested, h2, if_true, work, mergeInner, h3, Option.map_some]; rfl, fun t' w hne => ?_⟩
        match t' with
        | .inl t' => exact id
        | .inr (.inl (j, t')) =>
          simp only [merged, subscribed]
          by_cases hj : j < s.inners.length
          · rw [List.getElem?_append_left hj]; exact id
          · rw [List.getElem?_append_right (by omega), List.getElem?_eq_none (l := s.inners) (by omega)]
            cases hc : (List.map (fun xs => (xs, o.now s.outer, (fam xs (o.now s.outer)).init)) (List.drop s.inners.length prod.started))[j - s.inners.length]? with
            | none => exact id
            | some i =>
              rw [List.getElem?_map] at hc
              obtain ⟨xs, -, rfl⟩ := Option.map_eq_some_iff.mp hc
              exact fun h => absurd h (hI.fresh _ _ _ _)
        | .inr (.inr ()) => exact absurd rfl hne
  outside := by
    intro s l s' hr hl ha t w
    have P := merged_parts hH hI hr
    have worker : (H.merged I).need s' (.inr (.inr ())) = .until w → (H.merged I).need s (.inr (.inr ())) = .until w := by
      simp only [merged]; split <;> split <;> simp
    match l with
    | .own l => cases hl
    | .outer l =>
      cases hs : o.act s.outer l with
      | none => simp [Clocked.merged, Clocked.nested, hs] at ha
      | some u =>
        obtain ⟨prod, posts, h3, -⟩ := merged_outer (fam := fam) (mx := mx) s (LTS.run_cons.mpr ⟨u, hs, rfl⟩ : LTS.run o.act s.outer [l] = some u)
        obtain ⟨x, h4, h5⟩ := LTS.run_cons.mp h3
        cases h5
        rw [h4] at ha; cases ha
        match t with
        | .inl t => exact hH.outside P.outer hl hs t w
        | .inr (.inl (k, t)) => exact id
        | .inr (.inr ()) => exact worker
    | .inner k l =>
      cases hk : s.inners[k]? with
      | none => simp [Clocked.merged, Clocked.nested, hk] at ha
      | some i =>
        obtain ⟨xs, t0, si⟩ := i
        have hlt := (List.getElem?_eq_some_iff.mp hk).1
        cases hs : (fam xs t0).act si l with
        | none => simp [Clocked.merged, Clocked.nested, hk, hs] at ha
        | some u =>
          obtain ⟨prod, posts, h3, -⟩ := merged_inner (o := o) (mx := mx) s hk (by rw [← P.started]; exact hlt) (LTS.run_cons.mpr ⟨u, hs, rfl⟩ : LTS.run (fam xs t0).act si [l] = some u)
          obtain ⟨x, h4, h5⟩ := LTS.run_cons.mp h3
          cases h5
          rw [h4] at ha; cases ha
          match t with
          | .inl t => exact id
          | .inr (.inl (j, t)) =>
            simp only [merged]
            by_cases hj : k = j
            · subst hj
              rw [List.getElem?_set_self hlt, hk]
              exact (hI.lawful xs t0).outside (P.inner k xs t0 si hk).1 hl hs t w
            · rw [List.getElem?_set_ne hj]; exact id
          | .inr (.inr ()) => exact worker
  pass := by
    intro s d hr hc
    have P := merged_parts hH hI hr
    obtain ⟨u, h1, h2⟩ := hH.pass (d := d) P.outer (fun t => hc (.inl t))
    obtain ⟨is, h3, h4, h5⟩ := passAll_some (I := I) (fam := fam) (d := d) s.inners (fun i hi => by
      obtain ⟨k, hk⟩ := List.getElem?_of_mem hi
      obtain ⟨xs, t0, si⟩ := i
      obtain ⟨g1, g2⟩ := P.inner k xs t0 si hk
      refine (hI.lawful xs t0).pass g1 (fun t => ?_)
      have := hc (.inr (.inl (k, t)))
      simp only [merged, hk] at this
      rw [g2]; exact this)
    refine ⟨{ s with outer := u, inners := is }, by simp only [Clocked.merged, Clocked.nested, h1, h3], fun t => ?_⟩
    match t with
    | .inl t => exact h2 t
    | .inr (.inr ()) => rfl
    | .inr (.inl (k, t)) =>
      simp only [merged]
      cases hk : s.inners[k]? with
      | none => rw [List.getElem?_eq_none (by rw [h4]; exact List.getElem?_eq_none_iff.mp hk)]
      | some i =>
        have hlt := (List.getElem?_eq_some_iff.mp hk).1
        rw [List.getElem?_eq_getElem (by rw [h4]; exact hlt)]
        exact h5 k i _ hk (List.getElem?_eq_getElem (by rw [h4]; exact hlt)) t

/-- When no task can go on, the worker has nothing to do. -/
theorem merged_settled {s : Nested SO (Merge.State ω) SI ω α} (hd : s.prod.pc ≠ .disposing []) (hn : (H.merged I).need s (.inr (.inr ())) ≠ .soon) : Merge.Settled s.prod := by
  rcases Merge.turn_some (α := α) (mx := 0) hd with ⟨-, h⟩ | ⟨l, _, _, h, -, -⟩
  · exact h
  · simp [merged, h] at hn

end Host

/-! ## the inner observables -/

theorem Job.host_lawful {dur : Nat} {r : Except Err α} {t0 : Nat} : (Job.host (α := α)).Lawful (Job.clocked dur r t0) where
  clock := Job.lawful dur r t0
  names := by intro s t _ _; cases t <;> simp [Job.host]
  turn := by
    intro s t hr hd
    obtain ⟨ls, hr, -⟩ := hr
    have hi := Job.inv_run hr
    have asleep : ∀ (s : Job.State α) w, (Job.host.need s false) ≠ .until w := by
      intro s w
      simp only [Job.host]
      split
      · simp
      · split <;> simp
      · simp
    cases t with
    | true =>
      have others : ∀ (s s' : Job.State α) t' w, t' ≠ true → (Job.host.need s' t' = .until w → Job.host.need s t' = .until w) := by
        intro s s' t' w hne
        cases t' with
        | true => exact absurd rfl hne
        | false => exact fun h => absurd h (asleep _ _)
      cases hpc : s.sub.src.pc with
      | finished => exact ⟨s, by simp [Job.host, hpc, LTS.run], fun t' w h => id⟩
      | fresh =>
        have he := hi.early (by rw [hpc]; simp)
        rw [hpc] at he
        obtain ⟨sub, now, due, sent⟩ := s
        dsimp only at he
        subst he
        exact ⟨_, rfl, fun t' w h => others _ _ t' w h⟩
      | awaiting =>
        have he := hi.early (by rw [hpc]; simp)
        rw [hpc] at he
        have hdue := hd s.due (by simp [Job.host, hpc])
        obtain ⟨sub, now, due, sent⟩ := s
        dsimp only at he
        subst he
        have hdue : due ≤ now := hdue
        refine ⟨_, by simp only [Job.host, LTS.run, Job.clocked, if_pos hdue]; rfl, fun t' w h => others _ _ t' w h⟩
    | false =>
      have same : ∀ l (s' : Job.State α), l = .receive ∨ l = .ret → Job.move s l = some s' → ∀ t' w, t' ≠ false → (Job.host.need s' t' = .until w → Job.host.need s t' = .until w) := by
        intro l s' hl hm t' w hne
        cases t' with
        | false => exact absurd rfl hne
        | true =>
          obtain ⟨h1, -, h3, -⟩ := Job.move_eq hm
          have : s'.sub.src.pc = s.sub.src.pc := by
            rcases hl with rfl | rfl
            · simp only [Producer.next] at h1
              split at h1
              · cases h1
              · rw [← Option.some.inj h1]
                dsimp only
                split <;> rfl
            · obtain ⟨t', -, ht⟩ := Option.map_eq_some_iff.mp h1
              rw [← ht]
          simp only [Job.host, this, h3]; exact id
      have go : ∀ l, (l = .receive ∨ l = .ret) → ((ofAsync true).next s.sub l).isSome → ∃ s', Job.move s l = some s' := by
        intro l _ h
        simp only [Job.move]
        cases hx : (ofAsync true).next s.sub l with
        | none => rw [hx] at h; cases h
        | some x => exact ⟨_, rfl⟩
      have ret : (Safe.step s.sub.safe .ret).isSome → ∃ s', LTS.run (Job.clocked dur r t0).act s [.ret] = some s' ∧
          ∀ t' w, t' ≠ false → (Job.host.need s' t' = .until w → Job.host.need s t' = .until w) := by
        intro h
        obtain ⟨s', hs⟩ := go .ret (.inr rfl) (by simpa [Producer.next] using h)
        exact ⟨s', by simp [LTS.run, Job.clocked, hs], same _ _ (.inr rfl) hs⟩
      cases hpc : s.sub.safe.pc with
      | halted => exact ⟨s, by simp [Job.host, hpc, LTS.run], fun t' w h => id⟩
      | waiting =>
        cases hin : s.sub.safe.inbox with
        | nil => exact ⟨s, by simp [Job.host, hpc, hin, LTS.run], fun t' w h => id⟩
        | cons n q =>
          obtain ⟨s', hs⟩ := go .receive (.inl rfl) (by
            have : ∃ x, Safe.step s.sub.safe .receive = some x := by simp only [Safe.step, hpc, hin]; cases n <;> exact ⟨_, rfl⟩
            obtain ⟨x, hx⟩ := this
            simp [Producer.next, hx])
          exact ⟨s', by simp [Job.host, hpc, hin, LTS.run, Job.clocked, hs], same _ _ (.inl rfl) hs⟩
      | sending v => simpa [Job.host, hpc] using ret (by simp [Safe.step, hpc])
      | rethrowing v => simpa [Job.host, hpc] using ret (by simp [Safe.step, hpc])
      | disposing v => simpa [Job.host, hpc] using ret (by simp [Safe.step, hpc])
      | terminating v => simpa [Job.host, hpc] using ret (by simp [Safe.step, hpc])
  outside := by intro s l s' _ h; cases h
  pass := by
    intro s d hr hc
    have h1 := hc true
    have h2 := hc false
    simp only [Job.host] at h1 h2
    have hb : Job.busy s = false := by
      simp only [Job.busy, Bool.or_eq_false_iff, decide_eq_false_iff_not]
      constructor
      · intro h; rw [h] at h1; exact h1
      · cases hp : s.sub.safe.pc with
        | halted => rfl
        | waiting =>
          rw [hp] at h2
          cases hin : s.sub.safe.inbox with
          | nil => rfl
          | cons n q => simp [hin] at h2
        | _ => rw [hp] at h2; exact h2.elim
    refine ⟨{ s with now := s.now + d }, ?_, fun t => by cases t <;> rfl⟩
    simp only [Job.clocked, hb, Bool.false_or, Bool.and_eq_true, decide_eq_true_eq]
    rw [if_neg]
    rintro ⟨ha, hlt⟩
    rw [ha] at h1
    have h1 : (Job.clocked dur r t0).now s + d ≤ s.due := h1
    have : (Job.clocked dur r t0).now s = s.now := rfl
    omega

theorem OneShot.host_lawful {t0 : Nat} {xs : List α} : (OneShot.host (α := α)).Lawful (Nested.ofSeqAt t0 xs) where
  clock := Nested.ofSeq_lawful t0 xs
  names := by intro s t _ _; simp [OneShot.host]
  turn := by
    intro s t hr hd
    obtain ⟨⟨⟨f, c⟩, out⟩, now, sent⟩ := s
    cases f with
    | false => exact ⟨_, rfl, fun t' w h => id⟩
    | true => cases c <;> exact ⟨_, rfl, fun t' w h => absurd rfl h⟩
  outside := by intro s l s' _ h; cases h
  pass := by intro s d hr hc; exact ⟨_, rfl, fun t => rfl⟩

namespace Nested
variable {dur : ω → Nat} {res : ω → Except Err α}

theorem jobs_family : Host.Family (Job.host (α := α)) (jobs dur res) where
  lawful _ _ := Job.host_lawful
  start _ _ := rfl
  fresh x t n w h := by cases n <;> cases h

theorem intervals_family (f : ω → Int × Int) : Host.Family Interval.host (intervals f) where
  lawful _ _ := Interval.host_lawful
  start _ _ := rfl
  fresh x t n w h := by cases h

theorem timers_family : Host.Family Interval.host timers where
  lawful _ _ := Interval.host_lawful
  start _ _ := rfl
  fresh x t n w h := by cases h

end Nested
end Aio
