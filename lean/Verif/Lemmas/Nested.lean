import Verif.Model.Nested
import Verif.Spec.Merge
import Verif.Lemmas.Timed
import Verif.Lemmas.Create
/-!
# `merge_inner` and `switch_latest` on a clock: the schedule of the worker, with times
-/

namespace Aio
open Spec.Timed
variable {SO LO S SI LI ω α : Type}

/-- `Producer.solo` with times. -/
def Producer.soloAt (p : Producer S (Merge.Label ω α) α) (s : S × List (Notif α × Nat)) (l : Merge.Label ω α × Nat) :
    Option (S × List (Notif α × Nat)) :=
  (p.step s.1 l.1).map fun r => (r.1, s.2 ++ r.2.map fun n => (n, l.2))

theorem Producer.soloAt_run {p : Producer S (Merge.Label ω α) α} : ∀ {h : List (Merge.Label ω α × Nat)} {s s' : S × List (Notif α × Nat)},
    LTS.run p.soloAt s h = some s' → LTS.run p.solo (s.1, s.2.map (·.1)) (h.map (·.1)) = some (s'.1, s'.2.map (·.1)) := by
  intro h
  induction h with
  | nil => intro s s' hr; cases hr; rfl
  | cons l h ih =>
    intro s s' hr
    obtain ⟨t, h1, h2⟩ := LTS.run_cons.mp hr
    rw [List.map_cons]
    refine LTS.run_cons.mpr ⟨_, ?_, ih h2⟩
    simp only [soloAt, Option.map_eq_some_iff] at h1
    obtain ⟨⟨r, o⟩, e1, rfl⟩ := h1
    simp [solo, e1, Function.comp_def]

namespace Nested

/-- The calls of the source, and of the inner observable that calls observer number `k`, in a schedule of the worker. -/
def outersAt (h : List (Merge.Label ω α × Nat)) : List (Notif ω × Nat) :=
  h.filterMap fun | (.outer n, t) => some (n, t) | _ => none
def innersAt (k : Nat) (h : List (Merge.Label ω α × Nat)) : List (Notif α × Nat) :=
  h.filterMap fun | (.inner j n, t) => if j = k then some (n, t) else none | _ => none

theorem outersAt_append (a b : List (Merge.Label ω α × Nat)) : outersAt (a ++ b) = outersAt a ++ outersAt b := List.filterMap_append ..
theorem innersAt_append (k : Nat) (a b : List (Merge.Label ω α × Nat)) : innersAt k (a ++ b) = innersAt k a ++ innersAt k b := List.filterMap_append ..

theorem outersAt_map (h : List (Merge.Label ω α × Nat)) : Merge.outerCalls (h.map (·.1)) = (outersAt h).map (·.1) := by
  induction h with
  | nil => rfl
  | cons x h ih =>
    obtain ⟨l, t⟩ := x
    cases l with
    | outer n => exact congrArg (n :: ·) ih
    | _ => exact ih

theorem innersAt_map (k : Nat) (h : List (Merge.Label ω α × Nat)) : Merge.innerCalls k (h.map (·.1)) = (innersAt k h).map (·.1) := by
  induction h with
  | nil => rfl
  | cons x h ih =>
    obtain ⟨l, t⟩ := x
    cases l with
    | inner j n =>
      have e1 : Merge.innerCalls k ((Merge.Label.inner (ω := ω) j n :: h.map (·.1))) = (if j = k then [n] else []) ++ Merge.innerCalls k (h.map (·.1)) := by
        simp only [Merge.innerCalls, List.filterMap_cons]; split <;> simp_all
      have e2 : innersAt k ((Merge.Label.inner (ω := ω) j n, t) :: h) = (if j = k then [(n, t)] else []) ++ innersAt k h := by
        simp only [innersAt, List.filterMap_cons]; split <;> simp_all
      rw [List.map_cons, e1, e2, List.map_append, ih]
      split <;> rfl
    | _ => exact ih

theorem outersAt_outer (cs : List (Notif ω)) (t : Nat) :
    outersAt ((cs.map fun c => Merge.Label.outer (α := α) c).map fun l => (l, t)) = cs.map fun c => (c, t) := by
  induction cs with
  | nil => rfl
  | cons c cs ih => exact congrArg ((c, t) :: ·) ih

theorem outersAt_inner (j : Nat) (cs : List (Notif α)) (t : Nat) :
    outersAt ((cs.map fun c => Merge.Label.inner (ω := ω) j c).map fun l => (l, t)) = [] := by
  induction cs with
  | nil => rfl
  | cons c cs ih => exact ih

theorem innersAt_outer (k : Nat) (cs : List (Notif ω)) (t : Nat) :
    innersAt k ((cs.map fun c => Merge.Label.outer (α := α) c).map fun l => (l, t)) = [] := by
  induction cs with
  | nil => rfl
  | cons c cs ih => exact ih

theorem innersAt_inner (k j : Nat) (cs : List (Notif α)) (t : Nat) :
    innersAt k ((cs.map fun c => Merge.Label.inner (ω := ω) j c).map fun l => (l, t)) = if j = k then cs.map (fun c => (c, t)) else [] := by
  induction cs with
  | nil => simp [innersAt]
  | cons c cs ih =>
    simp only [innersAt, List.map_cons, List.filterMap_cons] at ih ⊢
    by_cases h : j = k
    · subst h; simp only [if_true] at ih ⊢; rw [ih]
    · simp only [h, if_false] at ih ⊢; rw [ih]

theorem outersAt_own {l : Merge.Label ω α} (hl : own l = true) (t : Nat) : outersAt [(l, t)] = [] := by
  cases l <;> first | rfl | cases hl
theorem innersAt_own (k : Nat) {l : Merge.Label ω α} (hl : own l = true) (t : Nat) : innersAt k [(l, t)] = [] := by
  cases l <;> first | rfl | cases hl

theorem work_run {p : Producer S (Merge.Label ω α) α} {t : Nat} : ∀ {ls : List (Merge.Label ω α)} {s s' : Nested SO S SI ω α},
    work p t s ls = some s' → LTS.run p.soloAt (s.prod, s.posts) (ls.map fun l => (l, t)) = some (s'.prod, s'.posts) ∧
      s'.outer = s.outer ∧ s'.inners = s.inners := by
  intro ls
  induction ls with
  | nil => intro s s' h; cases h; exact ⟨rfl, rfl, rfl⟩
  | cons l ls ih =>
    intro s s' h
    rw [work] at h
    split at h
    · cases h
    · next prod out hst =>
      obtain ⟨h1, h2, h3⟩ := ih h
      refine ⟨?_, h2, h3⟩
      rw [List.map_cons]
      exact LTS.run_cons.mpr ⟨_, by simp [Producer.soloAt, hst], h1⟩

theorem passAll_get {fam : ω → Nat → Clocked SI LI α} {d : Nat} : ∀ {is is' : List (ω × Nat × SI)}, passAll fam d is = some is' →
    is'.map (fun i => (i.1, i.2.1)) = is.map (fun i => (i.1, i.2.1)) ∧
    ∀ (k : Nat) (xs t si'), is'[k]? = some (xs, t, si') → ∃ si, is[k]? = some (xs, t, si) ∧ (fam xs t).pass si d = some si' := by
  intro is
  induction is with
  | nil => intro is' h; cases h; exact ⟨rfl, fun k xs t si h => by cases h⟩
  | cons x is ih =>
    intro is' h
    obtain ⟨xs, t, si⟩ := x
    rw [passAll] at h
    split at h
    · next s' rest' h1 h2 =>
      cases h
      obtain ⟨i1, i2⟩ := ih h2
      refine ⟨by simp [i1], fun k ys u sj hk => ?_⟩
      cases k with
      | zero => cases hk; exact ⟨si, rfl, h1⟩
      | succ k => exact i2 k ys u sj hk
    · cases h

/-- The families of inner observables that are considered. -/
def Fam (fam : ω → Nat → Clocked SI LI α) : Prop := ∀ xs t, (fam xs t).Lawful ∧ (fam xs t).now (fam xs t).init = t

/-- What the worker does with the list of those it has subscribed. -/
structure Starts (p : Producer S (Merge.Label ω α) α) (started : S → List ω) : Prop where
  init : started p.init = []
  step : ∀ {s l s' out}, p.step s l = some (s', out) → started s <+: started s' ∧ (own l = false → started s' = started s)

theorem Starts.run {p : Producer S (Merge.Label ω α) α} {started : S → List ω} (hs : Starts p started) : ∀ {h : List (Merge.Label ω α × Nat)} {s s'},
    LTS.run p.soloAt s h = some s' → (∀ x ∈ h, own x.1 = false) → started s'.1 = started s.1 := by
  intro h
  induction h with
  | nil => intro s s' hr _; cases hr; rfl
  | cons l h ih =>
    intro s s' hr hl
    obtain ⟨t, h1, h2⟩ := LTS.run_cons.mp hr
    rw [ih h2 fun x hx => hl x (List.mem_cons_of_mem _ hx)]
    simp only [Producer.soloAt, Option.map_eq_some_iff] at h1
    obtain ⟨⟨r, o⟩, e1, rfl⟩ := h1
    exact (hs.step e1).2 (hl l List.mem_cons_self)

/-- `h`: everything that the worker and its observers have done, with the times. -/
structure Past (o : Clocked SO LO ω) (fam : ω → Nat → Clocked SI LI α) (p : Producer S (Merge.Label ω α) α) (started : S → List ω) (base : Nat)
    (ls : List (Time (Nested.Label LO LI ω α))) (s : Nested SO S SI ω α) (h : List (Merge.Label ω α × Nat)) : Prop where
  run : LTS.run p.soloAt (p.init, []) h = some (s.prod, s.posts)
  outer : outersAt h = o.calls s.outer
  inner : ∀ (k : Nat) xs t si, s.inners[k]? = some (xs, t, si) → innersAt (k + base) h = (fam xs t).calls si
  fresh : ∀ k, (∀ j < s.inners.length, k ≠ j + base) → innersAt k h = []
  source : ∃ lo, LTS.run o.step o.init lo = some s.outer ∧ ∀ l, Time.act l ∈ lo → Time.act (.outer l) ∈ ls
  sources : ∀ (k : Nat) xs t si, s.inners[k]? = some (xs, t, si) →
    (∃ li, LTS.run (fam xs t).step (fam xs t).init li = some si ∧ ∀ l, Time.act l ∈ li → Time.act (.inner k l) ∈ ls) ∧
      (fam xs t).now si = o.now s.outer
  started : s.inners.map (·.1) = started s.prod
  time : InTime h ∧ ∀ x ∈ h, x.2 ≤ o.now s.outer
  times : InTime (s.inners.map fun i => (i.1, i.2.1)) ∧ ∀ i ∈ s.inners, i.2.1 ≤ o.now s.outer
  own : ∀ x ∈ h, own x.1 = true → Time.act (.own x.1) ∈ ls

theorem inTime_now {ι : Type} {h : List (ι × Nat)} {t : Nat} (hi : InTime h) (hb : ∀ x ∈ h, x.2 ≤ t) (ls : List ι) :
    InTime (h ++ ls.map fun l => (l, t)) ∧ ∀ x ∈ h ++ ls.map (fun l => (l, t)), x.2 ≤ t := by
  refine ⟨hi.append ?_ ?_, ?_⟩
  · rw [InTime, List.pairwise_map]; exact List.pairwise_of_forall fun _ _ => Nat.le_refl _
  · intro x hx y hy
    obtain ⟨l, -, rfl⟩ := List.mem_map.mp hy
    exact hb x hx
  · intro x hx
    rcases List.mem_append.mp hx with hx | hx
    · exact hb x hx
    · obtain ⟨l, -, rfl⟩ := List.mem_map.mp hx
      exact Nat.le_refl _

theorem run_pass {c : Clocked SI LI α} {ls s d s'} (h : LTS.run c.step c.init ls = some s) (h1 : c.pass s d = some s') :
    LTS.run c.step c.init (ls ++ [.pass d]) = some s' := LTS.run_append.mpr ⟨s, h, LTS.run_cons.mpr ⟨s', h1, rfl⟩⟩
theorem run_act {c : Clocked SI LI α} {ls s l s'} (h : LTS.run c.step c.init ls = some s) (h1 : c.act s l = some s') :
    LTS.run c.step c.init (ls ++ [.act l]) = some s' := LTS.run_append.mpr ⟨s, h, LTS.run_cons.mpr ⟨s', h1, rfl⟩⟩

theorem mem_snoc {ι : Type} {a : ι} {ls : List ι} (l : ι) (h : a ∈ ls) : a ∈ ls ++ [l] := List.mem_append_left _ h

/-- One step: what is done then carries the time of the step, and so do the subscriptions. -/
theorem past_step {o : Clocked SO LO ω} (ho : o.Lawful) {fam : ω → Nat → Clocked SI LI α} (hf : Fam fam) {p : Producer S (Merge.Label ω α) α}
    {started : S → List ω} (hs : Starts p started) {base : Nat} {ls s h l s'} (hp : Past o fam p started base ls s h)
    (hst : (o.nested fam p started base).step s l = some s') :
    ∃ h2 new, Past o fam p started base (ls ++ [l]) s' (h ++ h2) ∧ (∀ x ∈ h2, x.2 = o.now s.outer) ∧
      s'.inners.map (fun i => (i.1, i.2.1)) = s.inners.map (fun i => (i.1, i.2.1)) ++ new ∧ (∀ i ∈ new, i.2 = o.now s.outer) ∧
      o.now s'.outer = o.now s.outer + (match l with | .pass d => d | _ => 0) ∧ (∀ d, l = .pass d → h2 = [] ∧ new = []) ∧
      (new = [] ∨ ∀ x ∈ h2, Nested.own x.1 = true) := by
  obtain ⟨lo, hlo, hlo'⟩ := hp.source
  match l with
  | .pass d =>
    simp only [Clocked.step, Clocked.nested] at hst
    split at hst
    · next t is h1 h2 =>
      cases hst
      obtain ⟨g1, g2⟩ := ho.pass hlo h1
      obtain ⟨i1, i2⟩ := passAll_get h2
      have hfst : is.map (·.1) = s.inners.map (·.1) := by
        have := congrArg (List.map Prod.fst) i1
        simpa [Function.comp_def] using this
      have hlen : is.length = s.inners.length := by simpa using congrArg List.length hfst
      refine ⟨[], [], ?_, fun _ h => (by cases h), by rw [i1, List.append_nil], fun _ h => (by cases h), g1, fun _ _ => ⟨rfl, rfl⟩, .inl rfl⟩
      rw [List.append_nil]
      refine ⟨hp.run, by rw [hp.outer]; exact g2.symm, ?_, ?_, 
        ⟨lo ++ [.pass d], run_pass hlo h1, fun l hl => mem_snoc _ (hlo' l (by simpa using hl))⟩, ?_,
        by rw [← hp.started]; exact hfst, ⟨hp.time.1, fun x hx => ?_⟩, ⟨?_, ?_⟩, fun x hx hl => List.mem_append_left _ (hp.own x hx hl)⟩
      · intro k xs u si' hk
        obtain ⟨si, e1, e2⟩ := i2 k xs u si' hk
        obtain ⟨li, hli, -⟩ := (hp.sources k xs u si e1).1
        rw [hp.inner k xs u si e1, ((hf xs u).1.pass hli e2).2]
      · intro k hk
        exact hp.fresh k fun j hj => hk j (by dsimp only; omega)
      · intro k xs u si' hk
        obtain ⟨si, e1, e2⟩ := i2 k xs u si' hk
        obtain ⟨⟨li, hli, hli'⟩, hn⟩ := hp.sources k xs u si e1
        refine ⟨⟨li ++ [.pass d], run_pass hli e2, fun l hl => mem_snoc _ (hli' l (by simpa using hl))⟩, ?_⟩
        rw [((hf xs u).1.pass hli e2).1, hn, g1]
      · have := hp.time.2 x hx
        rw [g1]; omega
      · rw [i1]; exact hp.times.1
      · intro i hi
        have hm : (i.1, i.2.1) ∈ s.inners.map fun i => (i.1, i.2.1) := by rw [← i1]; exact List.mem_map.mpr ⟨i, hi, rfl⟩
        obtain ⟨j, hj, he⟩ := List.mem_map.mp hm
        have := hp.times.2 j hj
        have e : j.2.1 = i.2.1 := (Prod.mk.inj he).2
        dsimp only
        rw [g1]; omega
    · cases hst
  | .act (.outer l) =>
    simp only [Clocked.step, Clocked.nested] at hst
    split at hst
    · cases hst
    · next t h1 =>
      obtain ⟨g1, g2⟩ := ho.fresh hlo h1
      obtain ⟨w1, w2, w3⟩ := work_run hst
      dsimp only at w1 w2 w3
      generalize hcs : ((o.calls t).drop (o.calls s.outer).length).map (·.1) = cs at g2
      have hm : (((o.calls t).drop (o.calls s.outer).length).map fun c => Merge.Label.outer (α := α) c.1) = cs.map fun c => Merge.Label.outer c := by
        rw [← hcs, List.map_map]; rfl
      rw [hm] at w1
      have hstamp : ∀ {cs : List (Merge.Label ω α)}, ∀ x ∈ cs.map fun l => (l, o.now s.outer), x.2 = o.now s.outer := by
        intro cs x hx
        obtain ⟨-, -, rfl⟩ := List.mem_map.mp hx
        rfl
      refine ⟨(cs.map fun c => Merge.Label.outer c).map fun l => (l, o.now s.outer), [], ?_, hstamp, by rw [w3, List.append_nil], fun _ h => (by cases h),
        by rw [w2]; exact g1, fun _ h => (by cases h), .inl rfl⟩
      refine ⟨LTS.run_append.mpr ⟨_, hp.run, w1⟩, ?_, ?_, ?_,
        ⟨lo ++ [.act l], by rw [w2]; exact run_act hlo h1, fun l' hl' => (by
          rcases List.mem_append.mp hl' with hl' | hl'
          · exact mem_snoc _ (hlo' l' hl')
          · obtain rfl : l' = l := by simpa using hl'
            simp)⟩, ?_, ?_, ?_, ?_, ?_⟩
      · rw [outersAt_append, outersAt_outer, hp.outer, w2, g2]
      · intro k xs u si hk
        rw [w3] at hk
        rw [innersAt_append, innersAt_outer, List.append_nil, hp.inner k xs u si hk]
      · intro k hk
        rw [w3] at hk
        rw [innersAt_append, innersAt_outer, List.append_nil, hp.fresh k hk]
      · intro k xs u si hk
        rw [w3] at hk
        rw [w2, g1]
        obtain ⟨⟨li, e1, e2⟩, e3⟩ := hp.sources k xs u si hk
        exact ⟨⟨li, e1, fun l hl => mem_snoc _ (e2 l hl)⟩, e3⟩
      · rw [w3, hp.started]
        refine (hs.run w1 ?_).symm
        intro x hx
        obtain ⟨l', hl', rfl⟩ := List.mem_map.mp hx
        obtain ⟨c, -, rfl⟩ := List.mem_map.mp hl'
        rfl
      · rw [w2, g1]; exact inTime_now hp.time.1 hp.time.2 _
      · rw [w3, w2, g1]; exact hp.times
      · intro x hx hl
        rcases List.mem_append.mp hx with hx | hx
        · exact List.mem_append_left _ (hp.own x hx hl)
        · obtain ⟨l', hl', rfl⟩ := List.mem_map.mp hx
          obtain ⟨c, -, rfl⟩ := List.mem_map.mp hl'
          cases hl
  | .act (.inner k l) =>
    simp only [Clocked.step, Clocked.nested] at hst
    split at hst
    · cases hst
    · next xs u si hk =>
      split at hst
      · cases hst
      · next t h1 =>
        obtain ⟨⟨li, hli, hli'⟩, hn⟩ := hp.sources k xs u si hk
        obtain ⟨g1, g2⟩ := (hf xs u).1.fresh hli h1
        obtain ⟨w1, w2, w3⟩ := work_run hst
        dsimp only at w1 w2 w3
        generalize hcs : (((fam xs u).calls t).drop ((fam xs u).calls si).length).map (·.1) = cs at g2
        have hm : ((((fam xs u).calls t).drop ((fam xs u).calls si).length).map fun c => Merge.Label.inner (ω := ω) (k + base) c.1) =
            cs.map fun c => Merge.Label.inner (k + base) c := by
          rw [← hcs, List.map_map]; rfl
        rw [hm] at w1
        have hlt : k < s.inners.length := (List.getElem?_eq_some_iff.mp hk).1
        have hget : s.inners[k] = (xs, u, si) := (List.getElem?_eq_some_iff.mp hk).2
        have hset : ∀ (f : ω × Nat × SI → ω × Nat), f (xs, u, t) = f (xs, u, si) → (s.inners.set k (xs, u, t)).map f = s.inners.map f := by
          intro f he
          rw [List.map_set, he, ← hget, ← List.getElem_map (f := f) (h := by simpa using hlt), List.set_getElem_self]
        have hstamp : ∀ {cs : List (Merge.Label ω α)}, ∀ x ∈ cs.map fun l => (l, o.now s.outer), x.2 = o.now s.outer := by
          intro cs x hx
          obtain ⟨-, -, rfl⟩ := List.mem_map.mp hx
          rfl
        refine ⟨(cs.map fun c => Merge.Label.inner (k + base) c).map fun l => (l, o.now s.outer), [], ?_, hstamp,
          by rw [w3, hset _ rfl, List.append_nil], fun _ h => (by cases h), by rw [w2]; rfl, fun _ h => (by cases h), .inl rfl⟩
        refine ⟨LTS.run_append.mpr ⟨_, hp.run, w1⟩, ?_, ?_, ?_, ⟨lo, by rw [w2]; exact hlo, fun l hl => mem_snoc _ (hlo' l hl)⟩, ?_, ?_, ?_, ?_, ?_⟩
        · rw [outersAt_append, outersAt_inner, List.append_nil, hp.outer, w2]
        · intro k' xs' u' si' hk'
          rw [w3] at hk'
          rw [innersAt_append, innersAt_inner]
          by_cases he : k = k'
          · subst he
            rw [List.getElem?_set_self hlt] at hk'
            cases hk'
            rw [if_pos rfl, hp.inner k xs u si hk, g2, hn]
          · rw [List.getElem?_set_ne he] at hk'
            rw [if_neg (by omega), List.append_nil, hp.inner k' xs' u' si' hk']
        · intro k' hk'
          rw [w3, List.length_set] at hk'
          rw [innersAt_append, innersAt_inner, if_neg (fun he => hk' k hlt he.symm), List.append_nil, hp.fresh k' hk']
        · intro k' xs' u' si' hk'
          rw [w3] at hk'
          rw [w2]
          by_cases he : k = k'
          · subst he
            rw [List.getElem?_set_self hlt] at hk'
            cases hk'
            exact ⟨⟨li ++ [.act l], run_act hli h1, fun l' hl' => by
              rcases List.mem_append.mp hl' with hl' | hl'
              · exact mem_snoc _ (hli' l' hl')
              · obtain rfl : l' = l := by simpa using hl'
                simp⟩, by rw [g1, hn]⟩
          · rw [List.getElem?_set_ne he] at hk'
            obtain ⟨⟨li, e1, e2⟩, e3⟩ := hp.sources k' xs' u' si' hk'
            exact ⟨⟨li, e1, fun l hl => mem_snoc _ (e2 l hl)⟩, e3⟩
        · rw [w3]
          have hst' := hs.run w1 (by
            intro x hx
            obtain ⟨l', hl', rfl⟩ := List.mem_map.mp hx
            obtain ⟨c, -, rfl⟩ := List.mem_map.mp hl'
            rfl)
          dsimp only at hst'
          rw [hst', ← hp.started]
          have := congrArg (List.map Prod.fst) (hset (fun i => (i.1, i.2.1)) rfl)
          simpa only [List.map_map, Function.comp_def] using this
        · rw [w2]; exact inTime_now hp.time.1 hp.time.2 _
        · rw [w3, w2, hset _ rfl]
          refine ⟨hp.times.1, fun i hi => ?_⟩
          rcases List.mem_or_eq_of_mem_set hi with hi | rfl
          · exact hp.times.2 i hi
          · exact hp.times.2 (xs, u, si) (List.mem_of_getElem? hk)
        · intro x hx hl
          rcases List.mem_append.mp hx with hx | hx
          · exact List.mem_append_left _ (hp.own x hx hl)
          · obtain ⟨l', hl', rfl⟩ := List.mem_map.mp hx
            obtain ⟨c, -, rfl⟩ := List.mem_map.mp hl'
            cases hl
  | .act (.own l) =>
    simp only [Clocked.step, Clocked.nested] at hst
    split at hst
    · next hl =>
      obtain ⟨s1, h1, rfl⟩ := Option.map_eq_some_iff.mp hst
      obtain ⟨w1, w2, w3⟩ := work_run h1
      have hstep : started s.prod <+: started s1.prod := by
        obtain ⟨t, e1, e2⟩ := LTS.run_cons.mp w1
        cases e2
        simp only [Producer.soloAt, Option.map_eq_some_iff, Prod.mk.injEq] at e1
        obtain ⟨⟨r, out⟩, e3, rfl, -⟩ := e1
        exact (hs.step e3).1
      obtain ⟨new, hnew⟩ := hstep
      have hlen : s1.inners.length = (started s.prod).length := by rw [w3, ← hp.started, List.length_map]
      have hdrop : (started s1.prod).drop s1.inners.length = new := by rw [← hnew, hlen, List.drop_left]
      simp only [subscribed, hdrop]
      refine ⟨[(l, o.now s.outer)], new.map fun xs => (xs, o.now s.outer), ?_, by simp, ?_, by simp, by rw [w2]; rfl, fun _ h => (by cases h), .inr (by simpa using hl)⟩
      case refine_2 => rw [w3, List.map_append, List.map_map]; rfl
      refine ⟨LTS.run_append.mpr ⟨_, hp.run, w1⟩, ?_, ?_, ?_, ⟨lo, by rw [w2]; exact hlo, fun l hl => mem_snoc _ (hlo' l hl)⟩, ?_, ?_, ?_, ?_, ?_⟩
      · rw [outersAt_append, outersAt_own hl, List.append_nil, hp.outer, w2]
      · intro k xs u si hk
        rw [innersAt_append, innersAt_own _ hl, List.append_nil]
        dsimp only at hk
        rw [w3] at hk
        rcases Nat.lt_or_ge k s.inners.length with hlt | hge
        · rw [List.getElem?_append_left hlt] at hk
          exact hp.inner k xs u si hk
        · rw [List.getElem?_append_right hge, List.getElem?_map] at hk
          obtain ⟨x, -, hx⟩ := Option.map_eq_some_iff.mp hk
          cases hx
          rw [(hf _ _).1.init]
          exact hp.fresh _ fun j hj => by omega
      · intro k hk
        rw [innersAt_append, innersAt_own _ hl, List.append_nil]
        refine hp.fresh k fun j hj => hk j ?_
        rw [List.length_append, w3]; omega
      · intro k xs u si hk
        rw [w2]
        dsimp only at hk
        rw [w3] at hk
        rcases Nat.lt_or_ge k s.inners.length with hlt | hge
        · rw [List.getElem?_append_left hlt] at hk
          obtain ⟨⟨li, e1, e2⟩, e3⟩ := hp.sources k xs u si hk
          exact ⟨⟨li, e1, fun l hl => mem_snoc _ (e2 l hl)⟩, e3⟩
        · rw [List.getElem?_append_right hge, List.getElem?_map] at hk
          obtain ⟨x, -, hx⟩ := Option.map_eq_some_iff.mp hk
          cases hx
          exact ⟨⟨[], rfl, fun _ h => (by cases h)⟩, (hf _ _).2⟩
      · rw [List.map_append, w3, hp.started, ← hnew, List.map_map]
        simp [Function.comp_def]
      · rw [w2]; exact inTime_now hp.time.1 hp.time.2 [l]
      · rw [w3, w2, List.map_append, List.map_map]
        have := inTime_now hp.times.1 (t := o.now s.outer) (by
          intro x hx
          obtain ⟨i, hi, rfl⟩ := List.mem_map.mp hx
          exact hp.times.2 i hi) new
        refine ⟨this.1, fun i hi => ?_⟩
        rcases List.mem_append.mp hi with hi | hi
        · exact hp.times.2 i hi
        · obtain ⟨x, -, rfl⟩ := List.mem_map.mp hi
          exact Nat.le_refl _
      · intro x hx hx'
        rcases List.mem_append.mp hx with hx | hx
        · exact List.mem_append_left _ (hp.own x hx hx')
        · obtain rfl := List.mem_singleton.mp hx
          simp
    · cases hst

theorem past_init {o : Clocked SO LO ω} (ho : o.Lawful) {fam : ω → Nat → Clocked SI LI α} {p : Producer S (Merge.Label ω α) α}
    {started : S → List ω} (hs : Starts p started) (base : Nat) : Past o fam p started base [] (o.nested fam p started base).init [] :=
  ⟨rfl, ho.init.symm, fun k xs t si h => (by cases h), fun _ _ => rfl, ⟨[], rfl, fun _ h => (by cases h)⟩, fun k xs t si h => (by cases h), hs.init.symm,
    ⟨.nil, fun _ h => (by cases h)⟩, ⟨.nil, fun _ h => (by cases h)⟩, fun _ h => (by cases h)⟩

/-- Some more steps. -/
theorem past_more {o : Clocked SO LO ω} (ho : o.Lawful) {fam : ω → Nat → Clocked SI LI α} (hf : Fam fam) {p : Producer S (Merge.Label ω α) α}
    {started : S → List ω} (hs : Starts p started) {base : Nat} : ∀ {ls' ls s h s'}, Past o fam p started base ls s h →
    LTS.run (o.nested fam p started base).step s ls' = some s' →
    ∃ h2 new, Past o fam p started base (ls ++ ls') s' (h ++ h2) ∧ (∀ x ∈ h2, o.now s.outer ≤ x.2) ∧
      s'.inners.map (fun i => (i.1, i.2.1)) = s.inners.map (fun i => (i.1, i.2.1)) ++ new ∧ (∀ i ∈ new, o.now s.outer ≤ i.2) ∧
      o.now s.outer ≤ o.now s'.outer := by
  intro ls'
  induction ls' with
  | nil => intro ls s h s' hp hr; cases hr; exact ⟨[], [], by simpa using hp, by simp, by simp, by simp, Nat.le_refl _⟩
  | cons l ls' ih =>
    intro ls s h s' hp hr
    obtain ⟨s1, h1, h2⟩ := LTS.run_cons.mp hr
    obtain ⟨ha, na, a1, a2, a3, a4, a5, -⟩ := past_step ho hf hs hp h1
    obtain ⟨hb, nb, b1, b2, b3, b4, b5⟩ := ih a1 h2
    refine ⟨ha ++ hb, na ++ nb, by simpa using b1, ?_, by rw [b3, a3, List.append_assoc], ?_, by omega⟩
    · intro x hx
      rcases List.mem_append.mp hx with hx | hx
      · exact Nat.le_of_eq (a2 x hx).symm
      · have := b2 x hx; omega
    · intro x hx
      rcases List.mem_append.mp hx with hx | hx
      · exact Nat.le_of_eq (a4 x hx).symm
      · have := b4 x hx; omega

theorem past {o : Clocked SO LO ω} (ho : o.Lawful) {fam : ω → Nat → Clocked SI LI α} (hf : Fam fam) {p : Producer S (Merge.Label ω α) α}
    {started : S → List ω} (hs : Starts p started) {base : Nat} {ls s}
    (hr : LTS.run (o.nested fam p started base).step (o.nested fam p started base).init ls = some s) :
    ∃ h, Past o fam p started base ls s h := by
  obtain ⟨h, -, hp, -⟩ := past_more ho hf hs (past_init ho hs base) hr
  exact ⟨_, hp⟩

theorem nested_lawful {o : Clocked SO LO ω} (ho : o.Lawful) {fam : ω → Nat → Clocked SI LI α} (hf : Fam fam) {p : Producer S (Merge.Label ω α) α}
    {started : S → List ω} (hs : Starts p started) (base : Nat) : (o.nested fam p started base).Lawful := by
  refine ⟨rfl, ?_, ?_⟩
  · intro ls s l t hr h
    obtain ⟨h0, hp⟩ := past ho hf hs hr
    obtain ⟨h2, new, a1, a2, a3, a4, a5, -⟩ := past_step ho hf hs hp (l := .act l) h
    refine ⟨a5, ?_⟩
    obtain ⟨u, e1, e2⟩ := LTS.run_append.mp a1.run
    rw [hp.run] at e1
    cases e1
    show ∃ ns : List (Notif α), t.posts = s.posts ++ ns.map fun n => (n, o.now s.outer)
    have key : ∀ (h2 : List (Merge.Label ω α × Nat)) (u v : S × List (Notif α × Nat)), LTS.run p.soloAt u h2 = some v →
        (∀ x ∈ h2, x.2 = o.now s.outer) → ∃ ns : List (Notif α), v.2 = u.2 ++ ns.map fun n => (n, o.now s.outer) := by
      intro h2
      induction h2 with
      | nil => intro u v hr _; cases hr; exact ⟨[], by simp⟩
      | cons x h2 ih =>
        intro u v hr hx
        obtain ⟨w, e1, e2⟩ := LTS.run_cons.mp hr
        obtain ⟨ns, hns⟩ := ih w v e2 fun y hy => hx y (List.mem_cons_of_mem _ hy)
        simp only [Producer.soloAt, Option.map_eq_some_iff] at e1
        obtain ⟨⟨r, out⟩, e3, rfl⟩ := e1
        exact ⟨out ++ ns, by rw [hns, hx x List.mem_cons_self]; simp⟩
    exact key h2 _ _ e2 a2
  · intro ls s d t hr h
    obtain ⟨h0, hp⟩ := past ho hf hs hr
    obtain ⟨lo, hlo, -⟩ := hp.source
    simp only [Clocked.nested] at h
    split at h
    · next t' is h1 h2 =>
      cases h
      exact ⟨(ho.pass hlo h1).1, rfl⟩
    · cases h

theorem posts_more {p : Producer S (Merge.Label ω α) α} : ∀ {h : List (Merge.Label ω α × Nat)} {u v : S × List (Notif α × Nat)},
    LTS.run p.soloAt u h = some v → ∃ ps, v.2 = u.2 ++ ps ∧ ∀ c ∈ ps, ∃ x ∈ h, c.2 = x.2 := by
  intro h
  induction h with
  | nil => intro u v hr; cases hr; exact ⟨[], by simp, by simp⟩
  | cons x h ih =>
    intro u v hr
    obtain ⟨w, e1, e2⟩ := LTS.run_cons.mp hr
    obtain ⟨ps, h1, h2⟩ := ih e2
    simp only [Producer.soloAt, Option.map_eq_some_iff] at e1
    obtain ⟨⟨r, out⟩, e3, rfl⟩ := e1
    refine ⟨(out.map fun n => (n, x.2)) ++ ps, by rw [h1, List.append_assoc], fun c hc => ?_⟩
    rcases List.mem_append.mp hc with hc | hc
    · obtain ⟨n, -, rfl⟩ := List.mem_map.mp hc
      exact ⟨x, List.mem_cons_self, rfl⟩
    · obtain ⟨y, hy, he⟩ := h2 c hc
      exact ⟨y, List.mem_cons_of_mem _ hy, he⟩

end Nested

/-- A run of a loop that is not overloaded was at rest at the end of every time in the past. -/
theorem Clocked.Prompt.split {q : Clocked SI LI α} (hq : q.Lawful) {rest : SI → Prop} {ls s} (hr : LTS.run q.step q.init ls = some s)
    (hp : q.Prompt rest ls) {t : Nat} (h0 : q.now q.init ≤ t) (ht : t < q.now s) :
    ∃ ls₁ s₁ d ls₂, LTS.run q.step q.init ls₁ = some s₁ ∧ rest s₁ ∧ q.now s₁ ≤ t ∧ t < q.now s₁ + d ∧ ls = ls₁ ++ .pass d :: ls₂ := by
  revert hp ht
  refine LTS.inv_reach (step := q.step) (fun ls s => q.Prompt rest ls → t < q.now s →
    ∃ ls₁ s₁ d ls₂, LTS.run q.step q.init ls₁ = some s₁ ∧ rest s₁ ∧ q.now s₁ ≤ t ∧ t < q.now s₁ + d ∧ ls = ls₁ ++ .pass d :: ls₂)
    (s0 := q.init) (fun _ h => by omega) ?_ hr
  intro ls s l s' hr ih hst hp ht
  by_cases hlt : t < q.now s
  · obtain ⟨ls₁, s₁, d, ls₂, h1, h2, h3, h4, rfl⟩ := ih hp.init hlt
    exact ⟨ls₁, s₁, d, ls₂ ++ [l], h1, h2, h3, h4, by simp⟩
  · cases l with
    | act l => rw [(hq.act hr hst).1] at ht; exact absurd ht hlt
    | pass d =>
      rw [(hq.pass hr hst).1] at ht
      exact ⟨ls, s, d, [], hr, hp.last hr, by omega, ht, rfl⟩

namespace Nested

/-- `s₁`, `h₁`: how it was at the end of time `t`. -/
structure Snap (o : Clocked SO LO ω) (fam : ω → Nat → Clocked SI LI α) (p : Producer S (Merge.Label ω α) α) (started : S → List ω) (base : Nat)
    (t : Nat) (ls : List (Time (Nested.Label LO LI ω α))) (s : Nested SO S SI ω α)
    (ls₁ : List (Time (Nested.Label LO LI ω α))) (s₁ : Nested SO S SI ω α) (h₁ : List (Merge.Label ω α × Nat)) : Prop where
  past : Past o fam p started base ls₁ s₁ h₁
  sub : ∀ l ∈ ls₁, l ∈ ls
  outer : upto t (o.calls s.outer) = Merge.outerCalls (h₁.map (·.1))
  posts : upto t s.posts = s₁.posts.map (·.1)
  news : ∃ new, s.inners.map (fun i => (i.1, i.2.1)) = s₁.inners.map (fun i => (i.1, i.2.1)) ++ new ∧ (∀ i ∈ new, t < i.2) ∧ ∀ i ∈ s₁.inners, i.2.1 ≤ t
  inner : ∀ (k : Nat) xs u si, s.inners[k]? = some (xs, u, si) → upto t ((fam xs u).calls si) = Merge.innerCalls (k + base) (h₁.map (·.1))
  solo : LTS.run p.solo (p.init, []) (h₁.map (·.1)) = some (s₁.prod, s₁.posts.map (·.1))

theorem upto_mid {ι : Type} {t : Nat} {a b : List (ι × Nat)} (ha : ∀ c ∈ a, c.2 ≤ t) (hb : ∀ c ∈ b, t < c.2) : upto t (a ++ b) = a.map (·.1) := by
  rw [upto_append, upto_all ha, upto_none hb, List.append_nil]

theorem mem_outersAt {h : List (Merge.Label ω α × Nat)} {c} (hc : c ∈ outersAt h) : ∃ x ∈ h, c.2 = x.2 := by
  obtain ⟨⟨l, t⟩, hx, he⟩ := List.mem_filterMap.mp hc
  refine ⟨_, hx, ?_⟩
  cases l <;> cases he
  rfl

theorem mem_innersAt {k : Nat} {h : List (Merge.Label ω α × Nat)} {c} (hc : c ∈ innersAt k h) : ∃ x ∈ h, c.2 = x.2 := by
  obtain ⟨⟨l, t⟩, hx, he⟩ := List.mem_filterMap.mp hc
  refine ⟨_, hx, ?_⟩
  cases l with
  | inner j n =>
    dsimp only at he
    split at he <;> cases he
    rfl
  | _ => cases he

theorem snapshot {o : Clocked SO LO ω} (ho : o.Lawful) {fam : ω → Nat → Clocked SI LI α} (hf : Fam fam) {p : Producer S (Merge.Label ω α) α}
    {started : S → List ω} (hs : Starts p started) {base : Nat} {ls s}
    (hr : LTS.run (o.nested fam p started base).step (o.nested fam p started base).init ls = some s) {rest : Nested SO S SI ω α → Prop}
    (hp : (o.nested fam p started base).Prompt rest ls) {t : Nat} (h0 : o.now o.init ≤ t) (ht : t < o.now s.outer ∨ rest s) :
    ∃ ls₁ s₁ h₁, Snap o fam p started base t ls s ls₁ s₁ h₁ ∧ rest s₁ := by
  have key : ∃ ls₁ s₁ h₁ h₂ new, Past o fam p started base ls₁ s₁ h₁ ∧ rest s₁ ∧ o.now s₁.outer ≤ t ∧ (∀ l ∈ ls₁, l ∈ ls) ∧
      Past o fam p started base ls s (h₁ ++ h₂) ∧ (∀ x ∈ h₂, t < x.2) ∧
      s.inners.map (fun i => (i.1, i.2.1)) = s₁.inners.map (fun i => (i.1, i.2.1)) ++ new ∧ (∀ i ∈ new, t < i.2) := by
    by_cases hlt : t < o.now s.outer
    · obtain ⟨ls₁, s₁, d, ls₂, h1, h2, h3, h4, rfl⟩ := hp.split (nested_lawful ho hf hs base) hr h0 hlt
      obtain ⟨u, e1, e2⟩ := LTS.run_append.mp hr
      rw [h1] at e1
      cases e1
      obtain ⟨s₂, e3, e4⟩ := LTS.run_cons.mp e2
      obtain ⟨h₁, hp₁⟩ := past ho hf hs h1
      obtain ⟨hx, nx, a1, -, a3, -, a5, a6, -⟩ := past_step ho hf hs hp₁ e3
      obtain ⟨rfl, rfl⟩ := a6 d rfl
      obtain ⟨h₂, new, b1, b2, b3, b4, b5⟩ := past_more ho hf hs a1 e4
      rw [List.append_nil] at b1 a3
      have h4' : t < o.now s₂.outer := by
        have h4 : t < o.now s₁.outer + d := h4
        dsimp only at a5
        omega
      refine ⟨ls₁, s₁, h₁, h₂, new, hp₁, h2, h3, fun l hl => List.mem_append_left _ hl, by simpa using b1, fun x hx => ?_, by rw [b3, a3], fun i hi => ?_⟩
      · have := b2 x hx; omega
      · have := b4 i hi; omega
    · obtain ⟨h, hp⟩ := past ho hf hs hr
      exact ⟨ls, s, h, [], [], hp, ht.resolve_left hlt, by omega, fun _ h => h, by simpa using hp, by simp, by simp, by simp⟩
  obtain ⟨ls₁, s₁, h₁, h₂, new, c1, c2, c3, c4, c5, c6, c7, c8⟩ := key
  have hle : ∀ x ∈ h₁, x.2 ≤ t := fun x hx => Nat.le_trans (c1.time.2 x hx) c3
  refine ⟨ls₁, s₁, h₁, ⟨c1, c4, ?_, ?_, ⟨new, c7, c8, fun i hi => Nat.le_trans (c1.times.2 i hi) c3⟩, ?_, ?_⟩, c2⟩
  · rw [← c5.outer, outersAt_append, upto_mid, outersAt_map]
    · intro c hc; obtain ⟨x, hx, e⟩ := mem_outersAt hc; rw [e]; exact hle x hx
    · intro c hc; obtain ⟨x, hx, e⟩ := mem_outersAt hc; rw [e]; exact c6 x hx
  · obtain ⟨u, e1, e2⟩ := LTS.run_append.mp c5.run
    rw [c1.run] at e1
    cases e1
    obtain ⟨ps, g1, g2⟩ := posts_more e2
    obtain ⟨ps', g3, g4⟩ := posts_more c1.run
    dsimp only at g1 g3
    rw [g1, upto_mid]
    · intro c hc
      rw [g3] at hc
      obtain ⟨x, hx, e⟩ := g4 c (by simpa using hc)
      rw [e]; exact hle x hx
    · intro c hc
      obtain ⟨x, hx, e⟩ := g2 c hc
      rw [e]; exact c6 x hx
  · intro k xs u si hk
    rw [← c5.inner k xs u si hk, innersAt_append, upto_mid, innersAt_map]
    · intro c hc; obtain ⟨x, hx, e⟩ := mem_innersAt hc; rw [e]; exact hle x hx
    · intro c hc; obtain ⟨x, hx, e⟩ := mem_innersAt hc; rw [e]; exact c6 x hx
  · exact Producer.soloAt_run c1.run

end Nested
end Aio
