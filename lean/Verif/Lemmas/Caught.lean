import Verif.Model.Caught
import Verif.Lemmas.Catch
import Verif.Lemmas.Nested
/-!
# `catch` on a clock: the schedule of the subscription, with times
-/

namespace Aio
open Spec Spec.Timed
variable {C S S₁ S₂ L L₁ L₂ ω α : Type}

namespace Catch

/-- `Catch.next` with times; the last component are the sources that have been subscribed. -/
def nextAt (h : Handler C ω) (honour : Bool) (s : State C ω × List (Notif α × Nat) × List (ω × Nat)) (l : Label α × Nat) :
    Option (State C ω × List (Notif α × Nat) × List (ω × Nat)) :=
  (step h honour s.1 l.1).map fun r =>
    (r.1, s.2.1 ++ r.2.map (fun n => (n, l.2)), s.2.2 ++ (r.1.started.drop s.2.2.length).map fun xs => (xs, l.2))

theorem nextAt_run {h : Handler C ω} {honour : Bool} : ∀ {hs : List (Label α × Nat)} {s s'},
    LTS.run (nextAt h honour) s hs = some s' → LTS.run (next h honour) (s.1, s.2.1.map (·.1)) (hs.map (·.1)) = some (s'.1, s'.2.1.map (·.1)) := by
  intro hs
  induction hs with
  | nil => intro s s' hr; cases hr; rfl
  | cons l hs ih =>
    intro s s' hr
    obtain ⟨t, h1, h2⟩ := LTS.run_cons.mp hr
    rw [List.map_cons]
    refine LTS.run_cons.mpr ⟨_, ?_, ih h2⟩
    simp only [nextAt, Option.map_eq_some_iff] at h1
    obtain ⟨⟨r, o⟩, e1, rfl⟩ := h1
    simp [next, e1, Function.comp_def]

/-- The calls of source number `k`, with their times. -/
def callsAt (k : Nat) (hs : List (Label α × Nat)) : List (Notif α × Nat) :=
  hs.filterMap fun | (.call j n, t) => if j = k then some (n, t) else none | _ => none

theorem callsAt_append (k : Nat) (a b : List (Label α × Nat)) : callsAt k (a ++ b) = callsAt k a ++ callsAt k b := List.filterMap_append ..

theorem callsAt_cons (k : Nat) (l : Label α) (t : Nat) (hs : List (Label α × Nat)) : callsAt k ((l, t) :: hs) =
    (match l with | .call j n => if j = k then [(n, t)] else [] | _ => []) ++ callsAt k hs := by
  cases l <;> try rfl
  rename_i j n
  by_cases h : j = k <;> simp [h, callsAt]

theorem callsAt_map (k : Nat) (hs : List (Label α × Nat)) : calls k (hs.map (·.1)) = (callsAt k hs).map (·.1) := by
  induction hs with
  | nil => rfl
  | cons x hs ih =>
    obtain ⟨l, t⟩ := x
    rw [callsAt_cons, List.map_append, ← ih]
    cases l <;> try rfl
    rename_i j n
    by_cases h : j = k <;> simp [h, calls]

theorem callsAt_call (k j : Nat) (cs : List (Notif α)) (t : Nat) :
    callsAt k ((cs.map fun c => Label.call j c).map fun l => (l, t)) = if j = k then cs.map (fun c => (c, t)) else [] := by
  induction cs with
  | nil => simp [callsAt]
  | cons c cs ih =>
    rw [List.map_cons, List.map_cons, callsAt_cons, ih]
    by_cases h : j = k <;> simp [h]

theorem callsAt_own (k : Nat) {l : Label α} (hl : Caught.own l = true) (t : Nat) : callsAt k [(l, t)] = [] := by
  cases l <;> first | rfl | cases hl

theorem started_step {h : Handler C ω} {honour : Bool} {s s' : State C ω} {l : Label α} {o} (hs : step h honour s l = some (s', o)) :
    ∃ new, s'.started = s.started ++ new := by
  cases l with
  | call k n =>
    simp only [step] at hs
    split at hs
    · cases n with
      | error e =>
        dsimp only at hs
        split at hs
        · cases hs
          simp only [action]
          split
          · exact ⟨_, rfl⟩
          · exact ⟨[], by simp⟩
        · cases hs; exact ⟨[], by simp⟩
      | _ => cases hs; exact ⟨[], by simp⟩
    · cases hs
  | disposed j => simp only [step] at hs; split at hs <;> cases hs; exact ⟨_, rfl⟩
  | subscribed j => simp only [step] at hs; split at hs <;> cases hs; exact ⟨[], by simp⟩
  | fails j => simp only [step] at hs; split at hs <;> cases hs; exact ⟨[], by simp⟩
  | cancel => simp only [step] at hs; split at hs <;> cases hs; exact ⟨[], by simp⟩

end Catch

namespace Caught
open Catch

/-- The sources that have been subscribed, with the times. -/
def births (s : Caught C S ω α) : List (ω × Nat) := s.srcs.map fun i => (i.1, i.2.1)

theorem work_run {fam : ω → Nat → Clocked S L α} {h : Handler C ω} {honour : Bool} : ∀ {ls : List (Catch.Label α)} {s s' : Caught C S ω α},
    work fam h honour s ls = some s' →
    LTS.run (nextAt h honour) (s.ctl, s.sent, births s) (ls.map fun l => (l, s.now)) = some (s'.ctl, s'.sent, births s') ∧
      s'.now = s.now ∧ ∃ new : List ω, s'.srcs = s.srcs ++ new.map fun xs => (xs, s.now, (fam xs s.now).init) := by
  intro ls
  induction ls with
  | nil => intro s s' h; cases h; exact ⟨rfl, rfl, [], by simp⟩
  | cons l ls ih =>
    intro s s' hw
    rw [work] at hw
    split at hw
    · cases hw
    · next ctl out hst =>
      obtain ⟨h1, h2, new, h3⟩ := ih hw
      simp only [subscribed] at h1 h2 h3
      refine ⟨?_, h2, _ ++ new, by rw [h3, List.append_assoc, ← List.map_append]⟩
      rw [List.map_cons]
      refine LTS.run_cons.mpr ⟨_, by simp only [nextAt, hst, Option.map_some]; rfl, ?_⟩
      simpa only [births, List.map_append, List.map_map, Function.comp_def, List.length_map] using h1

/-- `h`: everything that has happened in the subscription, with the times. -/
structure Past (fam : ω → Nat → Clocked S L α) (hd : Handler C ω) (honour : Bool) (c : C) (x : ω) (t0 : Nat)
    (ls : List (Time (Caught.Label L α))) (s : Caught C S ω α) (h : List (Catch.Label α × Nat)) : Prop where
  run : LTS.run (nextAt hd honour) (start c x, [], [(x, t0)]) h = some (s.ctl, s.sent, births s)
  calls : ∀ (k : Nat) xs t si, s.srcs[k]? = some (xs, t, si) → callsAt k h = (fam xs t).calls si
  fresh : ∀ k, s.srcs.length ≤ k → callsAt k h = []
  sources : ∀ (k : Nat) xs t si, s.srcs[k]? = some (xs, t, si) →
    (∃ li, LTS.run (fam xs t).step (fam xs t).init li = some si ∧ ∀ l, Time.act l ∈ li → Time.act (.source k l) ∈ ls) ∧ (fam xs t).now si = s.now
  time : InTime h ∧ ∀ x ∈ h, x.2 ≤ s.now
  own : ∀ x ∈ h, own x.1 = true → Time.act (.own x.1) ∈ ls

/-- A subscription of some new sources, at the time of the step. -/
theorem grown {fam : ω → Nat → Clocked S L α} (hf : Nested.Fam fam) {srcs : List (ω × Nat × S)} {now : Nat} {h : List (Catch.Label α × Nat)} {new : List ω}
    {ls : List (Time (Caught.Label L α))}
    (h1 : ∀ (k : Nat) xs t si, srcs[k]? = some (xs, t, si) → callsAt k h = (fam xs t).calls si) (h2 : ∀ k, srcs.length ≤ k → callsAt k h = [])
    (h3 : ∀ (k : Nat) xs t si, srcs[k]? = some (xs, t, si) →
      (∃ li, LTS.run (fam xs t).step (fam xs t).init li = some si ∧ ∀ l, Time.act l ∈ li → Time.act (.source k l) ∈ ls) ∧ (fam xs t).now si = now) :
    (∀ (k : Nat) xs t si, (srcs ++ new.map fun xs => (xs, now, (fam xs now).init))[k]? = some (xs, t, si) → callsAt k h = (fam xs t).calls si) ∧
    (∀ k, (srcs ++ new.map fun xs => (xs, now, (fam xs now).init)).length ≤ k → callsAt k h = []) ∧
    (∀ (k : Nat) xs t si, (srcs ++ new.map fun xs => (xs, now, (fam xs now).init))[k]? = some (xs, t, si) →
      (∃ li, LTS.run (fam xs t).step (fam xs t).init li = some si ∧ ∀ l, Time.act l ∈ li → Time.act (.source k l) ∈ ls) ∧ (fam xs t).now si = now) := by
  refine ⟨?_, fun k hk => h2 k (by rw [List.length_append] at hk; omega), ?_⟩
  · intro k xs t si hk
    rcases Nat.lt_or_ge k srcs.length with hlt | hge
    · rw [List.getElem?_append_left hlt] at hk
      exact h1 k xs t si hk
    · rw [List.getElem?_append_right hge, List.getElem?_map] at hk
      obtain ⟨y, -, hy⟩ := Option.map_eq_some_iff.mp hk
      cases hy
      rw [h2 k hge, (hf _ _).1.init]
  · intro k xs t si hk
    rcases Nat.lt_or_ge k srcs.length with hlt | hge
    · rw [List.getElem?_append_left hlt] at hk
      exact h3 k xs t si hk
    · rw [List.getElem?_append_right hge, List.getElem?_map] at hk
      obtain ⟨y, -, hy⟩ := Option.map_eq_some_iff.mp hk
      cases hy
      exact ⟨⟨[], rfl, fun _ h => (by cases h)⟩, (hf _ _).2⟩

theorem past_step {fam : ω → Nat → Clocked S L α} (hf : Nested.Fam fam) {hd : Handler C ω} {honour : Bool} {c : C} {x : ω} {t0 : Nat} {ls s h l s'}
    (hp : Past fam hd honour c x t0 ls s h) (hst : (Clocked.caught fam hd honour c x t0).step s l = some s') :
    ∃ h2, Past fam hd honour c x t0 (ls ++ [l]) s' (h ++ h2) ∧ (∀ x ∈ h2, x.2 = s.now) ∧
      s'.now = s.now + (match l with | .pass d => d | _ => 0) ∧ (∀ d, l = .pass d → h2 = [] ∧ s'.ctl = s.ctl ∧ births s' = births s ∧ s'.sent = s.sent) := by
  have hstamp : ∀ {cs : List (Catch.Label α)}, ∀ x ∈ cs.map fun l => (l, s.now), x.2 = s.now := by
    intro cs x hx
    obtain ⟨-, -, rfl⟩ := List.mem_map.mp hx
    rfl
  match l with
  | .pass d =>
    simp only [Clocked.step, Clocked.caught] at hst
    split at hst
    · next srcs h1 =>
      cases hst
      obtain ⟨i1, i2⟩ := Nested.passAll_get h1
      have hb : births { s with now := s.now + d, srcs := srcs } = births s := i1
      refine ⟨[], ?_, by simp, rfl, fun _ _ => ⟨rfl, rfl, hb, rfl⟩⟩
      rw [List.append_nil]
      have hlen : srcs.length = s.srcs.length := by simpa using congrArg List.length i1
      refine ⟨by rw [hb]; exact hp.run, ?_, fun k hk => hp.fresh k (by dsimp only at hk; omega), ?_, ⟨hp.time.1, fun x hx => ?_⟩,
        fun x hx hl => List.mem_append_left _ (hp.own x hx hl)⟩
      · intro k xs t si hk
        obtain ⟨sj, e1, e2⟩ := i2 k xs t si hk
        obtain ⟨li, hli, -⟩ := (hp.sources k xs t sj e1).1
        rw [hp.calls k xs t sj e1, ((hf xs t).1.pass hli e2).2]
      · intro k xs t si hk
        obtain ⟨sj, e1, e2⟩ := i2 k xs t si hk
        obtain ⟨⟨li, hli, hli'⟩, hn⟩ := hp.sources k xs t sj e1
        exact ⟨⟨li ++ [.pass d], Nested.run_pass hli e2, fun l hl => Nested.mem_snoc _ (hli' l (by simpa using hl))⟩, by
          rw [((hf xs t).1.pass hli e2).1, hn]⟩
      · have := hp.time.2 x hx
        dsimp only; omega
    · cases hst
  | .act (.source k l) =>
    simp only [Clocked.step, Clocked.caught] at hst
    split at hst
    · cases hst
    · next xs t si hk =>
      split at hst
      · cases hst
      · next si' h1 =>
        obtain ⟨⟨li, hli, hli'⟩, hn⟩ := hp.sources k xs t si hk
        obtain ⟨g1, g2⟩ := (hf xs t).1.fresh hli h1
        obtain ⟨w1, w2, new, w3⟩ := work_run hst
        dsimp only at w1 w2 w3
        generalize hcs : (((fam xs t).calls si').drop ((fam xs t).calls si).length).map (·.1) = cs at g2
        have hm : ((((fam xs t).calls si').drop ((fam xs t).calls si).length).map fun c => Catch.Label.call k c.1) =
            cs.map fun c => Catch.Label.call k c := by
          rw [← hcs, List.map_map]; rfl
        rw [hm] at w1
        have hlt : k < s.srcs.length := (List.getElem?_eq_some_iff.mp hk).1
        have hget : s.srcs[k] = (xs, t, si) := (List.getElem?_eq_some_iff.mp hk).2
        have hsetf : ∀ (f : ω × Nat × S → ω × Nat), f (xs, t, si') = f (xs, t, si) → (s.srcs.set k (xs, t, si')).map f = s.srcs.map f := by
          intro f he
          rw [List.map_set, he, ← hget, ← List.getElem_map (f := f) (h := by simpa using hlt), List.set_getElem_self]
        have hset : births { s with srcs := s.srcs.set k (xs, t, si') } = births s := hsetf _ rfl
        rw [hset] at w1
        refine ⟨_, ?_, hstamp (cs := cs.map fun c => Catch.Label.call k c), w2, fun _ h => (by cases h)⟩
        have hgrown := grown hf (srcs := s.srcs.set k (xs, t, si')) (now := s.now) (new := new)
          (h := h ++ (cs.map fun c => Catch.Label.call k c).map fun l => (l, s.now)) (ls := ls ++ [.act (.source k l)])
          (by
            intro j ys u sj hj
            rw [callsAt_append, callsAt_call]
            by_cases he : k = j
            · subst he
              rw [List.getElem?_set_self hlt] at hj
              cases hj
              rw [if_pos rfl, hp.calls k xs t si hk, g2, hn]
            · rw [List.getElem?_set_ne he] at hj
              rw [if_neg he, List.append_nil, hp.calls j ys u sj hj])
          (by
            intro j hj
            rw [List.length_set] at hj
            rw [callsAt_append, callsAt_call, if_neg (by omega), List.append_nil, hp.fresh j hj])
          (by
            intro j ys u sj hj
            by_cases he : k = j
            · subst he
              rw [List.getElem?_set_self hlt] at hj
              cases hj
              exact ⟨⟨li ++ [.act l], Nested.run_act hli h1, fun l' hl' => by
                rcases List.mem_append.mp hl' with hl' | hl'
                · exact Nested.mem_snoc _ (hli' l' hl')
                · obtain rfl : l' = l := by simpa using hl'
                  simp⟩, by rw [g1, hn]⟩
            · rw [List.getElem?_set_ne he] at hj
              obtain ⟨⟨li, e1, e2⟩, e3⟩ := hp.sources j ys u sj hj
              exact ⟨⟨li, e1, fun l hl => Nested.mem_snoc _ (e2 l hl)⟩, e3⟩)
        rw [← w3] at hgrown
        refine ⟨LTS.run_append.mpr ⟨_, hp.run, w1⟩, hgrown.1, hgrown.2.1, by rw [w2]; exact hgrown.2.2, ?_, ?_⟩
        · rw [w2]; exact Nested.inTime_now hp.time.1 hp.time.2 _
        · intro x hx hl
          rcases List.mem_append.mp hx with hx | hx
          · exact List.mem_append_left _ (hp.own x hx hl)
          · obtain ⟨l', hl', rfl⟩ := List.mem_map.mp hx
            obtain ⟨c, -, rfl⟩ := List.mem_map.mp hl'
            cases hl
  | .act (.own l) =>
    simp only [Clocked.step, Clocked.caught] at hst
    split at hst
    · next hl =>
      obtain ⟨w1, w2, new, w3⟩ := work_run hst
      refine ⟨_, ?_, hstamp (cs := [l]), w2, fun _ h => (by cases h)⟩
      have hgrown := grown hf (srcs := s.srcs) (now := s.now) (new := new) (h := h ++ [l].map fun l => (l, s.now)) (ls := ls ++ [.act (.own l)])
        (fun j ys u sj hj => by
          rw [callsAt_append, List.map_singleton, callsAt_own _ hl, List.append_nil, hp.calls j ys u sj hj])
        (fun j hj => by
          rw [callsAt_append, List.map_singleton, callsAt_own _ hl, List.append_nil, hp.fresh j hj])
        (fun j ys u sj hj => by
          obtain ⟨⟨li, e1, e2⟩, e3⟩ := hp.sources j ys u sj hj
          exact ⟨⟨li, e1, fun l hl => Nested.mem_snoc _ (e2 l hl)⟩, e3⟩)
      rw [← w3] at hgrown
      refine ⟨LTS.run_append.mpr ⟨_, hp.run, w1⟩, hgrown.1, hgrown.2.1, by rw [w2]; exact hgrown.2.2, ?_, ?_⟩
      · rw [w2]; exact Nested.inTime_now hp.time.1 hp.time.2 _
      · intro x hx hx'
        rcases List.mem_append.mp hx with hx | hx
        · exact List.mem_append_left _ (hp.own x hx hx')
        · obtain rfl := List.mem_singleton.mp hx
          simp
    · cases hst

theorem past_init {fam : ω → Nat → Clocked S L α} (hf : Nested.Fam fam) (hd : Handler C ω) (honour : Bool) (c : C) (x : ω) (t0 : Nat) :
    Past fam hd honour c x t0 [] (Clocked.caught fam hd honour c x t0).init [] := by
  refine ⟨rfl, ?_, fun _ _ => rfl, ?_, ⟨.nil, by simp⟩, by simp⟩
  · intro k xs t si hk
    match k with
    | 0 => cases hk; exact (hf x t0).1.init.symm
    | k + 1 => cases hk
  · intro k xs t si hk
    match k with
    | 0 => cases hk; exact ⟨⟨[], rfl, by simp⟩, (hf x t0).2⟩
    | k + 1 => cases hk

end Caught
end Aio
