import Verif.Model.Shared
import Verif.Spec.Shared
import Verif.Lemmas.SearchBox
/-!
# One subject, many pipelines: what each of them gets from the subject
-/

namespace Aio
open Spec.Timed Spec.Shared
variable {SO LO S SI LI ω α β ν : Type}

namespace Shared

/-- `heard`: what an inner observable has got from the subject. -/
structure Listens (fam : ω → Nat → Clocked SI LI α) (give : ν → LI) (given : LI → Bool) (heard : SI → List (ν × Nat)) : Prop where
  init : ∀ x t, heard (fam x t).init = []
  give : ∀ x t li s v s', LTS.run (fam x t).step (fam x t).init li = some s → (fam x t).act s (give v) = some s' → heard s' = heard s ++ [(v, (fam x t).now s)]
  other : ∀ x t s l s', given l = false → (fam x t).act s l = some s' → heard s' = heard s
  pass : ∀ x t s d s', (fam x t).pass s d = some s' → heard s' = heard s

/-- Of every inner observable, when it was subscribed and what it has heard. -/
def hears (heard : SI → List (ν × Nat)) (s : Nested SO S SI ω α) : List (Nat × List (ν × Nat)) := s.inners.map fun i => (i.2.1, heard i.2.2)

section
variable {o : Clocked SO LO ω} {fam : ω → Nat → Clocked SI LI α} {p : Producer S (Merge.Label ω α) α} {started : S → List ω} {base : Nat}
  {give : ν → LI} {given : LI → Bool} {heard : SI → List (ν × Nat)}

theorem set_hears {is : List (ω × Nat × SI)} {k : Nat} {x : ω} {t : Nat} {a b : SI} (hk : is[k]? = some (x, t, a)) (h : heard b = heard a) :
    (is.set k (x, t, b)).map (fun i => (i.2.1, heard i.2.2)) = is.map fun i => (i.2.1, heard i.2.2) := by
  obtain ⟨hlt, hget⟩ := List.getElem?_eq_some_iff.mp hk
  rw [List.map_set]
  dsimp only
  rw [h]
  have : ((t, heard a) : Nat × List (ν × Nat)) = (is.map fun i => (i.2.1, heard i.2.2))[k]'(by simpa using hlt) := by
    rw [List.getElem_map, hget]
  rw [this, List.set_getElem_self]

/-- A segment in which nothing comes from the subject. -/
theorem hears_act (hl : Listens fam give given heard) {s s' : Nested SO S SI ω α} {l}
    (hst : (o.nested fam p started base).act s l = some s') (hg : ∀ k m, l = .inner k m → given m = false) :
    ∃ new : List Nat, hears heard s' = hears heard s ++ new.map (fun t => (t, [])) ∧ ∀ t ∈ new, t = o.now s.outer := by
  match l with
  | .outer l =>
    simp only [Clocked.nested] at hst
    split at hst
    · cases hst
    · have := (Nested.work_run hst).2.2
      exact ⟨[], by simp [hears, this], nofun⟩
  | .inner k l =>
    simp only [Clocked.nested] at hst
    split at hst
    · cases hst
    · next xs u si hk =>
      split at hst
      · cases hst
      · next t h1 =>
        have := (Nested.work_run hst).2.2
        dsimp only at this
        refine ⟨[], ?_, nofun⟩
        rw [hears, this, set_hears hk (hl.other xs u si l t (hg k l rfl) h1)]
        simp [hears]
  | .own l =>
    simp only [Clocked.nested] at hst
    split at hst
    · obtain ⟨s1, h1, rfl⟩ := Option.map_eq_some_iff.mp hst
      have := (Nested.work_run h1).2.2
      refine ⟨((started s1.prod).drop s1.inners.length).map fun _ => o.now s.outer, ?_, fun t ht => ?_⟩
      case refine_2 => obtain ⟨-, -, rfl⟩ := List.mem_map.mp ht; rfl
      simp only [hears, Nested.subscribed, List.map_append, List.map_map, this, hl.init, Function.comp_def]
    · cases hst

theorem hears_pass (hl : Listens fam give given heard) {s s' : Nested SO S SI ω α} {d}
    (hst : (o.nested fam p started base).pass s d = some s') : hears heard s' = hears heard s := by
  simp only [Clocked.nested] at hst
  split at hst
  · next t is h1 h2 =>
    cases hst
    obtain ⟨i1, i2⟩ := Nested.passAll_get h2
    have hlen : is.length = s.inners.length := by simpa using congrArg List.length i1
    refine List.ext_getElem? fun k => ?_
    simp only [hears, List.getElem?_map]
    rcases hk : is[k]? with _ | ⟨xs, u, si'⟩
    · rw [List.getElem?_eq_none (by rw [← hlen]; exact List.getElem?_eq_none_iff.mp hk)]
    · obtain ⟨si, e1, e2⟩ := i2 k xs u si' hk
      rw [e1, Option.map_some, Option.map_some, hl.pass _ _ _ _ _ e2]
  · cases hst

/-- The subject calls an inner observable. -/
theorem hears_give (ho : o.Lawful) (hf : Nested.Fam fam) (hs : Nested.Starts p started) (hl : Listens fam give given heard) {ls} {s s' : Nested SO S SI ω α} {k v}
    (hr : LTS.run (o.nested fam p started base).step (o.nested fam p started base).init ls = some s)
    (hst : (o.nested fam p started base).act s (.inner k (give v)) = some s') :
    ∃ t h, (hears heard s)[k]? = some (t, h) ∧ hears heard s' = (hears heard s).set k (t, h ++ [(v, o.now s.outer)]) ∧ o.now s'.outer = o.now s.outer := by
  obtain ⟨h0, hp⟩ := Nested.past ho hf hs hr
  simp only [Clocked.nested] at hst
  split at hst
  · cases hst
  · next xs u si hk =>
    split at hst
    · cases hst
    · next t h1 =>
      obtain ⟨-, w2, w3⟩ := Nested.work_run hst
      dsimp only at w2 w3
      obtain ⟨⟨li, hli, -⟩, hn⟩ := hp.sources k xs u si hk
      refine ⟨u, heard si, by simp [hears, hk], ?_, by rw [w2]⟩
      rw [hears, w3, List.map_set]
      dsimp only
      rw [hl.give xs u li si v t hli h1, hn]
      rfl

theorem broadcast_run {n : Clocked (Nested SO S SI ω α) (Nested.Label LO LI ω α) α} {l : LI} : ∀ {ks : List Nat} {s s' : Nested SO S SI ω α},
    broadcast n l ks s = some s' → LTS.run n.step s (ks.map fun k => .act (.inner k l)) = some s' := by
  intro ks
  induction ks with
  | nil => intro s s' h; exact h
  | cons k ks ih =>
    intro s s' h
    rw [broadcast] at h
    split at h
    · cases h
    · next t h1 => exact LTS.run_cons.mpr ⟨t, h1, ih h⟩

/-- `asend`: all observers get the value. -/
theorem hears_broadcast (ho : o.Lawful) (hf : Nested.Fam fam) (hs : Nested.Starts p started) (hl : Listens fam give given heard) {v} :
    ∀ {ks : List Nat} {ls} {s s' : Nested SO S SI ω α}, LTS.run (o.nested fam p started base).step (o.nested fam p started base).init ls = some s →
    ks.Nodup → broadcast (o.nested fam p started base) (give v) ks s = some s' →
    o.now s'.outer = o.now s.outer ∧ ∀ k, (hears heard s')[k]? =
      if k ∈ ks then ((hears heard s)[k]?).map fun x => (x.1, x.2 ++ [(v, o.now s.outer)]) else (hears heard s)[k]? := by
  intro ks
  induction ks with
  | nil => intro ls s s' _ _ h; cases h; exact ⟨rfl, by simp⟩
  | cons j ks ih =>
    intro ls s s' hr hn h
    obtain ⟨hj, hn⟩ := List.nodup_cons.mp hn
    rw [broadcast] at h
    split at h
    · cases h
    · next s1 h1 =>
      obtain ⟨t, hh, e1, e2, e3⟩ := hears_give ho hf hs hl hr h1
      obtain ⟨f1, f2⟩ := ih (Nested.run_act hr h1) hn h
      refine ⟨by rw [f1, e3], fun k => ?_⟩
      rw [f2, e2, e3]
      obtain ⟨hlt, -⟩ := List.getElem?_eq_some_iff.mp e1
      by_cases hk : j = k
      · subst hk
        rw [if_neg hj, if_pos List.mem_cons_self, List.getElem?_set_self hlt, e1]
        rfl
      · rw [List.getElem?_set_ne hk]
        have : k ∈ j :: ks ↔ k ∈ ks := by
          rw [List.mem_cons]
          exact ⟨fun h => h.resolve_left fun h => hk h.symm, .inr⟩
        simp only [this]

theorem hears_send (ho : o.Lawful) (hf : Nested.Fam fam) (hs : Nested.Starts p started) (hl : Listens fam give given heard) {v}
    {ls} {s s' : Nested SO S SI ω α} (hr : LTS.run (o.nested fam p started base).step (o.nested fam p started base).init ls = some s)
    (h : broadcast (o.nested fam p started base) (give v) (List.range s.inners.length) s = some s') :
    o.now s'.outer = o.now s.outer ∧ hears heard s' = (hears heard s).map fun x => (x.1, x.2 ++ [(v, o.now s.outer)]) := by
  obtain ⟨h1, h2⟩ := hears_broadcast ho hf hs hl hr List.nodup_range h
  refine ⟨h1, List.ext_getElem? fun k => ?_⟩
  rw [h2, List.getElem?_map]
  split
  · rfl
  · next hk =>
    rw [List.getElem?_eq_none (l := hears heard s)]
    · rfl
    · rw [List.mem_range] at hk
      rw [hears, List.length_map]; omega

/-- The schedule of `merge_inner` in a schedule of the whole. -/
structure Net (n : Clocked (Nested SO S SI ω α) (Nested.Label LO LI ω α) α) (give : ν → LI) (given : LI → Bool) (ls : List (Time (Shared.Label LO LI ω α ν)))
    (s : Shared SO S SI ω α ν) (ms : List (Time (Nested.Label LO LI ω α))) : Prop where
  run : LTS.run n.step n.init ms = some s.net
  prompt : ∀ rest : Nested SO S SI ω α → Prop, (n.shared give given).Prompt (fun s => rest s.net) ls → n.Prompt rest ms
  labels : ∀ l, Time.act l ∈ ms → Time.act (.net l) ∈ ls ∨ ∃ k v, l = .inner k (give v)

theorem prompt_append {n : Clocked S LO α} {rest : S → Prop} {ms : List (Time LO)} (h : n.Prompt rest ms) : ∀ {as : List (Time LO)}, (∀ d, .pass d ∉ as) → n.Prompt rest (ms ++ as) := by
  intro as ha ls₁ d ls₂ s he hr
  rcases List.append_eq_append_iff.mp he with ⟨a, h1, h2⟩ | ⟨a, h1, h2⟩
  · exact absurd (by rw [h2]; simp) (ha d)
  · cases a with
    | nil => exact absurd (by rw [List.nil_append] at h2; rw [← h2]; simp) (ha d)
    | cons x a =>
      rw [List.cons_append] at h2
      obtain ⟨rfl, -⟩ := List.cons.inj h2
      exact h ls₁ d a s h1 hr

theorem prompt_pass {n : Clocked S LO α} {rest : S → Prop} {ms : List (Time LO)} {d : Nat} {s : S} (h : n.Prompt rest ms) (hr : LTS.run n.step n.init ms = some s) (hs : rest s) :
    n.Prompt rest (ms ++ [.pass d]) := by
  intro ls₁ d' ls₂ s' he hr'
  rcases List.append_eq_append_iff.mp he with ⟨a, h1, h2⟩ | ⟨a, h1, h2⟩
  · cases a with
    | nil =>
      rw [List.append_nil] at h1
      subst h1
      rw [hr] at hr'
      cases hr'
      exact hs
    | cons x a => simp at h2
  · cases a with
    | nil =>
      rw [List.append_nil] at h1
      subst h1
      rw [hr] at hr'
      cases hr'
      exact hs
    | cons x a =>
      rw [List.cons_append] at h2
      obtain ⟨rfl, -⟩ := List.cons.inj h2
      exact h ls₁ d' a s' h1 hr'

theorem net_run {n : Clocked (Nested SO S SI ω α) (Nested.Label LO LI ω α) α} {ls} {s : Shared SO S SI ω α ν}
    (hr : LTS.run (n.shared give given).step (n.shared give given).init ls = some s) : ∃ ms, Net n give given ls s ms := by
  refine LTS.inv_reach (step := (n.shared give given).step) (fun ls s => ∃ ms, Net n give given ls s ms)
    ⟨[], rfl, fun _ _ ls₁ d ls₂ s he => (by simp at he), nofun⟩ ?_ hr
  rintro ls s l s' hr ⟨ms, g⟩ hst
  have one : ∀ {m t}, n.act s.net m = some t → s'.net = t → l = .act (.net m) → ∃ ms, Net n give given (ls ++ [l]) s' ms := by
    rintro m t h1 h2 rfl
    refine ⟨ms ++ [.act m], by rw [h2]; exact Nested.run_act g.run h1, fun rest hp => prompt_append (g.prompt rest hp.init) (by simp), fun l hl => ?_⟩
    rcases List.mem_append.mp hl with hl | hl
    · exact (g.labels l hl).imp_left (List.mem_append_left _)
    · obtain rfl : l = m := by simpa using hl
      exact .inl (by simp)
  match l with
  | .pass d =>
    simp only [Clocked.step, Clocked.shared, Option.map_eq_some_iff] at hst
    obtain ⟨t, h1, rfl⟩ := hst
    refine ⟨ms ++ [.pass d], Nested.run_pass g.run h1, fun rest hp => prompt_pass (g.prompt rest hp.init) g.run (hp.last hr), fun l hl => ?_⟩
    exact (g.labels l (by simpa using hl)).imp_left (List.mem_append_left _)
  | .act (.send v) =>
    simp only [Clocked.step, Clocked.shared, Option.map_eq_some_iff] at hst
    obtain ⟨t, h1, rfl⟩ := hst
    refine ⟨ms ++ (List.range s.net.inners.length).map fun k => .act (.inner k (give v)), LTS.run_append.mpr ⟨_, g.run, broadcast_run h1⟩,
      fun rest hp => prompt_append (g.prompt rest hp.init) (by simp), fun l hl => ?_⟩
    rcases List.mem_append.mp hl with hl | hl
    · exact (g.labels l hl).imp_left (List.mem_append_left _)
    · obtain ⟨k, -, hk⟩ := List.mem_map.mp hl
      exact .inr ⟨k, v, by cases hk; rfl⟩
  | .act (.net (.inner k l)) =>
    simp only [Clocked.step, Clocked.shared] at hst
    split at hst
    · cases hst
    · obtain ⟨t, h1, rfl⟩ := Option.map_eq_some_iff.mp hst
      exact one h1 rfl rfl
  | .act (.net (.outer l)) =>
    simp only [Clocked.step, Clocked.shared, Option.map_eq_some_iff] at hst
    obtain ⟨t, h1, rfl⟩ := hst
    exact one h1 rfl rfl
  | .act (.net (.own l)) =>
    simp only [Clocked.step, Clocked.shared, Option.map_eq_some_iff] at hst
    obtain ⟨t, h1, rfl⟩ := hst
    exact one h1 rfl rfl

/-- Every inner observable has got what has been sent since it was subscribed. -/
theorem since (ho : o.Lawful) (hf : Nested.Fam fam) (hs : Nested.Starts p started) (hl : Listens fam give given heard) {ls} {s : Shared SO S SI ω α ν}
    (hr : LTS.run ((o.nested fam p started base).shared give given).step ((o.nested fam p started base).shared give given).init ls = some s) :
    ∀ i ∈ s.net.inners, Since i.2.1 s.sent (heard i.2.2) := by
  suffices h : (∀ x ∈ hears heard s.net, x.1 ≤ o.now s.net.outer ∧ Since x.1 s.sent x.2) ∧ ∀ c ∈ s.sent, c.2 ≤ o.now s.net.outer from
    fun i hi => (h.1 _ (List.mem_map.mpr ⟨i, hi, rfl⟩)).2
  refine LTS.inv_reach (step := ((o.nested fam p started base).shared give given).step)
    (fun _ (s : Shared SO S SI ω α ν) => (∀ x ∈ hears heard s.net, x.1 ≤ o.now s.net.outer ∧ Since x.1 s.sent x.2) ∧ ∀ c ∈ s.sent, c.2 ≤ o.now s.net.outer)
    ⟨fun _ h => (by cases h), fun _ h => (by cases h)⟩ ?_ hr
  rintro ls s l s' hr ⟨g1, g2⟩ hst
  obtain ⟨ms, hn⟩ := net_run hr
  have hlaw := Nested.nested_lawful ho hf hs base
  have one : ∀ {m t}, (o.nested fam p started base).act s.net m = some t → s' = ⟨t, s.sent⟩ → (∀ k j, m = .inner k j → given j = false) →
      (∀ x ∈ hears heard s'.net, x.1 ≤ o.now s'.net.outer ∧ Since x.1 s'.sent x.2) ∧ ∀ c ∈ s'.sent, c.2 ≤ o.now s'.net.outer := by
    rintro m t h1 rfl hg
    have e1 : o.now t.outer = o.now s.net.outer := (hlaw.act hn.run h1).1
    obtain ⟨new, e2, e3⟩ := hears_act hl h1 hg
    dsimp only
    rw [e1, e2]
    refine ⟨fun x hx => ?_, g2⟩
    rcases List.mem_append.mp hx with hx | hx
    · exact g1 x hx
    · obtain ⟨u, hu, rfl⟩ := List.mem_map.mp hx
      obtain rfl := e3 u hu
      exact ⟨Nat.le_refl _, s.sent, by simp, g2, nofun⟩
  match l with
  | .pass d =>
    simp only [Clocked.step, Clocked.shared, Option.map_eq_some_iff] at hst
    obtain ⟨t, h1, rfl⟩ := hst
    have e1 : o.now t.outer = o.now s.net.outer + d := (hlaw.pass hn.run h1).1
    dsimp only
    rw [e1, hears_pass hl h1]
    exact ⟨fun x hx => ⟨Nat.le_trans (g1 x hx).1 (Nat.le_add_right _ _), (g1 x hx).2⟩, fun c hc => Nat.le_trans (g2 c hc) (Nat.le_add_right _ _)⟩
  | .act (.send v) =>
    simp only [Clocked.step, Clocked.shared, Option.map_eq_some_iff] at hst
    obtain ⟨t, h1, rfl⟩ := hst
    obtain ⟨e1, e2⟩ := hears_send ho hf hs hl hn.run h1
    dsimp only
    rw [e1, e2]
    refine ⟨fun x hx => ?_, fun c hc => ?_⟩
    · obtain ⟨y, hy, rfl⟩ := List.mem_map.mp hx
      obtain ⟨h3, old, h4, h5, h6⟩ := g1 y hy
      refine ⟨h3, old, by rw [h4, List.append_assoc]; rfl, h5, fun c hc => ?_⟩
      rcases List.mem_append.mp hc with hc | hc
      · exact h6 c hc
      · obtain rfl := List.mem_singleton.mp hc
        exact h3
    · rcases List.mem_append.mp hc with hc | hc
      · exact g2 c hc
      · obtain rfl := List.mem_singleton.mp hc
        exact Nat.le_refl _
  | .act (.net (.inner k l)) =>
    simp only [Clocked.step, Clocked.shared] at hst
    split at hst
    · cases hst
    · next hg =>
      obtain ⟨t, h1, rfl⟩ := Option.map_eq_some_iff.mp hst
      refine one h1 rfl ?_
      intro k' j he
      cases he
      simpa using hg
  | .act (.net (.outer l)) =>
    simp only [Clocked.step, Clocked.shared, Option.map_eq_some_iff] at hst
    obtain ⟨t, h1, rfl⟩ := hst
    exact one h1 rfl nofun
  | .act (.net (.own l)) =>
    simp only [Clocked.step, Clocked.shared, Option.map_eq_some_iff] at hst
    obtain ⟨t, h1, rfl⟩ := hst
    exact one h1 rfl nofun

end
end Shared
end Aio
