import Verif.Model.Bind
import Verif.Spec.Bind
import Verif.Lemmas.Autocomplete
import Verif.Lemmas.SearchBox
import Verif.Lemmas.Hot
import Verif.Props.C112_114_Nested
import Verif.Props.C49_54_Combine
/-! `flat_map` on a clock: what is sent up to a time in the past. -/

namespace Aio
open Spec Spec.Timed Spec.Bind
variable {S L SO LO SI LI ω α β ι : Type}

namespace Clocked

/-- A run with fewer steps allowed is a run, on a loop that is not overloaded. -/
theorem only_run {q : Clocked S L α} {rest : S → Bool} {ok : L → Bool} {ls s} (hr : LTS.run (q.only rest ok).step (q.only rest ok).init ls = some s) :
    LTS.run q.step q.init ls = some s ∧ q.Prompt (fun s => rest s = true) ls ∧ ∀ l, Time.act l ∈ ls → ok l = true := by
  refine LTS.inv_hist (step := (q.only rest ok).step) (s0 := (q.only rest ok).init)
    (fun ls s => LTS.run q.step q.init ls = some s ∧ q.Prompt (fun s => rest s = true) ls ∧ ∀ l, Time.act l ∈ ls → ok l = true) ⟨rfl, ?_, by simp⟩ ?_ hr
  · intro a d b s he; simp at he
  · rintro ls s l s' ⟨h1, h2, h3⟩ h
    have key : q.step s l = some s' ∧ (∀ d, l = .pass d → rest s = true) ∧ ∀ m, l = .act m → ok m = true := by
      cases l with
      | pass d =>
        simp only [step, only] at h
        split at h
        next hb => exact ⟨h, fun _ _ => hb, fun _ h => by cases h⟩
        · cases h
      | act m =>
        simp only [step, only] at h
        split at h
        next hb => exact ⟨h, fun _ h => by (cases h), fun _ h => by cases h; exact hb⟩
        · cases h
    obtain ⟨k1, k2, k3⟩ := key
    refine ⟨LTS.run_append.mpr ⟨s, h1, by rw [LTS.run_cons]; exact ⟨s', k1, rfl⟩⟩, ?_, ?_⟩
    · intro a d b u he hu
      rcases List.eq_nil_or_concat b with rfl | ⟨b', x, rfl⟩
      · obtain ⟨rfl, he'⟩ := List.append_inj' he rfl
        cases he'
        rw [h1] at hu
        cases hu
        exact k2 d rfl
      · have he' : ls ++ [l] = (a ++ .pass d :: b') ++ [x] := by simpa using he
        obtain ⟨rfl, -⟩ := List.append_inj' he' rfl
        exact h2 a d b' u rfl hu
    · intro m hm
      rcases List.mem_append.mp hm with hm | hm
      · exact h3 m hm
      · exact k3 m (List.mem_singleton.mp hm).symm

theorem only_lawful {q : Clocked S L α} (hq : q.Lawful) (rest : S → Bool) (ok : L → Bool) : (q.only rest ok).Lawful where
  init := hq.init
  act {ls s l t} hr h := by
    simp only [only] at h
    split at h
    · exact hq.act (only_run hr).1 h
    · cases h
  pass {ls s d t} hr h := by
    simp only [only] at h
    split at h
    · exact hq.pass (only_run hr).1 h
    · cases h

end Clocked

namespace Spec.Bind

theorem upto_upTo (t u : Nat) (cs : List (ι × Nat)) : upto u (upTo t cs) = upto (min u t) cs := by
  simp only [upto, upTo, List.filter_filter]
  congr 1
  refine List.filter_congr fun c _ => ?_
  simp only [← Bool.decide_and]
  congr 1
  simp only [eq_iff_iff]; omega

theorem upTo_inTime {t : Nat} {cs : List (ι × Nat)} (h : InTime cs) : InTime (upTo t cs) := InTime.sublist List.filter_sublist h

/-- The same up to any time up to `t`: the same with the times. -/
theorem upTo_ext {t : Nat} {a b : List (ι × Nat)} (ha : InTime a) (hb : InTime b) (h : ∀ u ≤ t, upto u a = upto u b) : upTo t a = upTo t b :=
  Spec.Timed.ext (upTo_inTime ha) (upTo_inTime hb) fun u => by rw [upto_upTo, upto_upTo]; exact h _ (Nat.min_le_right ..)

theorem upTo_valuesAt (t : Nat) (cs : List (Notif α × Nat)) : upTo t (valuesAt cs) = valuesAt (upTo t cs) := by
  induction cs with
  | nil => rfl
  | cons c cs ih =>
    obtain ⟨n, u⟩ := c
    simp only [upTo, valuesAt] at ih ⊢
    by_cases hu : u ≤ t <;> cases n <;> simp [hu, ih]

theorem upTo_flatMap (t : Nat) (is : List ι) (f : ι → List (α × Nat)) : upTo t (is.flatMap f) = is.flatMap fun i => upTo t (f i) := by
  induction is with
  | nil => rfl
  | cons i is ih => simp only [upTo, List.flatMap_cons, List.filter_append] at ih ⊢; rw [ih]

theorem valuesAt_flatMap (is : List ι) (f : ι → List (Notif α × Nat)) : valuesAt (is.flatMap f) = is.flatMap fun i => valuesAt (f i) := by
  induction is with
  | nil => rfl
  | cons i is ih => simp only [valuesAt, List.flatMap_cons, List.filterMap_append] at ih ⊢; rw [ih]

theorem valuesAt_noDone (cs : List (Notif α × Nat)) : valuesAt (noDone cs) = valuesAt cs := by
  induction cs with
  | nil => rfl
  | cons c cs ih =>
    obtain ⟨n, u⟩ := c
    simp only [noDone, valuesAt] at ih ⊢
    cases n <;> simp [ih]

theorem flatMap_perm {f g : ι → List β} : ∀ {is : List ι}, (∀ i ∈ is, (f i).Perm (g i)) → (is.flatMap f).Perm (is.flatMap g)
  | [], _ => .refl _
  | i :: is, h => by
    rw [List.flatMap_cons, List.flatMap_cons]
    exact (h i (by simp)).append (flatMap_perm fun j hj => h j (by simp [hj]))

/-- What has nothing to say can be left out. -/
theorem flatMap_filter {f : ι → List β} {p : ι → Bool} : ∀ {is : List ι}, (∀ i ∈ is, p i = false → f i = []) → (is.filter p).flatMap f = is.flatMap f
  | [], _ => rfl
  | i :: is, h => by
    rw [List.filter_cons, List.flatMap_cons]
    have := flatMap_filter (is := is) fun j hj => h j (by simp [hj])
    cases hp : p i with
    | true => rw [if_pos rfl, List.flatMap_cons, this]
    | false => rw [if_neg (by simp), h i (by simp) hp, this]; rfl

theorem errors_nil {cs : List (Notif β × Nat)} (h : ∀ e t, (.error e, t) ∉ cs) : (errors cs : List (Notif α × Nat)) = [] := by
  rw [errors, List.filterMap_eq_nil_iff]
  rintro ⟨n, t⟩ hm
  cases n with
  | error e => exact absurd hm (h e t)
  | _ => rfl

end Spec.Bind

namespace Nested
open Merge (Settled)
variable {o : Clocked SO LO ω} {fam : ω → Nat → Clocked SI LI α}

/-- As `C112_subscribed`, at a time in the past. -/
theorem subscribed_past (hpr : Proper o fam) {ls s} (hr : LTS.run (o.merged fam 0).step (o.merged fam 0).init ls = some s)
    (hp : (o.merged fam 0).Prompt (fun s => Settled s.prod) ls) (hc : Calm o ls s) {t : Nat} (ht : t < o.now s.outer) :
    upto t (subs s) = upto t (valuesAt (o.calls s.outer)) := by
  obtain ⟨h1, h2⟩ := subs_after hpr (merge_starts 0) hr
  obtain ⟨h, hpast⟩ := past hpr.source hpr.inner (merge_starts 0) hr
  obtain ⟨lo, hlo, -⟩ := hpast.source
  have ho := (hpr.source.inTime hlo).1
  by_cases h0 : o.now o.init ≤ t
  · obtain ⟨ls₁, s₁, h₁, hsn, hq₁⟩ := snapshot hpr.source hpr.inner (merge_starts 0) hr hp h0 (.inl ht)
    rw [hsn.upto_subs, upto_values ho (hpr.sourceGrammar _ _ hlo), hsn.outer]
    rcases Merge.settled_started (Int.le_refl 0) hsn.solo (hsn.past.lawful hpr) (hsn.past.noFailure hsn.sub hc.noFailure) (hc.notStopped hsn) hq₁ with h | ⟨h, -⟩
    · exact h
    · omega
  · rw [upto_none fun c hc => by have := h2 c hc; omega, upto_none fun c hc => by
      obtain ⟨⟨n, u⟩, h3, h4⟩ := List.mem_filterMap.mp hc
      have := (hpr.source.after hlo).2 _ h3
      cases n with
      | next v => cases h4; dsimp only at this ⊢; omega
      | _ => cases h4]

/-- As `C112_completed`, at a time in the past. -/
theorem completed_past (hpr : Proper o fam) {ls s} (hr : LTS.run (o.merged fam 0).step (o.merged fam 0).init ls = some s)
    (hp : (o.merged fam 0).Prompt (fun s => Settled s.prod) ls) (hc : Calm o ls s) {t : Nat} (ht : t < o.now s.outer) :
    .completed ∈ upto t s.posts ↔ (story (upto t (o.calls s.outer))).fin = .done ∧
      ∀ i ∈ s.inners, i.2.1 ≤ t → (story (upto t ((fam i.1 i.2.1).calls i.2.2))).fin = .done := by
  obtain ⟨h, hpast⟩ := past hpr.source hpr.inner (merge_starts 0) hr
  obtain ⟨lo, hlo, -⟩ := hpast.source
  have hit := (hpr.source.inTime hlo).1
  by_cases h0 : o.now o.init ≤ t
  · obtain ⟨ls₁, s₁, h₁, hsn, hq₁⟩ := snapshot hpr.source hpr.inner (merge_starts 0) hr hp h0 (.inl ht)
    have hw₁ := hsn.past.lawful hpr
    have hlen : s₁.inners.length = s₁.prod.started.length := by rw [← hsn.past.started, List.length_map]
    obtain ⟨new, e1, e2, e3⟩ := hsn.news
    rw [hsn.posts, hsn.outer]
    constructor
    · intro hd
      obtain ⟨g1, g2, g3⟩ := Merge.completed_posted (Int.le_refl 0) hsn.solo hw₁ hd
      refine ⟨g1, fun i hi hle => ?_⟩
      obtain ⟨k, hk⟩ := List.getElem?_of_mem hi
      obtain ⟨xs, u, si⟩ := i
      rw [hsn.inner k xs u si hk]
      refine g3 k ?_
      have hk' : (s.inners.map fun i => (i.1, i.2.1))[k]? = some (xs, u) := by rw [List.getElem?_map, hk]; rfl
      rw [e1] at hk'
      rcases Nat.lt_or_ge k s₁.inners.length with hlt | hge
      · omega
      · rw [List.getElem?_append_right (by simpa using hge)] at hk'
        have := e2 _ (List.mem_of_getElem? hk')
        dsimp only at this hle
        omega
    · rintro ⟨g1, g2⟩
      refine Merge.settled_completed (Int.le_refl 0) hsn.solo hw₁ (hsn.past.noFailure hsn.sub hc.noFailure) (hc.notStopped hsn) hq₁ g1 fun k hk => ?_
      have hlt : k < s.inners.length := by
        have := congrArg List.length e1
        simp at this
        omega
      obtain ⟨⟨xs, u, si⟩, hi⟩ : ∃ i, s.inners[k]? = some i := ⟨_, List.getElem?_eq_getElem hlt⟩
      have hle : u ≤ t := by
        have hk' : (s.inners.map fun i => (i.1, i.2.1))[k]? = some (xs, u) := by rw [List.getElem?_map, hi]; rfl
        rw [e1, List.getElem?_append_left (by simp; omega), List.getElem?_map] at hk'
        obtain ⟨⟨x', u', si'⟩, hm, he⟩ := Option.map_eq_some_iff.mp hk'
        cases he
        exact e3 _ (List.mem_of_getElem? hm)
      have := g2 _ (List.mem_of_getElem? hi) hle
      dsimp only at this
      rw [hsn.inner k xs u si hi] at this
      exact this
  · have h1 : upto t s.posts = [] := upto_none fun c hc => by
      have h : o.now o.init ≤ c.2 := ((nested_lawful hpr.source hpr.inner (merge_starts 0) 0).after hr).2 c hc
      omega
    have h2 : upto t (o.calls s.outer) = [] := upto_none fun c hc => by
      have := (hpr.source.after hlo).2 c hc; omega
    rw [h1, h2]
    simp [story]

end Nested
end Aio
