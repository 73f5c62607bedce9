import Verif.Lemmas.Nested
import Verif.Lemmas.Stream
/-!
# `merge_inner` and `switch_latest` on a clock: what arrives, and when
-/

namespace Aio
open Spec.Timed
variable {SO LO S SI LI ω α β : Type}

namespace Nested

@[simp] theorem noDone_append (a b : List (Notif α × Nat)) : noDone (a ++ b) = noDone a ++ noDone b := List.filter_append ..
@[simp] theorem noDone_nil : noDone ([] : List (Notif α × Nat)) = [] := rfl

theorem noDone_stamped (ns : List (Notif α)) (t : Nat) : noDone (ns.map fun n => (n, t)) = (Merge.noDone ns).map fun n => (n, t) := by
  induction ns with
  | nil => rfl
  | cons n ns ih => cases n <;> first | exact congrArg (List.cons _) ih | exact ih

/-- What the worker and its observers pass on. -/
def arrivesAt (h : List (Merge.Label ω α × Nat)) : List (Notif α × Nat) :=
  h.flatMap fun x => (Merge.arrivals [x.1]).map fun n => (n, x.2)

/-- Everything that arrives is posted at once, and apart from completions nothing else. -/
def Forwards (p : Producer S (Merge.Label ω α) α) : Prop := ∀ {s l s' out}, p.step s l = some (s', out) → Merge.noDone out = Merge.arrivals [l]

theorem posts_arrive {p : Producer S (Merge.Label ω α) α} (hp : Forwards p) : ∀ {h : List (Merge.Label ω α × Nat)} {u v : S × List (Notif α × Nat)},
    LTS.run p.soloAt u h = some v → noDone v.2 = noDone u.2 ++ arrivesAt h := by
  intro h
  induction h with
  | nil => intro u v hr; cases hr; simp [arrivesAt]
  | cons x h ih =>
    intro u v hr
    obtain ⟨w, e1, e2⟩ := LTS.run_cons.mp hr
    rw [ih e2]
    simp only [Producer.soloAt, Option.map_eq_some_iff] at e1
    obtain ⟨⟨r, out⟩, e3, rfl⟩ := e1
    dsimp only
    rw [noDone_append, noDone_stamped, hp e3, List.append_assoc]
    rfl

theorem flatMap_insert {ι κ : Type} [DecidableEq ι] (a : List κ) (f : ι → List κ) (k₀ : ι) : ∀ {l : List ι}, k₀ ∈ l → l.Nodup →
    (l.flatMap fun k => (if k = k₀ then a else []) ++ f k).Perm (a ++ l.flatMap f) := by
  intro l
  induction l with
  | nil => intro h; cases h
  | cons k l ih =>
    intro hm hn
    obtain ⟨hn1, hn2⟩ := List.nodup_cons.mp hn
    simp only [List.flatMap_cons]
    by_cases hk : k = k₀
    · subst hk
      have : (l.flatMap fun j => (if j = k then a else []) ++ f j) = l.flatMap f := by
        rw [List.flatMap_def, List.flatMap_def]
        congr 1
        refine List.map_congr_left fun j hj => ?_
        rw [if_neg (by rintro rfl; exact hn1 hj), List.nil_append]
      rw [if_pos rfl, this, List.append_assoc]
    · rw [if_neg hk, List.nil_append]
      have := ih ((List.mem_cons.mp hm).resolve_left fun e => hk e.symm) hn2
      refine (this.append_left (f k)).trans ?_
      rw [← List.append_assoc, ← List.append_assoc]
      exact List.perm_append_comm.append_right _

theorem innersAt_cons (k j : Nat) (n : Notif α) (t : Nat) (h : List (Merge.Label ω α × Nat)) :
    innersAt k ((Merge.Label.inner j n, t) :: h) = (if j = k then [(n, t)] else []) ++ innersAt k h := by
  simp only [innersAt, List.filterMap_cons]
  split <;> simp_all

/-- As they arrive: some interleaving of the source's errors and what the inner observables send. -/
theorem arrives_perm {base m : Nat} : ∀ {h : List (Merge.Label ω α × Nat)}, (∀ j, innersAt j h ≠ [] → ∃ k < m, j = k + base) →
    (arrivesAt h).Perm (errors (outersAt h) ++ (List.range m).flatMap fun k => noDone (innersAt (k + base) h)) := by
  intro h
  induction h with
  | nil => intro _; simp [arrivesAt, outersAt, errors, innersAt]
  | cons x h ih =>
    intro hk
    obtain ⟨l, t⟩ := x
    have hcons : arrivesAt ((l, t) :: h) = ((Merge.arrivals [l]).map fun n => (n, t)) ++ arrivesAt h := rfl
    have ho : outersAt ((l, t) :: h) = outersAt [(l, t)] ++ outersAt h := outersAt_append [(l, t)] h
    have hi : ∀ j, innersAt j ((l, t) :: h) = innersAt j [(l, t)] ++ innersAt j h := fun j => innersAt_append j [(l, t)] h
    have ih := ih fun j hj => hk j (by rw [hi]; simp [hj])
    cases l with
    | inner j n =>
      obtain ⟨k₀, hk₀, rfl⟩ := hk j (by rw [innersAt_cons]; simp)
      have e : ((List.range m).flatMap fun k => noDone (innersAt (k + base) ((Merge.Label.inner (ω := ω) (k₀ + base) n, t) :: h))) =
          ((List.range m).flatMap fun k => (if k = k₀ then noDone [(n, t)] else []) ++ noDone (innersAt (k + base) h)) := by
        rw [List.flatMap_def, List.flatMap_def]
        congr 1
        refine List.map_congr_left fun k hk => ?_
        rw [innersAt_cons, noDone_append]
        by_cases hkk : k = k₀
        · subst hkk; simp
        · rw [if_neg (by omega), if_neg hkk]; rfl
      rw [hcons, e, ho]
      have ha : ((Merge.arrivals [Merge.Label.inner (ω := ω) (k₀ + base) n]).map fun n => (n, t)) = noDone [(n, t)] := by cases n <;> rfl
      rw [ha]
      refine (ih.append_left _).trans ?_
      refine List.Perm.trans ?_ ((flatMap_insert (noDone [(n, t)]) (fun k => noDone (innersAt (k + base) h)) k₀ (List.mem_range.mpr hk₀) List.nodup_range).symm.append_left _)
      rw [← List.append_assoc, ← List.append_assoc]
      exact List.perm_append_comm.append_right _
    | outer n =>
      rw [hcons, ho]
      have e : (fun k => noDone (innersAt (k + base) ((Merge.Label.outer (α := α) n, t) :: h))) = fun k => noDone (innersAt (k + base) h) := by
        funext k; rw [hi]; rfl
      rw [e]
      cases n with
      | error err => exact ih.cons _
      | next v => exact ih
      | completed => exact ih
    | _ =>
      rw [hcons, ho]
      simp only [hi]
      exact ih

/-- Each inner observable's part of it is in order. -/
theorem arrives_sublist (j : Nat) (h : List (Merge.Label ω α × Nat)) : (noDone (innersAt j h)).Sublist (arrivesAt h) := by
  induction h with
  | nil => exact List.Sublist.slnil
  | cons x h ih =>
    obtain ⟨l, t⟩ := x
    have hcons : arrivesAt ((l, t) :: h) = ((Merge.arrivals [l]).map fun n => (n, t)) ++ arrivesAt h := rfl
    have hi : innersAt j ((l, t) :: h) = innersAt j [(l, t)] ++ innersAt j h := innersAt_append j [(l, t)] h
    rw [hcons]
    cases l with
    | inner i n =>
      rw [innersAt_cons, noDone_append]
      have ha : ((Merge.arrivals [Merge.Label.inner (ω := ω) i n]).map fun n => (n, t)) = noDone [(n, t)] := by cases n <;> rfl
      rw [ha]
      refine List.Sublist.append ?_ ih
      split
      · exact List.Sublist.refl _
      · exact List.nil_sublist _
    | _ =>
      rw [hi]
      exact ih.trans (List.sublist_append_right ..)

theorem range_inners {is : List (ω × Nat × SI)} {f : Nat → List β} {g : ω × Nat × SI → List β} {b : Nat} (h : ∀ (k : Nat) i, is[k]? = some i → f (k + b) = g i) :
    ((List.range is.length).flatMap fun k => f (k + b)) = is.flatMap g := by
  induction is generalizing b with
  | nil => rfl
  | cons i is ih =>
    rw [List.length_cons, List.range_succ_eq_map, List.flatMap_cons, List.flatMap_cons, List.flatMap_map]
    have h0 := h 0 i rfl
    rw [h0, ← ih (b := b + 1) fun k j hk => by rw [← h (k + 1) j hk]; congr 1; omega]
    congr 1
    rw [List.flatMap_def, List.flatMap_def]
    congr 1
    refine List.map_congr_left fun k _ => ?_
    congr 1; omega

section
variable {o : Clocked SO LO ω} {fam : ω → Nat → Clocked SI LI α} {p : Producer S (Merge.Label ω α) α} {started : S → List ω} {base : Nat}

theorem Past.keys {ls s h} (hp : Past o fam p started base ls s h) : ∀ j, innersAt j h ≠ [] → ∃ k < s.inners.length, j = k + base := by
  intro j hj
  apply Classical.byContradiction
  intro hn
  exact hj (hp.fresh j fun k hk e => hn ⟨k, hk, e⟩)

theorem Past.flat {ls s h} (hp : Past o fam p started base ls s h) :
    ((List.range s.inners.length).flatMap fun k => noDone (innersAt (k + base) h)) = s.inners.flatMap fun i => noDone ((fam i.1 i.2.1).calls i.2.2) :=
  range_inners (f := fun k => noDone (innersAt k h)) (g := fun i => noDone ((fam i.1 i.2.1).calls i.2.2)) fun k i hk => by
    obtain ⟨xs, t, si⟩ := i
    rw [hp.inner k xs t si hk]

/-- Only the inner observable that was subscribed last makes the calls `loud`. -/
def Latest (loud : Notif α → Prop) (p : Producer S (Merge.Label ω α) α) (started : S → List ω) (base : Nat) (h : List (Merge.Label ω α × Nat)) : Prop :=
  ∀ h₁ k n t h₂ u, loud n → h = h₁ ++ (Merge.Label.inner k n, t) :: h₂ → LTS.run p.soloAt (p.init, []) h₁ = some u →
    k + 1 = (started u.1).length + base ∧ 0 < (started u.1).length

theorem Starts.grows (hs : Starts p started) : ∀ {h : List (Merge.Label ω α × Nat)} {u v}, LTS.run p.soloAt u h = some v → started u.1 <+: started v.1 := by
  intro h
  induction h with
  | nil => intro u v hr; cases hr; exact List.prefix_refl _
  | cons x h ih =>
    intro u v hr
    obtain ⟨w, e1, e2⟩ := LTS.run_cons.mp hr
    simp only [Producer.soloAt, Option.map_eq_some_iff] at e1
    obtain ⟨⟨r, out⟩, e3, rfl⟩ := e1
    exact (hs.step e3).1.trans (ih e2)

/-- Then things arrive one inner observable after the other. -/
theorem arrives_inOrder (hs : Starts p started) {loud : Notif α → Prop} (hloud : ∀ n, n.kind ≠ .onCompleted → loud n) {h : List (Merge.Label ω α × Nat)} {u}
    (hr : LTS.run p.soloAt (p.init, []) h = some u) (hl : Latest loud p started base h) (he : ∀ e t, (.outer (.error e), t) ∉ h) :
    arrivesAt h = ((List.range (started u.1).length).flatMap fun k => noDone (innersAt (k + base) h)) ∧
      ∀ j, noDone (innersAt j h) ≠ [] → j < (started u.1).length + base := by
  revert hl he
  refine LTS.inv_reach (step := p.soloAt) (fun h u => Latest loud p started base h → (∀ e t, (.outer (.error e), t) ∉ h) →
    arrivesAt h = ((List.range (started u.1).length).flatMap fun k => noDone (innersAt (k + base) h)) ∧
      ∀ j, noDone (innersAt j h) ≠ [] → j < (started u.1).length + base) (s0 := (p.init, [])) ?_ ?_ hr
  · intro _ _
    rw [hs.init]
    exact ⟨rfl, fun j hj => absurd rfl hj⟩
  rintro h u ⟨l, t⟩ v hr ih hst hl he
  have hl' : Latest loud p started base h := fun h₁ k n t' h₂ w hn e => hl h₁ k n t' (h₂ ++ [(l, t)]) w hn (by rw [e]; simp)
  obtain ⟨i1, i2⟩ := ih hl' fun e t' hm => he e t' (List.mem_append_left _ hm)
  simp only [Producer.soloAt, Option.map_eq_some_iff] at hst
  obtain ⟨⟨r, out⟩, e3, rfl⟩ := hst
  obtain ⟨g1, g2⟩ := hs.step e3
  dsimp only at g1 g2 ⊢
  have ha : arrivesAt (h ++ [(l, t)]) = arrivesAt h ++ (Merge.arrivals [l]).map fun n => (n, t) := by simp [arrivesAt]
  by_cases hin : ∃ k n, l = .inner k n ∧ n.kind ≠ .onCompleted
  · obtain ⟨k, n, rfl, hn⟩ := hin
    rw [g2 rfl]
    obtain ⟨hk, hk0⟩ := hl h k n t [] u (hloud n hn) rfl hr
    refine ⟨?_, ?_⟩
    · obtain ⟨m, hm⟩ : ∃ m, (started u.1).length = m := ⟨_, rfl⟩
      rw [ha, i1]
      simp only [innersAt_append, noDone_append]
      rw [hm] at hk hk0 ⊢
      have e1 : ∀ k', innersAt k' [(Merge.Label.inner (ω := ω) k n, t)] = if k = k' then [(n, t)] else [] := by
        intro k'; rw [innersAt_cons]; simp [innersAt]
      have ha : ((Merge.arrivals [Merge.Label.inner (ω := ω) k n]).map fun n => (n, t)) = noDone [(n, t)] := by cases n <;> rfl
      rw [ha]
      cases m with
      | zero =>
        exact absurd hk0 (by omega)
      | succ m =>
        rw [List.range_succ, List.flatMap_append, List.flatMap_append, List.flatMap_singleton, List.flatMap_singleton, e1, if_pos (by omega), List.append_assoc]
        congr 1
        rw [List.flatMap_def, List.flatMap_def]
        congr 1
        refine List.map_congr_left fun j hj => ?_
        have := List.mem_range.mp hj
        rw [e1, if_neg (by omega)]; simp
    · intro j hj
      rw [innersAt_append, noDone_append] at hj
      by_cases hj' : noDone (innersAt j h) = []
      · rw [hj', List.nil_append, innersAt_cons] at hj
        by_cases hkj : k = j
        · omega
        · rw [if_neg hkj] at hj; exact absurd rfl hj
      · exact i2 j hj'
  · have hni : ∀ j, noDone (innersAt j (h ++ [(l, t)])) = noDone (innersAt j h) := by
      intro j
      rw [innersAt_append, noDone_append]
      cases l with
      | inner k n =>
        cases n with
        | completed =>
          rw [innersAt_cons]
          split <;> exact List.append_nil _
        | _ => exact absurd ⟨k, _, rfl, by simp [Notif.kind]⟩ hin
      | _ => exact List.append_nil _
    have harr : (Merge.arrivals [l]) = [] := by
      cases l with
      | inner k n =>
        cases n with
        | completed => rfl
        | _ => exact absurd ⟨k, _, rfl, by simp [Notif.kind]⟩ hin
      | outer n =>
        cases n with
        | error e => exact absurd (by simp) (he e t)
        | _ => rfl
      | _ => rfl
    have hlen := g1.length_le
    simp only [hni]
    refine ⟨?_, fun j hj => Nat.lt_of_lt_of_le (i2 j hj) (by omega)⟩
    rw [ha, harr, List.map_nil, List.append_nil, i1]
    obtain ⟨d, hd⟩ := Nat.le.dest hlen
    rw [← hd, List.range_add, List.flatMap_append, List.flatMap_map]
    have : ((List.range d).flatMap fun a => noDone (innersAt ((started u.1).length + a + base) h)) = [] := by
      rw [List.flatMap_eq_nil_iff]
      intro a _
      apply Classical.byContradiction
      intro hne
      have := i2 _ hne
      omega
    rw [this, List.append_nil]

end

end Nested
end Aio
