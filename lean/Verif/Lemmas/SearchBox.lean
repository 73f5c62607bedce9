import Verif.Model.SearchBox
import Verif.Spec.SearchBox
import Verif.Props.C118_Deadline
import Verif.Props.C112_114_Nested
import Verif.Props.C107_108_Clocked
/-!
# Lemmas for the search box
-/

namespace Aio
open Spec Spec.Timed Spec.SearchBox
variable {S L SO LO SI LI T M P W α β ω γ : Type}

namespace Spec.SearchBox

theorem quiet_eq {d now : Nat} : ∀ {W : List (α × Nat)} {b : Nat} {ps : List (Nat × (α × Nat))}, ps.Pairwise (fun x y => x.1 < y.1) →
    (∀ p ∈ ps, ∃ (i : Nat) (v : α) (t : Nat), p.1 = b + i ∧ W[i]? = some (v, t) ∧ p.2 = (v, t + d) ∧ t + d < now ∧ ∀ (j : Nat) c, W[j]? = some c → i < j → t + d < c.2) →
    (∀ (i : Nat) v t, W[i]? = some (v, t) → t + d < now → (∀ (j : Nat) c, W[j]? = some c → i < j → t + d < c.2) → ∃ x, (b + i, x) ∈ ps) →
    ps.map (·.2) = quiet d now W := by
  intro W
  induction W with
  | nil =>
    intro b ps _ h2 _
    cases ps with
    | nil => rfl
    | cons p ps => obtain ⟨i, v, t, -, h, -⟩ := h2 p List.mem_cons_self; simp at h
  | cons c W ih =>
    intro b ps h1 h2 h3
    obtain ⟨v, t⟩ := c
    rw [quiet]
    have hall : (∀ (j : Nat) c, ((v, t) :: W)[j]? = some c → 0 < j → t + d < c.2) ↔ ∀ c ∈ W, t + d < c.2 := by
      constructor
      · intro h c hc
        obtain ⟨j, hj⟩ := List.mem_iff_getElem?.mp hc
        exact h (j + 1) c (by simpa using hj) (by omega)
      · intro h j c hj hpos
        obtain ⟨j, rfl⟩ : ∃ k, j = k + 1 := ⟨j - 1, by omega⟩
        exact h c (List.mem_of_getElem? (by simpa using hj))
    by_cases hc : t + d < now ∧ ∀ c ∈ W, t + d < c.2
    · rw [if_pos hc]
      obtain ⟨x, hx⟩ := h3 0 v t rfl hc.1 (hall.mpr hc.2)
      cases ps with
      | nil => cases hx
      | cons p ps =>
        obtain ⟨i, v', t', e1, e2, e3, e4, e5⟩ := h2 p List.mem_cons_self
        rw [List.pairwise_cons] at h1
        have hi : i = 0 := by
          rcases List.mem_cons.mp hx with h | h
          · rw [← h] at e1; dsimp only at e1; omega
          · have := h1.1 _ h; dsimp only at this; omega
        subst hi
        cases e2
        rw [List.map_cons, e3]
        refine congrArg _ (ih (b := b + 1) h1.2 ?_ ?_)
        · intro q hq
          obtain ⟨i, v', t', f1, f2, f3, f4, f5⟩ := h2 q (List.mem_cons_of_mem _ hq)
          have := h1.1 q hq
          obtain ⟨i, rfl⟩ : ∃ k, i = k + 1 := ⟨i - 1, by omega⟩
          exact ⟨i, v', t', by omega, by simpa using f2, f3, f4, fun j c hj hlt => f5 (j + 1) c (by simpa using hj) (by omega)⟩
        · intro i v' t' f1 f2 f3
          obtain ⟨x, hx⟩ := h3 (i + 1) v' t' (by simpa using f1) f2 (fun j c hj hlt => by
            obtain ⟨j, rfl⟩ : ∃ k, j = k + 1 := ⟨j - 1, by omega⟩
            exact f3 j c (by simpa using hj) (by omega))
          rcases List.mem_cons.mp hx with h | h
          · rw [← h] at e1; dsimp only at e1; omega
          · exact ⟨x, by rwa [Nat.add_right_comm, Nat.add_assoc]⟩
    · rw [if_neg hc]
      refine ih (b := b + 1) h1 ?_ ?_
      · intro q hq
        obtain ⟨i, v', t', f1, f2, f3, f4, f5⟩ := h2 q hq
        cases i with
        | zero =>
          cases f2
          exact absurd ⟨f4, hall.mp f5⟩ hc
        | succ i => exact ⟨i, v', t', by omega, by simpa using f2, f3, f4, fun j c hj hlt => f5 (j + 1) c (by simpa using hj) (by omega)⟩
      · intro i v' t' f1 f2 f3
        obtain ⟨x, hx⟩ := h3 (i + 1) v' t' (by simpa using f1) f2 (fun j c hj hlt => by
          obtain ⟨j, rfl⟩ : ∃ k, j = k + 1 := ⟨j - 1, by omega⟩
          exact f3 j c (by simpa using hj) (by omega))
        exact ⟨x, by rwa [Nat.add_right_comm, Nat.add_assoc]⟩

end Spec.SearchBox

/-- Only values. -/
def OnlyValues (cs : List (Notif α × Nat)) : Prop := ∀ c ∈ cs, c.1.isTerminal = false

theorem OnlyValues.eq {cs : List (Notif α × Nat)} (h : OnlyValues cs) : cs = (valuesAt cs).map fun c => (.next c.1, c.2) := by
  induction cs with
  | nil => rfl
  | cons c cs ih =>
    have h1 := h c List.mem_cons_self
    obtain ⟨n, t⟩ := c
    cases n with
    | next v => exact congrArg ((.next v, t) :: ·) (ih fun c hc => h c (List.mem_cons_of_mem _ hc))
    | error e => cases h1
    | completed => cases h1

theorem valuesAt_map (cs : List (α × Nat)) : valuesAt (cs.map fun c => ((.next c.1, c.2) : Notif α × Nat)) = cs := by
  induction cs with
  | nil => rfl
  | cons c cs ih => exact congrArg (c :: ·) ih

theorem timedValues_seen {cs : List (Notif α × Nat)} (h : OnlyValues cs) : Spec.Debounce.timedValues (Spec.Debounce.seen cs) = valuesAt cs := by
  induction cs with
  | nil => rfl
  | cons c cs ih =>
    have h1 := h c List.mem_cons_self
    obtain ⟨n, t⟩ := c
    cases n with
    | next v => exact congrArg ((v, t) :: ·) (ih fun c hc => h c (List.mem_cons_of_mem _ hc))
    | error e => cases h1
    | completed => cases h1

namespace Debounce
open Spec.Debounce (timedValues seen)
open Nested (mem_values)

theorem mem_arrivals {n : Notif α} : ∀ {ms : List (Label α)} {t : Nat}, .event n ∈ ms → ∃ u, (n, u) ∈ Spec.Debounce.arrivalsFrom t ms := by
  intro ms
  induction ms with
  | nil => intro t h; cases h
  | cons m ms ih =>
    intro t h
    rcases List.mem_cons.mp h with rfl | h'
    · exact ⟨t, List.mem_cons_self⟩
    · clear h
      cases m with
      | event k => obtain ⟨u, hu⟩ := ih h'; exact ⟨u, List.mem_cons_of_mem _ hu⟩
      | tick d => exact ih h'
      | start k => exact ih h'
      | wake k => exact ih h'
      | receive => exact ih h'
      | dispose => exact ih h'

/-- Nothing but values anywhere. -/
structure Vals (s : State α) : Prop where
  inbox : ∀ m ∈ s.inbox, m.1.isTerminal = false
  timers : ∀ m ∈ s.timers, m.1.isTerminal = false
  posted : OnlyValues s.posted

theorem vals_step {d : Nat} {s s' : State α} {l : Label α} (hv : Vals s) (h : step d s l = some s') (hl : l ≠ .dispose ∧ ∀ n, l = .event n → n.isTerminal = false) :
    Vals s' := by
  cases l <;> simp only [step] at h
  case event n =>
    have := hl.2 n rfl
    cases h
    refine ⟨?_, ?_, hv.posted⟩
    · intro m hm
      rcases List.mem_append.mp hm with hm | hm
      · exact hv.inbox m hm
      · simp at hm; rw [hm]; exact this
    · intro m hm
      rcases List.mem_append.mp hm with hm | hm
      · exact hv.timers m hm
      · simp at hm; rw [hm]; exact this
  case start k =>
    split at h <;> cases h
    rename_i n he
    refine ⟨hv.inbox, ?_, hv.posted⟩
    intro m hm
    rcases List.mem_or_eq_of_mem_set hm with hm | rfl
    · exact hv.timers m hm
    · exact hv.timers (n, .fresh) (List.mem_of_getElem? he)
  case wake k =>
    split at h
    · rename_i n w he
      split at h <;> cases h
      refine ⟨?_, ?_, hv.posted⟩
      · intro m hm
        rcases List.mem_append.mp hm with hm | hm
        · exact hv.inbox m hm
        · simp at hm; rw [hm]; exact hv.timers _ (List.mem_of_getElem? he)
      · intro m hm
        rcases List.mem_or_eq_of_mem_set hm with hm | rfl
        · exact hv.timers m hm
        · exact hv.timers (n, .sleeping w) (List.mem_of_getElem? he)
    · cases h
  case receive =>
    split at h
    · rename_i m rest he
      cases h
      have hm := hv.inbox m (by rw [he]; exact List.mem_cons_self)
      refine ⟨fun x hx => hv.inbox x (by rw [he]; exact List.mem_cons_of_mem _ hx), hv.timers, ?_⟩
      intro c hc
      rcases List.mem_append.mp hc with hc | hc
      · exact hv.posted c hc
      · obtain ⟨n, i⟩ := m
        cases n with
        | next v =>
          simp only [handle] at hc
          split at hc
          · simp at hc; rw [hc]; rfl
          · split at hc <;> simp at hc
        | error e => cases hm
        | completed => cases hm
    · cases h
  case dispose => exact absurd rfl hl.1
  case tick k => cases h; exact ⟨hv.inbox, hv.timers, hv.posted⟩

/-- If the source sends only values and the subscription is not disposed of, only values are posted. -/
theorem onlyValues {q : Clocked S L α} (hq : q.Lawful) {prompt : Bool} {d : Nat} {ls s}
    (hr : LTS.run (q.through (stage prompt d)).step (q.through (stage prompt d)).init ls = some s) (hd : Time.act (.inr .dispose) ∉ ls)
    (hv : OnlyValues (q.calls s.1)) : OnlyValues s.2.posted := by
  obtain ⟨-, ms, h1, h2, h3, h4⟩ := Clocked.split hq (stage_reads prompt d) hr
  have hok : ∀ m ∈ ms, m ≠ .dispose ∧ ∀ n, m = .event n → n.isTerminal = false := by
    intro m hm
    refine ⟨?_, ?_⟩
    · rintro rfl
      rcases h4 _ hm with ⟨-, h⟩ | ⟨n, h⟩ | ⟨d, h⟩
      · exact hd h
      · cases h
      · cases h
    · rintro n rfl
      obtain ⟨u, hu⟩ := mem_arrivals (t := q.now q.init) hm
      exact hv (n, u) (h2 ▸ hu)
  refine (LTS.inv_of (step := (stage prompt d).step) (fun l : Label α => l ≠ .dispose ∧ ∀ n, l = .event n → n.isTerminal = false) Vals
    (s0 := (stage prompt d).init (q.now q.init)) ⟨nofun, nofun, nofun⟩ ?_ hok h1).posted
  intro s l s' hl hv h
  cases prompt with
  | false => exact vals_step hv h hl
  | true =>
    simp only [stage, if_true, promptStep] at h
    split at h
    · exact vals_step hv h hl
    · cases h

/-- `debounce` behind a source that sends only values: what it lets through. -/
theorem debounce_quiet {q : Clocked S L α} (hq : q.Lawful) {d : Nat} {ls s}
    (hr : LTS.run (q.through (stage true d)).step (q.through (stage true d)).init ls = some s) (hd : Time.act (.inr .dispose) ∉ ls)
    (hv : OnlyValues (q.calls s.1)) (ha : Apart d (q.now s.1) (valuesAt (q.calls s.1))) :
    valuesAt s.2.posted = quiet d (q.now s.1) (valuesAt (q.calls s.1)) := by
  have ho := onlyValues hq hr hd hv
  have hst := (Clocked.through_lawful hq (stage_lawful true d)).stamps hr
  obtain ⟨ks, ⟨h1, h2, h3⟩, h4, h5⟩ := C108_exact hq d hr
  have h5 := h5 hd
  rw [show timedValues (seen ((q.through (stage true d)).calls s)) = valuesAt s.2.posted from timedValues_seen ho] at *
  have hcalls := hv.eq
  generalize valuesAt (q.calls s.1) = W at *
  rw [hcalls] at h3 h4 h5
  have hget : ∀ (j : Nat) c, W[j]? = some c → (W.map fun c => ((.next c.1, c.2) : Notif α × Nat))[j]? = some (.next c.1, c.2) := by
    intro j c h; rw [List.getElem?_map, h]; rfl
  have hget' : ∀ (j : Nat) n t, (W.map fun c => ((.next c.1, c.2) : Notif α × Nat))[j]? = some (n, t) → ∃ v, n = .next v ∧ W[j]? = some (v, t) := by
    intro j n t h
    rw [List.getElem?_map] at h
    obtain ⟨⟨v, u⟩, e1, e2⟩ := Option.map_eq_some_iff.mp h
    cases e2
    exact ⟨v, rfl, e1⟩
  have key := quiet_eq (d := d) (now := q.now s.1) (W := W) (b := 0) (ps := ks.zip (valuesAt s.2.posted)) ?_ ?_ ?_
  · rw [← key, List.map_snd_zip (by omega)]
  · have : ((ks.zip (valuesAt s.2.posted)).map (·.1)).Pairwise (· < ·) := by
      rw [List.map_fst_zip (by omega)]; exact h1
    exact List.pairwise_map.mp this
  · rintro ⟨k, v, t⟩ hp
    obtain ⟨p, hp⟩ := List.mem_iff_getElem?.mp hp
    obtain ⟨e1, e2⟩ := List.getElem?_zip_eq_some.mp hp
    obtain ⟨tk, f1, f2, f3⟩ := h3 p k v t e1 e2
    have f4 := h4 p k v t tk e1 e2 f1
    obtain ⟨v', e, g1⟩ := hget' _ _ _ f1
    cases e
    subst f4
    have hb : tk + d ≤ q.now s.1 := hst (.next v, tk + d) (mem_values.mp (List.mem_of_getElem? e2))
    refine ⟨k, v, tk, by simp, g1, rfl, ?_, ?_⟩
    · have := ha.2 _ (List.mem_of_getElem? g1)
      dsimp only at this
      omega
    · intro j c hj hlt
      have := f3 j _ _ (hget j c hj) (.inl hlt)
      have h6 : tk + d ≠ c.2 := by
        have hk : k < W.length := (List.getElem?_eq_some_iff.mp g1).1
        have hj' : j < W.length := (List.getElem?_eq_some_iff.mp hj).1
        have := List.pairwise_iff_getElem.mp ha.1 k j hk hj' hlt
        rw [(List.getElem?_eq_some_iff.mp g1).2, (List.getElem?_eq_some_iff.mp hj).2] at this
        exact this
      omega
  · intro i v t g1 g2 g3
    obtain ⟨p, e1, e2⟩ := h5 i v t (hget i _ g1) g2 (fun j n tj hj hor => by
      obtain ⟨w, rfl, hw⟩ := hget' _ _ _ hj
      rcases hor with hlt | hterm
      · exact g3 j _ hw hlt
      · cases hterm)
    refine ⟨(v, t + d), ?_⟩
    rw [Nat.zero_add]
    exact List.mem_of_getElem? (List.getElem?_zip_eq_some.mpr ⟨e1, e2⟩)

end Debounce

/-! ## operators without timers -/

theorem story_nexts (vs : List α) : story (vs.map .next) = ⟨vs, .running⟩ := by
  induction vs with
  | nil => rfl
  | cons v vs ih => simp [story, ih]

theorem onlyValues_map (cs : List (α × Nat)) : OnlyValues (cs.map fun c => ((.next c.1, c.2) : Notif α × Nat)) := by
  intro c hc
  obtain ⟨x, -, rfl⟩ := List.mem_map.mp hc
  rfl

/-- What an operator that keeps or drops values, or replaces them, sends when. -/
theorem Clocked.operate_values {q : Clocked S L α} (hq : q.Lawful) {p : Proc P W (Notif α) (Notif β)} {dom : List (Notif α) → Prop} {G : Story α → Story β}
    (hG : Delivers p dom G) {F : List (α × Nat) → List (β × Nat)} (h0 : (G ⟨[], .running⟩).events = [])
    (hF : ∀ cs t, InTime cs → InTime (F cs) ∧ G ⟨upto t cs, .running⟩ = ⟨upto t (F cs), .running⟩)
    (hd : ∀ ls s, LTS.run q.step q.init ls = some s → dom ((q.calls s).map (·.1))) {ls s}
    (hr : LTS.run (q.operate p).step (q.operate p).init ls = some s) (hp : (q.operate p).Prompt (fun s => p.Quiescent s.2.ps) ls)
    (hqu : p.Quiescent s.2.ps) (hv : OnlyValues (q.calls s.1)) :
    s.2.sent = (F (valuesAt (q.calls s.1))).map fun c => (.next c.1, c.2) := by
  obtain ⟨h1, -, h2⟩ := C109_operator hq hG h0 hd hr hp
  have hi := Nested.inTime_values (hq.inTime (Clocked.operate_source hq hr).1).1
  refine Spec.Timed.ext h1 ?_ fun t => ?_
  · rw [InTime, List.pairwise_map]; exact (hF _ 0 hi).1
  · have := h2 hqu t
    rw [hv.eq, upto_map, story_nexts, (hF _ t hi).2] at this
    rw [upto_map]
    simpa [Story.events, End.events, Clocked.operate] using this

namespace Spec.SearchBox

theorem wanted_upto (pick : α → Option β) (cs : List (α × Nat)) (t : Nat) :
    upto t (wanted pick cs) = (upto t cs).filterMap pick := by
  induction cs with
  | nil => rfl
  | cons c cs ih =>
    rw [upto_cons, wanted, List.filterMap_cons]
    rw [wanted] at ih
    cases hp : pick c.1 with
    | none => rw [Option.map_none]; dsimp only; rw [ih]; split <;> simp [hp]
    | some b => rw [Option.map_some]; dsimp only; rw [upto_cons, ih]; split <;> simp [hp]

theorem wanted_inTime (pick : α → Option β) {cs : List (α × Nat)} (h : InTime cs) : InTime (wanted pick cs) := by
  rw [InTime, wanted, List.pairwise_filterMap]
  refine h.imp fun {a b} hab x hx y hy => ?_
  obtain ⟨u, -, rfl⟩ := Option.map_eq_some_iff.mp hx
  obtain ⟨w, -, rfl⟩ := Option.map_eq_some_iff.mp hy
  exact hab

theorem later_sublist (eq : β → β → Bool) (cs ds : List (β × Nat)) : (((cs.zip ds).filter fun p => !eq p.1.1 p.2.1).map Prod.fst).Sublist cs := by
  induction cs generalizing ds with
  | nil => simp
  | cons c cs ih =>
    cases ds with
    | nil => simp
    | cons d ds =>
      rw [List.zip_cons_cons, List.filter_cons]
      split
      · exact (ih ds).cons_cons _
      · exact (ih ds).cons _

theorem later_upto (eq : β → β → Bool) (t : Nat) : ∀ {cs : List (β × Nat)} {c : β × Nat}, InTime cs →
    upto t (((cs.zip (c :: cs)).filter fun p => !eq p.1.1 p.2.1).map Prod.fst) =
      (((upto t cs).zip (c.1 :: upto t cs)).filter fun p => !eq p.1 p.2).map Prod.fst := by
  intro cs
  induction cs with
  | nil => intro c _; rfl
  | cons y ys ih =>
    intro c h
    rw [InTime, List.pairwise_cons] at h
    by_cases hy : y.2 ≤ t
    · rw [upto_cons, if_pos hy, List.zip_cons_cons, List.zip_cons_cons, List.filter_cons, List.filter_cons]
      dsimp only
      split
      · rw [List.map_cons, List.map_cons, upto_cons, if_pos hy, ih h.2]
      · exact ih h.2
    · have hall : ∀ c ∈ y :: ys, t < c.2 := by
        intro c hc
        rcases List.mem_cons.mp hc with rfl | hc
        · omega
        · have := h.1 c hc; omega
      rw [upto_none hall, upto_none fun c hc => hall c ((later_sublist eq _ _).subset hc)]
      rfl

theorem changes_upto (eq : β → β → Bool) (t : Nat) {cs : List (β × Nat)} (h : InTime cs) :
    upto t (changes (fun a b => eq a.1 b.1) cs) = changes eq (upto t cs) := by
  cases cs with
  | nil => rfl
  | cons c cs =>
    rw [InTime, List.pairwise_cons] at h
    rw [changes, upto_cons, upto_cons]
    by_cases hc : c.2 ≤ t
    · rw [if_pos hc, if_pos hc, changes, later_upto eq t h.2]
    · have hall : ∀ d ∈ cs, t < d.2 := fun d hd => by have := h.1 d hd; omega
      rw [if_neg hc, if_neg hc, upto_none hall, upto_none fun d hd => hall d ((later_sublist eq _ _).subset hd)]
      rfl

theorem changes_inTime (eq : β × Nat → β × Nat → Bool) {cs : List (β × Nat)} (h : InTime cs) : InTime (changes eq cs) := by
  cases cs with
  | nil => exact .nil
  | cons c cs =>
    refine h.sublist (List.Sublist.cons_cons _ ?_)
    clear h
    generalize hds : c :: cs = ds
    clear hds
    induction cs generalizing ds with
    | nil => simp
    | cons c cs ih =>
      cases ds with
      | nil => simp
      | cons d ds =>
        rw [List.zip_cons_cons, List.filter_cons]
        split
        · exact (ih ds).cons_cons _
        · exact (ih ds).cons _

end Spec.SearchBox

/-! ## the source of `switch_latest` -/

namespace Nested

theorem work_outer {p : Producer S (Merge.Label ω α) α} {t : Nat} : ∀ {ls : List (Merge.Label ω α)} {s s' : Nested SO S SI ω α},
    work p t s ls = some s' → s'.outer = s.outer := by
  intro ls
  induction ls with
  | nil => intro s s' h; cases h; rfl
  | cons l ls ih =>
    intro s s' h
    rw [work] at h
    split at h
    · cases h
    · exact (ih h :)

theorem outers_run {o : Clocked SO LO ω} {fam : ω → Nat → Clocked SI LI α} {p : Producer S (Merge.Label ω α) α} {started : S → List ω} {base : Nat} :
    ∀ {ls s s'}, LTS.run (o.nested fam p started base).step s ls = some s' → LTS.run o.step s.outer (outers ls) = some s'.outer := by
  intro ls
  induction ls with
  | nil => intro s s' h; simp only [LTS.run] at h; cases h; rfl
  | cons l ls ih =>
    intro s s' h
    obtain ⟨u, h1, h2⟩ := LTS.run_cons.mp h
    have h2 := ih h2
    rcases l with d | (l | ⟨k, l⟩ | l)
    · simp only [Clocked.step, Clocked.nested] at h1
      split at h1
      · next t is h3 h4 => cases h1; exact LTS.run_cons.mpr ⟨t, h3, h2⟩
      · cases h1
    · simp only [Clocked.step, Clocked.nested] at h1
      split at h1
      · cases h1
      · next t h3 =>
        rw [work_outer h1] at h2
        exact LTS.run_cons.mpr ⟨t, h3, h2⟩
    · simp only [Clocked.step, Clocked.nested] at h1
      split at h1
      · cases h1
      · split at h1
        · cases h1
        · rw [work_outer h1] at h2
          exact h2
    · simp only [Clocked.step, Clocked.nested] at h1
      split at h1
      · obtain ⟨v, h3, rfl⟩ := Option.map_eq_some_iff.mp h1
        have := work_outer h3
        simp only [subscribed] at h2
        rw [this] at h2
        exact h2
      · cases h1

/-- Time that passes for all passes for the source. -/
theorem outers_prompt {o : Clocked SO LO ω} {fam : ω → Nat → Clocked SI LI α} {p : Producer S (Merge.Label ω α) α} {started : S → List ω} {base : Nat}
    {rest : SO → Prop} {more : Nested SO S SI ω α → Prop} {ls s} (hr : LTS.run (o.nested fam p started base).step (o.nested fam p started base).init ls = some s)
    (hp : (o.nested fam p started base).Prompt (fun s => rest s.outer ∧ more s) ls) : o.Prompt rest (outers ls) := by
  intro ls₁ d ls₂ s₁ he hr₁
  obtain ⟨a, b, rfl, ha, hb⟩ := List.filterMap_eq_append_iff.mp he
  obtain ⟨b₁, x, b₂, rfl, hb₁, hx, -⟩ := List.filterMap_eq_cons_iff.mp hb
  obtain ⟨t₁, h1, h2⟩ := LTS.run_append.mp hr
  obtain ⟨t₂, h3, h4⟩ := LTS.run_append.mp h2
  have h5 : LTS.run (o.nested fam p started base).step (o.nested fam p started base).init (a ++ b₁) = some t₂ := LTS.run_append.mpr ⟨_, h1, h3⟩
  have h6 := outers_run h5
  have h7 : outers (a ++ b₁) = ls₁ := by
    rw [outers, List.filterMap_append, ha, List.filterMap_eq_nil_iff.mpr hb₁, List.append_nil]
  rw [h7, show (o.nested fam p started base).init.outer = o.init from rfl, hr₁] at h6
  cases h6
  have hx : x = .pass d := by
    match x with
    | .pass d' => cases hx; rfl
    | .act (.outer l) => cases hx
    | .act (.inner k l) => cases hx
    | .act (.own w) => cases hx
  subst hx
  exact (hp (a ++ b₁) d b₂ t₂ (by simp) h5).1

end Nested

/-- What an operator has sent is a result of what it got, in any schedule. -/
theorem Clocked.operate_exec {q : Clocked S L α} {p : Proc P W (Notif α) (Notif β)} {ls s} (hr : LTS.run (q.operate p).step (q.operate p).init ls = some s) :
    ∃ es, p.exec p.init es = some (s.2.ps, s.2.sent.map (·.1)) ∧ Proc.inputs es = s.2.got.map (·.1) := by
  refine LTS.inv_hist (step := (q.operate p).step) (s0 := (q.operate p).init)
    (fun _ s => ∃ es, p.exec p.init es = some (s.2.ps, s.2.sent.map (·.1)) ∧ Proc.inputs es = s.2.got.map (·.1)) ⟨[], rfl, rfl⟩ ?_ hr
  rintro - ⟨s, t⟩ l ⟨s', t'⟩ ⟨es, g1, g2⟩ h
  match l with
  | .pass d =>
    simp only [step, operate, Option.map_eq_some_iff, Prod.mk.injEq] at h
    obtain ⟨u, hu, rfl, rfl⟩ := h
    exact ⟨es, g1, g2⟩
  | .act (.inl l) =>
    simp only [step, operate] at h
    split at h
    · cases h
    · next u hu =>
      simp only [Option.some.injEq, Prod.mk.injEq] at h
      obtain ⟨rfl, rfl⟩ := h
      generalize (((q.calls u).drop (q.calls s).length).map (·.1)) = is
      refine ⟨es ++ is.map .feed, ?_, ?_⟩
      · have := Proc.exec_append p g1 (Proc.exec_map_feed p t.ps is)
        simpa [Timed.feed, Function.comp_def] using this
      · simp [Timed.feed, g2, Function.comp_def]
  | .act (.inr w) =>
    simp only [step, operate, Option.map_eq_some_iff, Prod.mk.injEq] at h
    obtain ⟨u, hu, rfl, rfl⟩ := h
    simp only [Timed.work] at hu
    split at hu
    · cases hu
    · next ps o hs =>
      cases hu
      refine ⟨es ++ [.step w], ?_, ?_⟩
      · have := Proc.exec_append p g1 (s'' := ps) (o' := o) (es' := [.step w]) (by simp [Proc.exec, hs])
        simpa [Function.comp_def] using this
      · simpa using g2

/-- An operator keeps the grammar. -/
theorem Clocked.operate_grammar {q : Clocked S L α} (hq : q.Lawful) {p : Proc P W (Notif α) (Notif β)} {dom : List (Notif α) → Prop} {G : Story α → Story β}
    (hG : Delivers p dom G) (hd : ∀ ls s, LTS.run q.step q.init ls = some s → dom ((q.calls s).map (·.1))) :
    ∀ ls s, LTS.run (q.operate p).step (q.operate p).init ls = some s → Grammar (((q.operate p).calls s).map (·.1)) := by
  intro ls s hr
  obtain ⟨es, g1, g2⟩ := Clocked.operate_exec hr
  obtain ⟨h1, h2⟩ := Clocked.operate_source hq hr
  exact grammar_prefix (hG.prefix_ es _ _ g1 (by rw [g2, h2]; exact hd _ _ h1)) ⟨_, rfl⟩

end Aio
