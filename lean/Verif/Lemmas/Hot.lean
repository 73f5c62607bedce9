import Verif.Spec.Hot
import Verif.Props.C101_103_Piped
/-!
# Lemmas about subjects behind merge_inner and switch_latest
-/

namespace Aio.Hot
open Spec
variable {S α : Type}

/-! ### Hearing -/

theorem told_append (hear : Nat → Nat → List Nat) : ∀ (a b before : List (Nat × Notif α)),
    told hear before (a ++ b) = told hear before a ++ told hear (before ++ a) b := by
  intro a
  induction a with
  | nil => intro b before; simp [told]
  | cons c a ih => intro b before; simp [told, ih, List.append_assoc]

theorem told_congr {hear hear' : Nat → Nat → List Nat} : ∀ {calls before : List (Nat × Notif α)},
    (∀ i p, before.length ≤ p → p < before.length + calls.length → hear i p = hear' i p) → told hear before calls = told hear' before calls := by
  intro calls
  induction calls with
  | nil => intros; rfl
  | cons c calls ih =>
    intro before h
    rw [told, told, h c.1 before.length (Nat.le_refl _) (by simp), ih]
    intro i p h1 h2
    simp only [List.length_append, List.length_cons, List.length_nil] at h1 h2
    exact h i p (by omega) (by simp only [List.length_cons]; omega)

theorem ended_append (i : Nat) (a b : List (Nat × Notif α)) : ended i (a ++ b) = (ended i a || ended i b) := by
  simp [ended]

/-- A subject that has ended says nothing more. -/
theorem told_ended {hear : Nat → Nat → List Nat} {P : Nat × Notif α → Prop} : ∀ {calls before : List (Nat × Notif α)},
    (∀ i p k n, ended i (before ++ calls.take p) = false → calls[p]? = some (i, n) → k ∈ hear i (before.length + p) → P (k, n)) →
    ∀ c ∈ told hear before calls, P c := by
  intro calls
  induction calls with
  | nil => intro before _ c hc; simp [told] at hc
  | cons d calls ih =>
    intro before h c hc
    rw [told] at hc
    rcases List.mem_append.mp hc with h1 | h1
    · split at h1
      · simp at h1
      · rename_i hne
        simp only [List.mem_map] at h1
        obtain ⟨k, hk, rfl⟩ := h1
        exact h d.1 0 k d.2 (by simpa using hne) rfl hk
    · refine ih (fun i p k n h2 h3 h4 => ?_) c h1
      refine h i (p + 1) k n (by simpa using h2) h3 ?_
      simpa [Nat.add_assoc, Nat.add_comm 1 p] using h4

/-- The keys of the subscriptions to subject `i` that have not been disposed. -/
def listening (i : Nat) : Nat → List Sub → List Nat
  | _, [] => []
  | k, x :: xs => if x.subject = i ∧ x.until_ = none then k :: listening i (k + 1) xs else listening i (k + 1) xs

theorem listening_eq (i p : Nat) : ∀ {subs : List Sub} (k : Nat), (∀ x ∈ subs, x.since ≤ p ∧ ∀ t, x.until_ = some t → t ≤ p) →
    listening i k subs = hearers i p k subs := by
  intro subs
  induction subs with
  | nil => intros; rfl
  | cons x subs ih =>
    intro k h
    have h1 := h x (by simp)
    have h2 : (x.until_ = none) ↔ x.until_.all (p < ·) = true := by
      cases hx : x.until_ with
      | none => simp
      | some t => have := h1.2 t hx; simp; omega
    rw [listening, hearers, ih (k + 1) (fun y hy => h y (by simp [hy]))]
    simp [h1.1, h2]

theorem listening_ge {i : Nat} : ∀ {subs : List Sub} {k j : Nat}, j ∈ listening i k subs → k ≤ j ∧ j < k + subs.length := by
  intro subs
  induction subs with
  | nil => intro k j h; simp [listening] at h
  | cons x subs ih =>
    intro k j h
    have h' : j = k ∨ j ∈ listening i (k + 1) subs := by
      rw [listening] at h; split at h
      · simpa using h
      · exact .inr h
    rcases h' with rfl | h'
    · simp
    · have := ih h'; simp only [List.length_cons]; omega

theorem listening_append {i : Nat} : ∀ {a : List Sub} {b : List Sub} {k : Nat},
    listening i k (a ++ b) = listening i k a ++ listening i (k + a.length) b := by
  intro a
  induction a with
  | nil => intro b k; simp [listening]
  | cons x a ih =>
    intro b k
    simp only [List.cons_append, listening, ih, List.length_cons]
    rw [show k + (a.length + 1) = k + 1 + a.length by omega]
    split <;> simp

theorem hearers_append {i p : Nat} : ∀ {a : List Sub} {b : List Sub} {k : Nat},
    hearers i p k (a ++ b) = hearers i p k a ++ hearers i p (k + a.length) b := by
  intro a
  induction a with
  | nil => intro b k; simp [hearers]
  | cons x a ih =>
    intro b k
    simp only [List.cons_append, hearers, ih, List.length_cons]
    rw [show k + (a.length + 1) = k + 1 + a.length by omega]
    split <;> simp

/-- The subscription with key `k` ends at call number `t`. -/
def mark (t k : Nat) : Nat → List Sub → List Sub
  | _, [] => []
  | j, x :: xs => (if j = k ∧ x.until_ = none then { x with until_ := some t } else x) :: mark t k (j + 1) xs

theorem mark_eq (t k : Nat) : ∀ (subs : List Sub) (base : Nat),
    (subs.mapIdx fun j x => if j + base = k ∧ x.until_ = none then { x with until_ := some t } else x) = mark t k base subs := by
  intro subs
  induction subs with
  | nil => intros; rfl
  | cons x subs ih =>
    intro base
    rw [List.mapIdx_cons, mark, ← ih (base + 1)]
    simp [Nat.add_assoc, Nat.add_comm 1 base]

theorem mark_lt {t k : Nat} : ∀ {subs : List Sub} {j : Nat}, k < j → mark t k j subs = subs := by
  intro subs
  induction subs with
  | nil => intros; rfl
  | cons x subs ih =>
    intro j h
    rw [mark, ih (by omega), if_neg (by omega)]

theorem mark_length {t k : Nat} : ∀ {subs : List Sub} {j : Nat}, (mark t k j subs).length = subs.length := by
  intro subs
  induction subs with
  | nil => intros; rfl
  | cons x subs ih => intro j; simp [mark, ih]

theorem mark_subject {t k : Nat} : ∀ {subs : List Sub} {j : Nat}, (mark t k j subs).map Sub.subject = subs.map Sub.subject := by
  intro subs
  induction subs with
  | nil => intros; rfl
  | cons x subs ih => intro j; simp only [mark, List.map_cons, ih]; split <;> rfl

theorem mark_since {t k : Nat} : ∀ {subs : List Sub} {j : Nat}, (mark t k j subs).map Sub.since = subs.map Sub.since := by
  intro subs
  induction subs with
  | nil => intros; rfl
  | cons x subs ih => intro j; simp only [mark, List.map_cons, ih]; split <;> rfl

theorem mark_mem {t k : Nat} {x : Sub} : ∀ {subs : List Sub} {j : Nat}, x ∈ mark t k j subs →
    x ∈ subs ∨ ∃ y ∈ subs, x = { y with until_ := some t } := by
  intro subs
  induction subs with
  | nil => intro j h; simp [mark] at h
  | cons y subs ih =>
    intro j h
    rw [mark] at h
    rcases List.mem_cons.mp h with h | h
    · split at h
      · exact .inr ⟨y, by simp, h⟩
      · exact .inl (by simp [h])
    · rcases ih h with h | ⟨z, h1, h2⟩
      · exact .inl (by simp [h])
      · exact .inr ⟨z, by simp [h1], h2⟩

theorem listening_erase {i t k : Nat} : ∀ {subs : List Sub} {j : Nat}, (listening i j subs).erase k = listening i j (mark t k j subs) := by
  intro subs
  induction subs with
  | nil => intros; rfl
  | cons x subs ih =>
    intro j
    by_cases hj : j = k
    · subst hj
      rw [mark, mark_lt (Nat.lt_succ_self j)]
      have hn : j ∉ listening i (j + 1) subs := fun h => by have := (listening_ge h).1; omega
      by_cases hx : x.until_ = none
      · rw [if_pos ⟨rfl, hx⟩, listening, listening]
        simp only [hx, and_true]
        rw [if_neg (c := x.subject = i ∧ some t = none) (by simp)]
        split
        · simp
        · exact List.erase_of_not_mem hn
      · rw [if_neg (by simp [hx])]
        have h1 : listening i j (x :: subs) = listening i (j + 1) subs := by rw [listening, if_neg (by simp [hx])]
        rw [h1]
        exact List.erase_of_not_mem hn
    · rw [mark, if_neg (by simp [hj]), listening, listening, ← ih]
      split
      · rw [List.erase_cons_tail (by simpa using hj)]
      · rfl

theorem hearers_mark {i p t k : Nat} (hp : p < t) : ∀ {subs : List Sub} {j : Nat}, hearers i p j (mark t k j subs) = hearers i p j subs := by
  intro subs
  induction subs with
  | nil => intros; rfl
  | cons x subs ih =>
    intro j
    rw [mark, hearers, hearers, ih]
    split
    · rename_i h; simp [h.2, hp]
    · rfl

/-! ### The invariant -/

/-- The calls of the worker's observers. -/
def inners (ls : List (Merge.Label Nat α)) : List (Nat × Notif α) := ls.filterMap fun | .inner k n => some (k, n) | _ => none

/-- What is used of `merge_inner` and `switch_latest`. -/
structure Fits (p : Producer S (Merge.Label Nat α) α) (started gone : S → List Nat) (base : Nat) : Prop where
  init : started p.init = [] ∧ gone p.init = []
  outer : ∀ s n s' out, p.step s (.outer n) = some (s', out) → started s' = started s ∧ gone s' = gone s
  inner : ∀ s k n s' out, p.step s (.inner k n) = some (s', out) → started s' = started s ∧ gone s' = gone s
  grows : ∀ s l s' out, p.step s l = some (s', out) → started s <+: started s' ∧ gone s <+: gone s'
  hears : ∀ s k n, base ≤ k → k < base + (started s).length → (p.step s (.inner k n)).isSome

structure Inv (p : Producer S (Merge.Label Nat α) α) (started : S → List Nat) (base : Nat) (s : State S α) : Prop where
  run : LTS.run p.solo (p.init, []) s.trace = some (s.prod, s.posts)
  subs : s.subs.map Sub.subject = started s.prod
  obs : ∀ i, (s.subjects i).observers = listening i base s.subs
  stopped : ∀ i, (s.subjects i).stopped = ended i s.calls
  times : ∀ x ∈ s.subs, x.since ≤ s.calls.length ∧ ∀ t, x.until_ = some t → t ≤ s.calls.length
  told : inners s.trace = told (fun i p => hearers i p base s.subs) [] s.calls

variable {p : Producer S (Merge.Label Nat α) α} {started gone : S → List Nat} {base : Nat}

theorem act_some {s s' : State S α} {l : Merge.Label Nat α} (h : s.act p l = some s') :
    ∃ out, p.step s.prod l = some (s'.prod, out) ∧ s' = { s with prod := s'.prod, posts := s.posts ++ out, trace := s.trace ++ [l] } := by
  unfold State.act at h
  split at h
  · simp at h
  · rename_i prod out h1
    obtain rfl := (Option.some.inj h).symm
    exact ⟨out, h1, rfl⟩

theorem act_run {s s' : State S α} {l : Merge.Label Nat α} (h : s.act p l = some s')
    (hr : LTS.run p.solo (p.init, []) s.trace = some (s.prod, s.posts)) : LTS.run p.solo (p.init, []) s'.trace = some (s'.prod, s'.posts) := by
  obtain ⟨out, h1, h2⟩ := act_some h
  rw [h2]
  refine LTS.run_append.mpr ⟨_, hr, LTS.run_cons.mpr ⟨(s'.prod, s.posts ++ out), ?_, rfl⟩⟩
  simp [Producer.solo, h1]

/-- What a call on a subject does. -/
theorem tell_some (hf : Fits p started gone base) {n : Notif α} : ∀ {ks : List Nat} {s s' : State S α}, s.tell p n ks = some s' →
    s'.subjects = s.subjects ∧ s'.calls = s.calls ∧ s'.subs = s.subs ∧ started s'.prod = started s.prod ∧ gone s'.prod = gone s.prod ∧
    s'.trace = s.trace ++ ks.map (.inner · n) ∧
    (LTS.run p.solo (p.init, []) s.trace = some (s.prod, s.posts) → LTS.run p.solo (p.init, []) s'.trace = some (s'.prod, s'.posts)) := by
  intro ks
  induction ks with
  | nil => intro s s' h; simp only [State.tell, Option.some.injEq] at h; subst h; simp
  | cons k ks ih =>
    intro s s' h
    simp only [State.tell, Option.bind_eq_some_iff] at h
    obtain ⟨s1, h1, h2⟩ := h
    obtain ⟨i1, i2, i3, i4, i5, i6, i7⟩ := ih h2
    obtain ⟨out, h3, h4⟩ := act_some h1
    have h5 := hf.inner _ _ _ _ _ h3
    refine ⟨?_, ?_, ?_, i4.trans h5.1, i5.trans h5.2, ?_, fun hr => i7 (act_run h1 hr)⟩
    · rw [i1, h4]
    · rw [i2, h4]
    · rw [i3, h4]
    · rw [i6, h4]; simp

theorem tell_isSome (hf : Fits p started gone base) {n : Notif α} : ∀ {ks : List Nat} {s : State S α},
    (∀ k ∈ ks, base ≤ k ∧ k < base + (started s.prod).length) → (s.tell p n ks).isSome := by
  intro ks
  induction ks with
  | nil => intros; rfl
  | cons k ks ih =>
    intro s h
    have h1 := hf.hears s.prod k n (h k (by simp)).1 (h k (by simp)).2
    obtain ⟨⟨prod, out⟩, h2⟩ := Option.isSome_iff_exists.mp h1
    have h3 : s.act p (.inner k n) = some { s with prod := prod, posts := s.posts ++ out, trace := s.trace ++ [.inner k n] } := by
      simp [State.act, h2]
    rw [State.tell, h3]
    refine ih fun j hj => ?_
    rw [show started _ = started s.prod from (hf.inner _ _ _ _ _ h2).1]
    exact h j (by simp [hj])

/-- The part of the invariant that does not speak of the worker. -/
structure Part (base : Nat) (s : State S α) : Prop where
  obs : ∀ i, (s.subjects i).observers = listening i base s.subs
  stopped : ∀ i, (s.subjects i).stopped = ended i s.calls
  times : ∀ x ∈ s.subs, x.since ≤ s.calls.length ∧ ∀ t, x.until_ = some t → t ≤ s.calls.length
  told : inners s.trace = told (fun i p => hearers i p base s.subs) [] s.calls

theorem unsubscribe_part : ∀ {ks : List Nat} {s : State S α}, Part base s → Part base (s.unsubscribe base ks) ∧
    (s.unsubscribe base ks).subs.map Sub.subject = s.subs.map Sub.subject ∧ (s.unsubscribe base ks).prod = s.prod ∧
    (s.unsubscribe base ks).posts = s.posts ∧ (s.unsubscribe base ks).trace = s.trace ∧ (s.unsubscribe base ks).calls = s.calls := by
  intro ks
  induction ks with
  | nil => intro s h; exact ⟨h, rfl, rfl, rfl, rfl, rfl⟩
  | cons k ks ih =>
    intro s h
    rw [State.unsubscribe]
    rw [mark_eq]
    refine have h1 : Part base { s with
        subjects := fun j => { s.subjects j with observers := (s.subjects j).observers.erase k }
        subs := mark s.calls.length k base s.subs } := ⟨fun i => ?_, h.stopped, fun x hx => ?_, ?_⟩
      let h2 := ih h1
      ⟨h2.1, h2.2.1.trans mark_subject, h2.2.2.1, h2.2.2.2.1, h2.2.2.2.2.1, h2.2.2.2.2.2⟩
    · show (s.subjects i).observers.erase k = _
      rw [h.obs i, listening_erase]
    · rcases mark_mem hx with h2 | ⟨y, h2, rfl⟩
      · exact h.times x h2
      · exact ⟨(h.times y h2).1, fun t ht => Nat.le_of_eq (Option.some.inj ht).symm⟩
    · show inners s.trace = _
      rw [h.told]
      exact told_congr fun i q _ hq => (hearers_mark (by simpa using hq)).symm

theorem subscribe_part : ∀ {is : List Nat} {s : State S α}, Part base s → Part base (s.subscribe base is) ∧
    (s.subscribe base is).subs = s.subs ++ is.map (⟨·, s.calls.length, none⟩) ∧ (s.subscribe base is).prod = s.prod ∧
    (s.subscribe base is).posts = s.posts ∧ (s.subscribe base is).trace = s.trace ∧ (s.subscribe base is).calls = s.calls := by
  intro is
  induction is with
  | nil => intro s h; exact ⟨h, by simp [State.subscribe], rfl, rfl, rfl, rfl⟩
  | cons i is ih =>
    intro s h
    rw [State.subscribe]
    refine have h1 : Part base { s with
        subjects := fun j => if j = i then { s.subjects i with observers := (s.subjects i).observers ++ [s.subs.length + base] } else s.subjects j
        subs := s.subs ++ [⟨i, s.calls.length, none⟩] } := ⟨fun j => ?_, fun j => ?_, fun x hx => ?_, ?_⟩
      let h2 := ih h1
      ⟨h2.1, h2.2.1.trans (by simp), h2.2.2.1, h2.2.2.2.1, h2.2.2.2.2.1, h2.2.2.2.2.2⟩
    · rw [listening_append]
      by_cases hj : j = i
      · subst hj
        simp [h.obs, listening, Nat.add_comm]
      · simp [hj, h.obs, listening, Ne.symm hj]
    · by_cases hj : j = i
      · subst hj; simpa using h.stopped j
      · simpa [hj] using h.stopped j
    · simp only [List.mem_append, List.mem_singleton] at hx
      rcases hx with hx | rfl
      · exact h.times x hx
      · simp
    · show inners s.trace = _
      rw [h.told]
      refine told_congr fun j q _ hq => ?_
      have hq : q < s.calls.length := by simpa using hq
      simp only [hearers_append, hearers]
      rw [if_neg (fun h => absurd h.2.1 (by omega))]
      simp

theorem Inv.part {s : State S α} (h : Inv p started base s) : Part base s := ⟨h.obs, h.stopped, h.times, h.told⟩

theorem inners_append (a b : List (Merge.Label Nat α)) : inners (a ++ b) = inners a ++ inners b := List.filterMap_append ..

theorem inv_init (hf : Fits p started gone base) : Inv p started base (init p) :=
  ⟨rfl, by simp [init, hf.init.1], fun _ => rfl, fun _ => rfl, by simp [init], rfl⟩

theorem inv_step (hf : Fits p started gone base) {s s' : State S α} {l : Label α} (hi : Inv p started base s)
    (h : step p started gone base s l = some s') : Inv p started base s' := by
  cases l with
  | outer n =>
    have h : s.act p (.outer n) = some s' := h
    obtain ⟨out, h1, h2⟩ := act_some h
    have hr := act_run h hi.run
    have h3 := (hf.outer _ _ _ _ h1).1
    refine ⟨hr, ?_, ?_, ?_, ?_, ?_⟩ <;> rw [h2]
    · simpa [h3] using hi.subs
    · exact hi.obs
    · exact hi.stopped
    · exact hi.times
    · show inners (s.trace ++ [_]) = _
      rw [inners_append, hi.told]; simp [inners]
  | call i n =>
    simp only [step] at h
    have hst := hi.stopped i
    split at h
    · rename_i hs
      obtain rfl := (Option.some.inj h).symm
      rw [hs] at hst
      refine ⟨hi.run, hi.subs, hi.obs, fun j => ?_, fun x hx => ?_, ?_⟩
      · show (s.subjects j).stopped = _
        rw [ended_append, hi.stopped j]
        by_cases hj : j = i
        · subst hj; simp [← hst]
        · simp [ended, Ne.symm hj]
      · have := hi.times x hx
        exact ⟨by simp only [List.length_append]; omega, fun t ht => by have := this.2 t ht; simp only [List.length_append]; omega⟩
      · show inners s.trace = _
        rw [told_append, hi.told]
        simp [Hot.told, ← hst]
    · rename_i hs
      obtain ⟨h1, h2, h3, h4, h5, h6, h7⟩ := tell_some hf h
      have hend : ended i s.calls = false := by rw [← hst]; simpa using hs
      refine ⟨h7 hi.run, ?_, fun j => ?_, fun j => ?_, fun x hx => ?_, ?_⟩
      · rw [h3, h4]; exact hi.subs
      · rw [h1, h3]
        by_cases hj : j = i
        · subst hj; simpa using hi.obs j
        · simpa [hj] using hi.obs j
      · rw [h1, h2, ended_append]
        by_cases hj : j = i
        · subst hj
          have : ended j [(j, n)] = n.isTerminal := by simp [ended]
          rw [hend, this]; simp
        · simp [hj, ended, Ne.symm hj, hi.stopped j]
      · rw [h3] at hx
        rw [h2]
        have := hi.times x hx
        exact ⟨by simp only [List.length_append]; omega, fun t ht => by have := this.2 t ht; simp only [List.length_append]; omega⟩
      · rw [h6, h2, h3, inners_append, told_append]
        show inners s.trace ++ _ = _
        rw [hi.told]
        congr 1
        simp only [Hot.told, List.nil_append, hend, Bool.false_eq_true, if_false, List.append_nil]
        rw [hi.obs i, listening_eq i s.calls.length base hi.times]
        simp [inners, List.filterMap_map, Function.comp_def]
  | own l =>
    have h : (s.act p l).map (fun t => ((t.unsubscribe base ((gone t.prod).drop (gone s.prod).length)).subscribe base
        ((started t.prod).drop (started s.prod).length))) = some s' ∧ inners [l] = [] := by
      cases l <;> first | (simp [step] at h; done) | exact ⟨h, rfl⟩
    obtain ⟨h, hl⟩ := h
    obtain ⟨t, h1, h2⟩ := Option.map_eq_some_iff.mp h
    obtain ⟨out, h3, h4⟩ := act_some h1
    have hr := act_run h1 hi.run
    have hg := (hf.grows _ _ _ _ h3).1
    have ht : Part base t := by
      rw [h4]
      refine ⟨hi.obs, hi.stopped, hi.times, ?_⟩
      show inners (s.trace ++ [_]) = _
      rw [inners_append, hi.told, hl]; simp
    obtain ⟨u1, u2, u3, u4, u5, u6⟩ := unsubscribe_part (ks := (gone t.prod).drop (gone s.prod).length) ht
    obtain ⟨v1, v2, v3, v4, v5, v6⟩ := subscribe_part (is := (started t.prod).drop (started s.prod).length) u1
    subst h2
    refine ⟨?_, ?_, v1.obs, v1.stopped, v1.times, v1.told⟩
    · rw [v5, v3, v4, u5, u3, u4]; exact hr
    · rw [v2, v3, u3, List.map_append, u2]
      have h5 : t.subs = s.subs := by rw [h4]
      have h6 : List.map Sub.subject (List.map (fun x => (⟨x, (t.unsubscribe base ((gone t.prod).drop (gone s.prod).length)).calls.length, none⟩ : Sub))
          ((started t.prod).drop (started s.prod).length)) = (started t.prod).drop (started s.prod).length := by
        simp [Function.comp_def]
      rw [h6, h5, hi.subs]
      obtain ⟨r, hr⟩ := hg
      rw [← hr]; simp

theorem inv_run (hf : Fits p started gone base) {ls : List (Label α)} {s : State S α}
    (hr : LTS.run (step p started gone base) (init p) ls = some s) : Inv p started base s :=
  LTS.inv (Inv p started base) (inv_init hf) (fun _ _ _ => inv_step hf) hr

/-- A call on a subject is always possible. -/
theorem call_isSome (hf : Fits p started gone base) {s : State S α} (hi : Inv p started base s) (i : Nat) (n : Notif α) :
    (step p started gone base s (.call i n)).isSome := by
  simp only [step]
  split
  · rfl
  · refine tell_isSome hf fun k hk => ?_
    rw [hi.obs i] at hk
    have := listening_ge hk
    have h2 : s.subs.length = (started s.prod).length := by rw [← hi.subs]; simp
    show base ≤ k ∧ k < base + (started s.prod).length
    omega

/-! ### Each subscription hears a stream -/

/-- What has been told to `k`. -/
def heardBy (k : Nat) (heard : List (Nat × Notif α)) : List (Notif α) := (heard.filter fun c => c.1 == k).map (·.2)

theorem heardBy_append (k : Nat) (a b : List (Nat × Notif α)) : heardBy k (a ++ b) = heardBy k a ++ heardBy k b := by simp [heardBy]

theorem heardBy_all {k : Nat} {n : Notif α} : ∀ {ks : List Nat}, ks.Nodup → heardBy k (ks.map fun k => (k, n)) = if k ∈ ks then [n] else [] := by
  intro ks
  induction ks with
  | nil => intro _; rfl
  | cons j ks ih =>
    intro h
    have h := List.nodup_cons.mp h
    rw [List.map_cons, show (j, n) :: ks.map (fun k => (k, n)) = [(j, n)] ++ ks.map (fun k => (k, n)) from rfl, heardBy_append, ih h.2]
    by_cases hj : k = j
    · subst hj; simp [heardBy, h.1]
    · simp [heardBy, hj, Ne.symm hj]

theorem grammar_cons {v : α} {ns : List (Notif α)} (h : Grammar ns) : Grammar (.next v :: ns) := by
  obtain ⟨st, rfl⟩ := h
  exact ⟨⟨v :: st.vals, st.fin⟩, by simp [Story.events]⟩

theorem told_grammar {hear : Nat → Nat → List Nat} {k i0 : Nat} (h1 : ∀ i p, (hear i p).Nodup) (h2 : ∀ i p, k ∈ hear i p → i = i0) :
    ∀ {calls before : List (Nat × Notif α)}, Grammar (heardBy k (told hear before calls)) ∧
      (ended i0 before = true → heardBy k (told hear before calls) = []) := by
  intro calls
  induction calls with
  | nil => intro before; exact ⟨⟨⟨[], .running⟩, rfl⟩, fun _ => rfl⟩
  | cons c calls ih =>
    intro before
    obtain ⟨i, n⟩ := c
    obtain ⟨ih1, ih2⟩ := ih (before := before ++ [(i, n)])
    rw [told, heardBy_append]
    have hmono : ended i0 before = true → ended i0 (before ++ [(i, n)]) = true := fun h => by rw [ended_append, h]; rfl
    cases he : ended i before with
    | true =>
      simp only [he, if_true]
      exact ⟨by simpa [heardBy] using ih1, fun h => by simpa [heardBy] using ih2 (hmono h)⟩
    | false =>
      simp only [he, Bool.false_eq_true, if_false]
      rw [heardBy_all (h1 i _)]
      by_cases hk : k ∈ hear i before.length
      · obtain rfl := h2 _ _ hk
        rw [if_pos hk]
        refine ⟨?_, fun h => by rw [he] at h; cases h⟩
        cases n with
        | next v => exact grammar_cons ih1
        | error e => rw [ih2 (by simp [ended_append, ended, Notif.isTerminal])]; exact ⟨⟨[], .failed e⟩, rfl⟩
        | completed => rw [ih2 (by simp [ended_append, ended, Notif.isTerminal])]; exact ⟨⟨[], .done⟩, rfl⟩
      · rw [if_neg hk]
        exact ⟨by simpa using ih1, fun h => by simpa using ih2 (hmono h)⟩

theorem hearers_mem {i p k : Nat} : ∀ {subs : List Sub} {b : Nat}, k ∈ hearers i p b subs ↔
    ∃ (j : Nat) (x : Sub), k = b + j ∧ subs[j]? = some x ∧ x.subject = i ∧ x.since ≤ p ∧ x.until_.all (p < ·) = true := by
  intro subs
  induction subs with
  | nil => intro b; simp [hearers]
  | cons y subs ih =>
    intro b
    have h : k ∈ hearers i p b (y :: subs) ↔ (k = b ∧ y.subject = i ∧ y.since ≤ p ∧ y.until_.all (p < ·) = true) ∨ k ∈ hearers i p (b + 1) subs := by
      rw [hearers]
      split
      · rename_i h; simp [h]
      · rename_i h; simp only [h, and_false, false_or]
    rw [h, ih]
    constructor
    · rintro (⟨h1, h2⟩ | ⟨j, x, h1, h2, h3⟩)
      · exact ⟨0, y, h1, rfl, h2⟩
      · exact ⟨j + 1, x, by omega, h2, h3⟩
    · rintro ⟨j, x, h1, h2, h3⟩
      cases j with
      | zero => simp only [List.getElem?_cons_zero, Option.some.injEq] at h2; subst h2; exact .inl ⟨h1, h3⟩
      | succ j => exact .inr ⟨j, x, by omega, by simpa using h2, h3⟩

theorem hearers_nodup {i p : Nat} : ∀ {subs : List Sub} {b : Nat}, (hearers i p b subs).Nodup := by
  intro subs
  induction subs with
  | nil => intro b; exact List.nodup_nil
  | cons y subs ih =>
    intro b
    rw [hearers]
    split
    · refine List.nodup_cons.mpr ⟨fun h => ?_, ih⟩
      obtain ⟨j, -, h1, -⟩ := hearers_mem.mp h
      omega
    · exact ih

theorem innerCalls_eq (k : Nat) (ls : List (Merge.Label Nat α)) : Merge.innerCalls k ls = heardBy k (inners ls) := by
  induction ls with
  | nil => rfl
  | cons l ls ih =>
    have h1 : Merge.innerCalls k (l :: ls) = Merge.innerCalls k [l] ++ Merge.innerCalls k ls := List.filterMap_append (l := [l])
    have h2 : inners (l :: ls) = inners [l] ++ inners ls := inners_append [l] ls
    rw [h1, h2, heardBy_append, ih]
    congr 1
    cases l with
    | inner j n => by_cases hj : j = k <;> simp [Merge.innerCalls, inners, heardBy, hj]
    | _ => rfl

theorem Inv.inner_grammar {s : State S α} (h : Inv p started base s) (k : Nat) : Grammar (Merge.innerCalls k s.trace) := by
  rw [innerCalls_eq, h.told]
  refine (told_grammar (i0 := ((s.subs[k - base]?).map Sub.subject).getD 0) (fun _ _ => hearers_nodup) fun i q hk => ?_).1
  obtain ⟨j, x, h1, h2, h3, -⟩ := hearers_mem.mp hk
  rw [show k - base = j by omega, h2]
  exact h3.symm

/-! ### What the schedule says -/

theorem outerCalls_append (a b : List (Merge.Label Nat α)) : Merge.outerCalls (a ++ b) = Merge.outerCalls a ++ Merge.outerCalls b := List.filterMap_append ..

theorem outers_append (a b : List (Label α)) : outers (a ++ b) = outers a ++ outers b := List.filterMap_append ..

theorem made_append (a b : List (Label α)) : made (a ++ b) = made a ++ made b := List.filterMap_append ..

theorem step_trace (hf : Fits p started gone base) {s s' : State S α} {l : Label α} (h : step p started gone base s l = some s') :
    s'.calls = s.calls ++ made [l] ∧ ∃ t, s'.trace = s.trace ++ t ∧ Merge.outerCalls t = outers [l] ∧
      (∀ m ∈ t, m ≠ .subscribeFails ∧ m ≠ .disposeFails) ∧ (.cancel ∈ t → l = .own .cancel) ∧ (made [l] = [] → inners t = []) := by
  cases l with
  | outer n =>
    have h : s.act p (.outer n) = some s' := h
    obtain ⟨out, h1, h2⟩ := act_some h
    rw [h2]
    exact ⟨by simp [made], _, rfl, rfl, by simp, by simp, fun _ => rfl⟩
  | call i n =>
    simp only [step] at h
    split at h
    · obtain rfl := (Option.some.inj h).symm
      exact ⟨rfl, [], by simp, rfl, by simp, by simp, fun _ => rfl⟩
    · obtain ⟨h1, h2, h3, h4, h5, h6, h7⟩ := tell_some hf h
      refine ⟨h2, _, h6, ?_, by simp, by simp, by simp [made]⟩
      simp [Merge.outerCalls, outers, List.filterMap_map, Function.comp_def]
  | own l =>
    have h : (s.act p l).map (fun t => ((t.unsubscribe base ((gone t.prod).drop (gone s.prod).length)).subscribe base
        ((started t.prod).drop (started s.prod).length))) = some s' ∧ Merge.outerCalls [l] = [] ∧ (l ≠ .subscribeFails ∧ l ≠ .disposeFails) ∧ inners [l] = [] := by
      cases l <;> first | (simp [step] at h; done) | exact ⟨h, rfl, by simp, rfl⟩
    obtain ⟨h, hl, hl2, hl3⟩ := h
    obtain ⟨t, h1, h2⟩ := Option.map_eq_some_iff.mp h
    obtain ⟨out, h3, h4⟩ := act_some h1
    have hu : ∀ (ks : List Nat) (u : State S α), (u.unsubscribe base ks).trace = u.trace ∧ (u.unsubscribe base ks).calls = u.calls := by
      intro ks
      induction ks with
      | nil => intro u; exact ⟨rfl, rfl⟩
      | cons k ks ih => intro u; exact ih _
    have hv : ∀ (is : List Nat) (u : State S α), (u.subscribe base is).trace = u.trace ∧ (u.subscribe base is).calls = u.calls := by
      intro is
      induction is with
      | nil => intro u; exact ⟨rfl, rfl⟩
      | cons i is ih => intro u; exact ih _
    subst h2
    rw [(hv _ _).1, (hv _ _).2, (hu _ _).1, (hu _ _).2, h4]
    refine ⟨by simp [made], [l], rfl, hl, fun m hm => ?_, fun hm => ?_, fun _ => hl3⟩
    · rw [List.mem_singleton.mp hm]; exact hl2
    · rw [List.mem_singleton.mp hm]

theorem trace_run (hf : Fits p started gone base) {ls : List (Label α)} {s : State S α}
    (hr : LTS.run (step p started gone base) (init p) ls = some s) :
    s.calls = made ls ∧ Merge.outerCalls s.trace = outers ls ∧ Merge.NoFailure s.trace ∧ (.cancel ∈ s.trace → .own .cancel ∈ ls) := by
  refine LTS.inv_hist (s0 := init p) (step := step p started gone base) (fun ls (s : State S α) => s.calls = made ls ∧ Merge.outerCalls s.trace = outers ls ∧ Merge.NoFailure s.trace ∧
    (.cancel ∈ s.trace → .own .cancel ∈ ls)) ⟨rfl, rfl, by simp [Merge.NoFailure, init], by simp [init]⟩ ?_ hr
  rintro ls s l s' ⟨h1, h2, h3, h4⟩ h
  obtain ⟨h5, t, h6, h7, h8, h9, -⟩ := step_trace hf h
  rw [made_append, outers_append, h5, h6, outerCalls_append, h7, h1, h2]
  refine ⟨rfl, rfl, ?_, fun hm => ?_⟩
  · refine ⟨fun hm => ?_, fun hm => ?_⟩ <;> rcases List.mem_append.mp hm with hm | hm
    · exact h3.1 hm
    · exact (h8 _ hm).1 rfl
    · exact h3.2 hm
    · exact (h8 _ hm).2 rfl
  · rcases List.mem_append.mp hm with hm | hm
    · exact List.mem_append.mpr (.inl (h4 hm))
    · simp [h9 hm]

theorem lawful_run (hf : Fits p started gone base) {ls : List (Label α)} {s : State S α}
    (hr : LTS.run (step p started gone base) (init p) ls = some s) (hg : Grammar (outers ls)) : Merge.Lawful s.trace :=
  ⟨by rw [(trace_run hf hr).2.1]; exact hg, (inv_run hf hr).inner_grammar⟩

theorem not_stopped (hf : Fits p started gone base) {ls : List (Label α)} {s : State S α}
    (hr : LTS.run (step p started gone base) (init p) ls = some s) (hu : Undisturbed ls) :
    .cancel ∉ s.trace ∧ (∀ e, .outer (.error e) ∉ s.trace) ∧ ¬ Merge.Stopped s.trace := by
  obtain ⟨-, h2, -, h4⟩ := trace_run hf hr
  have h5 : ∀ e, .outer (.error e) ∉ s.trace := fun e he => by
    have : Notif.error e ∈ outers ls := by rw [← h2]; exact Switch.mem_outerCalls.mp he
    simp only [outers, List.mem_filterMap] at this
    obtain ⟨l, hl, h⟩ := this
    cases l <;> simp at h
    subst h; exact hu.2 e hl
  have h6 : .cancel ∉ s.trace := fun h => hu.1 (h4 h)
  exact ⟨h6, h5, fun h => h.elim h6 fun ⟨e, he⟩ => h5 e he⟩

theorem arrivals_eq {ls : List (Merge.Label Nat α)} (he : ∀ e, .outer (.error e) ∉ ls) :
    Merge.arrivals ls = Merge.noDone ((inners ls).map (·.2)) := by
  induction ls with
  | nil => rfl
  | cons l ls ih =>
    have h1 : Merge.arrivals (l :: ls) = Merge.arrivals [l] ++ Merge.arrivals ls := List.filterMap_append (l := [l])
    have h2 : inners (l :: ls) = inners [l] ++ inners ls := inners_append [l] ls
    rw [h1, h2, List.map_append, Merge.noDone_append, ih fun e h => he e (by simp [h])]
    congr 1
    cases l with
    | inner j n => cases n <;> rfl
    | outer n => cases n with
      | error e => exact absurd (by simp) (he e)
      | _ => rfl
    | _ => rfl

theorem done_iff {ns : List (Notif α)} (hg : Grammar ns) : (story ns).fin = .done ↔ .completed ∈ ns := by
  refine ⟨fun h => ?_, Switch.fin_of_mem_completed hg⟩
  obtain ⟨⟨vs, f⟩, rfl⟩ := hg
  rw [story_events] at h
  cases f <;> simp [Story.events] at h ⊢

/-- What has been disposed ends; nothing else does. -/
theorem until_none (hf : Fits p started gone base) {ls : List (Label α)} {s : State S α}
    (hr : LTS.run (step p started gone base) (init p) ls = some s) (hg : gone s.prod = []) : ∀ x ∈ s.subs, x.until_ = none := by
  revert hg
  refine LTS.inv_reach (s0 := init p) (step := step p started gone base) (fun _ (s : State S α) => gone s.prod = [] → ∀ x ∈ s.subs, x.until_ = none) (by simp [init]) ?_ hr
  intro ls s l s' hr ih h hg
  have hi := inv_run hf hr
  cases l with
  | outer n =>
    have h : s.act p (.outer n) = some s' := h
    obtain ⟨out, h1, h2⟩ := act_some h
    rw [(hf.outer _ _ _ _ h1).2] at hg
    rw [h2]; exact ih hg
  | call i n =>
    simp only [step] at h
    split at h
    · obtain rfl := (Option.some.inj h).symm
      exact ih hg
    · obtain ⟨h1, h2, h3, h4, h5, h6, h7⟩ := tell_some hf h
      rw [h5] at hg
      rw [h3]; exact ih hg
  | own l =>
    have h : (s.act p l).map (fun t => ((t.unsubscribe base ((gone t.prod).drop (gone s.prod).length)).subscribe base
        ((started t.prod).drop (started s.prod).length))) = some s' ∧ inners [l] = [] := by
      cases l <;> first | (simp [step] at h; done) | exact ⟨h, rfl⟩
    obtain ⟨h, hl⟩ := h
    obtain ⟨t, h1, h2⟩ := Option.map_eq_some_iff.mp h
    obtain ⟨out, h3, h4⟩ := act_some h1
    have ht : Part base t := by
      rw [h4]
      refine ⟨hi.obs, hi.stopped, hi.times, ?_⟩
      show inners (s.trace ++ [_]) = _
      rw [inners_append, hi.told, hl]; simp
    obtain ⟨u1, u2, u3, u4, u5, u6⟩ := unsubscribe_part (ks := (gone t.prod).drop (gone s.prod).length) ht
    obtain ⟨v1, v2, v3, v4, v5, v6⟩ := subscribe_part (is := (started t.prod).drop (started s.prod).length) u1
    subst h2
    rw [v3, u3] at hg
    have hgs : gone s.prod = [] := by
      have := (hf.grows _ _ _ _ h3).2
      rw [hg] at this
      exact List.prefix_nil.mp this
    rw [v2, hg]
    intro x hx
    rcases List.mem_append.mp hx with hx | hx
    · refine ih hgs x ?_
      have h5 : t.subs = s.subs := by rw [h4]
      rw [← h5]
      simpa [State.unsubscribe] using hx
    · obtain ⟨i, -, rfl⟩ := List.mem_map.mp hx
      rfl

theorem unsubscribe_since : ∀ {ks : List Nat} {s : State S α}, (s.unsubscribe base ks).subs.map Sub.since = s.subs.map Sub.since := by
  intro ks
  induction ks with
  | nil => intro s; rfl
  | cons k ks ih => intro s; rw [State.unsubscribe, mark_eq]; exact ih.trans mark_since

/-- Subscriptions begin now. -/
theorem step_since (hf : Fits p started gone base) {s s' : State S α} {l : Label α} (hi : Inv p started base s)
    (h : step p started gone base s l = some s') : ∃ m, s'.subs.map Sub.since = s.subs.map Sub.since ++ List.replicate m s.calls.length ∧
      s.subs.map Sub.subject <+: s'.subs.map Sub.subject ∧ (m = 0 ∨ s'.calls = s.calls) := by
  cases l with
  | outer n =>
    have h : s.act p (.outer n) = some s' := h
    obtain ⟨out, h1, h2⟩ := act_some h
    exact ⟨0, by rw [h2]; simp, by rw [h2]; exact List.prefix_refl _, .inl rfl⟩
  | call i n =>
    simp only [step] at h
    split at h
    · obtain rfl := (Option.some.inj h).symm
      exact ⟨0, by simp, List.prefix_refl _, .inl rfl⟩
    · obtain ⟨h1, h2, h3, h4, h5, h6, h7⟩ := tell_some hf h
      exact ⟨0, by rw [h3]; simp, by rw [h3]; exact List.prefix_refl _, .inl rfl⟩
  | own l =>
    have h : (s.act p l).map (fun t => ((t.unsubscribe base ((gone t.prod).drop (gone s.prod).length)).subscribe base
        ((started t.prod).drop (started s.prod).length))) = some s' ∧ inners [l] = [] := by
      cases l <;> first | (simp [step] at h; done) | exact ⟨h, rfl⟩
    obtain ⟨h, hl⟩ := h
    obtain ⟨t, h1, h2⟩ := Option.map_eq_some_iff.mp h
    obtain ⟨out, h3, h4⟩ := act_some h1
    have ht : Part base t := by
      rw [h4]
      refine ⟨hi.obs, hi.stopped, hi.times, ?_⟩
      show inners (s.trace ++ [_]) = _
      rw [inners_append, hi.told, hl]; simp
    obtain ⟨u1, u2, u3, u4, u5, u6⟩ := unsubscribe_part (ks := (gone t.prod).drop (gone s.prod).length) ht
    obtain ⟨v1, v2, v3, v4, v5, v6⟩ := subscribe_part (is := (started t.prod).drop (started s.prod).length) u1
    subst h2
    have h5 : t.subs = s.subs ∧ t.calls = s.calls := by rw [h4]; exact ⟨rfl, rfl⟩
    refine ⟨((started t.prod).drop (started s.prod).length).length, ?_, ?_, .inr (by rw [v6, u6, h5.2])⟩
    rotate_left
    · rw [v2, List.map_append, u2, h5.1]; exact List.prefix_append ..
    rw [v2, List.map_append, unsubscribe_since, u6, h5.1, h5.2]
    congr 1
    rw [List.map_map]
    exact List.map_const' ..

/-- A subscription that is made later hears only what is sent later. -/
theorem since_later (hf : Fits p started gone base) {b : List (Label α)} : ∀ {s1 s : State S α}, Inv p started base s1 →
    LTS.run (step p started gone base) s1 b = some s → s1.calls <+: s.calls ∧
      ∃ ts, s.subs.map Sub.since = s1.subs.map Sub.since ++ ts ∧ ∀ t ∈ ts, s1.calls.length ≤ t := by
  induction b with
  | nil =>
    intro s1 s hi hr
    simp only [LTS.run, Option.some.injEq] at hr
    subst hr
    exact ⟨List.prefix_refl _, [], by simp, by simp⟩
  | cons l b ih =>
    intro s1 s hi hr
    obtain ⟨s2, h1, h2⟩ := LTS.run_cons.mp hr
    obtain ⟨i1, ts, i2, i3⟩ := ih (inv_step hf hi h1) h2
    obtain ⟨m, h3, -⟩ := step_since hf hi h1
    have hc := (step_trace hf h1).1
    refine ⟨(hc ▸ List.prefix_append _ _ : s1.calls <+: s2.calls).trans i1, List.replicate m s1.calls.length ++ ts, by rw [i2, h3, List.append_assoc], fun t ht => ?_⟩
    rcases List.mem_append.mp ht with ht | ht
    · rw [List.eq_of_mem_replicate ht]; exact Nat.le_refl _
    · have := i3 t ht
      rw [hc, List.length_append] at this
      omega

end Aio.Hot
