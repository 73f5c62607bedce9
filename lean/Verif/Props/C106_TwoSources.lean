import Verif.Model.TwoSources
import Verif.Props.C49_54_Combine
import Verif.Props.C101_103_Piped
/-!
# C106: operators with two sources, behind any two sources
-/

namespace Aio
open Spec
variable {S₁ L₁ S₂ L₂ P W α β γ : Type}

/-! ## with workers and observers that suspend -/

theorem seq_delivers_slow {St Lab ι : Type} {p : Proc St Lab ι (Notif α)} {f : List ι → List (Notif α)} (hp : p.Implements f) (ht : p.Terminates)
    {F : List ι → Story α} (hF : ∀ is, story (f is) = F is) {op : Operator α γ} {G : Story α → Story γ} (ho : op.Computes G) :
    DeliversFrom (Proc.seq p op.protected.slowProc) fun is => G (F is) := by
  have hs := ho.guarded.slow
  have hi : op.protected.slowProc.Implements fun ns => (G (story ns)).events := fun es s out h =>
    ⟨hs.prefix_ es s out h trivial, hs.all es s out h trivial⟩
  have hmono : ∀ xs ys : List (Notif α), xs <+: ys → (G (story xs)).events <+: (G (story ys)).events := fun _ _ => hi.mono hs.ends
  have := Proc.seq_implements hp hi hmono
  refine ⟨fun es s out h => ?_, fun es s out h hq => ?_, Proc.seq_terminates ht hs.ends⟩
  · have := (this es s out h).1; simpa only [hF] using this
  · have := (this es s out h).2 hq; simpa only [hF] using this

/-- C53 with suspensions everywhere. -/
theorem C106_combine_latest {op : Operator (α × β) γ} {G : Story (α × β) → Story γ} (ho : op.Computes G) :
    DeliversFrom (combineLatestSlow op) fun is => G (Spec.combineLatest is) :=
  seq_delivers_slow (Proc.slow_implements _) (Proc.slow_terminates _) (fun is => by
    have := combineLatest_run is ([] : List (α ⊕ β))
    simp only [List.nil_append] at this
    exact this) ho

/-- C54 with suspensions everywhere. -/
theorem C106_with_latest_from {op : Operator (α × β) γ} {G : Story (α × β) → Story γ} (ho : op.Computes G) :
    DeliversFrom (withLatestFromSlow op) fun is => G (Spec.withLatestFrom is) :=
  seq_delivers_slow (Proc.slow_implements _) (Proc.slow_terminates _) (fun is => by
    have := withLatest_run is ([] : List (α ⊕ β))
    simp only [List.nil_append] at this
    exact this) ho

/-- C49 with suspensions everywhere. -/
theorem C106_take_until {op : Operator α γ} {G : Story α → Story γ} (ho : op.Computes G) :
    DeliversFrom (takeUntilSlow β op) fun is => G (Spec.takeUntil is) :=
  seq_delivers_slow (Proc.direct_implements _) (Proc.direct_terminates _) takeUntil_run ho

/-! ## any two sources -/

namespace Two
variable {q₁ : Source S₁ L₁ α} {q₂ : Source S₂ L₂ β} {p : Proc P W (Notif α ⊕ Notif β) (Notif γ)}

theorem grows : (q₁.two q₂ p).Grows := by
  refine ⟨rfl, fun s l s' h => ?_⟩
  cases l <;> simp only [Source.two, step] at h <;> split at h <;> cases h <;> exact List.prefix_append _ _

private theorem lefts_inl (ns : List (Notif α)) : (ns.map (Sum.inl (β := Notif β))).filterMap Sum.getLeft? = ns := by
  simp [List.filterMap_map, Function.comp_def]
private theorem rights_inl (ns : List (Notif α)) : (ns.map (Sum.inl (β := Notif β))).filterMap Sum.getRight? = [] := by
  simp [List.filterMap_map, Function.comp_def]
private theorem lefts_inr (ns : List (Notif β)) : (ns.map (Sum.inr (α := Notif α))).filterMap Sum.getLeft? = [] := by
  simp [List.filterMap_map, Function.comp_def]
private theorem rights_inr (ns : List (Notif β)) : (ns.map (Sum.inr (α := Notif α))).filterMap Sum.getRight? = ns := by
  simp [List.filterMap_map, Function.comp_def]

/-- A run: a run of each source, and a run of the operator that is fed the sources' calls. -/
theorem split (h₁ : q₁.Grows) (h₂ : q₂.Grows) {ls : List (Label L₁ L₂ W)} {s : State S₁ S₂ P α β γ}
    (hr : LTS.run (step q₁ q₂ p) (init q₁ q₂ p) ls = some s) :
    LTS.run q₁.step q₁.init (lefts ls) = some s.left ∧ LTS.run q₂.step q₂.init (rights ls) = some s.right ∧
    s.arrived.filterMap Sum.getLeft? = q₁.out s.left ∧ s.arrived.filterMap Sum.getRight? = q₂.out s.right ∧
    ∃ es, p.exec p.init es = some (s.ps, s.outs) ∧ Proc.inputs es = s.arrived := by
  refine LTS.inv_hist (step := step q₁ q₂ p) (fun ls s => LTS.run q₁.step q₁.init (lefts ls) = some s.left ∧
    LTS.run q₂.step q₂.init (rights ls) = some s.right ∧
    s.arrived.filterMap Sum.getLeft? = q₁.out s.left ∧ s.arrived.filterMap Sum.getRight? = q₂.out s.right ∧
    ∃ es, p.exec p.init es = some (s.ps, s.outs) ∧ Proc.inputs es = s.arrived) (s0 := init q₁ q₂ p) ?_ ?_ hr
  · exact ⟨rfl, rfl, h₁.init.symm, h₂.init.symm, [], rfl, rfl⟩
  rintro ls s l s' ⟨g1, g2, g3, g4, es, g5, g6⟩ h
  have ha : lefts (ls ++ [l]) = lefts ls ++ lefts [l] := List.filterMap_append ..
  have hb : rights (ls ++ [l]) = rights ls ++ rights [l] := List.filterMap_append ..
  rw [ha, hb]
  cases l with
  | left l =>
    simp only [step] at h
    split at h
    · cases h
    · next t ht =>
      cases h
      refine ⟨LTS.run_append.mpr ⟨_, g1, LTS.run_cons.mpr ⟨_, ht, rfl⟩⟩, by simpa [rights] using g2, ?_, ?_, _,
        Proc.exec_append _ g5 (Proc.exec_map_feed _ _ _), by rw [Proc.inputs_append, Proc.inputs_map_feed, g6]⟩
      · dsimp only; rw [List.filterMap_append, g3, lefts_inl]; exact h₁.drop ht
      · dsimp only; rw [List.filterMap_append, g4, rights_inl, List.append_nil]
  | right l =>
    simp only [step] at h
    split at h
    · cases h
    · next t ht =>
      cases h
      refine ⟨by simpa [lefts] using g1, LTS.run_append.mpr ⟨_, g2, LTS.run_cons.mpr ⟨_, ht, rfl⟩⟩, ?_, ?_, _,
        Proc.exec_append _ g5 (Proc.exec_map_feed _ _ _), by rw [Proc.inputs_append, Proc.inputs_map_feed, g6]⟩
      · dsimp only; rw [List.filterMap_append, g3, lefts_inr, List.append_nil]
      · dsimp only; rw [List.filterMap_append, g4, rights_inr]; exact h₂.drop ht
  | worker l =>
    simp only [step] at h
    split at h
    · cases h
    · next t o ht =>
      cases h
      exact ⟨by simpa [lefts] using g1, by simpa [rights] using g2, g3, g4, es ++ [.step l],
        Proc.exec_append _ g5 (Proc.exec_step_intro (o2 := []) ht rfl |>.trans (by simp)), by simp [g6]⟩

/-- The workers on their own. -/
theorem run_workers : ∀ (ls : List W) (s : State S₁ S₂ P α β γ) {t out}, p.exec s.ps (ls.map .step) = some (t, out) →
    LTS.run (step q₁ q₂ p) s (ls.map .worker) = some { s with ps := t, outs := s.outs ++ out } := by
  intro ls
  induction ls with
  | nil =>
    intro s t out h
    simp at h
    obtain ⟨rfl, rfl⟩ := h
    simp [LTS.run]
  | cons l ls ih =>
    intro s t out h
    obtain ⟨s1, o1, o2, h1, h2, rfl⟩ := Proc.exec_step_inv h
    refine LTS.run_cons.mpr ⟨{ s with ps := s1, outs := s.outs ++ o1 }, by simp only [step, h1], ?_⟩
    rw [ih _ h2]
    simp

end Two

/-- C106, whatever the two sources: what each of them has done is a run of its own; their calls have come in in some order; at any
time the final observer has got an initial part of what the operator makes of these calls in that order, in the Rx grammar, and all
of it when the workers have nothing left to do; they always get there. -/
theorem C106_delivers {q₁ : Source S₁ L₁ α} {q₂ : Source S₂ L₂ β} (h₁ : q₁.Grows) (h₂ : q₂.Grows) {p : Proc P W (Notif α ⊕ Notif β) (Notif γ)}
    {F : List (Notif α ⊕ Notif β) → Story γ} (hp : DeliversFrom p F) {ls : List (Two.Label L₁ L₂ W)} {s : Two.State S₁ S₂ P α β γ}
    (hr : LTS.run (Two.step q₁ q₂ p) (Two.init q₁ q₂ p) ls = some s) :
    (LTS.run q₁.step q₁.init (Two.lefts ls) = some s.left ∧ LTS.run q₂.step q₂.init (Two.rights ls) = some s.right) ∧
    (s.arrived.filterMap Sum.getLeft? = q₁.out s.left ∧ s.arrived.filterMap Sum.getRight? = q₂.out s.right) ∧
    s.outs <+: (F s.arrived).events ∧ Grammar s.outs ∧ (p.Quiescent s.ps → s.outs = (F s.arrived).events) ∧
    ∃ (ws : List W) (s' : Two.State S₁ S₂ P α β γ), LTS.run (Two.step q₁ q₂ p) s (ws.map .worker) = some s' ∧
      s'.left = s.left ∧ s'.right = s.right ∧ s'.arrived = s.arrived ∧ p.Quiescent s'.ps := by
  obtain ⟨g1, g2, g3, g4, es, g5, g6⟩ := Two.split h₁ h₂ hr
  have h3 := hp.prefix_ es _ _ g5
  rw [g6] at h3
  refine ⟨⟨g1, g2⟩, ⟨g3, g4⟩, h3, grammar_prefix h3 ⟨_, rfl⟩, fun hq => g6 ▸ hp.all es _ _ g5 hq, ?_⟩
  obtain ⟨ws, t, out, hw, hqu⟩ := Proc.can_finish hp.ends s.ps
  exact ⟨ws, _, Two.run_workers ws s hw, rfl, rfl, rfl, hqu⟩

/-- In which order the calls of the sources come in in a schedule. -/
def Two.arrivals (q₁ : Source S₁ L₁ α) (q₂ : Source S₂ L₂ β) (p : Proc P W (Notif α ⊕ Notif β) (Notif γ)) (ls : List (Two.Label L₁ L₂ W)) :
    List (Notif α ⊕ Notif β) :=
  ((LTS.run (Two.step q₁ q₂ p) (Two.init q₁ q₂ p) ls).map (·.arrived)).getD []

/-- C106: so it is a source to which C101 and C102 apply again: operators and `run` behind it, `flat_map` behind that, and so on. -/
theorem C106_sends {q₁ : Source S₁ L₁ α} {q₂ : Source S₂ L₂ β} (h₁ : q₁.Grows) (h₂ : q₂.Grows) {p : Proc P W (Notif α ⊕ Notif β) (Notif γ)}
    {F : List (Notif α ⊕ Notif β) → Story γ} (hp : DeliversFrom p F) :
    (q₁.two q₂ p).Grows ∧ (q₁.two q₂ p).Sends (fun _ _ => True) (fun _ s => p.Quiescent s.ps) (fun ls => F (Two.arrivals q₁ q₂ p ls)) := by
  have ha : ∀ {ls s}, LTS.run (q₁.two q₂ p).step (q₁.two q₂ p).init ls = some s → Two.arrivals q₁ q₂ p ls = s.arrived := by
    intro ls s hr
    have hr : LTS.run (Two.step q₁ q₂ p) (Two.init q₁ q₂ p) ls = some s := hr
    simp [Two.arrivals, hr]
  refine ⟨Two.grows, fun ls s hr _ => ?_, fun ls s hr _ hq => ?_⟩
  · rw [ha hr]; exact (C106_delivers h₁ h₂ hp hr).2.2.1
  · rw [ha hr]; exact (C106_delivers h₁ h₂ hp hr).2.2.2.2.1 hq

/-! ## what does not depend on the order of arrival -/

/-- As long as neither source has ended all values count. -/
theorem both_running {is : List (Notif α ⊕ Notif β)} (hl : (story (is.filterMap Sum.getLeft?)).fin = .running)
    (hr : (story (is.filterMap Sum.getRight?)).fin = .running) :
    (both is).2 = .running ∧ (both is).1.filterMap Sum.getLeft? = values (is.filterMap Sum.getLeft?) ∧
    (both is).1.filterMap Sum.getRight? = values (is.filterMap Sum.getRight?) := by
  induction is with
  | nil => exact ⟨rfl, rfl, rfl⟩
  | cons i is ih =>
    match i with
    | .inl (.next a) =>
      obtain ⟨h1, h2, h3⟩ := ih (by simpa [story] using hl) hr
      exact ⟨h1, by simpa [both, values, story] using h2, h3⟩
    | .inr (.next b) =>
      obtain ⟨h1, h2, h3⟩ := ih hl (by simpa [story] using hr)
      exact ⟨h1, h2, by simpa [both, values, story] using h3⟩
    | .inl (.error e) => simp at hl
    | .inl .completed => simp at hl
    | .inr (.error e) => simp at hr
    | .inr .completed => simp at hr

private theorem newest_last (vs : List (α ⊕ β)) :
    ((List.range vs.length).filterMap fun i => newest (vs.take (i + 1))).getLast? = newest vs := by
  have hnone : ∀ us : List (α ⊕ β), newest us = none → ∀ i, newest (us.take i) = none := by
    intro us hu i
    have key : ∀ {us : List (α ⊕ β)}, newest us = none ↔ us.filterMap Sum.getLeft? = [] ∨ us.filterMap Sum.getRight? = [] := by
      intro us
      rw [newest, newestL, newestR]
      rw [← List.getLast?_eq_none_iff, ← List.getLast?_eq_none_iff]
      cases (us.filterMap Sum.getLeft?).getLast? <;> cases (us.filterMap Sum.getRight?).getLast? <;> simp
    rw [key] at hu ⊢
    have hpre : ∀ {δ : Type} (f : α ⊕ β → Option δ), us.filterMap f = [] → (us.take i).filterMap f = [] := by
      intro δ f h
      rw [List.filterMap_eq_nil_iff] at h ⊢
      exact fun x hx => h x (List.mem_of_mem_take hx)
    exact hu.imp (hpre _) (hpre _)
  cases hn : newest vs with
  | none =>
    have : ((List.range vs.length).filterMap fun i => newest (vs.take (i + 1))) = [] := by
      rw [List.filterMap_eq_nil_iff]; exact fun i _ => hnone vs hn _
    rw [this]; rfl
  | some x =>
    cases hv : vs.length with
    | zero =>
      have : vs = [] := List.length_eq_zero_iff.mp hv
      subst this
      simp [newest, newestL] at hn
    | succ n =>
      rw [List.range_succ, List.filterMap_append]
      have : newest (vs.take (n + 1)) = some x := by rw [← hv, List.take_length]; exact hn
      simp [this]

/-- C106 for `combine_latest`, in any order of arrival: while neither source has ended, the last pair consists of the last values of
both, and there is none as long as one of them has sent nothing. -/
theorem C106_last_pair {is : List (Notif α ⊕ Notif β)} (hl : (story (is.filterMap Sum.getLeft?)).fin = .running)
    (hr : (story (is.filterMap Sum.getRight?)).fin = .running) :
    (Spec.combineLatest is).fin = .running ∧
    (Spec.combineLatest is).vals.getLast? = (values (is.filterMap Sum.getLeft?)).getLast?.bind fun a =>
      (values (is.filterMap Sum.getRight?)).getLast?.map fun b => (a, b) := by
  obtain ⟨h1, h2, h3⟩ := both_running hl hr
  refine ⟨h1, ?_⟩
  rw [Spec.combineLatest]
  dsimp only
  rw [newest_last, newest, newestL, newestR, h2, h3]
  cases (values (is.filterMap Sum.getLeft?)).getLast? <;> cases (values (is.filterMap Sum.getRight?)).getLast? <;> rfl

theorem both_left_prefix (is : List (Notif α ⊕ Notif β)) : (both is).1.filterMap Sum.getLeft? <+: values (is.filterMap Sum.getLeft?) := by
  induction is with
  | nil => exact List.prefix_refl _
  | cons i is ih =>
    match i with
    | .inl (.next a) => simpa [both, values, story] using ih
    | .inr (.next b) => exact ih
    | .inl (.error e) => exact List.nil_prefix
    | .inl .completed => exact List.nil_prefix
    | .inr (.error e) => exact List.nil_prefix
    | .inr .completed => exact List.nil_prefix

theorem both_right_prefix (is : List (Notif α ⊕ Notif β)) : (both is).1.filterMap Sum.getRight? <+: values (is.filterMap Sum.getRight?) := by
  induction is with
  | nil => exact List.prefix_refl _
  | cons i is ih =>
    match i with
    | .inl (.next a) => exact ih
    | .inr (.next b) => simpa [both, values, story] using ih
    | .inl (.error e) => exact List.nil_prefix
    | .inl .completed => exact List.nil_prefix
    | .inr (.error e) => exact List.nil_prefix
    | .inr .completed => exact List.nil_prefix

/-- C106 for `combine_latest`: nothing is made up. -/
theorem C106_pairs_of_values {is : List (Notif α ⊕ Notif β)} {x : α × β} (hx : x ∈ (Spec.combineLatest is).vals) :
    x.1 ∈ values (is.filterMap Sum.getLeft?) ∧ x.2 ∈ values (is.filterMap Sum.getRight?) := by
  simp only [Spec.combineLatest, List.mem_filterMap] at hx
  obtain ⟨i, -, hx⟩ := hx
  have hsub : ∀ {δ : Type} (f : α ⊕ β → Option δ) (y : δ), ((((both is).1.take (i + 1)).filterMap f).getLast? = some y) → y ∈ (both is).1.filterMap f := by
    intro δ f y h
    have := List.mem_of_getLast? h
    rw [List.mem_filterMap] at this ⊢
    obtain ⟨z, hz, hf⟩ := this
    exact ⟨z, List.mem_of_mem_take hz, hf⟩
  rw [newest, newestL, newestR] at hx
  split at hx
  · next a b ha hb =>
    cases hx
    exact ⟨(both_left_prefix is).subset (hsub _ _ ha), (both_right_prefix is).subset (hsub _ _ hb)⟩
  · cases hx

private theorem with_latest_suffix (vs : List (α ⊕ β)) : ∀ pre : List (α ⊕ β),
    ((List.range vs.length).filterMap fun i =>
      match (vs[i]? : Option (α ⊕ β)) with
      | some (.inl a) => (newestR (pre ++ vs.take i)).map fun b => (a, b)
      | _ => none).map (·.1) <:+ vs.filterMap Sum.getLeft? ∧
    ((newestR pre).isSome → ((List.range vs.length).filterMap fun i =>
      match (vs[i]? : Option (α ⊕ β)) with
      | some (.inl a) => (newestR (pre ++ vs.take i)).map fun b => (a, b)
      | _ => none).map (·.1) = vs.filterMap Sum.getLeft?) := by
  induction vs with
  | nil => intro pre; simp
  | cons x vs ih =>
    intro pre
    simp only [List.length_cons, List.range_succ_eq_map, List.filterMap_cons, List.filterMap_map]
    have := ih (pre ++ [x])
    rw [newestR_snoc] at this
    cases x with
    | inl a =>
      cases h : newestR pre with
      | none =>
        refine ⟨?_, by simp⟩
        simp only [h] at this
        have := this.1.trans (List.suffix_cons a _)
        simpa [Function.comp_def, h] using this
      | some b =>
        have := this.2 (by simp [h])
        have e : a :: _ = a :: _ := congrArg (a :: ·) this
        simp only [Function.comp_def, List.getElem?_cons_zero, List.take_zero, List.append_nil, h, Option.map_some, List.getElem?_cons_succ,
          List.take_succ_cons, List.map_cons, Sum.getLeft?_inl]
        simp only [List.append_assoc, List.singleton_append] at e
        rw [e]
        exact ⟨List.suffix_refl _, fun _ => rfl⟩
    | inr b =>
      have := this.2 (by simp)
      simp only [List.append_assoc, List.singleton_append] at this
      simp only [Function.comp_def, List.getElem?_cons_zero, List.getElem?_cons_succ, List.take_succ_cons, Sum.getLeft?_inr]
      rw [this]
      exact ⟨List.suffix_refl _, fun _ => rfl⟩

/-- C106 for `with_latest_from`, in any order of arrival: while neither source has ended, the elements of the source that come through
are all those from some point on (the first value of `other`). -/
theorem C106_from_then_on {is : List (Notif α ⊕ Notif β)} (hl : (story (is.filterMap Sum.getLeft?)).fin = .running)
    (hr : (story (is.filterMap Sum.getRight?)).fin = .running) :
    (Spec.withLatestFrom is).fin = .running ∧ (Spec.withLatestFrom is).vals.map (·.1) <:+ values (is.filterMap Sum.getLeft?) := by
  obtain ⟨h1, h2, -⟩ := both_running hl hr
  refine ⟨h1, ?_⟩
  rw [← h2]
  exact (with_latest_suffix (both is).1 []).1

/-- C106 for `take_until`, in any order of arrival: the elements are an initial part of the source's; if `other` has neither sent
anything nor failed, the stream is the source's; otherwise it has ended. -/
theorem C106_until (is : List (Notif α ⊕ Notif β)) :
    (Spec.takeUntil is).vals <+: values (is.filterMap Sum.getLeft?) ∧
    ((∀ n ∈ is.filterMap Sum.getRight?, n = .completed) → Spec.takeUntil is = story (is.filterMap Sum.getLeft?)) ∧
    ((∃ n ∈ is.filterMap Sum.getRight?, n ≠ .completed) → (Spec.takeUntil is).fin ≠ .running) := by
  induction is with
  | nil => exact ⟨List.prefix_refl _, fun _ => rfl, fun ⟨_, h, _⟩ => by cases h⟩
  | cons i is ih =>
    obtain ⟨h1, h2, h3⟩ := ih
    match i with
    | .inl (.next a) =>
      refine ⟨by simpa [Spec.takeUntil, values, story] using h1, fun h => ?_, fun h => h3 h⟩
      have := h2 h
      simp [Spec.takeUntil, story, this]
    | .inr .completed => exact ⟨h1, fun h => h2 fun n hn => h n (List.mem_cons_of_mem _ hn), fun ⟨n, hn, hne⟩ => h3 (by
        rcases List.mem_cons.mp (show n ∈ Notif.completed :: is.filterMap Sum.getRight? from hn) with h | h
        · exact absurd h hne
        · exact ⟨n, h, hne⟩)⟩
    | .inl (.error e) => exact ⟨List.nil_prefix, fun _ => rfl, fun _ h => by cases h⟩
    | .inl .completed => exact ⟨List.nil_prefix, fun _ => rfl, fun _ h => by cases h⟩
    | .inr (.next b) => exact ⟨List.nil_prefix, fun h => absurd (h (.next b) (List.mem_cons_self ..)) (by simp), fun _ h => by cases h⟩
    | .inr (.error e) => exact ⟨List.nil_prefix, fun h => absurd (h (.error e) (List.mem_cons_self ..)) (by simp), fun _ h => by cases h⟩

/-! ## put together -/

theorem values_events (s : Story α) : values s.events = s.vals := by rw [values, story_events]

theorem values_prefix {xs ys : List (Notif α)} (h : xs <+: ys) : values xs <+: values ys := by
  obtain ⟨zs, rfl⟩ := h
  induction xs with
  | nil => exact List.nil_prefix
  | cons x xs ih =>
    cases x with
    | next a => simpa [values, story] using ih
    | error e => exact List.prefix_refl _
    | completed => exact List.prefix_refl _

/-- C106, `pipe(source, combine_latest(other))` for any two sources: when the workers are at rest and neither source has ended, the last
pair the subscriber has got is that of the last values of both. -/
theorem C106_combine_latest_at_rest {q₁ : Source S₁ L₁ α} {q₂ : Source S₂ L₂ β} (h₁ : q₁.Grows) (h₂ : q₂.Grows)
    {ls s} (hr : LTS.run (Two.step q₁ q₂ (combineLatestSlow Operator.id)) (Two.init q₁ q₂ (combineLatestSlow Operator.id)) ls = some s)
    (hl : (story (q₁.out s.left)).fin = .running) (hr' : (story (q₂.out s.right)).fin = .running)
    (hq : (combineLatestSlow (Operator.id (α := α × β))).Quiescent s.ps) :
    (values s.outs).getLast? = (values (q₁.out s.left)).getLast?.bind fun a => (values (q₂.out s.right)).getLast?.map fun b => (a, b) := by
  obtain ⟨-, ⟨g1, g2⟩, -, -, g3, -⟩ := C106_delivers h₁ h₂ (C106_combine_latest id_computes) hr
  rw [← g1] at hl
  rw [← g2] at hr'
  have := (C106_last_pair hl hr').2
  rw [g3 hq, values, story_events, this, g1, g2]

/-- C106, `pipe(source, with_latest_from(other))` for any two sources: while neither has ended, whatever the subscriber has got consists
of consecutive elements of the source, each once and in order; at rest, up to its last one. -/
theorem C106_with_latest_from_at_rest {q₁ : Source S₁ L₁ α} {q₂ : Source S₂ L₂ β} (h₁ : q₁.Grows) (h₂ : q₂.Grows)
    {ls s} (hr : LTS.run (Two.step q₁ q₂ (withLatestFromSlow Operator.id)) (Two.init q₁ q₂ (withLatestFromSlow Operator.id)) ls = some s)
    (hl : (story (q₁.out s.left)).fin = .running) (hr' : (story (q₂.out s.right)).fin = .running) :
    (values s.outs).map (·.1) <:+: values (q₁.out s.left) ∧
    ((withLatestFromSlow (Operator.id (α := α × β))).Quiescent s.ps → (values s.outs).map (·.1) <:+ values (q₁.out s.left)) := by
  obtain ⟨-, ⟨g1, g2⟩, g4, -, g3, -⟩ := C106_delivers h₁ h₂ (C106_with_latest_from id_computes) hr
  rw [← g1] at hl ⊢
  rw [← g2] at hr'
  obtain ⟨hf, hs⟩ := C106_from_then_on hl hr'
  refine ⟨?_, fun hq => by rw [g3 hq, values, story_events]; exact hs⟩
  have hv := values_prefix g4
  rw [values_events] at hv
  exact ((hv.map _).isInfix).trans hs.isInfix

/-- C106, `pipe(source, take_until(other))` for any two sources: the subscriber gets an initial part of the source's elements; at rest
exactly the source's stream if `other` has neither sent anything nor failed, and otherwise a stream that has ended. -/
theorem C106_take_until_at_rest {q₁ : Source S₁ L₁ α} {q₂ : Source S₂ L₂ β} (h₁ : q₁.Grows) (h₂ : q₂.Grows)
    {ls s} (hr : LTS.run (Two.step q₁ q₂ (takeUntilSlow β Operator.id)) (Two.init q₁ q₂ (takeUntilSlow β Operator.id)) ls = some s) :
    values s.outs <+: values (q₁.out s.left) ∧
    ((takeUntilSlow β (Operator.id (α := α))).Quiescent s.ps →
      ((∀ n ∈ q₂.out s.right, n = .completed) → s.outs = cut (q₁.out s.left)) ∧
      ((∃ n ∈ q₂.out s.right, n ≠ .completed) → (story s.outs).fin ≠ .running)) := by
  obtain ⟨-, ⟨g1, g2⟩, g4, -, g3, -⟩ := C106_delivers h₁ h₂ (C106_take_until (β := β) id_computes) hr
  obtain ⟨u1, u2, u3⟩ := C106_until s.arrived
  rw [g1] at u1 u2
  rw [g2] at u2 u3
  have hv := values_prefix g4
  rw [values_events] at hv
  refine ⟨hv.trans u1, fun hq => ⟨fun h => by rw [g3 hq, cut, ← u2 h], fun h => ?_⟩⟩
  rw [g3 hq, story_events]
  exact u3 h

/-! ## the hypotheses can be met -/

namespace Two

/-- `pipe(interval(0, 1), combine_latest(interval(0, 1)))`: the source sends 0, `other` sends 0, the source sends 1; then the workers. -/
abbrev demo : List (Label Interval.Label Interval.Label (Unit ⊕ (Operator.id (α := Nat × Nat)).protected.compileSlow.SlowLab)) :=
  [.left .start, .right .start, .left .wake, .left .ret, .right .wake, .left .tick, .left .wake] ++
  ([.inl (), .inl (), .inl (), .inl (), .inl (), .inr (.inl ()), .inr (.inl ()), .inr (.inl ()), .inr (.inl ()),
    .inr (.inr ()), .inr (.inr ()), .inr (.inr ()), .inr (.inr ())].map .worker)

abbrev demoSource := Interval.source 0 0 1

example : (LTS.run (step demoSource demoSource (combineLatestSlow Operator.id)) (init demoSource demoSource (combineLatestSlow Operator.id)) demo).map
    (fun s => (s.outs, s.arrived, demoSource.out s.left, demoSource.out s.right)) =
    some ([.next (0, 0), .next (1, 0)], [.inl (.next 0), .inr (.next 0), .inl (.next 1)], [.next 0, .next 1], [.next 0]) := rfl
-- the workers are at rest
example : (LTS.run (step demoSource demoSource (combineLatestSlow Operator.id)) (init demoSource demoSource (combineLatestSlow Operator.id)) demo).map
    (fun s => s.ps) = some (([], [], (some 1, some 0)), (([], [], ()), ([], [], (true, ())))) := rfl
-- `with_latest_from`: 0 has come too early
example : (LTS.run (step demoSource demoSource (withLatestFromSlow Operator.id)) (init demoSource demoSource (withLatestFromSlow Operator.id))
    (demo.take 7 ++ [.worker (.inl ()), .worker (.inl ()), .worker (.inl ()), .worker (.inl ()), .worker (.inr (.inl ())), .worker (.inr (.inl ())),
      .worker (.inr (.inr ())), .worker (.inr (.inr ()))])).map
    (fun s => s.outs) = some [.next (1, 0)] := by decide
-- `pipe(interval(0, 1), take_until(timer(1)))`
example : (LTS.run (step demoSource (Interval.source 0 1 0) (takeUntilSlow Nat Operator.id))
    (init demoSource (Interval.source 0 1 0) (takeUntilSlow Nat Operator.id))
    ([.left .start, .right .start, .left .wake, .left .ret, .left .tick, .right .tick, .right .wake, .left .wake] ++
      ([.inr (.inl ()), .inr (.inl ()), .inr (.inl ()), .inr (.inl ()), .inr (.inl ()), .inr (.inl ()), .inr (.inr ()), .inr (.inr ()),
        .inr (.inr ()), .inr (.inr ()), .inr (.inr ())].map .worker))).map
    (fun s => (s.outs, demoSource.out s.left)) = some ([.next 0, .completed], [.next 0, .next 1]) := by decide

/-- The pieces fit together: `pipe(interval(s, p), combine_latest(pipe(interval(s', p'), take(n))), op, op')`. -/
example {op : Operator (Nat × Nat) β} {op' : Operator β γ} {G : Story (Nat × Nat) → Story β} {G' : Story β → Story γ} (hG : op.Computes G)
    (hG' : op'.Computes G') (s p s' p' : Int) (n : Nat) :=
  C101_pipe (C106_sends (Interval.source_grows 0 s p) (Source.pipe_grows (Interval.source 0 s' p') (takeOp (n : Int)).direct) (C106_combine_latest hG)).1
    hG'.guarded (fun _ _ => trivial)
    (C106_sends (Interval.source_grows 0 s p) (Source.pipe_grows (Interval.source 0 s' p') (takeOp (n : Int)).direct) (C106_combine_latest hG)).2.posts
    (fun _ _ _ _ => trivial)

end Two

end Aio
