import Verif.Model.Diamond
import Verif.Props.C106_TwoSources
import Verif.Props.C83_BackPressure
/-!
# C149-C151: a subject combined with something derived from it
-/

namespace Aio
open Spec
variable {A La B Lb P W α β γ δ : Type}

/-! ## what is claimed -/

namespace Spec

/-- The pairs one gets when of each value `v` first `f v` and then `g v` is taken notice of: with every value but the first, a pair that
belongs to no value. -/
def glitches (f : α → β) (g : α → γ) : List α → List (β × γ)
  | [] => []
  | v :: vs => (f v, g v) :: ((v :: vs).zip vs).flatMap fun p => [(f p.2, g p.1), (f p.2, g p.2)]

/-- Each value but the first, with what was derived from the one before. -/
def lagging (f : α → β) (g : α → γ) (vs : List α) : List (β × γ) := (vs.zip vs.tail).map fun p => (f p.2, g p.1)

/-- The part of a stream before the first value for which `g` yields something, sent through `f`; if there is such a value the stream is
complete. -/
def stopAt (f : α → Option β) (g : α → Option γ) (st : Story α) : Story β :=
  ⟨(st.vals.takeWhile fun v => (g v).isNone).filterMap f, if st.vals.any fun v => (g v).isSome then .done else st.fin⟩

/-- What becomes of a notification in a pipeline that looks at one value at a time. -/
def emit (f : α → Option β) : Notif α → List (Notif β)
  | .next v => (f v).toList.map .next
  | .error e => [.error e]
  | .completed => [.completed]

end Spec

/-- A pipeline that looks at one value at a time: `map`, `filter`, `choose` and so on, in any combination. -/
def Elementwise (op : Operator α β) (f : α → Option β) : Prop := op.Computes fun s => ⟨s.vals.filterMap f, s.fin⟩

namespace Diamond
variable {pa : Proc A La (Notif α) (Notif β)} {pb : Proc B Lb (Notif α) (Notif γ)} {p : Proc P W (Notif β ⊕ Notif γ) (Notif δ)}

private theorem lefts_inl (ns : List (Notif α)) : (ns.map (Sum.inl (β := Notif β))).filterMap Sum.getLeft? = ns := by
  simp [List.filterMap_map, Function.comp_def]
private theorem rights_inl (ns : List (Notif α)) : (ns.map (Sum.inl (β := Notif β))).filterMap Sum.getRight? = [] := by
  simp [List.filterMap_map, Function.comp_def]
private theorem lefts_inr (ns : List (Notif β)) : (ns.map (Sum.inr (α := Notif α))).filterMap Sum.getLeft? = [] := by
  simp [List.filterMap_map, Function.comp_def]
private theorem rights_inr (ns : List (Notif β)) : (ns.map (Sum.inr (α := Notif α))).filterMap Sum.getRight? = ns := by
  simp [List.filterMap_map, Function.comp_def]

private theorem cut_snoc_running {ns : List (Notif α)} (n : Notif α) (h : (story ns).fin = .running) : cut (ns ++ [n]) = ns ++ [n] := by
  rw [cut_append_of_running h]; cases n <;> rfl

/-- What holds of the parts of a state. -/
structure Inv (pa : Proc A La (Notif α) (Notif β)) (pb : Proc B Lb (Notif α) (Notif γ)) (p : Proc P W (Notif β ⊕ Notif γ) (Notif δ))
    (ls : List (Label La Lb W α)) (s : State A B P α β γ δ) : Prop where
  sent : s.sent = cut (posts ls)
  stopped : s.stopped = true ↔ (story s.sent).fin ≠ .running
  a : ∃ es, pa.exec pa.init es = some (s.a, s.arrived.filterMap Sum.getLeft?) ∧ Proc.inputs es = s.sent
  b : ∃ es, pb.exec pb.init es = some (s.b, s.arrived.filterMap Sum.getRight?) ∧ Proc.inputs es = s.sent
  p : ∃ es, p.exec p.init es = some (s.ps, s.outs) ∧ Proc.inputs es = s.arrived

private theorem posts_snoc (ls : List (Label La Lb W α)) (l) : posts (ls ++ [l]) = posts ls ++ posts [l] := List.filterMap_append ..

private theorem stopped_iff {ns : List (Notif α)} (n : Notif α) (h : (story ns).fin = .running) :
    n.isTerminal = true ↔ (story (ns ++ [n])).fin ≠ .running := by
  rw [story_snoc n h]; cases n <;> simp [Notif.isTerminal, story]

private theorem exec_feed_snoc {St Lab ι ο : Type} {q : Proc St Lab ι ο} {es s out} (h : q.exec q.init es = some (s, out)) (n : ι) :
    q.exec q.init (es ++ [.feed n]) = some ((q.feed s n).1, out ++ (q.feed s n).2) :=
  Proc.exec_append _ h (by simp [Proc.exec])

private theorem exec_step_snoc {St Lab ι ο : Type} {q : Proc St Lab ι ο} {es s out l t o} (h : q.exec q.init es = some (s, out))
    (ht : q.step s l = some (t, o)) : q.exec q.init (es ++ [.step l]) = some (t, out ++ o) :=
  Proc.exec_append _ h (by simp [Proc.exec, ht])

theorem inv {first : Bool} {ls : List (Label La Lb W α)} {s : State A B P α β γ δ} (hr : LTS.run (step first pa pb p) (init pa pb p) ls = some s) :
    Inv pa pb p ls s := by
  refine LTS.inv_hist (step := step first pa pb p) (fun ls s => Inv pa pb p ls s) (s0 := init pa pb p) ?_ ?_ hr
  · exact ⟨rfl, by simp [init], ⟨[], rfl, rfl⟩, ⟨[], rfl, rfl⟩, ⟨[], rfl, rfl⟩⟩
  rintro ls s l s' ⟨h1, h2, ⟨ea, ha, ia⟩, ⟨eb, hb, ib⟩, ⟨ep, hp, ip⟩⟩ h
  cases l with
  | post n =>
    simp only [step] at h
    by_cases hst : s.stopped = true
    · rw [if_pos hst] at h
      cases h
      have he := h2.mp hst
      refine ⟨?_, h2, ⟨ea, ha, ia⟩, ⟨eb, hb, ib⟩, ⟨ep, hp, ip⟩⟩
      rw [posts_snoc, cut_append_of_ended, h1]
      rw [h1, cut, story_events] at he
      exact he
    · rw [if_neg hst] at h
      cases h
      have he : (story s.sent).fin = .running := by
        by_cases hc : (story s.sent).fin = .running
        · exact hc
        · exact absurd (h2.mpr hc) hst
      have he' : (story (posts ls)).fin = .running := by rw [h1, cut, story_events] at he; exact he
      have hs : s.sent = posts ls := by
        rw [h1, ← List.append_nil (posts ls), cut_append_of_running he', cut_nil]
      refine ⟨?_, stopped_iff n he, ⟨ea ++ [.feed n], ?_, by rw [Proc.inputs_append, ia]; rfl⟩, ⟨eb ++ [.feed n], ?_, by rw [Proc.inputs_append, ib]; rfl⟩,
        ⟨_, Proc.exec_append _ hp (Proc.exec_map_feed _ _ _), by rw [Proc.inputs_append, Proc.inputs_map_feed, ip]; rfl⟩⟩
      · show s.sent ++ [n] = _
        rw [posts_snoc, hs]
        exact (cut_snoc_running n he').symm
      · refine (exec_feed_snoc ha n).trans ?_
        cases first <;> simp only [State.arrive, Bool.false_eq_true, if_false, if_true, List.filterMap_append, lefts_inl, lefts_inr, List.append_nil, List.nil_append]
      · refine (exec_feed_snoc hb n).trans ?_
        cases first <;> simp only [State.arrive, Bool.false_eq_true, if_false, if_true, List.filterMap_append, rights_inl, rights_inr, List.append_nil, List.nil_append]
  | source l =>
    simp only [step] at h
    split at h
    · cases h
    · next t o ht =>
      cases h
      refine ⟨by rw [posts_snoc]; simpa [posts, State.arrive] using h1, h2, ⟨ea ++ [.step l], ?_, by rw [Proc.inputs_append, ia]; exact List.append_nil _⟩, ⟨eb, ?_, ib⟩,
        ⟨_, Proc.exec_append _ hp (Proc.exec_map_feed _ _ _), by rw [Proc.inputs_append, Proc.inputs_map_feed, ip]; rfl⟩⟩
      · refine (exec_step_snoc ha ht).trans ?_
        simp only [State.arrive, List.filterMap_append, lefts_inl]
      · rw [hb]; simp only [State.arrive, List.filterMap_append, rights_inl, List.append_nil]
  | other l =>
    simp only [step] at h
    split at h
    · cases h
    · next t o ht =>
      cases h
      refine ⟨by rw [posts_snoc]; simpa [posts, State.arrive] using h1, h2, ⟨ea, ?_, ia⟩, ⟨eb ++ [.step l], ?_, by rw [Proc.inputs_append, ib]; exact List.append_nil _⟩,
        ⟨_, Proc.exec_append _ hp (Proc.exec_map_feed _ _ _), by rw [Proc.inputs_append, Proc.inputs_map_feed, ip]; rfl⟩⟩
      · rw [ha]; simp only [State.arrive, List.filterMap_append, lefts_inr, List.append_nil]
      · refine (exec_step_snoc hb ht).trans ?_
        simp only [State.arrive, List.filterMap_append, rights_inr]
  | worker l =>
    simp only [step] at h
    split at h
    · cases h
    · next t o ht =>
      cases h
      exact ⟨by rw [posts_snoc]; simpa [posts, State.arrive] using h1, h2, ⟨ea, ha, ia⟩, ⟨eb, hb, ib⟩,
        ⟨_, exec_step_snoc hp ht, by rw [Proc.inputs_append, ip]; exact List.append_nil _⟩⟩

/-! ## pipelines without a mailbox -/

/-- Everything that follows from a call has been passed on when it returns. -/
def Instant (q : Proc A La (Notif α) (Notif β)) (f : α → Option β) : Prop :=
  ∀ es s out, q.exec q.init es = some (s, out) → Grammar (Proc.inputs es) →
    out = (⟨(story (Proc.inputs es)).vals.filterMap f, (story (Proc.inputs es)).fin⟩ : Story β).events

theorem Instant.feed {q : Proc A La (Notif α) (Notif β)} {f : α → Option β} (hq : Instant q f) {es s out}
    (h : q.exec q.init es = some (s, out)) (hg : (story (Proc.inputs es)).fin = .running) (n : Notif α) : (q.feed s n).2 = emit f n := by
  have h1 := hq _ _ _ h ⟨⟨(story (Proc.inputs es)).vals, .running⟩, by
    rw [Story.events, End.events, List.append_nil]; exact running_eq_map hg⟩
  have h2 := hq _ _ _ (exec_feed_snoc h n) (by
    rw [Proc.inputs_append]
    refine ⟨story (Proc.inputs es ++ [n]), ?_⟩
    exact (cut_snoc_running n hg).symm)
  have hi : Proc.inputs (es ++ [Proc.Ev.feed (Lab := La) n]) = Proc.inputs es ++ [n] := by rw [Proc.inputs_append]; rfl
  rw [hi, story_snoc n hg, h1, hg] at h2
  have hf : ∀ v, [v].filterMap f = (f v).toList := fun v => by cases hv : f v <;> simp [hv]
  cases n <;> simpa [Story.events, End.events, emit, List.filterMap_append, hf, -List.filterMap_cons] using h2

theorem instant {op : Operator α β} {f : α → Option β} (h : Elementwise op f) (hd : op.direct.Direct) : Instant op.direct.proc f :=
  fun _ _ _ hr hg => C83_direct_partial h hd hr hg

/-- What has come in, from two pipelines without a mailbox. -/
def arrivals (first : Bool) (f : α → Option β) (g : α → Option γ) (ns : List (Notif α)) : List (Notif β ⊕ Notif γ) :=
  ns.flatMap fun n => if first then (emit g n).map .inr ++ (emit f n).map .inl else (emit f n).map .inl ++ (emit g n).map .inr

theorem arrived {first : Bool} {f : α → Option β} {g : α → Option γ} (hpa : Instant pa f) (hpb : Instant pb g)
    (na : ∀ s, pa.Quiescent s) (nb : ∀ s, pb.Quiescent s) {ls : List (Label La Lb W α)} {s : State A B P α β γ δ}
    (hr : LTS.run (step first pa pb p) (init pa pb p) ls = some s) : s.arrived = arrivals first f g s.sent := by
  refine LTS.inv_reach (step := step first pa pb p) (fun _ s => s.arrived = arrivals first f g s.sent) (s0 := init pa pb p) rfl ?_ hr
  intro ls s l s' hr ih h
  obtain ⟨-, h2, ⟨ea, ha, ia⟩, ⟨eb, hb, ib⟩, -⟩ := inv hr
  cases l with
  | post n =>
    simp only [step] at h
    by_cases hst : s.stopped = true
    · rw [if_pos hst] at h
      cases h
      exact ih
    · rw [if_neg hst] at h
      cases h
      have he : (story s.sent).fin = .running := by
        by_cases hc : (story s.sent).fin = .running
        · exact hc
        · exact absurd (h2.mpr hc) hst
      have e1 := hpa.feed ha (by rw [ia]; exact he) n
      have e2 := hpb.feed hb (by rw [ib]; exact he) n
      simp only [State.arrive, arrivals, List.flatMap_append, e1, e2]
      rw [ih]
      simp [arrivals]
  | source l => simp only [step, na s.a l] at h; cases h
  | other l => simp only [step, nb s.b l] at h; cases h
  | worker l =>
    simp only [step] at h
    split at h
    · cases h
    · cases h; exact ih

/-! ## the pairs, one arrival after the other -/

/-- `combine_latest`, when the newest values so far are `a` and `b`. -/
def pairsFrom (a : Option β) (b : Option γ) : List (β ⊕ γ) → List (β × γ)
  | [] => []
  | .inl x :: us => (b.map fun y => (x, y)).toList ++ pairsFrom (some x) b us
  | .inr y :: us => (a.map fun x => (x, y)).toList ++ pairsFrom a (some y) us

/-- `with_latest_from`, when the newest other value so far is `b`. -/
def latestFrom (b : Option γ) : List (β ⊕ γ) → List (β × γ)
  | [] => []
  | .inl x :: us => (b.map fun y => (x, y)).toList ++ latestFrom b us
  | .inr y :: us => latestFrom (some y) us

private theorem newestL_snoc (pre : List (β ⊕ γ)) (x : β) : newestL (pre ++ [.inl x]) = some x := by simp [newestL]
private theorem newestR_snoc (pre : List (β ⊕ γ)) (y : γ) : newestR (pre ++ [.inr y]) = some y := by simp [newestR]
private theorem newestL_other (pre : List (β ⊕ γ)) (y : γ) : newestL (pre ++ [.inr y]) = newestL pre := by simp [newestL]
private theorem newestR_other (pre : List (β ⊕ γ)) (x : β) : newestR (pre ++ [.inl x]) = newestR pre := by simp [newestR]

private theorem range_filterMap {ω : Type} (n : Nat) (h : Nat → Option ω) :
    (List.range (n + 1)).filterMap h = (h 0).toList ++ (List.range n).filterMap fun i => h (i + 1) := by
  rw [List.range_succ_eq_map, List.filterMap_cons]
  cases h 0 <;> simp [List.filterMap_map, Function.comp_def]

theorem pairs_eq (us : List (β ⊕ γ)) : ∀ pre : List (β ⊕ γ),
    ((List.range us.length).filterMap fun i => newest (pre ++ us.take (i + 1))) = pairsFrom (newestL pre) (newestR pre) us := by
  induction us with
  | nil => intro pre; rfl
  | cons u us ih =>
    intro pre
    have h := ih (pre ++ [u])
    rw [List.length_cons, range_filterMap]
    simp only [List.take_succ_cons, List.append_assoc, List.singleton_append] at h ⊢
    rw [h]
    cases u with
    | inl x =>
      rw [pairsFrom, newestL_snoc, newestR_other, List.take_zero, newest, newestL_snoc, newestR_other]
      cases newestR pre <;> rfl
    | inr y =>
      rw [pairsFrom, newestR_snoc, newestL_other, List.take_zero, newest, newestL_other, newestR_snoc]
      cases newestL pre <;> rfl

theorem latest_eq (us : List (β ⊕ γ)) : ∀ pre : List (β ⊕ γ),
    ((List.range us.length).filterMap fun i => match (us[i]? : Option (β ⊕ γ)) with
      | some (.inl a) => (newestR (pre ++ us.take i)).map fun b => (a, b)
      | _ => none) = latestFrom (newestR pre) us := by
  induction us with
  | nil => intro pre; rfl
  | cons u us ih =>
    intro pre
    have h := ih (pre ++ [u])
    rw [List.length_cons, range_filterMap]
    simp only [List.take_succ_cons, List.append_assoc, List.singleton_append, List.getElem?_cons_succ, List.getElem?_cons_zero] at h ⊢
    rw [h]
    cases u with
    | inl x => simp [latestFrom, newestR_other]
    | inr y => simp [latestFrom, newestR_snoc]

theorem combineLatest_vals (is : List (Notif β ⊕ Notif γ)) : Spec.combineLatest is = ⟨pairsFrom none none (both is).1, (both is).2⟩ := by
  rw [Spec.combineLatest]
  have := pairs_eq (both is).1 []
  simp only [List.nil_append] at this
  rw [this]; rfl

theorem withLatestFrom_vals (is : List (Notif β ⊕ Notif γ)) : Spec.withLatestFrom is = ⟨latestFrom none (both is).1, (both is).2⟩ := by
  rw [Spec.withLatestFrom]
  have := latest_eq (both is).1 []
  simp only [List.nil_append] at this
  exact congrArg (fun l => (⟨l, (both is).2⟩ : Story (β × γ))) this

/-! ## the closed forms -/

theorem both_arrivals (f : α → β) (g : α → γ) (st : Story α) :
    both (arrivals false (fun v => some (f v)) (fun v => some (g v)) st.events) = (st.vals.flatMap fun v => [.inl (f v), .inr (g v)], st.fin) := by
  obtain ⟨vs, e⟩ := st
  induction vs with
  | nil => cases e <;> rfl
  | cons v vs ih =>
    have : arrivals false (fun v => some (f v)) (fun v => some (g v)) (⟨v :: vs, e⟩ : Story α).events =
        .inl (.next (f v)) :: .inr (.next (g v)) :: arrivals false (fun v => some (f v)) (fun v => some (g v)) (⟨vs, e⟩ : Story α).events := rfl
    rw [this, both, both, ih]; rfl

private theorem glitches_eq (f : α → β) (g : α → γ) (vs : List α) : ∀ u,
    pairsFrom (some (f u)) (some (g u)) (vs.flatMap fun v => [.inl (f v), .inr (g v)]) =
      ((u :: vs).zip vs).flatMap fun p => [(f p.2, g p.1), (f p.2, g p.2)] := by
  induction vs with
  | nil => intro u; rfl
  | cons v vs ih =>
    intro u
    have h := ih v
    simp only [List.flatMap_cons, List.cons_append, List.nil_append, pairsFrom, Option.map_some, Option.toList_some, List.zip_cons_cons]
    rw [h]

theorem combine_closed (f : α → β) (g : α → γ) (st : Story α) :
    Spec.combineLatest (arrivals false (fun v => some (f v)) (fun v => some (g v)) st.events) = ⟨glitches f g st.vals, st.fin⟩ := by
  rw [combineLatest_vals, both_arrivals]
  obtain ⟨vs, e⟩ := st
  cases vs with
  | nil => rfl
  | cons v vs =>
    have h := glitches_eq f g vs v
    simp only [List.flatMap_cons, List.cons_append, List.nil_append, pairsFrom, Option.map_some, Option.map_none, Option.toList_none, Option.toList_some, glitches]
    rw [h]

private theorem lagging_eq (f : α → β) (g : α → γ) (vs : List α) : ∀ u,
    latestFrom (some (g u)) (vs.flatMap fun v => [.inl (f v), .inr (g v)]) = ((u :: vs).zip vs).map fun p => (f p.2, g p.1) := by
  induction vs with
  | nil => intro u; rfl
  | cons v vs ih =>
    intro u
    have h := ih v
    simp only [List.flatMap_cons, List.cons_append, List.nil_append, latestFrom, Option.map_some, Option.toList_some, List.zip_cons_cons, List.map_cons]
    rw [h]

theorem with_closed (f : α → β) (g : α → γ) (st : Story α) :
    Spec.withLatestFrom (arrivals false (fun v => some (f v)) (fun v => some (g v)) st.events) = ⟨lagging f g st.vals, st.fin⟩ := by
  rw [withLatestFrom_vals, both_arrivals]
  obtain ⟨vs, e⟩ := st
  cases vs with
  | nil => rfl
  | cons v vs =>
    have h := lagging_eq f g vs v
    simp only [List.flatMap_cons, List.cons_append, List.nil_append, latestFrom, Option.map_none, Option.toList_none, lagging, List.tail_cons]
    rw [h]

theorem until_closed (f : α → Option β) (g : α → Option γ) (st : Story α) :
    Spec.takeUntil (arrivals true f g st.events) = stopAt f g st := by
  obtain ⟨vs, e⟩ := st
  induction vs with
  | nil => cases e <;> rfl
  | cons v vs ih =>
    have : arrivals true f g (⟨v :: vs, e⟩ : Story α).events =
        (emit g (.next v)).map .inr ++ ((emit f (.next v)).map .inl ++ arrivals true f g (⟨vs, e⟩ : Story α).events) := by
      simp [arrivals, Story.events]
    rw [this]
    cases hg : g v with
    | some y => simp [emit, hg, Spec.takeUntil, stopAt]
    | none =>
      cases hf : f v with
      | none => simpa [emit, hg, hf, stopAt] using ih
      | some x =>
        simp only [emit, hg, hf, Option.toList_none, Option.toList_some, List.map_nil, List.nil_append, List.map_cons, List.cons_append, Spec.takeUntil, ih]
        simp [stopAt, hg, hf]

end Diamond

/-! ## C149: `combine_latest` -/

section
variable {op₁ : Operator α β} {op₂ : Operator α γ}
open Diamond

/-- C149, with any operators in between: when nobody has anything left to do and no side has ended, the last pair is made of what the two
sides make of the same values, those sent so far. -/
theorem C149_partial {op : Operator (β × γ) δ} {G₁ G₂ G} (h₁ : op₁.Computes G₁) (h₂ : op₂.Computes G₂) (ho : op.Computes G) {ls s}
    (hr : LTS.run (step false op₁.direct.proc op₂.direct.proc (combineLatestSlow op)) (init op₁.direct.proc op₂.direct.proc (combineLatestSlow op)) ls = some s)
    (q₁ : op₁.direct.proc.Quiescent s.a) (q₂ : op₂.direct.proc.Quiescent s.b) (q : (combineLatestSlow op).Quiescent s.ps)
    (r₁ : (G₁ (story (posts ls))).fin = .running) (r₂ : (G₂ (story (posts ls))).fin = .running) :
    ∃ ps : List (β × γ), s.outs = (G ⟨ps, .running⟩).events ∧
      ps.getLast? = (G₁ (story (posts ls))).vals.getLast?.bind fun a => (G₂ (story (posts ls))).vals.getLast?.map fun b => (a, b) := by
  obtain ⟨e1, -, ⟨ea, ha, ia⟩, ⟨eb, hb, ib⟩, ⟨ep, hp, ip⟩⟩ := inv hr
  have hs : story s.sent = story (posts ls) := by rw [e1, cut, story_events]
  have g1 := h₁.direct.all _ _ _ ha (by rw [ia, e1]; exact grammar_cut _) q₁
  have g2 := h₂.direct.all _ _ _ hb (by rw [ib, e1]; exact grammar_cut _) q₂
  have g3 := (C106_combine_latest ho).all _ _ _ hp q
  rw [ia, hs] at g1
  rw [ib, hs] at g2
  obtain ⟨l1, l2⟩ := C106_last_pair (is := s.arrived) (by rw [g1, story_events]; exact r₁) (by rw [g2, story_events]; exact r₂)
  rw [g1, g2, values_events, values_events] at l2
  refine ⟨_, ?_, l2⟩
  rw [g3, ip]
  show (G (Spec.combineLatest s.arrived)).events = _
  rw [← l1]

/-- C149, exactly what arrives, if there is no mailbox on either side: with every value but the first, a pair of the new value of the
source and the old one of `other` comes before the pair of the two new values. -/
theorem C149_exact_partial {f : α → β} {g : α → γ} (h₁ : Elementwise op₁ fun v => some (f v)) (d₁ : op₁.direct.Direct)
    (h₂ : Elementwise op₂ fun v => some (g v)) (d₂ : op₂.direct.Direct) {op : Operator (β × γ) δ} {G} (ho : op.Computes G) {ls s}
    (hr : LTS.run (step false op₁.direct.proc op₂.direct.proc (combineLatestSlow op)) (init op₁.direct.proc op₂.direct.proc (combineLatestSlow op)) ls = some s) :
    s.outs <+: (G ⟨glitches f g (story (posts ls)).vals, (story (posts ls)).fin⟩).events ∧
    ((combineLatestSlow op).Quiescent s.ps → s.outs = (G ⟨glitches f g (story (posts ls)).vals, (story (posts ls)).fin⟩).events) := by
  have ha := arrived (instant h₁ d₁) (instant h₂ d₂) (Code.final_quiescent d₁.code) (Code.final_quiescent d₂.code) hr
  obtain ⟨e1, -, -, -, ⟨ep, hp, ip⟩⟩ := inv hr
  rw [e1, cut] at ha
  have hc := combine_closed f g (story (posts ls))
  rw [← ha, ← ip] at hc
  have k1 := (C106_combine_latest ho).prefix_ _ _ _ hp
  have k2 := (C106_combine_latest ho).all _ _ _ hp
  rw [hc] at k1 k2
  exact ⟨k1, k2⟩

/-- C149 is false: whenever two values have been sent and the workers are at rest, the subscriber has got a pair made of both. -/
theorem C149_violated {f : α → β} {g : α → γ} (h₁ : Elementwise op₁ fun v => some (f v)) (d₁ : op₁.direct.Direct)
    (h₂ : Elementwise op₂ fun v => some (g v)) (d₂ : op₂.direct.Direct) {ls s}
    (hr : LTS.run (step false op₁.direct.proc op₂.direct.proc (combineLatestSlow Operator.id))
      (init op₁.direct.proc op₂.direct.proc (combineLatestSlow Operator.id)) ls = some s)
    (q : (combineLatestSlow (Operator.id (α := β × γ))).Quiescent s.ps) {us : List α} {u w : α} {vs : List α}
    (h : (story (posts ls)).vals = us ++ u :: w :: vs) : .next (f w, g u) ∈ s.outs := by
  rw [(C149_exact_partial h₁ d₁ h₂ d₂ id_computes hr).2 q, Story.events, h]
  refine List.mem_append_left _ (List.mem_map_of_mem ?_)
  have key : ∀ (us : List α) x, (f w, g u) ∈ ((x :: (us ++ u :: w :: vs)).zip (us ++ u :: w :: vs)).flatMap fun p => [(f p.2, g p.1), (f p.2, g p.2)] := by
    intro us
    induction us with
    | nil => intro x; simp
    | cons y us ih => intro x; rw [List.cons_append, List.zip_cons_cons, List.flatMap_cons]; exact List.mem_append_right _ (ih y)
  cases us with
  | nil => simp [glitches]
  | cons y us => exact List.mem_cons_of_mem _ (key us y)

/-! ## C150: `with_latest_from` -/

/-- C150, exactly what arrives, if there is no mailbox on either side: every value but the first, with what `other` made of the one before;
the first one is lost. -/
theorem C150_exact_partial {f : α → β} {g : α → γ} (h₁ : Elementwise op₁ fun v => some (f v)) (d₁ : op₁.direct.Direct)
    (h₂ : Elementwise op₂ fun v => some (g v)) (d₂ : op₂.direct.Direct) {op : Operator (β × γ) δ} {G} (ho : op.Computes G) {ls s}
    (hr : LTS.run (step false op₁.direct.proc op₂.direct.proc (withLatestFromSlow op)) (init op₁.direct.proc op₂.direct.proc (withLatestFromSlow op)) ls = some s) :
    s.outs <+: (G ⟨lagging f g (story (posts ls)).vals, (story (posts ls)).fin⟩).events ∧
    ((withLatestFromSlow op).Quiescent s.ps → s.outs = (G ⟨lagging f g (story (posts ls)).vals, (story (posts ls)).fin⟩).events) := by
  have ha := arrived (instant h₁ d₁) (instant h₂ d₂) (Code.final_quiescent d₁.code) (Code.final_quiescent d₂.code) hr
  obtain ⟨e1, -, -, -, ⟨ep, hp, ip⟩⟩ := inv hr
  rw [e1, cut] at ha
  have hc := with_closed f g (story (posts ls))
  rw [← ha, ← ip] at hc
  have k1 := (C106_with_latest_from ho).prefix_ _ _ _ hp
  have k2 := (C106_with_latest_from ho).all _ _ _ hp
  rw [hc] at k1 k2
  exact ⟨k1, k2⟩

/-- C150 is false: whatever is sent, and however the workers run, if no value of `other` is that of a different value then no value of the
source is ever delivered together with what `other` made of the same value, unless the value before was the same. -/
theorem C150_violated {f : α → β} {g : α → γ} (h₁ : Elementwise op₁ fun v => some (f v)) (d₁ : op₁.direct.Direct)
    (h₂ : Elementwise op₂ fun v => some (g v)) (d₂ : op₂.direct.Direct) {ls s}
    (hr : LTS.run (step false op₁.direct.proc op₂.direct.proc (withLatestFromSlow Operator.id))
      (init op₁.direct.proc op₂.direct.proc (withLatestFromSlow Operator.id)) ls = some s)
    (hf : ∀ x y, f x = f y → x = y) (hg : ∀ x y, g x = g y → x = y) (hd : ∀ us x vs, (story (posts ls)).vals ≠ us ++ x :: x :: vs) (v : α) :
    .next (f v, g v) ∉ s.outs := by
  intro hm
  have := (C150_exact_partial h₁ d₁ h₂ d₂ id_computes hr).1.subset hm
  rw [Story.events] at this
  have hm : (f v, g v) ∈ lagging f g (story (posts ls)).vals := by
    rcases List.mem_append.mp this with h | h
    · simpa using h
    · cases hfin : (story (posts ls)).fin <;> rw [hfin] at h <;> simp [End.events] at h
  generalize (story (posts ls)).vals = us at hd hm
  induction us with
  | nil => simp [lagging] at hm
  | cons u us ih =>
    cases us with
    | nil => simp [lagging] at hm
    | cons w us =>
      have : (f v, g v) = (f w, g u) ∨ (f v, g v) ∈ lagging f g (w :: us) := by simpa [lagging] using hm
      rcases this with h | h
      · have e1 := hf _ _ (Prod.mk.inj h).1
        have e2 := hg _ _ (Prod.mk.inj h).2
        subst e1; subst e2
        exact hd [] _ us rfl
      · exact ih (fun as x vs he => hd (u :: as) x vs (by rw [he]; rfl)) h

end

namespace Diamond
variable {pa : Proc A La (Notif α) (Notif β)} {pb : Proc B Lb (Notif α) (Notif γ)} {p : Proc P W (Notif β ⊕ Notif γ) (Notif δ)}

/-! ### a mailbox in the source -/

def numL (is : List (β ⊕ γ)) : Nat := (is.filterMap Sum.getLeft?).length
def numR (is : List (β ⊕ γ)) : Nat := (is.filterMap Sum.getRight?).length

/-- At no time has more come in from the source than from `other`. -/
def Ahead (is : List (β ⊕ γ)) : Prop := ∀ k, numL (is.take k) ≤ numR (is.take k)

private theorem numL_append (xs ys : List (β ⊕ γ)) : numL (xs ++ ys) = numL xs + numL ys := by simp [numL, List.filterMap_append]
private theorem numR_append (xs ys : List (β ⊕ γ)) : numR (xs ++ ys) = numR xs + numR ys := by simp [numR, List.filterMap_append]
private theorem numL_inl (x : β) (us : List (β ⊕ γ)) : numL (.inl x :: us) = numL us + 1 := rfl
private theorem numR_inl (x : β) (us : List (β ⊕ γ)) : numR (.inl x :: us) = numR us := rfl
private theorem numL_inr (y : γ) (us : List (β ⊕ γ)) : numL (.inr y :: us) = numL us := rfl
private theorem numR_inr (y : γ) (us : List (β ⊕ γ)) : numR (.inr y :: us) = numR us + 1 := rfl
private theorem numL_inls (o : List β) : numL (o.map (Sum.inl (β := γ))) = o.length := by simp [numL, List.filterMap_map, Function.comp_def]
private theorem numR_inls (o : List β) : numR (o.map (Sum.inl (β := γ))) = 0 := by simp [numR, List.filterMap_map, Function.comp_def]
private theorem numL_inrs (o : List γ) : numL (o.map (Sum.inr (α := β))) = 0 := by simp [numL, List.filterMap_map, Function.comp_def]
private theorem numR_inrs (o : List γ) : numR (o.map (Sum.inr (α := β))) = o.length := by simp [numR, List.filterMap_map, Function.comp_def]

theorem Ahead.left {is : List (β ⊕ γ)} (h : Ahead is) {o : List β} (ho : numL is + o.length ≤ numR is) : Ahead (is ++ o.map .inl) := by
  intro k
  rw [List.take_append]
  by_cases hk : k ≤ is.length
  · have : k - is.length = 0 := by omega
    rw [this, List.take_zero, List.append_nil]
    exact h k
  · rw [List.take_of_length_le (by omega), ← List.map_take, numL_append, numR_append, numL_inls, numR_inls]
    have : (o.take (k - is.length)).length ≤ o.length := by rw [List.length_take]; omega
    omega

theorem Ahead.right {is : List (β ⊕ γ)} (h : Ahead is) (o : List γ) : Ahead (is ++ o.map .inr) := by
  intro k
  rw [List.take_append, ← List.map_take, numL_append, numR_append, numL_inrs, numR_inrs]
  have := h k
  omega

theorem latest_ahead : ∀ (us : List (β ⊕ γ)) (R : List γ) (i : Nat), (∀ k, i + numL (us.take k) ≤ R.length + numR (us.take k)) →
    (latestFrom R.getLast? us).length = numL us ∧
    ∀ (m : Nat) x, (latestFrom R.getLast? us)[m]? = some x → ∃ j a b, i + m ≤ j ∧ (us.filterMap Sum.getLeft?)[m]? = some a ∧
      (R ++ us.filterMap Sum.getRight?)[j]? = some b ∧ x = (a, b) := by
  intro us
  induction us with
  | nil => intro R i _; exact ⟨rfl, fun m x h => by simp [latestFrom] at h⟩
  | cons u us ih =>
    intro R i h
    cases u with
    | inl a =>
      have h0 := h 1
      simp only [List.take_succ_cons, List.take_zero, numL_inl, numR_inl] at h0
      have z1 : numL ([] : List (β ⊕ γ)) = 0 := rfl
      have z2 : numR ([] : List (β ⊕ γ)) = 0 := rfl
      have hR : R ≠ [] := by rintro rfl; rw [List.length_nil] at h0; omega
      obtain ⟨l1, l2⟩ := ih R (i + 1) (fun k => by have := h (k + 1); rw [List.take_succ_cons, numL_inl, numR_inl] at this; omega)
      have hl : R.getLast? = some (R.getLast hR) := List.getLast?_eq_some_getLast hR
      have he : latestFrom R.getLast? (.inl a :: us) = (a, R.getLast hR) :: latestFrom R.getLast? us := by rw [latestFrom]; rw [hl]; rfl
      rw [he]
      refine ⟨by rw [List.length_cons, l1, numL_inl], fun m x hx => ?_⟩
      cases m with
      | zero =>
        simp only [List.getElem?_cons_zero, Option.some.injEq] at hx
        refine ⟨R.length - 1, a, R.getLast hR, by omega, by simp, ?_, hx.symm⟩
        rw [List.getElem?_append_left (by omega), ← List.getLast?_eq_getElem?, hl]
      | succ m =>
        obtain ⟨j, a', b', h1, h2, h3, h4⟩ := l2 m x (by simpa using hx)
        exact ⟨j, a', b', by omega, by simpa using h2, h3, h4⟩
    | inr b =>
      obtain ⟨l1, l2⟩ := ih (R ++ [b]) i (fun k => by have := h (k + 1); rw [List.take_succ_cons, numL_inr, numR_inr] at this; rw [List.length_append, List.length_singleton]; omega)
      have he : latestFrom R.getLast? (.inr b :: us) = latestFrom (R ++ [b]).getLast? us := by rw [latestFrom]; simp
      rw [he]
      refine ⟨by rw [l1, numL_inr], fun m x hx => ?_⟩
      obtain ⟨j, a', b', h1, h2, h3, h4⟩ := l2 m x hx
      exact ⟨j, a', b', h1, h2, by simpa using h3, h4⟩

/-- A pipeline with a mailbox passes on nothing during a call. -/
theorem lazy {op : Operator α β} (h : ¬ op.direct.Direct) (s n) : (op.direct.proc.feed s n).2 = [] := by
  have hl := op.direct.code_lazy
  obtain ⟨σ, μ, St, Lab, obs, s0, q, hc⟩ := Chain.mailbox_code h
  revert s
  unfold Chain.proc
  rw [hc] at hl ⊢
  intro s
  exact feedAll_lazy hl _ _

private theorem sent_running {first : Bool} {l} {s s' : State A B P α β γ δ} (h : step first pa pb p s l = some s')
    (he : (story s'.sent).fin = .running) : (story s.sent).fin = .running := by
  have hs : s'.sent = s.sent ∨ ∃ n, s'.sent = s.sent ++ [n] := by
    cases l <;> simp only [step] at h <;> split at h <;> cases h <;> simp [State.arrive]
  rcases hs with hs | ⟨n, hs⟩
  · rw [← hs]; exact he
  · by_cases hc : (story s.sent).fin = .running
    · exact hc
    · rw [hs, story_append_of_ended hc] at he; exact he

private def ev : β ⊕ γ → Notif β ⊕ Notif γ
  | .inl x => .inl (.next x)
  | .inr y => .inr (.next y)

/-- While neither side has ended everything that has come in is a value. -/
private theorem arrived_values {is : List (Notif β ⊕ Notif γ)} (hl : (story (is.filterMap Sum.getLeft?)).fin = .running)
    (hr : (story (is.filterMap Sum.getRight?)).fin = .running) : is = (both is).1.map ev := by
  induction is with
  | nil => rfl
  | cons i is ih =>
    match i with
    | .inl (.next a) => simpa [both, ev] using ih (by simpa [story] using hl) hr
    | .inr (.next b) => simpa [both, ev] using ih hl (by simpa [story] using hr)
    | .inl (.error e) => simp at hl
    | .inl .completed => simp at hl
    | .inr (.error e) => simp at hr
    | .inr .completed => simp at hr

private theorem numL_ev (us : List (β ⊕ γ)) : numL (us.map ev) = numL us := by
  induction us with
  | nil => rfl
  | cons u us ih => cases u <;> simp [ev, numL_inl, numL_inr, ih]
private theorem numR_ev (us : List (β ⊕ γ)) : numR (us.map ev) = numR us := by
  induction us with
  | nil => rfl
  | cons u us ih => cases u <;> simp [ev, numR_inl, numR_inr, ih]

private theorem Ahead.values {us : List (β ⊕ γ)} (h : Ahead (us.map ev)) : Ahead us := fun k => by
  have := h k
  rwa [← List.map_take, numL_ev, numR_ev] at this

/-- What the parts have passed on while the subject has not been stopped. -/
theorem sides {first : Bool} {f : α → β} {g : α → γ} (hpa : Delivers pa Grammar fun s => ⟨s.vals.map f, s.fin⟩) (hpb : Instant pb fun v => some (g v))
    {ls : List (Label La Lb W α)} {s : State A B P α β γ δ} (hr : LTS.run (step first pa pb p) (init pa pb p) ls = some s)
    (he : (story s.sent).fin = .running) :
    s.arrived.filterMap Sum.getLeft? <+: ((story s.sent).vals.map f).map .next ∧
    (pa.Quiescent s.a → s.arrived.filterMap Sum.getLeft? = ((story s.sent).vals.map f).map .next) ∧
    s.arrived.filterMap Sum.getRight? = ((story s.sent).vals.map g).map .next := by
  obtain ⟨e1, -, ⟨ea, ha, ia⟩, ⟨eb, hb, ib⟩, -⟩ := inv hr
  have hg : Grammar s.sent := by rw [e1]; exact grammar_cut _
  have g1 := hpa.prefix_ _ _ _ ha (by rw [ia]; exact hg)
  have g2 := hpa.all _ _ _ ha (by rw [ia]; exact hg)
  have g3 := hpb _ _ _ hb (by rw [ib]; exact hg)
  simp only [ia, ib, he, Story.events, End.events, List.append_nil] at g1 g2 g3
  refine ⟨g1, g2, ?_⟩
  rw [g3, List.filterMap_eq_map']

theorem ahead {f : α → β} {g : α → γ} (hpa : Delivers pa Grammar fun s => ⟨s.vals.map f, s.fin⟩) (hl : ∀ s n, (pa.feed s n).2 = [])
    (hpb : Instant pb fun v => some (g v)) (nb : ∀ s, pb.Quiescent s)
    {ls : List (Label La Lb W α)} {s : State A B P α β γ δ} (hr : LTS.run (step false pa pb p) (init pa pb p) ls = some s)
    (he : (story s.sent).fin = .running) : Ahead s.arrived := by
  revert he
  refine LTS.inv_reach (step := step false pa pb p) (fun _ s => (story s.sent).fin = .running → Ahead s.arrived) (s0 := init pa pb p) ?_ ?_ hr
  · intro _ k; simp [init, numL, numR]
  intro ls s l s' hr ih h he
  have ih := ih (sent_running h he)
  have hr' : LTS.run (step false pa pb p) (init pa pb p) (ls ++ [l]) = some s' := LTS.run_append.mpr ⟨s, hr, LTS.run_cons.mpr ⟨s', h, rfl⟩⟩
  obtain ⟨k1, -, k2⟩ := sides hpa hpb hr' he
  cases l with
  | post n =>
    simp only [step] at h
    split at h
    · cases h; exact ih
    · cases h
      simp only [State.arrive, hl, List.map_nil, List.nil_append, Bool.false_eq_true, if_false]
      exact ih.right _
  | source l =>
    simp only [step] at h
    split at h
    · cases h
    · next t o ht =>
      cases h
      refine ih.left ?_
      have h1 := k1.length_le
      have h2 := congrArg List.length k2
      simp only [State.arrive, List.filterMap_append, List.length_append, List.length_map] at h1 h2
      have e1 : ((o.map (Sum.inl (β := Notif γ))).filterMap Sum.getLeft?).length = o.length := numL_inls o
      have e2 : ((o.map (Sum.inl (β := Notif γ))).filterMap Sum.getRight?).length = 0 := numR_inls o
      rw [e1] at h1
      rw [e2] at h2
      simp only [numL, numR]
      omega
  | other l => simp only [step, nb s.b l] at h; cases h
  | worker l =>
    simp only [step] at h
    split at h
    · cases h
    · cases h; exact ih

private theorem lefts_paced (f : α → β) (g : α → γ) (ws t : List α) :
    ((ws.flatMap fun v => [Sum.inr (Notif.next (g v)), Sum.inl (Notif.next (f v))]) ++ t.map fun v => Sum.inr (Notif.next (g v))).filterMap Sum.getLeft? =
      (ws.map f).map .next := by
  rw [List.filterMap_append]
  have h1 : ∀ ws : List α, (ws.flatMap fun v => [Sum.inr (Notif.next (g v)), Sum.inl (Notif.next (f v))]).filterMap Sum.getLeft? = (ws.map f).map .next := by
    intro ws; induction ws with
    | nil => rfl
    | cons w ws ih => exact congrArg (Notif.next (f w) :: ·) ih
  rw [h1]
  simp [List.filterMap_map, Function.comp_def]

/-- Every call of the subject is made when the source has passed on everything before. -/
def Paced (pa : Proc A La (Notif α) (Notif β)) (pb : Proc B Lb (Notif α) (Notif γ)) (p : Proc P W (Notif β ⊕ Notif γ) (Notif δ))
    (ls : List (Label La Lb W α)) : Prop :=
  ∀ l₁ n l₂ s, ls = l₁ ++ .post n :: l₂ → LTS.run (step false pa pb p) (init pa pb p) l₁ = some s → pa.Quiescent s.a

theorem paced {f : α → β} {g : α → γ} (hpa : Delivers pa Grammar fun s => ⟨s.vals.map f, s.fin⟩) (hl : ∀ s n, (pa.feed s n).2 = [])
    (hpb : Instant pb fun v => some (g v)) (nb : ∀ s, pb.Quiescent s)
    {ls : List (Label La Lb W α)} {s : State A B P α β γ δ} (hr : LTS.run (step false pa pb p) (init pa pb p) ls = some s)
    (hp : Paced pa pb p ls) (he : (story s.sent).fin = .running) :
    ∃ ws t : List α, (story s.sent).vals = ws ++ t ∧ t.length ≤ 1 ∧
      s.arrived = (ws.flatMap fun v => [.inr (.next (g v)), .inl (.next (f v))]) ++ t.map fun v => .inr (.next (g v)) := by
  revert hp he
  refine LTS.inv_reach (step := step false pa pb p) (fun ls s => Paced pa pb p ls → (story s.sent).fin = .running →
    ∃ ws t : List α, (story s.sent).vals = ws ++ t ∧ t.length ≤ 1 ∧
      s.arrived = (ws.flatMap fun v => [.inr (.next (g v)), .inl (.next (f v))]) ++ t.map fun v => .inr (.next (g v))) (s0 := init pa pb p) ?_ ?_ hr
  · intro _ _; exact ⟨[], [], rfl, by simp, rfl⟩
  intro ls s l s' hr ih h hp he
  have he0 := sent_running h he
  obtain ⟨ws, t, e1, e2, e3⟩ := ih (fun l₁ n l₂ s hs => hp l₁ n (l₂ ++ [l]) s (by rw [hs]; simp)) he0
  have hr' : LTS.run (step false pa pb p) (init pa pb p) (ls ++ [l]) = some s' := LTS.run_append.mpr ⟨s, hr, LTS.run_cons.mpr ⟨s', h, rfl⟩⟩
  have hL : (s.arrived.filterMap Sum.getLeft?) = (ws.map f).map .next := by rw [e3]; exact lefts_paced f g ws t
  cases l with
  | post n =>
    have hq := hp ls n [] s rfl hr
    obtain ⟨-, k1, -⟩ := sides hpa hpb hr he0
    have k1 := congrArg List.length (k1 hq)
    rw [hL, e1] at k1
    simp only [List.length_map, List.length_append] at k1
    have ht : t = [] := List.length_eq_zero_iff.mp (by omega)
    subst ht
    obtain ⟨-, h2, -, ⟨eb, hb, ib⟩, -⟩ := inv hr
    simp only [step] at h
    split at h
    · cases h; exact ⟨ws, [], e1, e2, e3⟩
    · cases h
      have e := hpb.feed hb (by rw [ib]; exact he0) n
      cases n with
      | next v =>
        refine ⟨ws, [v], ?_, by simp, ?_⟩
        · show (story (s.sent ++ [.next v])).vals = _
          rw [story_snoc _ he0, e1]; simp
        · simp only [State.arrive, hl, e, List.map_nil, List.nil_append, Bool.false_eq_true, if_false]
          rw [e3]; simp [emit]
      | error x => have he : (story (s.sent ++ [.error x])).fin = .running := he; rw [story_snoc _ he0] at he; cases he
      | completed => have he : (story (s.sent ++ [.completed])).fin = .running := he; rw [story_snoc _ he0] at he; cases he
  | source l =>
    simp only [step] at h
    split at h
    · cases h
    · next a o ht =>
      cases h
      obtain ⟨k1, -, -⟩ := sides hpa hpb hr' he
      simp only [State.arrive, List.filterMap_append, hL] at k1
      rw [e1] at k1
      have ho : (o.map (Sum.inl (β := Notif γ))).filterMap Sum.getLeft? = o := lefts_inl o
      rw [ho, List.map_append, List.map_append, List.prefix_append_right_inj] at k1
      match t, e2 with
      | [], _ =>
        have : o = [] := List.prefix_nil.mp (by simpa using k1)
        subst this
        exact ⟨ws, [], e1, by simp, by simpa [State.arrive] using e3⟩
      | [v], _ =>
        cases o with
        | nil => exact ⟨ws, [v], e1, by simp, by simpa [State.arrive] using e3⟩
        | cons n o =>
          have k1 : n :: o <+: [.next (f v)] := by simpa using k1
          obtain ⟨hn, ho⟩ := List.cons_prefix_cons.mp k1
          have : o = [] := List.prefix_nil.mp ho
          subst this; subst hn
          refine ⟨ws ++ [v], [], by simpa [State.arrive] using e1, by simp, ?_⟩
          simp only [State.arrive]
          rw [e3]; simp
  | other l => simp only [step, nb s.b l] at h; cases h
  | worker l =>
    simp only [step] at h
    split at h
    · cases h
    · cases h; exact ⟨ws, t, e1, e2, e3⟩

end Diamond

section
variable {op₁ : Operator α β} {op₂ : Operator α γ}
open Diamond

/-- C150, if there is a mailbox in the source (`skip`, `take_until`, `zip_seq`, ..) and none in `other`, while the subject has
not been closed: value number `i` comes with what `other` made of this or a later value, never with an older one, and at rest no value is
missing. -/
theorem C150_mailbox_partial {f : α → β} {g : α → γ} (h₁ : op₁.Computes fun s => ⟨s.vals.map f, s.fin⟩) (d₁ : ¬ op₁.direct.Direct)
    (h₂ : Elementwise op₂ fun v => some (g v)) (d₂ : op₂.direct.Direct) {ls s}
    (hr : LTS.run (step false op₁.direct.proc op₂.direct.proc (withLatestFromSlow Operator.id))
      (init op₁.direct.proc op₂.direct.proc (withLatestFromSlow Operator.id)) ls = some s) (he : (story (posts ls)).fin = .running) :
    (∀ (i : Nat) x, (values s.outs)[i]? = some x → ∃ (j : Nat) (v w : α), i ≤ j ∧ (story (posts ls)).vals[i]? = some v ∧
      (story (posts ls)).vals[j]? = some w ∧ x = (f v, g w)) ∧
    (op₁.direct.proc.Quiescent s.a → (withLatestFromSlow (Operator.id (α := β × γ))).Quiescent s.ps →
      (values s.outs).length = (story (posts ls)).vals.length) := by
  obtain ⟨e1, -, -, -, ⟨ep, hp, ip⟩⟩ := inv hr
  have hs : story s.sent = story (posts ls) := by rw [e1, cut, story_events]
  have he' : (story s.sent).fin = .running := by rw [hs]; exact he
  have hA := ahead h₁.direct (lazy d₁) (instant h₂ d₂) (Code.final_quiescent d₂.code) hr he'
  obtain ⟨k1, k2, k3⟩ := sides h₁.direct (instant h₂ d₂) hr he'
  rw [hs] at k1 k2 k3
  have rl : (story (s.arrived.filterMap Sum.getLeft?)).fin = .running := by
    obtain ⟨r, hr⟩ := k1
    by_cases hc : (story (s.arrived.filterMap Sum.getLeft?)).fin = .running
    · exact hc
    · have := story_append_of_ended (ys := r) hc
      rw [hr, ← List.append_nil (List.map _ _), story_map_next_append] at this
      rw [← this]; rfl
  have rr : (story (s.arrived.filterMap Sum.getRight?)).fin = .running := by
    rw [k3, ← List.append_nil (List.map _ _), story_map_next_append]; rfl
  have hv := arrived_values rl rr
  obtain ⟨b1, b2, b3⟩ := both_running rl rr
  rw [hv] at hA
  have hA := hA.values
  obtain ⟨l1, l2⟩ := latest_ahead (both s.arrived).1 [] 0 (fun k => by simpa using hA k)
  have hw := withLatestFrom_vals s.arrived
  have w1 := (C106_with_latest_from id_computes).prefix_ _ _ _ hp
  have w2 := (C106_with_latest_from id_computes).all _ _ _ hp
  rw [ip, hw] at w1 w2
  have w1 := values_prefix w1
  rw [values_events] at w1
  have vl : (both s.arrived).1.filterMap Sum.getLeft? <+: (story (posts ls)).vals.map f := by
    rw [b2]
    have := values_prefix k1
    rwa [values, values, ← List.append_nil (List.map _ (List.map _ _)), story_map_next_append, story_nil, List.append_nil] at this
  have vr : (both s.arrived).1.filterMap Sum.getRight? = (story (posts ls)).vals.map g := by
    rw [b3, k3, values, ← List.append_nil (List.map _ (List.map _ _)), story_map_next_append, story_nil, List.append_nil]
  refine ⟨fun i x hx => ?_, fun q₁ q => ?_⟩
  · obtain ⟨j, a, b, h1, h2, h3, h4⟩ := l2 i x (by
      obtain ⟨r, hr⟩ := w1
      have hi : i < (values s.outs).length := (List.getElem?_eq_some_iff.mp hx).1
      have : (values s.outs ++ r)[i]? = some x := by rw [List.getElem?_append_left hi]; exact hx
      rw [hr] at this
      exact this)
    have h2' : ((story (posts ls)).vals.map f)[i]? = some a := by
      obtain ⟨r, hr⟩ := vl
      rw [← hr, List.getElem?_append_left (List.getElem?_eq_some_iff.mp h2).1]
      exact h2
    rw [List.nil_append, vr] at h3
    rw [List.getElem?_map, Option.map_eq_some_iff] at h2' h3
    obtain ⟨v, hv, rfl⟩ := h2'
    obtain ⟨w, hw, rfl⟩ := h3
    exact ⟨j, v, w, by omega, hv, hw, h4⟩
  · rw [w2 q, values_events]
    show (latestFrom none (both s.arrived).1).length = _
    refine Eq.trans l1 ?_
    rw [numL, b2, k2 q₁, values, ← List.append_nil (List.map _ (List.map _ _)), story_map_next_append]
    simp

/-- C150 holds, if there is a mailbox in the source and none in `other`, and every call of the subject is made when the source has passed on
everything before: every value, with what `other` made of it. -/
theorem C150_paced_partial {f : α → β} {g : α → γ} (h₁ : op₁.Computes fun s => ⟨s.vals.map f, s.fin⟩) (d₁ : ¬ op₁.direct.Direct)
    (h₂ : Elementwise op₂ fun v => some (g v)) (d₂ : op₂.direct.Direct) {ls s}
    (hr : LTS.run (step false op₁.direct.proc op₂.direct.proc (withLatestFromSlow Operator.id))
      (init op₁.direct.proc op₂.direct.proc (withLatestFromSlow Operator.id)) ls = some s) (he : (story (posts ls)).fin = .running)
    (hp : Paced op₁.direct.proc op₂.direct.proc (withLatestFromSlow Operator.id) ls) :
    s.outs <+: (story (posts ls)).vals.map (fun v => .next (f v, g v)) ∧
    (op₁.direct.proc.Quiescent s.a → (withLatestFromSlow (Operator.id (α := β × γ))).Quiescent s.ps →
      s.outs = (story (posts ls)).vals.map (fun v => .next (f v, g v))) := by
  obtain ⟨e1, -, -, -, ⟨ep, hx, ip⟩⟩ := inv hr
  have hs : story s.sent = story (posts ls) := by rw [e1, cut, story_events]
  have he' : (story s.sent).fin = .running := by rw [hs]; exact he
  obtain ⟨ws, t, e2, e3, e4⟩ := paced h₁.direct (lazy d₁) (instant h₂ d₂) (Code.final_quiescent d₂.code) hr hp he'
  have hb : both s.arrived = ((ws.flatMap fun v => [.inr (g v), .inl (f v)]) ++ t.map fun v => .inr (g v), .running) := by
    rw [e4]
    clear e4 e2 e3
    induction ws with
    | nil =>
      induction t with
      | nil => rfl
      | cons v t ih =>
        have := ih
        simp only [List.flatMap_nil, List.nil_append] at this
        simp [both, this]
    | cons w ws ih => simp [both, ih]
  have hl : ∀ b, latestFrom b ((ws.flatMap fun v => [Sum.inr (g v), Sum.inl (f v)]) ++ t.map fun v => .inr (g v)) = ws.map fun v => (f v, g v) := by
    clear hb e4 e2 e3
    induction ws with
    | nil =>
      induction t with
      | nil => intro b; rfl
      | cons v t ih => intro b; exact ih _
    | cons w ws ih => intro b; simp [latestFrom, ih]
  have hw := withLatestFrom_vals s.arrived
  rw [hb] at hw
  dsimp only at hw
  rw [hl] at hw
  have w1 := (C106_with_latest_from id_computes).prefix_ _ _ _ hx
  have w2 := (C106_with_latest_from id_computes).all _ _ _ hx
  rw [ip, hw] at w1 w2
  simp only [Story.events, End.events, List.append_nil, List.map_map] at w1 w2
  refine ⟨w1.trans ?_, fun q₁ q => ?_⟩
  · rw [← hs, e2, List.map_append]; exact List.prefix_append _ _
  · obtain ⟨-, k1, -⟩ := sides h₁.direct (instant h₂ d₂) hr he'
    have k1 := k1 q₁
    rw [e4, lefts_paced, e2] at k1
    have k1 := congrArg List.length k1
    simp only [List.length_map, List.length_append] at k1
    have ht : t = [] := List.length_eq_zero_iff.mp (by omega)
    rw [w2 q, ← hs, e2, ht, List.append_nil]; rfl

/-! ## pipelines that look at one value at a time -/

theorem id_elementwise : Elementwise (Operator.id (α := α)) fun v => some v := by
  have h := id_computes (α := α)
  have he : (fun s : Story α => s) = fun s => ⟨s.vals.filterMap fun v => some v, s.fin⟩ := by funext s; simp
  rw [he] at h
  exact h

theorem map_elementwise (f : α → β) : Elementwise (Aio.map fun x => .ok (f x)) fun v => some (f v) :=
  ((map_acts (f := fun x => .ok (f x))).congr fun s => by
    have := tryEach_ok (fun x => some (f x)) s.vals s.fin
    simpa [Except.map] using this).computes (map_calm f)

theorem filter_elementwise (q : α → Bool) : Elementwise (Aio.filter fun x => .ok (q x)) fun v => if q v then some v else none :=
  ((filter_acts (p := fun x => .ok (q x))).congr fun s => by
    rw [tryEach_keep q s.vals s.fin]
    congr 1
    induction s.vals with
    | nil => rfl
    | cons x xs ih => cases hx : q x <;> simp [hx, ih]).computes (filter_calm q)

theorem id_direct : (Operator.id (α := α)).direct.Direct := by simp [Operator.id, Operator.direct, Chain.Direct]
theorem map_direct (f : α → Except Err β) : (Aio.map f).direct.Direct := by simp [Aio.map, transform, Wrap.op, Operator.direct, Chain.Direct]
theorem filter_direct (q : α → Except Err Bool) : (Aio.filter q).direct.Direct := by simp [Aio.filter, transform, Wrap.op, Operator.direct, Chain.Direct]

/-! ## C151: `take_until` -/

/-- C151, `pipe(xs, f.., take_until(pipe(xs, g..)))` without a mailbox in between: at any time an initial part of, and at rest exactly, what
the source makes of the values before the first one for which `other` sends something; that one is not delivered, and then the stream is
complete. -/
theorem C151_until {f : α → Option β} {g : α → Option γ} (h₁ : Elementwise op₁ f) (d₁ : op₁.direct.Direct)
    (h₂ : Elementwise op₂ g) (d₂ : op₂.direct.Direct) {op : Operator β δ} {G} (ho : op.Computes G) {ls s}
    (hr : LTS.run (step true op₁.direct.proc op₂.direct.proc (takeUntilSlow γ op)) (init op₁.direct.proc op₂.direct.proc (takeUntilSlow γ op)) ls = some s) :
    s.outs <+: (G (stopAt f g (story (posts ls)))).events ∧
    ((takeUntilSlow γ op).Quiescent s.ps → s.outs = (G (stopAt f g (story (posts ls)))).events) := by
  have ha := arrived (instant h₁ d₁) (instant h₂ d₂) (Code.final_quiescent d₁.code) (Code.final_quiescent d₂.code) hr
  obtain ⟨e1, -, -, -, ⟨ep, hp, ip⟩⟩ := inv hr
  rw [e1, cut] at ha
  have hc := until_closed f g (story (posts ls))
  rw [← ha, ← ip] at hc
  have k1 := (C106_take_until (β := γ) ho).prefix_ _ _ _ hp
  have k2 := (C106_take_until (β := γ) ho).all _ _ _ hp
  rw [hc] at k1 k2
  exact ⟨k1, k2⟩

/-- C151 for `pipe(xs, take_until(pipe(xs, filter(p))))`: the values before the first one that meets the condition, without that one, and then
the end. -/
theorem C151_take_until_value {q : α → Bool} {ls s}
    (hr : LTS.run (step true Operator.id.direct.proc (Aio.filter fun x => .ok (q x)).direct.proc (takeUntilSlow α Operator.id))
      (init Operator.id.direct.proc (Aio.filter fun x => .ok (q x)).direct.proc (takeUntilSlow α Operator.id)) ls = some s)
    (hq : (takeUntilSlow α (Operator.id (α := α))).Quiescent s.ps) :
    s.outs = ((story (posts ls)).vals.takeWhile fun v => !q v).map .next ++
      (if (story (posts ls)).vals.any q then .done else (story (posts ls)).fin : End).events := by
  rw [(C151_until id_elementwise id_direct (filter_elementwise q) (filter_direct _) id_computes hr).2 hq, stopAt, Story.events]
  have e1 : (fun v => (if q v then some v else none).isNone) = fun v => !q v := by funext v; cases q v <;> rfl
  have e2 : (fun v => (if q v then some v else none).isSome) = q := by funext v; cases q v <;> rfl
  rw [e1, e2, List.filterMap_some]

/-! ## the hypotheses can be met -/

namespace Diamond

abbrev times (k : Nat) : Operator Nat Nat := Aio.map fun x => .ok (x * k)

/-- The workers of the operator and the `safe_observer` behind it. -/
abbrev work (a b : Nat) : List (Label Empty Empty (Unit ⊕ (Operator.id (α := Nat × Nat)).protected.compileSlow.SlowLab) Nat) :=
  (List.replicate a (Sum.inl ()) ++ List.replicate b (Sum.inr (Sum.inl ())) ++ List.replicate b (Sum.inr (Sum.inr ()))).map Label.worker

-- `pipe(xs, map(lambda x: x * 2), combine_latest(pipe(xs, map(lambda x: x * 3))))`: 1 and 2 are sent, then the workers run
example : (LTS.run (step false (times 2).direct.proc (times 3).direct.proc (combineLatestSlow Operator.id))
    (init (times 2).direct.proc (times 3).direct.proc (combineLatestSlow Operator.id)) ([.post (.next 1), .post (.next 2)] ++ work 7 6)).map
    (fun s => (s.outs, s.sent, s.arrived)) =
    some ([.next (2, 3), .next (4, 3), .next (4, 6)], [.next 1, .next 2],
      [.inl (.next 2), .inr (.next 3), .inl (.next 4), .inr (.next 6)]) := by rfl
-- the same with `with_latest_from`
example : (LTS.run (step false (times 2).direct.proc (times 3).direct.proc (withLatestFromSlow Operator.id))
    (init (times 2).direct.proc (times 3).direct.proc (withLatestFromSlow Operator.id)) ([.post (.next 1), .post (.next 2)] ++ work 5 2)).map
    (fun s => s.outs) = some [.next (4, 3)] := by rfl
example : Elementwise (times 2) (fun v => some (v * 2)) ∧ (times 2).direct.Direct := ⟨map_elementwise _, map_direct _⟩

-- the workers are at rest
example : (LTS.run (step false (times 2).direct.proc (times 3).direct.proc (combineLatestSlow Operator.id))
    (init (times 2).direct.proc (times 3).direct.proc (combineLatestSlow Operator.id)) ([.post (.next 1), .post (.next 2)] ++ work 7 6)).map
    (fun s => s.ps) = some (([], [], (some 4, some 6)), (([], [], ()), ([], [], (true, ())))) := by rfl

/-- `map(lambda x: x * k), skip(0)` -/
abbrev later (k : Nat) : Operator Nat Nat := (times k).compose (skip 0)
example : (later 2).Computes (fun s => ⟨s.vals.map (· * 2), s.fin⟩) ∧ ¬ (later 2).direct.Direct :=
  ⟨(((map_acts (f := fun x => .ok (x * 2))).congr fun s => by
      have := tryEach_ok (fun x => some (x * 2)) s.vals s.fin
      simpa [Except.map] using this).compose ((skip_acts 0).congr (G := Spec.skip 0) (G' := fun s => s) fun s => by simp [Spec.skip])).computes ((map_calm _).compose (skip_calm _)), fun h => h⟩

abbrev work' (a b : Nat) : List (Label (Empty ⊕ Unit) Empty (Unit ⊕ (Operator.id (α := Nat × Nat)).protected.compileSlow.SlowLab) Nat) :=
  (List.replicate a (Sum.inl ()) ++ List.replicate b (Sum.inr (Sum.inl ())) ++ List.replicate b (Sum.inr (Sum.inr ()))).map Label.worker
-- the source gets its turn after every value: every value, with what `other` made of it
example : (LTS.run (step false (later 2).direct.proc (times 3).direct.proc (withLatestFromSlow Operator.id))
    (init (later 2).direct.proc (times 3).direct.proc (withLatestFromSlow Operator.id))
    ([.post (.next 1), .source (.inr ()), .post (.next 2), .source (.inr ())] ++ work' 6 4)).map
    (fun s => s.outs) = some [.next (2, 3), .next (4, 6)] := by rfl
-- it does not: the first value comes with a later one
example : (LTS.run (step false (later 2).direct.proc (times 3).direct.proc (withLatestFromSlow Operator.id))
    (init (later 2).direct.proc (times 3).direct.proc (withLatestFromSlow Operator.id))
    ([.post (.next 1), .post (.next 2), .source (.inr ()), .source (.inr ())] ++ work' 6 4)).map
    (fun s => s.outs) = some [.next (2, 6), .next (4, 6)] := by rfl
-- `pipe(xs, take_until(pipe(xs, filter(lambda x: x > 1))))`
example : (LTS.run (step true Operator.id.direct.proc (Aio.filter fun x => .ok (decide (1 < x))).direct.proc (takeUntilSlow Nat Operator.id))
    (init Operator.id.direct.proc (Aio.filter fun x => .ok (decide (1 < x))).direct.proc (takeUntilSlow Nat Operator.id))
    ([.post (.next 0), .post (.next 1), .post (.next 2), .post (.next 0)] ++ (List.replicate 10 (Sum.inr (Sum.inl ())) ++ List.replicate 8 (Sum.inr (Sum.inr ()))).map Label.worker)).map
    (fun s => (s.outs, s.arrived)) = some ([.next 0, .next 1, .completed],
      [.inl (.next 0), .inl (.next 1), .inr (.next 2), .inl (.next 2), .inl (.next 0)]) := by rfl

end Diamond
end

end Aio
