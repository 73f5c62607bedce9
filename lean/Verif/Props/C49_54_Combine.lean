import Verif.Model.Combine
import Verif.Spec.Combine
import Verif.Lemmas.Chains
import Verif.Props.C27_30_Map
/-!
# C49, C53, C54, C56: take_until, combine_latest, with_latest_from, sample

All theorems hold for the operator followed by an arbitrary operator `op` with a known effect `G`
(`Operator.id`: directly in front of the final observer), all orders in which the calls of the two
sources arrive, whatever calls these are, and all schedules.
-/

namespace Aio
open Spec
variable {α β γ ι St Lab : Type}

/-- A process whose posts, read as a stream, are `F`, in front of a guarded operator. -/
theorem seq_delivers {p : Proc St Lab ι (Notif α)} {f : List ι → List (Notif α)}
    (hp : p.Implements f) (ht : p.Terminates)
    {F : List ι → Story α} (hF : ∀ is, story (f is) = F is)
    {op : Operator α γ} {G : Story α → Story γ} (ho : op.Computes G) :
    DeliversFrom (Proc.seq p op.protected.proc) fun is => G (F is) := by
  have hi : op.protected.proc.Implements fun ns => (G (story ns)).events := fun es s out h =>
    ⟨ho.guarded.prefix_ es s out h trivial, ho.guarded.all es s out h trivial⟩
  have hmono : ∀ xs ys : List (Notif α), xs <+: ys →
      (G (story xs)).events <+: (G (story ys)).events := fun _ _ => hi.mono ho.guarded.ends
  have := Proc.seq_implements hp hi hmono
  refine ⟨fun es s out h => ?_, fun es s out h hq => ?_, Proc.seq_terminates ht ho.guarded.ends⟩
  · have := (this es s out h).1; simpa only [hF] using this
  · have := (this es s out h).2 hq; simpa only [hF] using this

theorem mailbox_delivers {S : Type} (a : Agent S ι (Notif α)) {F : List ι → Story α}
    (hF : ∀ is, story (a.fn is) = F is) {op : Operator α γ} {G : Story α → Story γ}
    (ho : op.Computes G) :
    DeliversFrom (Proc.seq (Proc.mailbox a) op.protected.proc) fun is => G (F is) :=
  seq_delivers (Proc.mailbox_implements a) (Proc.mailbox_terminates a) hF ho

theorem story_append_nexts (o : Option α) (ns : List (Notif α)) :
    story (o.toList.map .next ++ ns) = ⟨o.toList ++ (story ns).vals, (story ns).fin⟩ :=
  story_map_next_append _ _

theorem newestL_snoc (vs : List (α ⊕ β)) (x : α ⊕ β) : newestL (vs ++ [x]) =
    match x with | .inl a => some a | .inr _ => newestL vs := by
  cases x <;> simp [newestL]

theorem newestR_snoc (vs : List (α ⊕ β)) (x : α ⊕ β) : newestR (vs ++ [x]) =
    match x with | .inr a => some a | .inl _ => newestR vs := by
  cases x <;> simp [newestR]

/-! ## C53 -/

theorem combineLatest_run (is : List (Notif α ⊕ Notif β)) : ∀ pre : List (α ⊕ β),
    story (combineLatestAgent.run (newestL pre, newestR pre) is).2 =
      ⟨(List.range (both is).1.length).filterMap fun i => newest (pre ++ (both is).1.take (i + 1)),
        (both is).2⟩ := by
  have hval : ∀ (pre : List (α ⊕ β)) (x : α ⊕ β) (m : Notif α ⊕ Notif β)
      (hm : m = x.elim (fun a => .inl (.next a)) (fun b => .inr (.next b))),
      combineLatestAgent.recv (newestL pre, newestR pre) m =
        ((newestL (pre ++ [x]), newestR (pre ++ [x])), (newest (pre ++ [x])).toList.map .next) := by
    rintro pre x m rfl
    rw [newest, newestL_snoc, newestR_snoc]
    cases x with
    | inl a =>
      cases h : newestR pre <;> rfl
    | inr b =>
      cases h : newestL pre <;> rfl
  induction is with
  | nil => intro pre; simp [Agent.run, both]
  | cons m is ih =>
    intro pre
    have step : ∀ x : α ⊕ β, m = x.elim (fun a => .inl (.next a)) (fun b => .inr (.next b)) →
        both (m :: is) = (x :: (both is).1, (both is).2) →
        story (combineLatestAgent.run (newestL pre, newestR pre) (m :: is)).2 =
        ⟨(List.range (both (m :: is)).1.length).filterMap fun i =>
          newest (pre ++ (both (m :: is)).1.take (i + 1)), (both (m :: is)).2⟩ := by
      intro x hx hb
      rw [Agent.run, hval pre x m hx, hb]
      simp only
      rw [story_append_nexts, ih]
      simp only [List.length_cons, List.range_succ_eq_map, List.filterMap_cons, List.filterMap_map,
        List.append_assoc, List.cons_append, List.nil_append]
      congr 1
      have e1 : newest (pre ++ List.take (0 + 1) (x :: (both is).1)) = newest (pre ++ [x]) := by simp
      rw [e1]
      cases newest (pre ++ [x]) <;> simp [Function.comp_def]
    match m with
    | .inl (.next a) => exact step (.inl a) rfl rfl
    | .inr (.next b) => exact step (.inr b) rfl rfl
    | .inl (.error e) =>
      have : combineLatestAgent.recv (newestL pre, newestR pre) (.inl (.error e)) =
        ((none, newestR pre), [.error e]) := rfl
      simp [Agent.run, this, both]
    | .inl .completed =>
      have : combineLatestAgent.recv (newestL pre, newestR pre) (.inl .completed) =
        ((none, newestR pre), [.completed]) := rfl
      simp [Agent.run, this, both]
    | .inr (.error e) =>
      have : combineLatestAgent.recv (newestL pre, newestR pre) (.inr (.error e)) =
        ((newestL pre, none), [.error e]) := by
        cases h : newestL pre <;> rfl
      simp [Agent.run, this, both]
    | .inr .completed =>
      have : combineLatestAgent.recv (newestL pre, newestR pre) (.inr .completed) =
        ((newestL pre, none), [.completed]) := by
        cases h : newestL pre <;> rfl
      simp [Agent.run, this, both]

/-- C53. `combine_latest` delivers, per arrival, the pair of the newest values once there are both,
and ends with the first terminal event of either source. -/
theorem C53_combine_latest (op : Operator (α × β) γ) (G : Story (α × β) → Story γ)
    (ho : op.Computes G) : DeliversFrom (combineLatest op) fun is => G (Spec.combineLatest is) := by
  refine mailbox_delivers _ (fun is => ?_) ho
  have := combineLatest_run is ([] : List (α ⊕ β))
  simp only [List.nil_append] at this
  exact this

/-! ## C54 -/

theorem withLatest_run (is : List (Notif α ⊕ Notif β)) : ∀ pre : List (α ⊕ β),
    story (withLatestFromAgent.run (newestR pre) is).2 =
      ⟨(List.range (both is).1.length).filterMap fun i =>
        match ((both is).1[i]? : Option (α ⊕ β)) with
        | some (.inl a) => (newestR (pre ++ (both is).1.take i)).map fun b => (a, b)
        | _ => none, (both is).2⟩ := by
  induction is with
  | nil => intro pre; simp [Agent.run, both]
  | cons m is ih =>
    intro pre
    have step : ∀ (x : α ⊕ β) (o : Option (α × β)),
        withLatestFromAgent.recv (newestR pre) m = (newestR (pre ++ [x]), o.toList.map .next) →
        (o = match x with | .inl a => (newestR pre).map fun b => (a, b) | .inr _ => none) →
        both (m :: is) = (x :: (both is).1, (both is).2) →
        story (withLatestFromAgent.run (newestR pre) (m :: is)).2 =
        ⟨(List.range (both (m :: is)).1.length).filterMap fun i =>
          match ((both (m :: is)).1[i]? : Option (α ⊕ β)) with
          | some (.inl a) => (newestR (pre ++ (both (m :: is)).1.take i)).map fun b => (a, b)
          | _ => none, (both (m :: is)).2⟩ := by
      intro x o hx ho hb
      rw [Agent.run, hx, hb]
      simp only
      rw [story_append_nexts, ih]
      simp only [List.length_cons, List.range_succ_eq_map, List.filterMap_cons, List.filterMap_map,
        List.append_assoc, List.cons_append, List.nil_append]
      congr 1
      subst ho
      cases x with
      | inl a => cases h : newestR pre <;> simp [Function.comp_def, h]
      | inr b => simp [Function.comp_def]
    match m with
    | .inl (.next a) =>
      refine step (.inl a) ((newestR pre).map fun b => (a, b)) ?_ rfl rfl
      rw [newestR_snoc]
      cases h : newestR pre <;> rfl
    | .inr (.next b) =>
      refine step (.inr b) none ?_ rfl rfl
      rw [newestR_snoc]
      rfl
    | .inl (.error e) =>
      have : (withLatestFromAgent (α := α)).recv (newestR pre) (.inl (.error e)) =
        (newestR pre, [.error e]) := rfl
      simp [Agent.run, this, both]
    | .inl .completed =>
      have : (withLatestFromAgent (α := α)).recv (newestR pre) (.inl .completed) =
        (newestR pre, [.completed]) := rfl
      simp [Agent.run, this, both]
    | .inr (.error e) =>
      have : (withLatestFromAgent (α := α)).recv (newestR pre) (.inr (.error e)) = (none, [.error e]) := rfl
      simp [Agent.run, this, both]
    | .inr .completed =>
      have : (withLatestFromAgent (α := α)).recv (newestR pre) (.inr .completed) = (none, [.completed]) := rfl
      simp [Agent.run, this, both]

/-- C54. `with_latest_from` delivers each source value with the newest other value at that time,
drops source values before the first other value, and ends with the first terminal event of either. -/
theorem C54_with_latest_from (op : Operator (α × β) γ) (G : Story (α × β) → Story γ)
    (ho : op.Computes G) : DeliversFrom (withLatestFrom op) fun is => G (Spec.withLatestFrom is) := by
  refine mailbox_delivers _ (fun is => ?_) ho
  have := withLatest_run is ([] : List (α ⊕ β))
  simp only [List.nil_append] at this
  exact this

/-! ## C49 -/

theorem takeUntil_run (is : List (Notif α ⊕ Notif β)) :
    story (takeUntilAgent.run () is).2 = Spec.takeUntil is := by
  induction is with
  | nil => rfl
  | cons m is ih =>
    match m with
    | .inl (.next a) =>
      have : (takeUntilAgent (β := β)).recv () (.inl (.next a)) = ((), [.next a]) := rfl
      simp [Agent.run, this, Spec.takeUntil, ih]
    | .inl (.error e) => rfl
    | .inl .completed => rfl
    | .inr (.next b) => rfl
    | .inr (.error e) => rfl
    | .inr .completed => exact ih

/-- C49. `take_until` forwards the source until the other one sends a value (completes then) or fails
(fails then); the other's completion is ignored. -/
theorem C49_take_until (op : Operator α γ) (G : Story α → Story γ) (ho : op.Computes G) :
    DeliversFrom (takeUntil β op) fun is => G (Spec.takeUntil is) :=
  seq_delivers (Proc.direct_implements _) (Proc.direct_terminates _) takeUntil_run ho

/-! ## C56 -/

/-- What `sample` really does: it forwards every source value that arrives after the first tick. -/
def afterFirst : List (α ⊕ Nat) → List α
  | [] => []
  | .inl _ :: vs => afterFirst vs
  | .inr _ :: vs => vs.filterMap Sum.getLeft?

theorem withLatest_fst_vals (vs : List (α ⊕ Nat)) : ∀ pre : List (α ⊕ Nat),
    ((List.range vs.length).filterMap fun i =>
      match (vs[i]? : Option (α ⊕ Nat)) with
      | some (.inl a) => (newestR (pre ++ vs.take i)).map fun b => (a, b)
      | _ => none).map (·.1) =
    if (newestR pre).isSome then vs.filterMap Sum.getLeft? else afterFirst vs := by
  induction vs with
  | nil => intro pre; simp [afterFirst]
  | cons x vs ih =>
    intro pre
    simp only [List.length_cons, List.range_succ_eq_map, List.filterMap_cons, List.filterMap_map]
    have := ih (pre ++ [x])
    rw [newestR_snoc] at this
    cases x with
    | inl a =>
      cases h : newestR pre with
      | none => simpa [Function.comp_def, h, afterFirst] using this
      | some b => simpa [Function.comp_def, h, afterFirst] using this
    | inr b =>
      cases h : newestR pre with
      | none => simpa [Function.comp_def, h, afterFirst] using this
      | some b => simpa [Function.comp_def, h, afterFirst] using this

theorem sample_spec (is : List (Notif α ⊕ Notif Nat)) :
    (⟨(Spec.withLatestFrom is).vals.map (·.1), (Spec.withLatestFrom is).fin⟩ : Story α) =
      ⟨afterFirst (both is).1, (both is).2⟩ := by
  have := withLatest_fst_vals (both is).1 []
  simp only [List.nil_append] at this
  rw [Spec.withLatestFrom]
  congr 1
  rw [if_neg (by simp [newestR])] at this
  rw [← this]
  dsimp only
  congr 2
  funext i
  rcases (both is).1[i]? with _ | a | b <;> rfl

/-- C56. The exact behaviour: after the first tick of the timer, all source values are forwarded as
they arrive; before it they are dropped. -/
theorem C56_exact : DeliversFrom (sample (α := α)) fun is => ⟨afterFirst (both is).1, (both is).2⟩ := by
  have hm : (Aio.map fun p : α × Nat => .ok p.1).Computes fun s => ⟨s.vals.map (·.1), s.fin⟩ :=
    C27_map (fun p : α × Nat => p.1)
  have := C54_with_latest_from (Aio.map fun p : α × Nat => .ok p.1) _ hm
  simp only [sample_spec] at this
  exact this

/-- C56 is false: two values are emitted in one sampling period (between two ticks) ... -/
theorem C56_violated_twice : ∃ es, Proc.inputs es =
    [.inr (.next 0), .inl (.next 10), .inl (.next 11), .inr (.next 1)] ∧
    (sample (α := Nat)).outputs es = some [.next 10, .next 11] :=
  ⟨[.inr (.next 0), .inl (.next 10), .inl (.next 11), .inr (.next 1)].map .feed ++
    List.replicate 4 (.step (.inl ())) ++ List.replicate 2 (.step (.inr tick)), by decide, by decide⟩

/-- ... and a tick emits nothing, so the most recent value of the first period is lost: the whole
output of a finished run is the completion. -/
theorem C56_violated_lost : ∃ es s, Proc.inputs es =
    [.inl (.next 10), .inr (.next 0), .inr (.next 1), .inl .completed] ∧
    (sample (α := Nat)).exec sample.init es = some (s, [.completed]) ∧ sample.Quiescent s := by
  refine ⟨[.inl (.next 10), .inr (.next 0), .inr (.next 1), .inl .completed].map .feed ++
    List.replicate 4 (.step (.inl ())) ++ List.replicate 1 (.step (.inr tick)), _, by decide, rfl, ?_⟩
  rintro (l | l | l)
  · rfl
  · exact nomatch l
  · rfl

/-- C56, the part that holds: what is emitted are values of the source, in order, each at most once,
and the stream ends with the source. Missing: emission once per period (`C56_violated_twice`,
`C56_violated_lost`). -/
theorem C56_sublist_partial (es : List (Proc.Ev (Notif α ⊕ Notif Nat) _)) (s out)
    (h : (sample (α := α)).exec sample.init es = some (s, out)) :
    (values out).Sublist ((both (Proc.inputs es)).1.filterMap Sum.getLeft?) := by
  have h1 := C56_exact.prefix_ es s out h
  have h2 : ∀ vs : List (α ⊕ Nat), (afterFirst vs).Sublist (vs.filterMap Sum.getLeft?) := by
    intro vs
    induction vs with
    | nil => simp [afterFirst]
    | cons x vs ih =>
      cases x with
      | inl a => simpa [afterFirst] using List.Sublist.cons a ih
      | inr b =>
        rw [List.filterMap_cons_none (by rfl)]
        exact List.Sublist.refl _
  refine List.Sublist.trans ?_ (h2 _)
  have h3 : ∀ (st : Story α) (o : List (Notif α)), o <+: st.events → (values o).Sublist st.vals := by
    rintro ⟨vs, fin⟩ o ho
    obtain ⟨r, hr⟩ := ho
    have hv : values (o ++ r) = vs := by rw [hr, values, story_events]
    have : (values o) <+: values (o ++ r) := by
      by_cases hrun : (story o).fin = .running
      · rw [values, values, story_append_of_running hrun]; exact List.prefix_append ..
      · rw [values, values, story_append_of_ended hrun]; exact List.prefix_rfl
    rw [hv] at this
    exact this.sublist
  exact h3 _ _ h1

/-! ## examples -/

theorem id_computes : (Operator.id : Operator α α).Computes fun s => s :=
  Operator.Acts.computes (G := fun s => s) Operator.acts_id Operator.calm_id

abbrev demoArrivals : List (Notif Nat ⊕ Notif Char) :=
  [.inl (.next 1), .inr (.next 'a'), .inl (.next 2), .inr (.next 'b'), .inr .completed, .inl (.next 3)]

example : (Spec.combineLatest demoArrivals).events =
    [.next (1, 'a'), .next (2, 'a'), .next (2, 'b'), .completed] := by decide
example : (Spec.withLatestFrom demoArrivals).events = [.next (2, 'a'), .completed] := by decide
example : (Spec.takeUntil demoArrivals).events = [.next 1, .completed] := by decide

example : (combineLatest (α := Nat) (β := Char) Operator.id).outputs
    (demoArrivals.map .feed ++ List.replicate 6 (.step (.inl ())) ++
      List.replicate 4 (.step (.inr tick))) =
    some [.next (1, 'a'), .next (2, 'a'), .next (2, 'b'), .completed] := by decide
example : (takeUntil (α := Nat) Char Operator.id).outputs
    (demoArrivals.map .feed ++ List.replicate 2 (.step (.inr tick))) =
    some [.next 1, .completed] := by decide

end Aio
