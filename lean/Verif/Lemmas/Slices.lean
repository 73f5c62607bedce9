import Verif.Lemmas.Chains
/-!
# zip_seq with lists, scan with raising accumulators, reduce, slices
-/
namespace Aio
open Spec
variable {α β γ σ ο τ ρ : Type}

/-! ### zip_seq -/

/-- The iterable that yields `ys` and then does `last`. -/
def Iterable.ofList (ys : List β) (last : Pull β) : Iterable β := fun k =>
  match ys[k]? with
  | some y => .item y
  | none => last

theorem zipFrom_stop (ys : List β) (k : Nat) (xs : List α) (fin : End) (hk : k ≤ ys.length) :
    zipFrom (Iterable.ofList ys .stop) k xs fin =
      ⟨xs.zip (ys.drop k), if (ys.drop k).length < xs.length then .done else fin⟩ := by
  induction xs generalizing k with
  | nil => simp [zipFrom]
  | cons x xs ih =>
    by_cases h : k < ys.length
    · have hd : ys.drop k = ys[k] :: ys.drop (k + 1) := by simp
      have hi : Iterable.ofList ys .stop k = .item ys[k] := by simp [Iterable.ofList, h]
      rw [hd]
      rw [zipFrom]
      simp only [hi]
      rw [ih (k + 1) (by omega)]
      simp only [List.zip_cons_cons, List.length_cons, List.length_drop]
      congr 1
      split <;> split <;> first | rfl | omega
    · have h1 : ys.drop k = [] := List.drop_eq_nil_of_le (by omega)
      have h2 : ys[k]? = none := by simp; omega
      simp [zipFrom, Iterable.ofList, h1, h2]

theorem zipFrom_raises (ys : List β) (e : Err) (k : Nat) (xs : List α) (fin : End)
    (hk : k ≤ ys.length) :
    zipFrom (Iterable.ofList ys (.raises e)) k xs fin =
      ⟨xs.zip (ys.drop k), if (ys.drop k).length < xs.length then .failed e else fin⟩ := by
  induction xs generalizing k with
  | nil => simp [zipFrom]
  | cons x xs ih =>
    by_cases h : k < ys.length
    · have hd : ys.drop k = ys[k] :: ys.drop (k + 1) := by simp
      have hi : Iterable.ofList ys (.raises e) k = .item ys[k] := by simp [Iterable.ofList, h]
      rw [hd]
      rw [zipFrom]
      simp only [hi]
      rw [ih (k + 1) (by omega)]
      simp only [List.zip_cons_cons, List.length_cons, List.length_drop]
      congr 1
      split <;> split <;> first | rfl | omega
    · have h1 : ys.drop k = [] := List.drop_eq_nil_of_le (by omega)
      have h2 : ys[k]? = none := by simp; omega
      simp [zipFrom, Iterable.ofList, h1, h2]

theorem ofList_calm (ys : List β) (last : Pull β) (h : last ≠ .raises .cancelled) :
    ∀ k, Iterable.ofList ys last k ≠ .raises .cancelled := by
  intro k
  unfold Iterable.ofList
  split
  · simp
  · exact h

/-! ### scan with an accumulator that may raise -/

/-- Accumulate until the accumulator raises. -/
def scanTry (f : ρ → α → Except Err ρ) : ρ → List α → End → Story ρ
  | _, [], fin => ⟨[], fin⟩
  | s, x :: xs, fin =>
    match f s x with
    | .error e => ⟨[], .failed e⟩
    | .ok s' => ⟨s' :: (scanTry f s' xs fin).vals, (scanTry f s' xs fin).fin⟩

def scanStep (f : ρ → α → Except Err ρ) (s : ρ) : Notif α → ρ × List (Notif ρ)
  | .next x =>
    match f s x with
    | .error e => (s, [.error e])
    | .ok s' => (s', [.next s'])
  | .error e => (s, [.error e])
  | .completed => (s, [.completed])

theorem scanStep_out (f : ρ → α → Except Err ρ) (s : ρ) (ns : List (Notif α)) :
    cut (stepOut (scanStep f) s ns) = (scanTry f s (story ns).vals (story ns).fin).events := by
  induction ns generalizing s with
  | nil => simp [scanTry, stepOut]
  | cons m ns ih =>
    rw [stepOut]
    cases m with
    | error e => simp [scanTry, scanStep]
    | completed => simp [scanTry, scanStep]
    | next v => cases h : f s v <;> simp [scanTry, scanStep, h, ih, Story.events]

theorem scan_front {f : ρ → α → Except Err ρ} {s0 : ρ} (hc : ∀ s x, f s x ≠ .error .cancelled) :
    Front (scanW f s0) fun s => scanTry f s0 s.vals s.fin := by
  refine front_intro (scanStep f) ?_ (scanStep_out f s0)
  rintro (v | e | _) (t : ρ)
  · have := hc t v
    simp only [Observer.accept_next, Py.bind_eq, Py.andThen, Py.getL_run, Py.tryElse, Py.call_run,
      scanStep]
    cases h : f t v with
    | error e => rw [h] at this; cases e <;> simp_all
    | ok s' => simp
  · simp [scanStep]
  · simp [scanStep]

/-- What the final observer of an unguarded `scan` gets. -/
theorem scan_protected {f : ρ → α → Except Err ρ} {s0 : ρ} (hc : ∀ s x, f s x ≠ .error .cancelled) :
    (scan f s0).protected.proc.Implements fun ns =>
      (Agent.ofObserver ((scanW f s0).obs Observer.post) (s0, ())).fn (cut ns) := by
  have h := (Proc.seq_implements (Proc.direct_implements (Agent.ofObserver (Observer.post (α := α)) ()))
    (Proc.mailbox_implements (safeAgent ((scanW f s0).obs Observer.post) (Py.ret ()) (s0, ())))
    (fun _ _ h => Agent.fn_mono _ h)).congr (g := fun ns =>
      (Agent.ofObserver ((scanW f s0).obs Observer.post) (s0, ())).fn (cut ns)) (by
        intro ns
        simp only [ofObserver_post_fn, safeAgent_fn]
        exact safeOut_noRaise (scan_front (s0 := s0) hc).1 _ _)
  exact h

/-- `scan` in front of an observer that does not raise: the observer gets the steps' outputs. -/
theorem scan_over {f : ρ → α → Except Err ρ} {s0 : ρ} (hc : ∀ s x, f s x ≠ .error .cancelled)
    {O : Observer σ ο ρ} (hO : NoRaise O) (s : σ) :
    NoRaise ((scanW f s0).obs O) ∧ ∀ ns,
      (Agent.ofObserver ((scanW f s0).obs O) (s0, s)).fn ns =
        (Agent.ofObserver O s).fn (stepOut (scanStep f) s0 ns) := by
  have one : ∀ n (t : ρ) (s1 : σ), ∃ m, (scanStep f t n).2 = [m] ∧
      ((scanW f s0).obs O).accept n (t, s1) =
        ⟨.ok (), ((scanStep f t n).1, (O.accept m s1).st), (O.accept m s1).out⟩ := by
    rintro (v | e | _) t s1
    · have := hc t v
      simp only [Observer.accept_next, Py.bind_eq, Py.andThen, Py.getL_run, Py.tryElse, Py.call_run,
        scanStep]
      cases h : f t v with
      | error e =>
        obtain ⟨u, hu⟩ := hO (.error e) s1
        refine ⟨.error e, rfl, ?_⟩
        rw [h] at this
        cases e <;> simp_all [Observer.up]
      | ok s' =>
        obtain ⟨u, hu⟩ := hO (.next s') s1
        refine ⟨.next s', rfl, ?_⟩
        simp_all [Observer.up]
    · obtain ⟨u, hu⟩ := hO (.error e) s1
      refine ⟨.error e, rfl, ?_⟩
      simp_all [Observer.up, scanStep]
    · obtain ⟨u, hu⟩ := hO .completed s1
      refine ⟨.completed, rfl, ?_⟩
      simp_all [Observer.up, scanStep]
  refine ⟨fun n s1 => ?_, fun ns => ?_⟩
  · obtain ⟨m, -, h⟩ := one n s1.1 s1.2
    exact ⟨(), by rw [show s1 = (s1.1, s1.2) from rfl, h]⟩
  · have : ∀ (ns : List (Notif α)) (t : ρ) (s1 : σ),
        ((Agent.ofObserver ((scanW f s0).obs O) (s0, s)).run (t, s1) ns).2 =
        ((Agent.ofObserver O s).run s1 (stepOut (scanStep f) t ns)).2 := by
      intro ns
      induction ns with
      | nil => intro t s1; rfl
      | cons n ns ih =>
        intro t s1
        obtain ⟨m, hm, h⟩ := one n t s1
        have hr : (Agent.ofObserver ((scanW f s0).obs O) (s0, s)).recv (t, s1) n =
            (((scanStep f t n).1, (O.accept m s1).st), (O.accept m s1).out) := by
          simp only [Agent.ofObserver]; rw [h]
        have hr' : (Agent.ofObserver O s).recv s1 m = ((O.accept m s1).st, (O.accept m s1).out) := rfl
        simp only [Agent.run_cons, hr, stepOut, hm, List.singleton_append, hr', ih]
    exact this ns s0 s

/-- `scan` in front of an operator that posts to a safe observer. -/
theorem scan_then_front {f : ρ → α → Except Err ρ} {s0 : ρ} (hc : ∀ s x, f s x ≠ .error .cancelled)
    {w : Wrap ρ β} {G} (hw : Front w G) :
    ((scan f s0).compose w.safeOp).Acts (G ∘ fun s => scanTry f s0 s.vals s.fin) := by
  intro γ c F hcF
  obtain ⟨St, Lab, p, hp, h1, h2⟩ := Code.guard_spec hcF
  show Guarded (.wrap (scanW f s0) (.wrap w (.safe c))) _
  rw [Guarded, Chain.compile, Chain.compile, Chain.compile, hp]
  refine ⟨_, h1, h2, fun ns => ?_⟩
  obtain ⟨hn, ho⟩ := scan_over hc hw.1 (s0 := s0) (w.init, ())
  have e1 : safeOut ((scanW f s0).obs (w.obs Observer.post)) (s0, (w.init, ())) ns =
      (Agent.ofObserver (w.obs Observer.post) (w.init, ())).fn (stepOut (scanStep f) s0 (cut ns)) := by
    rw [safeOut_noRaise hn, ho]
  have e2 : story (safeOut ((scanW f s0).obs (w.obs Observer.post)) (s0, (w.init, ())) ns) =
      G (scanTry f s0 (story ns).vals (story ns).fin) := by
    rw [e1, hw.story]
    congr 1
    have := congrArg story (scanStep_out f s0 (cut ns))
    simpa [cut] using this
  exact congrArg (fun s => (F s).events) e2

/-! ### reduce -/

theorem accumulate_ne_nil (f : ρ → α → ρ) (s : ρ) (xs : List α) (h : xs ≠ []) :
    (accumulate f s xs) ≠ [] := by cases xs <;> simp_all [accumulate]

theorem accumulate_length (f : ρ → α → ρ) (s : ρ) (xs : List α) :
    (accumulate f s xs).length = xs.length := by
  induction xs generalizing s with
  | nil => rfl
  | cons x xs ih => simp [accumulate, ih]

theorem accumulate_last (f : ρ → α → ρ) (s : ρ) (xs : List α) (h : xs ≠ []) :
    (accumulate f s xs).drop ((accumulate f s xs).length - 1) = [xs.foldl f s] := by
  induction xs generalizing s with
  | nil => simp at h
  | cons x xs ih =>
    cases xs with
    | nil => simp [accumulate]
    | cons y ys =>
      have := ih (f s x) (by simp)
      simp only [accumulate_length] at this ⊢
      simp only [accumulate, List.length_cons, Nat.add_sub_cancel, List.foldl_cons] at this ⊢
      simpa using this

theorem reduce_spec (f : ρ → α → ρ) (s0 : ρ) (s : Story α) (h : s.vals ≠ []) :
    Spec.takeLast 1 (Spec.scan f s0 s) = Spec.reduce f s0 s := by
  obtain ⟨xs, fin⟩ := s
  cases fin <;> simp [Spec.takeLast, Spec.scan, Spec.reduce]
  exact accumulate_last f s0 xs h

/-! ### slices -/

/-- Drop-`None` filter of `skip_last`. -/
abbrev notNone (isNone : α → Bool) (s : Story α) : Story α := ⟨s.vals.filter fun v => !isNone v, s.fin⟩

def sliceG1 (start : Option Int) : Story α → Story α :=
  match start with
  | none => fun s => s
  | some start => if start < 0 then Spec.takeLast start.natAbs else Spec.skip start

def sliceG2 (isNone : α → Bool) (start stop : Option Int) : Story α → Story α :=
  match stop with
  | none => fun s => s
  | some stop => if stop > 0 then Spec.take (stop - start.getD 0)
      else fun s => notNone isNone (Spec.skipLast stop.natAbs s)

def sliceG3 (step : Int) : Story α → Story α :=
  if step > 1 then fun s => ⟨(s.vals.zipIdx.filter fun q => (q.2 : Int) % step == 0).map Prod.fst, s.fin⟩
  else fun s => s

/-- The stream function of a slice that is accepted. -/
theorem slice_acts (isNone : α → Bool) (start stop : Option Int) (step : Int)
    (hs : 0 ≤ step) (ht : ∀ t, stop = some t → t > 0 → start.getD 0 ≤ t) :
    ∃ op, slice isNone start stop step = .ok op ∧
      op.Acts (fun s => sliceG3 step (sliceG2 isNone start stop (sliceG1 start s))) ∧ op.Calm := by
  have ha1 : (sliceStart start : Operator α α).Acts (sliceG1 start) := by
    unfold sliceStart sliceG1
    cases start with
    | none => exact Operator.acts_id
    | some i => dsimp only; split
                · exact takeLast_acts _
                · exact skip_acts _
  have hc1 : (sliceStart start : Operator α α).Calm := by
    unfold sliceStart
    cases start with
    | none => exact Operator.calm_id
    | some i => dsimp only; split
                · exact takeLast_calm _
                · exact skip_calm _
  obtain ⟨op2, ho2, ha2, hc2⟩ : ∃ op2, sliceStop isNone start stop = .ok op2 ∧
      op2.Acts (sliceG2 isNone start stop) ∧ op2.Calm := by
    cases stop with
    | none => exact ⟨_, rfl, Operator.acts_id, Operator.calm_id⟩
    | some t =>
      have ht := ht t rfl
      by_cases h : t > 0
      · have hst := ht h
        simp only [sliceG2, sliceStop, h, if_true]
        refine ⟨takeOp (t - start.getD 0), ?_, take_acts _, take_calm _⟩
        rw [take, if_neg (by omega)]
      · simp only [sliceG2, sliceStop, h, if_false]
        exact ⟨_, rfl, skipLast_acts _ _, skipLast_calm _ _⟩
  simp only [slice, ho2]
  by_cases h1 : step > 1
  · simp only [h1, if_true, sliceG3]
    exact ⟨_, rfl, (ha1.compose ha2).compose (filteri_acts fun _ i => (i : Int) % step == 0),
      (hc1.compose hc2).compose (filteri_calm _)⟩
  · have h2 : ¬ step < 0 := by omega
    simp only [h1, h2, if_false, sliceG3]
    exact ⟨_, rfl, ha1.compose ha2, hc1.compose hc2⟩

/-- The cases in which the slice is right. -/
def SliceOk (start stop : Option Int) : Prop :=
  match start, stop with
  | _, none => True
  | none, some t => t ≠ 0
  | some s, some t => t < 0 ∨ (0 ≤ s ∧ s ≤ t ∧ 0 < t)

theorem slice_spec (isNone : α → Bool) (start stop : Option Int) (step : Nat) (hstep : 1 ≤ step)
    (hok : SliceOk start stop) (xs : List α) (hn : ∀ x ∈ xs, isNone x = false) :
    sliceG3 step (sliceG2 isNone start stop (sliceG1 start ⟨xs, .done⟩)) =
      ⟨pySlice start stop step xs, .done⟩ := by
  have h3 : ∀ ys : List α, sliceG3 (step : Int) (⟨ys, .done⟩ : Story α) =
      ⟨(ys.zipIdx.filter fun p => p.2 % step == 0).map Prod.fst, .done⟩ := by
    intro ys
    unfold sliceG3
    split
    · dsimp only
      congr 2
      apply List.filter_congr
      intro q _
      have : ((q.2 : Int) % (step : Int)) = ((q.2 % step : Nat) : Int) := by omega
      rw [this, Bool.eq_iff_iff]
      simp only [beq_iff_eq]
      omega
    · have : step = 1 := by omega
      subst this
      simp [Nat.mod_one]
      have := List.zipIdx_map_fst 0 ys
      rw [← this]; congr 1; simp [List.filter_eq_self.mpr]
  have key : sliceG2 isNone start stop (sliceG1 start ⟨xs, .done⟩) =
      ⟨(xs.take (stop.elim xs.length (pyBound xs.length))).drop
        (start.elim 0 (pyBound xs.length)), .done⟩ := by
    have hf : ∀ ys : List α, ys.Sublist xs → ys.filter (fun v => !isNone v) = ys := by
      intro ys hy
      rw [List.filter_eq_self]
      intro a ha
      simp [hn a (hy.subset ha)]
    have hg1 : sliceG1 start ⟨xs, .done⟩ =
        ⟨xs.drop (start.elim 0 (pyBound xs.length)), .done⟩ := by
      cases start with
      | none => simp [sliceG1]
      | some i =>
        simp only [sliceG1, pyBound, Option.elim_some]
        split
        · simp only [Spec.takeLast]
          congr 2
          omega
        · simp only [Spec.skip]
          by_cases hle : i.toNat ≤ xs.length
          · congr 2; omega
          · rw [List.drop_of_length_le (by omega), List.drop_of_length_le (by omega)]
    rw [hg1]
    generalize hlo : (start.elim 0 (pyBound xs.length)) = lo
    cases stop with
    | none => simp [sliceG2]
    | some t =>
      by_cases ht : t > 0
      · simp only [sliceG2, ht, if_true, Spec.take]
        have hs : start = none ∨ ∃ s, start = some s ∧ 0 ≤ s ∧ s ≤ t := by
          cases start with
          | none => exact .inl rfl
          | some s => refine .inr ⟨s, rfl, ?_⟩; simp [SliceOk] at hok; omega
        congr 1
        · rcases hs with rfl | ⟨s, rfl, h1, h2⟩
          · simp at hlo; subst hlo
            simp [pyBound, show ¬ t < 0 by omega, ← List.take_eq_take_min]
          · simp [pyBound, show ¬ s < 0 by omega] at hlo
            simp only [Option.elim_some, pyBound, show ¬ t < 0 by omega, if_false, Option.getD_some]
            rw [List.drop_take]
            by_cases hsl : s.toNat ≤ xs.length
            · have : lo = s.toNat := by omega
              subst this
              rw [List.take_eq_take_iff]
              simp; omega
            · rw [List.drop_of_length_le (by omega)]; simp
        · exact ite_self _
      · simp only [sliceG2, ht, if_false, Spec.skipLast]
        have ht0 : t < 0 := by
          cases start <;> simp [SliceOk] at hok <;> omega
        simp only [notNone]
        rw [hf _ ((List.take_sublist ..).trans (List.drop_sublist ..))]
        simp only [Option.elim_some, pyBound, ht0, if_true]
        congr 1
        rw [List.drop_take, List.take_eq_take_iff]
        simp; omega
  rw [key, h3]
  rfl

end Aio
