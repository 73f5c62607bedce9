import Verif.Lemmas.Slices
/-!
# C27-C30: map, starmap, mapi, filter, starfilter, filteri, choose
-/

namespace Aio
open Spec
variable {α β γ : Type}

/-! ## specification -/

namespace Spec
/-- every value replaced, the ending unchanged -/
def mapped (f : α → β) (s : Story α) : Story β := ⟨s.vals.map f, s.fin⟩
/-- the values that satisfy `p` -/
def kept (p : α → Bool) (s : Story α) : Story α := ⟨s.vals.filter p, s.fin⟩
/-- the results of the values for which there is one -/
def chosen (f : α → Option β) (s : Story α) : Story β := ⟨s.vals.filterMap f, s.fin⟩

/-- The user function raises `e` on `x`, after having returned normally on all of `ps`. -/
structure FirstRaise (f : α → Except Err β) (ps : List α) (x : α) (e : Err) : Prop where
  before : ∀ p ∈ ps, ∃ y, f p = .ok y
  here : f x = .error e

/-- the results of a function that did not raise -/
def results (f : α → Except Err β) (ps : List α) : List β :=
  ps.filterMap fun p => match f p with | .ok y => some y | .error _ => none
/-- the predicate said yes -/
def yes : Except Err Bool → Bool
  | .ok true => true
  | _ => false
end Spec

/-! ## C27 -/

/-- C27. `map` applies the mapper to each element. -/
theorem C27_map (f : α → β) : (map fun x => .ok (f x)).Computes (mapped f) :=
  ((map_acts (f := fun x => .ok (f x))).congr fun s => by
    have := tryEach_ok (fun x => some (f x)) s.vals s.fin
    simpa [Except.map, mapped] using this).computes (map_calm f)

/-- C27. `map_async`. -/
theorem C27_map_async (f : α → β) : (mapAsync fun x => .ok (f x)).Computes (mapped f) := C27_map f

/-- C27. `starmap` on pairs. -/
theorem C27_starmap (f : α → γ → β) :
    (starmap fun x y => .ok (f x y)).Computes (mapped fun q => f q.1 q.2) :=
  ((starmap_acts (f := fun x y => .ok (f x y))).congr fun s => by
    have := tryEach_ok (fun x : α × γ => some (f x.1 x.2)) s.vals s.fin
    simpa [Except.map, mapped] using this).computes (starmap_calm f)

/-- C27. `starmap_async` on pairs. -/
theorem C27_starmap_async (f : α → γ → β) :
    (starmapAsync fun x y => .ok (f x y)).Computes (mapped fun q => f q.1 q.2) := C27_starmap f

def double (x : Nat) : Except Err Nat := .ok (x * 2)

-- a run behind a subject (direct calls), and one behind a protected source
example : (map double).direct.proc.outputs
    ([.next 1, .next 2, .error (.user 3)].map .feed) =
      some [.next 2, .next 4, .error (.user 3)] := by decide
example : (map double).protected.proc.outputs
    [.feed (.next 1), .feed (.next 2), .step tick, .feed .completed, .feed (.next 5),
     .step tick, .step tick, .step tick] =
      some [.next 2, .next 4, .completed] := by decide

/-! ## C28 -/

/-- the mapper used in the examples: raises on 0 -/
def inverse (x : Nat) : Except Err Nat := if x = 0 then .error (.user 0) else .ok (100 / x)

/-- C28 is false for sources that call the operator directly (a subject, for example): the exception
goes to the caller of `asend`, the observer is not told, and later elements still arrive. -/
theorem C28_violated_direct_source :
    ∃ (f : Nat → Except Err Nat) (es : List (Proc.Ev (Notif Nat) (map f).direct.compile.Lab)) (s : _),
      FirstRaise f [4] 0 (.user 0) ∧
      Proc.inputs es = [.next 4, .next 0, .next 5, .completed] ∧
      (map f).direct.proc.exec (map f).direct.proc.init es = some (s, [.next 25, .next 20, .completed]) :=
  ⟨inverse, [.next 4, .next 0, .next 5, .completed].map .feed, _,
    ⟨by simp [inverse], by simp [inverse]⟩, by simp, rfl⟩

namespace Spec
/-- What is left of a notification when exceptions of the mapper vanish. -/
def unlessRaised (f : α → Except Err β) : Notif α → Option (Notif β)
  | .next x => match f x with
    | .ok y => some (.next y)
    | .error _ => none
  | .error e => some (.error e)
  | .completed => some .completed
end Spec

/-- `map` in front of a subscriber, as the source sees it. -/
abbrev mapAgent (f : α → Except Err β) : Agent (Unit × Unit) (Notif α) (Notif β) :=
  Agent.ofObserver ((transform fun next x => do
    let y ← Py.call (f x)
    next y).obs Observer.post) ((), ())

theorem mapAgent_run (f : α → Except Err β) (t : Unit × Unit) (ns : List (Notif α)) :
    ((mapAgent f).run t ns).2 = ns.filterMap (unlessRaised f) := by
  induction ns generalizing t with
  | nil => rfl
  | cons n ns ih =>
    rw [Agent.run_cons, List.filterMap_cons]
    simp only [ih]
    cases n with
    | next x =>
      simp only [mapAgent, Agent.ofObserver, Observer.accept_next, transform, Py.bind_eq, Py.andThen, Py.call_run, unlessRaised]
      cases f x <;> rfl
    | error e => rfl
    | completed => rfl

/-- The whole behaviour behind a source that calls directly and goes on: an element on which the mapper raises vanishes,
and everything else is delivered. In particular the observer never hears of the exception. -/
theorem C28_direct_exact (f : α → Except Err β)
    (es : List (Proc.Ev (Notif α) (map f).direct.compile.Lab)) (s out)
    (h : (map f).direct.proc.exec (map f).direct.proc.init es = some (s, out)) :
    out = (Proc.inputs es).filterMap (unlessRaised f) := by
  have h1 := (Proc.direct_implements (mapAgent f)) es s out h
  rw [h1.2 fun l => nomatch l]
  exact mapAgent_run f _ _

/-! The law for a first exception of any kind; C28 is the case of an `Exception`, C91 that of `CancelledError`. -/

theorem map_raise (f : α → Except Err β) (ps qs : List α) (x : α) (e : Err) (fin : End) (hf : FirstRaise f ps x e) :
    tryEach (fun x => (f x).map some) (ps ++ x :: qs) fin = ⟨results f ps, raised e⟩ := by
  refine tryEach_raise ps qs x fin ?_ ?_
  · intro p hp
    obtain ⟨y, hy⟩ := hf.before p hp
    simp [hy, Except.map]
  · simp [hf.here, Except.map]

theorem choose_raise (f : α → Except Err (Option β)) (ps qs : List α) (x : α) (e : Err) (fin : End)
    (hf : FirstRaise f ps x e) :
    tryEach f (ps ++ x :: qs) fin = ⟨(results f ps).filterMap fun y => y, raised e⟩ := by
  have := tryEach_raise (f := f) (g := fun p => match f p with | .ok y => y | .error _ => none)
    ps qs x fin (by
      intro p hp
      obtain ⟨y, hy⟩ := hf.before p hp
      simp [hy]) hf.here
  rw [this]
  congr 1
  simp only [results, List.filterMap_filterMap]
  congr 1
  funext p
  cases f p <;> rfl

theorem filter_raise (p : α → Except Err Bool) (ps qs : List α) (x : α) (e : Err) (fin : End)
    (hf : FirstRaise p ps x e) :
    tryEach (keepIf p) (ps ++ x :: qs) fin = ⟨ps.filter fun y => yes (p y), raised e⟩ := by
  have := tryEach_raise (f := keepIf p) (g := fun y => if yes (p y) then some y else none)
    ps qs x (e := e) fin (by
      intro q hq
      obtain ⟨y, hy⟩ := hf.before q hq
      cases y <;> simp [keepIf, hy, Except.map, yes]) (by simp [keepIf, hf.here, Except.map])
  rw [this]
  congr 1
  rw [← List.filterMap_eq_filter]; rfl

/-- C28, the part that holds: behind a source that delivers through a `safe_observer` (created by
`from_iterable`, `of_async`, `merge`, `take`, ...) the observer gets the results for the earlier
elements, then the exception, and nothing else. Missing: sources that call the operator directly,
see `C28_violated_direct_source`, and `CancelledError`, see C91. -/
theorem C28_map_partial (f : α → Except Err β)
    (es : List (Proc.Ev (Notif α) (map f).protected.compile.Lab)) (s out)
    (h : (map f).protected.proc.exec (map f).protected.proc.init es = some (s, out))
    (ps qs : List α) (x : α) (e : Err) (fin : End)
    (hin : story (Proc.inputs es) = ⟨ps ++ x :: qs, fin⟩) (hf : FirstRaise f ps x e) (he : e ≠ .cancelled) :
    out <+: (results f ps).map .next ++ [.error e] ∧
    ((map f).protected.proc.Quiescent s → out = (results f ps).map .next ++ [.error e]) := by
  have hd := (map_acts (f := f)).delivers
  have h1 := hd.prefix_ es s out h trivial
  have h2 := hd.all es s out h trivial
  rw [hin] at h1 h2
  simp only [map_raise _ ps qs x _ fin hf, Story.events, raised_failed he, End.events] at h1 h2
  exact ⟨h1, h2⟩

/-- C28 for `choose` (same restriction). -/
theorem C28_choose_partial (f : α → Except Err (Option β))
    (es : List (Proc.Ev (Notif α) (choose f).protected.compile.Lab)) (s out)
    (h : (choose f).protected.proc.exec (choose f).protected.proc.init es = some (s, out))
    (ps qs : List α) (x : α) (e : Err) (fin : End)
    (hin : story (Proc.inputs es) = ⟨ps ++ x :: qs, fin⟩) (hf : FirstRaise f ps x e) (he : e ≠ .cancelled) :
    out <+: ((results f ps).filterMap fun y => y).map .next ++ [.error e] ∧
    ((choose f).protected.proc.Quiescent s → out = ((results f ps).filterMap fun y => y).map .next ++ [.error e]) := by
  have hd := (choose_acts (f := f)).delivers
  have h1 := hd.prefix_ es s out h trivial
  have h2 := hd.all es s out h trivial
  rw [hin] at h1 h2
  simp only [choose_raise _ ps qs x _ fin hf, Story.events, raised_failed he, End.events] at h1 h2
  exact ⟨h1, h2⟩

/-- C28 for `filter` (same restriction). -/
theorem C28_filter_partial (p : α → Except Err Bool)
    (es : List (Proc.Ev (Notif α) (filter p).protected.compile.Lab)) (s out)
    (h : (filter p).protected.proc.exec (filter p).protected.proc.init es = some (s, out))
    (ps qs : List α) (x : α) (e : Err) (fin : End)
    (hin : story (Proc.inputs es) = ⟨ps ++ x :: qs, fin⟩) (hf : FirstRaise p ps x e) (he : e ≠ .cancelled) :
    out <+: (ps.filter fun y => yes (p y)).map .next ++ [.error e] ∧
    ((filter p).protected.proc.Quiescent s → out = (ps.filter fun y => yes (p y)).map .next ++ [.error e]) := by
  have hd := (filter_acts (p := p)).delivers
  have h1 := hd.prefix_ es s out h trivial
  have h2 := hd.all es s out h trivial
  rw [hin] at h1 h2
  simp only [filter_raise _ ps qs x _ fin hf, Story.events, raised_failed he, End.events] at h1 h2
  exact ⟨h1, h2⟩

-- non-trivial case: the second of three elements raises
example : (map inverse).protected.proc.outputs
    ([.next 4, .next 0, .next 5].map .feed ++ [.step tick, .step tick, .step tick]) =
      some [.next 25, .error (.user 0)] := by decide
example : FirstRaise inverse [4] 0 (.user 0) := ⟨by simp [inverse], by simp [inverse]⟩

/-! ## C91 -/

/-- C91 is false: `CancelledError` is not an `Exception`, so no handler sees it and the worker task ends. For every
source and every schedule, when the mapper raises it the observer gets the results for the earlier elements and then
nothing, neither an error nor a completion. -/
theorem C91_violated_map (f : α → Except Err β)
    (es : List (Proc.Ev (Notif α) (map f).protected.compile.Lab)) (s out)
    (h : (map f).protected.proc.exec (map f).protected.proc.init es = some (s, out))
    (ps qs : List α) (x : α) (fin : End)
    (hin : story (Proc.inputs es) = ⟨ps ++ x :: qs, fin⟩) (hf : FirstRaise f ps x .cancelled) :
    out <+: (results f ps).map .next ∧
    ((map f).protected.proc.Quiescent s → out = (results f ps).map .next) := by
  have hd := (map_acts (f := f)).delivers
  have h1 := hd.prefix_ es s out h trivial
  have h2 := hd.all es s out h trivial
  rw [hin] at h1 h2
  simp only [map_raise _ ps qs x _ fin hf, Story.events, raised, End.events, List.append_nil] at h1 h2
  exact ⟨h1, h2⟩

/-- C91 is false for `choose`. -/
theorem C91_violated_choose (f : α → Except Err (Option β))
    (es : List (Proc.Ev (Notif α) (choose f).protected.compile.Lab)) (s out)
    (h : (choose f).protected.proc.exec (choose f).protected.proc.init es = some (s, out))
    (ps qs : List α) (x : α) (fin : End)
    (hin : story (Proc.inputs es) = ⟨ps ++ x :: qs, fin⟩) (hf : FirstRaise f ps x .cancelled) :
    out <+: ((results f ps).filterMap fun y => y).map .next ∧
    ((choose f).protected.proc.Quiescent s → out = ((results f ps).filterMap fun y => y).map .next) := by
  have hd := (choose_acts (f := f)).delivers
  have h1 := hd.prefix_ es s out h trivial
  have h2 := hd.all es s out h trivial
  rw [hin] at h1 h2
  simp only [choose_raise _ ps qs x _ fin hf, Story.events, raised, End.events, List.append_nil] at h1 h2
  exact ⟨h1, h2⟩

/-- C91 is false for `filter`. -/
theorem C91_violated_filter (p : α → Except Err Bool)
    (es : List (Proc.Ev (Notif α) (filter p).protected.compile.Lab)) (s out)
    (h : (filter p).protected.proc.exec (filter p).protected.proc.init es = some (s, out))
    (ps qs : List α) (x : α) (fin : End)
    (hin : story (Proc.inputs es) = ⟨ps ++ x :: qs, fin⟩) (hf : FirstRaise p ps x .cancelled) :
    out <+: (ps.filter fun y => yes (p y)).map .next ∧
    ((filter p).protected.proc.Quiescent s → out = (ps.filter fun y => yes (p y)).map .next) := by
  have hd := (filter_acts (p := p)).delivers
  have h1 := hd.prefix_ es s out h trivial
  have h2 := hd.all es s out h trivial
  rw [hin] at h1 h2
  simp only [filter_raise _ ps qs x _ fin hf, Story.events, raised, End.events, List.append_nil] at h1 h2
  exact ⟨h1, h2⟩

/-- C91, the part that holds: any other exception is reported (sources that deliver through a `safe_observer`). -/
theorem C91_partial (f : α → Except Err β)
    (es : List (Proc.Ev (Notif α) (map f).protected.compile.Lab)) (s out)
    (h : (map f).protected.proc.exec (map f).protected.proc.init es = some (s, out))
    (hq : (map f).protected.proc.Quiescent s)
    (ps qs : List α) (x : α) (e : Err) (fin : End)
    (hin : story (Proc.inputs es) = ⟨ps ++ x :: qs, fin⟩) (hf : FirstRaise f ps x e) :
    .error e ∈ out ↔ e ≠ .cancelled := by
  constructor
  · rintro h1 rfl
    rw [(C91_violated_map f es s out h ps qs x fin hin hf).2 hq] at h1
    simp at h1
  · intro he
    rw [(C28_map_partial f es s out h ps qs x e fin hin hf he).2 hq]
    simp

/-- a mapper that awaits something which is cancelled for 0 -/
def awaits (x : Nat) : Except Err Nat := if x = 0 then .error .cancelled else .ok x

example : (map awaits).protected.proc.outputs
    ([.next 4, .next 0, .next 5, .completed].map .feed ++ List.replicate 4 (.step tick)) =
      some [.next 4] := by decide
example : FirstRaise awaits [4] 0 .cancelled := ⟨by simp [awaits], by simp [awaits]⟩

/-! ## C29 -/

/-- C29. `mapi` passes the zero-based position. -/
theorem C29_mapi (f : α → Nat → β) :
    (mapi fun x i => .ok (f x i)).Computes fun s => ⟨s.vals.mapIdx fun i x => f x i, s.fin⟩ :=
  (mapi_acts f).computes (mapi_calm f)

/-- C29. `mapi_async`. -/
theorem C29_mapi_async (f : α → Nat → β) :
    (mapiAsync fun x i => .ok (f x i)).Computes fun s => ⟨s.vals.mapIdx fun i x => f x i, s.fin⟩ :=
  (mapiAsync_acts f).computes (mapiAsync_calm f)

/-- C29. `filteri` passes the zero-based position (in the source, not in the output). -/
theorem C29_filteri (p : α → Nat → Bool) :
    (filteri fun x i => .ok (p x i)).Computes fun s =>
      ⟨(s.vals.zipIdx.filter fun q => p q.1 q.2).map Prod.fst, s.fin⟩ :=
  (filteri_acts p).computes (filteri_calm p)

example : (filteri fun (_ : Nat) i => .ok (i % 2 == 0)).direct.proc.outputs
    ([.next 5, .next 6, .next 7, .completed].map .feed ++
      [.step tick, .step tick, .step tick, .step tick]) =
      some [.next 5, .next 7, .completed] := by decide

/-! ## C30 -/

/-- C30. `filter` keeps exactly the matching elements. -/
theorem C30_filter (p : α → Bool) : (filter fun x => .ok (p x)).Computes (kept p) :=
  ((filter_acts (p := fun x => .ok (p x))).congr fun s =>
    tryEach_keep p s.vals s.fin).computes (filter_calm p)

/-- C30. `filter_async`. -/
theorem C30_filter_async (p : α → Bool) : (filterAsync fun x => .ok (p x)).Computes (kept p) :=
  C30_filter p

/-- C30. `starfilter` on pairs. -/
theorem C30_starfilter (p : α → γ → Bool) :
    (starfilter fun x y => .ok (p x y)).Computes (kept fun q => p q.1 q.2) :=
  ((starfilter_acts (p := fun x y => .ok (p x y))).congr fun s =>
    tryEach_keep (fun q : α × γ => p q.1 q.2) s.vals s.fin).computes (starfilter_calm p)

/-- C30. `choose` keeps exactly the `Some` results. -/
theorem C30_choose (f : α → Option β) : (choose fun x => .ok (f x)).Computes (chosen f) :=
  ((choose_acts (f := fun x => .ok (f x))).congr fun s =>
    tryEach_ok f s.vals s.fin).computes (choose_calm f)

/-- C30. `choose_async`. -/
theorem C30_choose_async (f : α → Option β) : (chooseAsync fun x => .ok (f x)).Computes (chosen f) :=
  ((chooseAsync_acts (f := fun x => .ok (f x))).congr fun s =>
    tryEach_ok f s.vals s.fin).computes (chooseAsync_calm f)

example : (filter fun x : Nat => .ok (x % 2 == 1)).direct.proc.outputs
    ([.next 1, .next 2, .next 3, .completed].map .feed) =
      some [.next 1, .next 3, .completed] := by decide

end Aio
