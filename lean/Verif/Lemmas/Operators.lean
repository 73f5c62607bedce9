import Verif.Lemmas.Pipeline
import Verif.Model.Filtering
import Verif.Spec.Operators
/-!
# Operators as functions on streams
-/
namespace Aio
open Spec

variable {α β γ σ ο τ ρ : Type}

/-- Behind a safe observer, and in front of any pipeline, the operator acts as `G`. -/
def Operator.Acts (op : Operator α β) (G : Story α → Story β) : Prop :=
  ∀ (γ : Type) (c : Chain β γ) (F : Story β → Story γ), Guarded c F → Guarded (op.app c) (F ∘ G)

/-- Called directly by any producer (even an ill-behaved one) the operator acts as `G`. -/
def Operator.ActsRaw (op : Operator α β) (G : Story α → Story β) : Prop :=
  ∀ (γ : Type) (c : Chain β γ) (F : Story β → Story γ), Guarded c F →
    (op.app c).compile.RawDen fun ns => (F (G (story ns))).events

theorem Operator.Acts.congr {op : Operator α β} {G G'} (h : op.Acts G) (hg : ∀ s, G s = G' s) :
    op.Acts G' := by
  obtain rfl : G = G' := funext hg
  exact h

theorem Operator.acts_id : (Operator.id : Operator α α).Acts fun s => s := fun _ _ _ h => h

theorem Operator.Acts.compose {op1 : Operator α β} {op2 : Operator β γ} {G1 G2}
    (h1 : op1.Acts G1) (h2 : op2.Acts G2) : (op1.compose op2).Acts (G2 ∘ G1) :=
  fun _ c F h => h1 _ _ _ (h2 _ c F h)

theorem Operator.ActsRaw.compose {op1 : Operator α β} {op2 : Operator β γ} {G1 G2}
    (h1 : op1.ActsRaw G1) (h2 : op2.Acts G2) : (op1.compose op2).ActsRaw (G2 ∘ G1) :=
  fun _ c F h => h1 _ _ _ (h2 _ c F h)

theorem Code.RawDen.implements {c : Code α γ} {f} (h : c.RawDen f) :
    c.proc.Implements f ∧ c.proc.Terminates := by
  cases c with
  | final obs s0 => exact ⟨(Proc.direct_implements _).congr h, Proc.direct_terminates _⟩
  | more obs s0 p =>
    obtain ⟨g, h1, h2, h3⟩ := h
    exact ⟨(Proc.seq_implements (Proc.direct_implements _) h1 (fun _ _ h => h1.mono h2 h)).congr h3,
      Proc.seq_terminates (Proc.direct_terminates _) h2⟩

theorem guard_rawDen {c : Code α γ} {F} (h : c.Den F) :
    c.guard.RawDen fun ns => (F (story ns)).events := by
  obtain ⟨St, Lab, p, hp, h1, h2⟩ := Code.guard_spec h
  rw [hp]
  exact ⟨_, h1, h2, fun ns => by simp⟩

/-- What `Acts` means for the process: every schedule delivers a prefix of `G`'s stream, a finished
schedule delivers all of it, and no schedule runs forever. -/
theorem Operator.Acts.protected {op : Operator α β} {G} (h : op.Acts G) :
    op.protected.proc.Implements (fun ns => (G (story ns)).events) ∧ op.protected.proc.Terminates :=
  (guard_rawDen (h _ _ _ guarded_done)).implements

theorem Operator.ActsRaw.direct {op : Operator α β} {G} (h : op.ActsRaw G) :
    op.direct.proc.Implements (fun ns => (G (story ns)).events) ∧ op.direct.proc.Terminates :=
  (h _ _ _ guarded_done).implements

theorem Transparent.acts {w : Wrap α β} {G} (h : Transparent w G) : w.op.Acts G :=
  fun _ _ _ hc => guarded_wrap h hc

theorem Front.acts {w : Wrap α β} {G} (h : Front w G) : w.safeOp.Acts G :=
  fun _ _ _ hc => guarded_front h hc

theorem Front.actsRaw {w : Wrap α β} {G} (h : Front w G) : w.safeOp.ActsRaw G :=
  fun _ _ _ hc => raw_front h hc

/-! ### synchronous wrappers -/

/-- Each value is replaced by at most one value, with a state; the function may raise. -/
def transduce (f : τ → α → Except Err (τ × Option β)) : τ → List α → End → Story β
  | _, [], fin => ⟨[], fin⟩
  | t, x :: xs, fin =>
    match f t x with
    | .error e => ⟨[], raised e⟩
    | .ok (t', none) => transduce f t' xs fin
    | .ok (t', some y) => ⟨y :: (transduce f t' xs fin).vals, (transduce f t' xs fin).fin⟩

/-- The wrapper computes `f` and hands the result (if any) on. -/
structure PureWrap (w : Wrap α β) (f : w.τ → α → Except Err (w.τ × Option β)) : Prop where
  asend : ∀ {σ ο : Type} (O : Observer σ ο β) (v : α) (t : w.τ) (s : σ),
    (w.obs O).asend v (t, s) =
      match f t v with
      | .error e => ⟨.error e, (t, s), []⟩
      | .ok (t', none) => ⟨.ok (), (t', s), []⟩
      | .ok (t', some y) => ⟨(O.asend y s).val, (t', (O.asend y s).st), (O.asend y s).out⟩
  athrow : ∀ {σ ο : Type} (O : Observer σ ο β) (e : Err), (w.obs O).athrow e = (O.up).athrow e
  aclose : ∀ {σ ο : Type} (O : Observer σ ο β), (w.obs O).aclose = (O.up).aclose

theorem PureWrap.transparent {w : Wrap α β} {f} (h : PureWrap w f) :
    Transparent w fun s => transduce f w.init s.vals s.fin := by
  intro σ ο O s ns
  generalize w.init = t
  induction ns generalizing t s with
  | nil => rfl
  | cons n ns ih =>
    cases n with
    | error e => simp [h.athrow, Observer.up, transduce]
    | completed => simp [h.aclose, Observer.up, transduce]
    | next v =>
      have ha := h.asend O v t s
      simp only [story_next, transduce]
      cases hf : f t v with
      | error e =>
        rw [hf] at ha
        by_cases he : e = .cancelled
        · subst he
          rw [safeOut_next_cancelled _ ha]
          rfl
        · rw [safeOut_next_error _ ha he]
          simp [h.athrow, Observer.up, raised_failed he]
      | ok r =>
        rw [hf] at ha
        obtain ⟨t', _ | y⟩ := r
        · rw [safeOut_next_ok _ ha]; simpa using ih s t'
        · simp only at ha
          simp only [Story.events, List.map_cons, List.cons_append]
          rcases hr : O.asend y s with ⟨e | u, s', o⟩
          · rw [hr] at ha
            by_cases he : e = .cancelled
            · subst he
              rw [safeOut_next_cancelled _ ha, safeOut_next_cancelled _ hr]
            · rw [safeOut_next_error _ ha he, safeOut_next_error _ hr he]
              simp [h.athrow, Observer.up]
          · rw [hr] at ha
            rw [safeOut_next_ok _ ha, safeOut_next_ok _ hr]
            simpa [Story.events] using ih s' t'

theorem transduce_stateless (f : Unit → α → Except Err (Unit × Option β)) (g : α → Except Err (Option β))
    (h : ∀ x, f () x = (g x).map fun y => ((), y)) (xs : List α) (fin : End) :
    transduce f () xs fin = tryEach g xs fin := by
  induction xs with
  | nil => rfl
  | cons x xs ih =>
    simp only [transduce, tryEach, h]
    cases g x with
    | error e => rfl
    | ok y => cases y <;> simp [Except.map, ih]

/-- Stateless handlers. -/
theorem transform_acts {anext : {σ ο : Type} → (β → Py σ ο Unit) → α → Py σ ο Unit}
    (g : α → Except Err (Option β))
    (h : ∀ {σ ο : Type} (next : β → Py σ ο Unit) x s, anext next x s =
      match g x with
      | .error e => ⟨.error e, s, []⟩
      | .ok none => ⟨.ok (), s, []⟩
      | .ok (some y) => next y s) :
    (transform anext).op.Acts fun s => tryEach g s.vals s.fin := by
  have : PureWrap (transform anext) (fun _ x => (g x).map fun y => ((), y)) := by
    refine ⟨?_, fun _ _ => rfl, fun _ => rfl⟩
    intro σ ο O v t s
    simp only [transform, h]
    cases g v with
    | error e => rfl
    | ok y => cases y <;> rfl
  refine this.transparent.acts.congr fun s => ?_
  exact transduce_stateless _ _ (fun _ => rfl) _ _

/-! ### list facts about `tryEach` -/

theorem tryEach_ok (g : α → Option β) (xs : List α) (fin : End) :
    tryEach (fun x => .ok (g x)) xs fin = ⟨xs.filterMap g, fin⟩ := by
  induction xs with
  | nil => rfl
  | cons x xs ih =>
    simp only [tryEach, List.filterMap_cons]
    cases g x <;> simp [ih]

theorem tryEach_raise {f : α → Except Err (Option β)} {g : α → Option β} {e : Err}
    (ps qs : List α) (x : α) (fin : End) (hp : ∀ p ∈ ps, f p = .ok (g p)) (hx : f x = .error e) :
    tryEach f (ps ++ x :: qs) fin = ⟨ps.filterMap g, raised e⟩ := by
  induction ps with
  | nil => simp [tryEach, hx]
  | cons p ps ih =>
    have hp' := hp p (by simp)
    have ih := ih fun q hq => hp q (by simp [hq])
    simp only [List.cons_append, tryEach, hp', List.filterMap_cons]
    cases g p <;> simp [ih]

/-! ### the operators of transform.py -/

theorem map_acts {f : α → Except Err β} :
    (map f).Acts fun s => tryEach (fun x => (f x).map some) s.vals s.fin := by
  refine transform_acts _ ?_
  intro σ ο next x s
  simp only [Py.bind_eq, Py.andThen, Py.call_run]
  cases f x <;> simp [Except.map]

theorem mapAsync_acts {f : α → Except Err β} :
    (mapAsync f).Acts fun s => tryEach (fun x => (f x).map some) s.vals s.fin := map_acts

theorem starmap_acts {f : α → γ → Except Err β} :
    (starmap f).Acts fun s => tryEach (fun x => (f x.1 x.2).map some) s.vals s.fin := by
  refine transform_acts _ ?_
  intro σ ο next x s
  simp only [Py.bind_eq, Py.andThen, Py.call_run]
  cases f x.1 x.2 <;> simp [Except.map]

theorem starmapAsync_acts {f : α → γ → Except Err β} :
    (starmapAsync f).Acts fun s => tryEach (fun x => (f x.1 x.2).map some) s.vals s.fin :=
  starmap_acts

theorem choose_acts {f : α → Except Err (Option β)} :
    (choose f).Acts fun s => tryEach f s.vals s.fin := by
  refine transform_acts _ ?_
  intro σ ο next x s
  simp only [Py.bind_eq, Py.andThen, Py.call_run]
  cases f x with
  | error e => rfl
  | ok y => cases y <;> simp

theorem chooseAsync_acts {f : α → Except Err (Option β)} :
    (chooseAsync f).Acts fun s => tryEach f s.vals s.fin := by
  refine transform_acts _ ?_
  intro σ ο next x s
  simp only [Py.bind_eq, Py.andThen, Py.call_run]
  cases f x with
  | error e => rfl
  | ok y =>
    cases y with
    | none => rfl
    | some y =>
      simp only [Option.toList, Py.forEach, Py.andThen]
      rcases next y s with ⟨_ | _, s', o⟩ <;> simp

/-- keep `x` iff the predicate says so -/
def keepIf (p : α → Except Err Bool) (x : α) : Except Err (Option α) :=
  (p x).map fun b => if b then some x else none

theorem filter_acts {p : α → Except Err Bool} :
    (filter p).Acts fun s => tryEach (keepIf p) s.vals s.fin := by
  refine transform_acts _ ?_
  intro σ ο next x s
  simp only [Py.bind_eq, Py.andThen, Py.call_run, keepIf]
  cases p x with
  | error e => rfl
  | ok b => cases b <;> simp [Except.map]

theorem filterAsync_acts {p : α → Except Err Bool} :
    (filterAsync p).Acts fun s => tryEach (keepIf p) s.vals s.fin := filter_acts

theorem starfilter_acts {p : α → γ → Except Err Bool} :
    (starfilter p).Acts fun s => tryEach (keepIf fun x => p x.1 x.2) s.vals s.fin := by
  refine transform_acts _ ?_
  intro σ ο next x s
  simp only [Py.bind_eq, Py.andThen, Py.call_run, keepIf]
  cases p x.1 x.2 with
  | error e => rfl
  | ok b => cases b <;> simp [Except.map]

end Aio
