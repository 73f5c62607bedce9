import Verif.Model.Raising
import Verif.Lemmas.Slices
/-!
# C05 at the end of a pipeline
-/

namespace Aio
open Spec
variable {α γ : Type}

namespace Spec
/-- A stream as an observer hears it that raises on some values (`seen`: the values heard so far): up to the first value
on which it raises, and then its own exception. -/
def heardUntil (raises : List γ → Option Err) : List γ → List γ → End → Story γ
  | _, [], fin => ⟨[], fin⟩
  | seen, v :: vs, fin =>
    match raises (seen ++ [v]) with
    | some e => ⟨[v], .failed e⟩
    | none => ⟨v :: (heardUntil raises (seen ++ [v]) vs fin).vals, (heardUntil raises (seen ++ [v]) vs fin).fin⟩
end Spec

theorem UserObserver.guarded (u : UserObserver γ) (hu : ∀ vs, u.raises vs ≠ some .cancelled) :
    Guarded (.wrap u.wrap .done) fun s => heardUntil u.raises [] s.vals s.fin := by
  intro ns
  show safeOut (u.wrap.obs Observer.post) (u.wrap.init, ()) ns = _
  have hu' : u.wrap.init = ([] : List γ) := rfl
  rw [hu']
  generalize ([] : List γ) = seen
  induction ns generalizing seen with
  | nil => rfl
  | cons n ns ih =>
    cases n with
    | error e =>
      simp only [safeOut_error, story_error, heardUntil]
      cases h : u.onThrow <;> simp [UserObserver.wrap, Observer.post, Py.andThen, Py.raiseIf, h, Story.events, End.events]
    | completed =>
      simp only [safeOut_completed, story_completed, heardUntil]
      cases h : u.onClose <;> simp [UserObserver.wrap, Observer.post, Py.andThen, Py.raiseIf, h, Story.events, End.events]
    | next v =>
      simp only [story_next, heardUntil]
      cases h : u.raises (seen ++ [v]) with
      | none =>
        have : (u.wrap.obs Observer.post).asend v (seen, ()) = ⟨.ok (), (seen ++ [v], ()), [.next v]⟩ := by
          simp [UserObserver.wrap, Observer.post, Py.andThen, Py.raiseIf, h]
        rw [safeOut_next_ok _ this, ih (seen ++ [v])]
        simp [Story.events]
      | some e =>
        have : (u.wrap.obs Observer.post).asend v (seen, ()) = ⟨.error e, (seen ++ [v], ()), [.next v]⟩ := by
          simp [UserObserver.wrap, Observer.post, Py.andThen, Py.raiseIf, h]
        have he : e ≠ .cancelled := fun hc => hu _ (hc ▸ h)
        rw [safeOut_next_error _ this he]
        cases h' : u.onThrow <;> simp [UserObserver.wrap, Observer.post, Py.andThen, Py.raiseIf, h', Story.events, End.events]

/-- C05. The same at the end of a pipeline behind a protected source: the observer hears the pipeline's stream, up to the
first value on which it raises, and then its own exception, and nothing else, under every schedule. -/
theorem C05_pipeline {op : Operator α γ} {G : Story α → Story γ} (h : op.Acts G) (u : UserObserver γ)
    (hu : ∀ vs, u.raises vs ≠ some .cancelled) :
    Delivers (op.observedBy u).proc (fun _ => True) fun s => heardUntil u.raises [] (G s).vals (G s).fin := by
  have := (guard_rawDen (h _ _ _ (u.guarded hu))).implements
  exact ⟨fun es s out he _ => (this.1 es s out he).1, fun es s out he _ => (this.1 es s out he).2, this.2⟩

theorem heard_after {raises : List γ → Option Err} {e : Err} {v : γ} : ∀ {xs : List γ} {fin : End} {seen vs : List γ}
    {rest : List (Notif γ)}, raises (seen ++ vs ++ [v]) = some e →
    vs.map .next ++ .next v :: rest <+: (heardUntil raises seen xs fin).events → rest <+: [.error e] := by
  intro xs
  induction xs with
  | nil =>
    intro fin seen vs rest _ h
    cases vs <;> cases fin <;> simp [heardUntil, Story.events, End.events, List.cons_prefix_cons] at h
  | cons x xs ih =>
    intro fin seen vs rest hr h
    simp only [heardUntil] at h
    split at h
    · next e' he' =>
      cases vs with
      | nil =>
        simp only [Story.events, List.map_cons, List.map_nil, List.nil_append, List.cons_append,
          List.cons_prefix_cons] at h
        obtain ⟨hx, h⟩ := h
        cases hx
        simp only [List.append_nil] at hr
        rw [he'] at hr; cases hr
        exact h
      | cons w vs =>
        simp only [Story.events, List.map_cons, List.map_nil, List.nil_append, List.cons_append,
          List.cons_prefix_cons, End.events] at h
        obtain ⟨-, h⟩ := h
        cases vs with
        | nil => simp [List.cons_prefix_cons] at h
        | cons w' vs => simp [List.cons_prefix_cons] at h
    · next he' =>
      cases vs with
      | nil =>
        simp only [Story.events, List.map_cons, List.map_nil, List.nil_append, List.cons_append,
          List.cons_prefix_cons] at h
        obtain ⟨hx, h⟩ := h
        cases hx
        simp only [List.append_nil] at hr
        rw [he'] at hr; cases hr
      | cons w vs =>
        simp only [Story.events, List.map_cons, List.cons_append, List.cons_prefix_cons] at h
        obtain ⟨hx, h⟩ := h
        cases hx
        exact ih (by simpa using hr) h

/-- C05. Nothing but its own exception follows a value on which the observer raised. -/
theorem C05_pipeline_after {op : Operator α γ} {G : Story α → Story γ} (h : op.Acts G) (u : UserObserver γ)
    (hu : ∀ vs, u.raises vs ≠ some .cancelled) {es s vs v rest e}
    (hr : (op.observedBy u).proc.exec (op.observedBy u).proc.init es = some (s, vs.map .next ++ .next v :: rest))
    (he : u.raises (vs ++ [v]) = some e) : rest <+: [.error e] :=
  heard_after (by simpa using he) ((C05_pipeline h u hu).prefix_ es s _ hr trivial)

/-- raises on 12 -/
def picky : UserObserver Nat where
  raises vs := if vs.getLast? = some 12 then some (.user 7) else none
  onThrow := none
  onClose := none

-- `map(+10) | skip(1)` behind a protected source; the observer raises on 12
example : ((((map fun x => .ok (x + 10)).compose (skip 1)).observedBy picky).proc.outputs
    ([.feed (.next 0), .feed (.next 1), .feed (.next 2), .feed (.next 3), .feed .completed] ++
      List.replicate 5 (.step (.inr (.inl ()))) ++ List.replicate 2 (.step (.inr (.inr ()))))) =
    some [.next 11, .next 12, .error (.user 7)] := by decide

end Aio
