import Verif.Lemmas.Chains
import Verif.Model.Listener
import Verif.Props.C05_Raising
/-!
# C89: an observer made of functions
-/

namespace Aio
open Spec
variable {α β γ : Type}

namespace Spec

/-- The function for this event was given. -/
def handles (g : Given) : Notif γ → Bool
  | .next _ => g.asend
  | .error _ => g.athrow
  | .completed => g.aclose

end Spec

theorem Given.guarded (g : Given) :
    Guarded (.wrap g.wrap .done) fun s : Story γ => ⟨s.events.filter (handles g), .running⟩ := by
  intro ns
  show safeOut (g.wrap.obs Observer.post) (g.wrap.init, ()) ns = _
  have h0 : (g.wrap : Wrap γ _).init = () := rfl
  rw [h0]
  obtain ⟨a, t, c⟩ := g
  induction ns with
  | nil => simp [story, Story.events, End.events]
  | cons n ns ih =>
    cases n with
    | error e =>
      simp only [safeOut_error, story_error]
      cases t <;> simp [Given.wrap, Observer.anonymous, Observer.post, Story.events, End.events, List.filter_cons, handles]
    | completed =>
      simp only [safeOut_completed, story_completed]
      cases c <;> simp [Given.wrap, Observer.anonymous, Observer.post, Story.events, End.events, List.filter_cons, handles]
    | next v =>
      simp only [story_next]
      cases a with
      | true =>
        have : ((Given.mk true t c).wrap.obs Observer.post).asend v ((), ()) = ⟨.ok (), ((), ()), [.next (.next v)]⟩ := by
          simp [Given.wrap, Observer.anonymous, Observer.post]
        rw [safeOut_next_ok _ this, ih]
        simp [Story.events, List.filter_cons, handles]
      | false =>
        have : ((Given.mk false t c).wrap.obs Observer.post).asend v ((), ()) = ⟨.ok (), ((), ()), []⟩ := by
          simp [Given.wrap, Observer.anonymous, Observer.post]
        rw [safeOut_next_ok _ this, ih]
        simp [Story.events, List.filter_cons, handles]

/-- C89. At the end of a pipeline the functions that were given are called for exactly the events of their kind, in the
order of the pipeline's stream; an event without a function is dropped and changes nothing about the others. -/
theorem C89_functions {op : Operator α γ} {G : Story α → Story γ} (h : op.Acts G) (g : Given) :
    Delivers (op.listened g).proc (fun _ => True) fun s => ⟨(G s).events.filter (handles g), .running⟩ := by
  have := (guard_rawDen (h _ _ _ g.guarded)).implements
  exact ⟨fun es s out he _ => (this.1 es s out he).1, fun es s out he _ => (this.1 es s out he).2, this.2⟩

-- `map(+10) | skip(1)` with `asend` and `aclose` only: the error is dropped
example : (((map fun x : Nat => .ok (x + 10)).compose (skip 1)).listened ⟨true, false, true⟩).proc.outputs
    ([.feed (.next 0), .feed (.next 1), .feed (.next 2), .feed (.error (.user 1))] ++
      List.replicate 4 (.step (.inr (.inl ()))) ++ List.replicate 3 (.step (.inr (.inr ())))) =
    some [.next (.next 11), .next (.next 12)] := by decide

end Aio
