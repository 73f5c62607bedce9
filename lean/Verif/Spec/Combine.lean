import Verif.Spec.Delivery
/-!
# Specifications of the operators with two sources
-/

namespace Aio.Spec
variable {α β γ : Type}

/-- The values of two sources in order of arrival up to the first terminal event of either, and how
that ended. -/
def both : List (Notif α ⊕ Notif β) → List (α ⊕ β) × End
  | [] => ([], .running)
  | .inl (.next a) :: is => (.inl a :: (both is).1, (both is).2)
  | .inr (.next b) :: is => (.inr b :: (both is).1, (both is).2)
  | .inl (.error e) :: _ => ([], .failed e)
  | .inr (.error e) :: _ => ([], .failed e)
  | .inl .completed :: _ => ([], .done)
  | .inr .completed :: _ => ([], .done)

/-- The newest value of each source. -/
def newestL (vs : List (α ⊕ β)) : Option α := (vs.filterMap Sum.getLeft?).getLast?
def newestR (vs : List (α ⊕ β)) : Option β := (vs.filterMap Sum.getRight?).getLast?

/-- The pair of the newest values, if there is one of each. -/
def newest (vs : List (α ⊕ β)) : Option (α × β) :=
  match newestL vs, newestR vs with
  | some a, some b => some (a, b)
  | _, _ => none

/-- For each arrival, the pair of the newest values at that time. -/
def combineLatest (is : List (Notif α ⊕ Notif β)) : Story (α × β) :=
  ⟨(List.range (both is).1.length).filterMap fun i => newest ((both is).1.take (i + 1)), (both is).2⟩

/-- For each arrival from the source, that value with the newest other value at that time. -/
def withLatestFrom (is : List (Notif α ⊕ Notif β)) : Story (α × β) :=
  ⟨(List.range (both is).1.length).filterMap fun i =>
    match ((both is).1[i]? : Option (α ⊕ β)) with
    | some (.inl a) => (newestR ((both is).1.take i)).map fun b => (a, b)
    | _ => none, (both is).2⟩

/-- The source until the other one sends a value (then the stream is complete) or fails. -/
def takeUntil : List (Notif α ⊕ Notif β) → Story α
  | [] => ⟨[], .running⟩
  | .inl (.next a) :: is => ⟨a :: (takeUntil is).vals, (takeUntil is).fin⟩
  | .inl (.error e) :: _ => ⟨[], .failed e⟩
  | .inl .completed :: _ => ⟨[], .done⟩
  | .inr (.next _) :: _ => ⟨[], .done⟩
  | .inr (.error e) :: _ => ⟨[], .failed e⟩
  | .inr .completed :: is => takeUntil is

/-- Like `Delivers`, for arbitrary inputs. -/
structure DeliversFrom {St Lab ι : Type} (p : Proc St Lab ι (Notif γ)) (F : List ι → Story γ) :
    Prop where
  prefix_ : ∀ es s out, p.exec p.init es = some (s, out) → out <+: (F (Proc.inputs es)).events
  all : ∀ es s out, p.exec p.init es = some (s, out) → p.Quiescent s →
    out = (F (Proc.inputs es)).events
  ends : p.Terminates

end Aio.Spec
