import Verif.Model.Filtering
import Verif.Model.Transform
/-!
# Operators with functions that have side effects

In `Model/Transform.lean` and `Model/Filtering.lean` the user's functions are pure. Here they are code: a function may read and write variables (`W`: all variables that functions and the observer share), do
things that can be seen outside (`ο`), and return or raise. Simplified: an async function does not suspend while it does so, that is, nobody else changes the variables meanwhile; operators behind a
`safe_observer` handle one value at a time in any case (C02).
-/

namespace Aio.Effects
variable {W ο α β γ : Type}

/-- `transform(handler)`: `asend` runs the handler with the downstream `asend`. transform.py:47-56. -/
def transform (handler : (β → Py W ο Unit) → α → Py W ο Unit) (aobv : Observer W ο β) : Observer W ο α where
  asend value := handler aobv.asend value
  athrow := aobv.athrow
  aclose := aobv.aclose

/-- `map`, `map_async`, transform.py:71-73, 102-103. -/
def map (mapper : α → Py W ο β) : Observer W ο β → Observer W ο α :=
  transform fun next x => do
    let y ← mapper x
    next y

/-- `filter`, `filter_async`, filtering.py:71-73, 79-82. -/
def filter (predicate : α → Py W ο Bool) : Observer W ο α → Observer W ο α :=
  transform fun next x => do
    if ← predicate x then next x else Py.ret ()

/-- `choose`, `choose_async`, filtering.py:36-39, 47-50. `to_list()` of an option has at most one element. -/
def choose (chooser : α → Py W ο (Option β)) : Observer W ο β → Observer W ο α :=
  transform fun next x => do
    match ← chooser x with
    | some y => next y
    | none => Py.ret ()

/-- A chain of these operators. -/
inductive Steps (W ο : Type) : Type → Type → Type 1 where
  | nil {α : Type} : Steps W ο α α
  | map {α β γ : Type} (f : α → Py W ο β) (rest : Steps W ο β γ) : Steps W ο α γ
  | filter {α γ : Type} (p : α → Py W ο Bool) (rest : Steps W ο α γ) : Steps W ο α γ
  | choose {α β γ : Type} (f : α → Py W ο (Option β)) (rest : Steps W ο β γ) : Steps W ο α γ

/-- `pipe(source, op1, op2, ...)`: the observer that `op1` subscribes to the source calls that of `op2`, and so on. -/
def Steps.observer : {α : Type} → Steps W ο α γ → Observer W ο γ → Observer W ο α
  | _, .nil, obv => obv
  | _, .map f rest, obv => Effects.map f (rest.observer obv)
  | _, .filter p rest, obv => Effects.filter p (rest.observer obv)
  | _, .choose f rest, obv => Effects.choose f (rest.observer obv)

/-- The pipeline behind a source that delivers through `safe_observer`, observers.py:151-199. `dispose`: what the disposable does. -/
def piped (steps : Steps W ο α γ) (obv : Observer W ο γ) (dispose : Py W ο Unit) (w : W) : Proc (List (Notif α) × (Bool × W)) Unit (Notif α) ο :=
  Proc.mailbox (safeAgent (steps.observer obv) dispose w)

/-- Code of the user next to an operator with local variables `τ` that posts messages `μ`: it knows nothing of either. -/
def user {τ μ A : Type} (m : Py W ο A) : Py (τ × W) (ο ⊕ μ) A := fun s =>
  let r := m s.2
  ⟨r.val, (s.1, r.st), r.out.map .inl⟩

/-- The same for all functions of a chain. -/
def Steps.user {τ μ : Type} : {α : Type} → Steps W ο α γ → Steps (τ × W) (ο ⊕ μ) α γ
  | _, .nil => .nil
  | _, .map f rest => .map (fun x => Effects.user (f x)) rest.user
  | _, .filter p rest => .filter (fun x => Effects.user (p x)) rest.user
  | _, .choose f rest => .choose (fun x => Effects.user (f x)) rest.user

/-- The observer that `skip`, `take`, ... call: `asend` and so on of `safe_observer` post to its mailbox, observers.py:190-197. -/
def posting : Observer W (ο ⊕ Notif γ) γ where
  asend v := Py.emit (.inr (.next v))
  athrow e := Py.emit (.inr (.error e))
  aclose := Py.emit (.inr .completed)

/-- `pipe(source, map(f), filter(p), ..., take(n))` behind a protected source, up to the mailbox of `take`. filtering.py:241-261. -/
def beforeTake (steps : Steps W ο α γ) (dispose : Py W ο Unit) (n : Int) (w : W) : Proc (List (Notif α) × (Bool × (Int × W))) Unit (Notif α) (ο ⊕ Notif γ) :=
  piped steps.user ((takeW n).obs posting) (user dispose) (n, w)

/-- `pipe(source, map(f), filter(p), ..., skip(0))`: the same with an operator that drops nothing; or the mailbox of any operator that works behind a mailbox. -/
def beforeMailbox (steps : Steps W ο α γ) (dispose : Py W ο Unit) (w : W) : Proc (List (Notif α) × (Bool × (Unit × W))) Unit (Notif α) (ο ⊕ Notif γ) :=
  piped steps.user posting (user dispose) ((), w)

/-- `pipe(source, take(n), map(f), filter(p), ...)` behind a protected source: the worker of `take`'s `safe_observer` runs the functions. -/
def afterTake (steps : Steps W ο α γ) (obv : Observer W ο γ) (dispose : Py W ο Unit) (n : Int) (w : W) :=
  Proc.seq (Proc.mailbox (safeAgent ((takeW n).obs Observer.post) (Py.ret ()) (n, ()))) (piped steps obv dispose w)

end Aio.Effects
