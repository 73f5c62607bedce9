import Verif.Model.Pipeline
/-!
# Subscribing with functions

`AsyncAnonymousObserver(asend, athrow, aclose)`, observers.py:97-128, each function optional, as the end of a pipeline. What
is recorded are the calls made to the functions that were given; the record is a stream of its own, its values are the calls.
The functions do not raise (see `UserObserver` for an observer that does).
-/

namespace Aio
variable {α γ : Type}

/-- Which of the three functions were given. -/
structure Given where
  asend : Bool
  athrow : Bool
  aclose : Bool

/-- The observer made of the functions that were given, each of which records its call. -/
def Given.wrap (g : Given) : Wrap γ (Notif γ) where
  τ := Unit
  init := ()
  obs O := Observer.anonymous
    (if g.asend then some fun v => Py.up (O.asend (.next v)) else none)
    (if g.athrow then some fun e => Py.up (O.asend (.error e)) else none)
    (if g.aclose then some (Py.up (O.asend .completed)) else none)

/-- `AsyncAnonymousObserver(...)` subscribed to the pipeline of an operator, behind a protected source. -/
def Operator.listened (op : Operator α γ) (g : Given) : Chain α (Notif γ) :=
  .safe (op.app (.wrap g.wrap .done))

end Aio
