import Verif.Model.SearchBox
import Verif.Model.HostedSwitch
/-!
# The search box on the `VirtualTimeEventLoop`

The tasks of the pipeline of README.md:255-270 in front of `switch_latest`.
-/

namespace Aio
variable {S L T α β ω : Type}

/-- A subject has no task; other code calls `asend`. subject.py:116-143. -/
def Clocked.typedHost : Host (Nat × List (Notif α × Nat)) α Empty where
  names _ := []
  need _ t := nomatch t
  turn _ t := nomatch t
  outside _ := true

/-- The tasks of `Clocked.searches`: those of the source; the mapper or filter that awaits something (`before`); the worker and the timers of `debounce`; the workers of the safe observers
and mappers behind it (`behind`). -/
def Host.searches (H : Host S L T) (clean : Operator α β) (before : List clean.direct.compileSlow.SlowLab) (fresh : Operator β ω) (behind : List fresh.protected.compileSlow.SlowLab) :=
  ((H.operate clean.direct.slowProc before).through (Debounce.host (α := β))).operate fresh.protected.slowProc behind

end Aio
