import Verif.Model.Linger
import Verif.Model.HostedSwitch
import Verif.Model.HostedWork
/-!
# `pipe(single(x), map_async(f))` as an inner observable on the `VirtualTimeEventLoop`
-/

namespace Aio.Linger
variable {ω α : Type}

/-- `Linger.search` with the disposal of its subscription (`none`): `single` returns `AsyncDisposable.empty()` (create.py:124), so nothing happens, and the worker of its safe observer
(create.py:120) goes on. -/
def disposable (dur : ω → Nat) (g : ω → α) (x : ω) (t : Nat) : Clocked (Work.State ω α Nat) (Option (Work.Label ω)) α :=
  { search dur g x t with
    act := fun s l =>
      match l with
      | some l => (search dur g x t).act s l
      | none => some s }

/-- The task of the worker, as in `Work.host`. -/
def host : Host (Work.State ω α Nat) (Option (Work.Label ω)) Unit where
  names := Work.host.names
  need := Work.host.need
  turn s n := (Work.host.turn s n).map some
  outside
    | none => true
    | some _ => false

end Aio.Linger
