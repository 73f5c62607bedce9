import Verif.Model.Pipeline
/-!
# A final observer that raises

The observer that a user subscribes, as the last part of a pipeline: it records the call (the output) and then, if it
likes, raises. What it does may depend on all it has heard. Any implementation of `AsyncObserver` (types.py:18-33) is one,
as far as the library can tell.
-/

namespace Aio
variable {γ : Type}

/-- `raises vs`: what `asend` raises when `vs` are the values heard, the last one just now; `onThrow`, `onClose`: what
`athrow` and `aclose` raise. -/
structure UserObserver (γ : Type) where
  raises : List γ → Option Err
  onThrow : Option Err
  onClose : Option Err

def Py.raiseIf {σ ο : Type} : Option Err → Py σ ο Unit
  | none => Py.ret ()
  | some e => Py.raise e

/-- The observer as the end of a pipeline; `O` records the calls. -/
def UserObserver.wrap (u : UserObserver γ) : Wrap γ γ where
  τ := List γ
  init := []
  obs O :=
    { asend := fun v => do
        Py.up (O.asend v)
        let vs ← Py.getL
        Py.setL (vs ++ [v])
        Py.raiseIf (u.raises (vs ++ [v]))
      athrow := fun e => do
        Py.up (O.athrow e)
        Py.raiseIf u.onThrow
      aclose := do
        Py.up O.aclose
        Py.raiseIf u.onClose }

/-- The pipeline of an operator behind a protected source, with the user's observer at its end. -/
def Operator.observedBy {α : Type} (op : Operator α γ) (u : UserObserver γ) : Chain α γ :=
  .safe (op.app (.wrap u.wrap .done))

end Aio
