import Verif.Model.Work
/-!
# `scan_async` with an accumulator that takes time
-/

namespace Aio
variable {α β γ ρ σ : Type}

/-- `_scan`. transform.py:461-477. The first component of the state is `current`, which is set (469) before the observer is called (471). Simplified: if the observer
raises then, the new `current` is not kept in the model; `safe_observer`'s worker makes no further `asend` call after that. -/
def Handler.scanAsync (f : ρ → α → Nat × Except Err ρ) (o : Handler σ ρ β) : Handler (ρ × σ) α β where
  asend s v := (Co.work (f s.1 v)).attempt
    (fun c => (o.asend s.2 c).bind fun t => .done (c, t))
    (fun ex => (o.athrow s.2 ex).bind fun t => .done (s.1, t))
  athrow s e := (o.athrow s.2 e).bind fun t => .done (s.1, t)
  aclose s := (o.aclose s.2).bind fun t => .done (s.1, t)

/-- `pipe(source, op1, ..., scan_async(f, s0), op1', ...)` before an observer. -/
def Ops.scanned (ops : Ops α γ) (f : ρ → γ → Nat × Except Err ρ) (ops' : Ops ρ β) (o : Handler σ β β) : Handler (ρ × σ) α β :=
  ops.handler (Handler.scanAsync f (ops'.handler o))

end Aio
