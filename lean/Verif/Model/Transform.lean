import Verif.Model.Pipeline
/-!
# Single-source operators of `aioreactive/transform.py`, and `zip_seq` of `combine.py`

User functions are pure functions that return or raise. An `async` user function may suspend; in the
models here its await is not a separate step: operators behind a safe worker handle one element at a
time, so nothing can happen to their state meanwhile (the exception, `scan_async` called by
overlapping producers, has its own model in `Model/ScanRace.lean`).
-/

namespace Aio
variable {α β γ ρ : Type}

/-- `transform(anext)`: `asend` runs the handler with the downstream `asend`; errors and completion
go straight through. transform.py:35-58. -/
@[reducible] def transform (anext : {σ ο : Type} → (β → Py σ ο Unit) → α → Py σ ο Unit) : Wrap α β where
  τ := Unit
  init := ()
  obs aobv :=
    { asend := fun value => anext (Observer.up aobv).asend value
      athrow := (Observer.up aobv).athrow
      aclose := (Observer.up aobv).aclose }

/-- `map(mapper)`. transform.py:95-105. -/
def map (mapper : α → Except Err β) : Operator α β :=
  Wrap.op (transform fun next x => do
    let y ← Py.call (mapper x)
    next y)

/-- `map_async(amapper)`. transform.py:61-75. -/
def mapAsync (amapper : α → Except Err β) : Operator α β :=
  Wrap.op (transform fun next x => do
    let b ← Py.call (amapper x)
    next b)

/-- `starmap(mapper)` on pairs. transform.py:108-118. -/
def starmap (mapper : α → γ → Except Err β) : Operator (α × γ) β :=
  Wrap.op (transform fun next args => do
    let y ← Py.call (mapper args.1 args.2)
    next y)

/-- `starmap_async(amapper)` on pairs. transform.py:78-92. -/
def starmapAsync (amapper : α → γ → Except Err β) : Operator (α × γ) β :=
  Wrap.op (transform fun next args => do
    let b ← Py.call (amapper args.1 args.2)
    next b)

/-- What `next(enumerator)` does: return an item, raise `StopIteration`, or raise something else. -/
inductive Pull (β : Type) where
  | item (y : β)
  | stop
  | raises (e : Err)
  deriving DecidableEq, Repr

/-- An iterable, given by what the k-th `next()` on a fresh iterator of it does (iterators are
deterministic; each `iter(sequence)` starts anew). -/
abbrev Iterable (β : Type) := Nat → Pull β

/-- `seq.infinite` of package `expression`: 0, 1, 2, ... -/
def infinite : Iterable Nat := .item

/-- The observer of `zip_seq(sequence)`. combine.py:336-365. Local variable: how often `next` has
been called on the enumerator. -/
@[reducible] def zipSeqW (sequence : Iterable β) : Wrap α (α × β) where
  τ := Nat
  init := 0
  obs safe_obv :=
    { asend := fun x =>
        -- the two nested `try`s 346-353
        Py.tryExcept
          (do
            let k ← Py.getL
            Py.setL (k + 1)
            match sequence k with
            | .item n => (Observer.up safe_obv).asend (x, n)
            | .stop => (Observer.up safe_obv).aclose
            | .raises e => Py.raise e)
          (fun ex => (Observer.up safe_obv).athrow ex)
      athrow := (Observer.up safe_obv).athrow
      aclose := (Observer.up safe_obv).aclose }

/-- `zip_seq(sequence)`. combine.py:336-367. -/
def zipSeq (sequence : Iterable β) : Operator α (α × β) :=
  (zipSeqW sequence).safeOp

/-- `mapi(mapper)`. transform.py:136-148. -/
def mapi (mapper : α → Nat → Except Err β) : Operator α β :=
  (zipSeq infinite).compose (starmap mapper)

/-- `mapi_async(mapper)`. transform.py:121-133. -/
def mapiAsync (mapper : α → Nat → Except Err β) : Operator α β :=
  (zipSeq infinite).compose (starmapAsync mapper)

/-- The observer of `_scan(accumulator, initial)`. transform.py:452-486. -/
@[reducible] def scanW (accumulator : ρ → α → Except Err ρ) (initial : ρ) : Wrap α ρ where
  τ := ρ
  init := initial
  obs observer :=
    { asend := fun value => do
        let current ← Py.getL
        Py.tryElse (Py.call (accumulator current value))
          (fun ex => (Observer.up observer).athrow ex)
          (fun intermediate => do
            Py.setL intermediate
            (Observer.up observer).asend intermediate)
      athrow := (Observer.up observer).athrow
      aclose := (Observer.up observer).aclose }

/-- `scan(accumulator, initial)` and `scan_async`. transform.py:489-512. -/
def scan (accumulator : ρ → α → Except Err ρ) (initial : ρ) : Operator α ρ :=
  (scanW accumulator initial).op

end Aio
