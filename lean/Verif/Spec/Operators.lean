import Verif.Spec.Stream
/-!
# What the single-source operators are supposed to do, as functions on streams

A stream is a `Story`: the list of its values and how it ended. Nothing here mentions the
implementation.
-/

namespace Aio.Spec
variable {α β γ ρ : Type}

/-- `xs.drop n` for a Python integer: nothing is dropped for `n ≤ 0`. -/
def skip (n : Int) (s : Story α) : Story α := ⟨s.vals.drop n.toNat, s.fin⟩

/-- The first `n` values; the stream completes with the `n`-th value. (`n = 0`: no values, and the
ending is the source's own.) -/
def take (n : Int) (s : Story α) : Story α :=
  ⟨s.vals.take n.toNat, if 0 < n ∧ n ≤ s.vals.length then .done else s.fin⟩

/-- The last `n` values, once the source has completed; the error only if it failed. -/
def takeLast (n : Int) (s : Story α) : Story α :=
  match s.fin with
  | .done => ⟨s.vals.drop (s.vals.length - n.toNat), .done⟩
  | f => ⟨[], f⟩

/-- All but the last `n` values. -/
def skipLast (n : Int) (s : Story α) : Story α :=
  ⟨s.vals.take (s.vals.length - n.toNat), s.fin⟩

/-- The values that are first or differ from their direct predecessor. -/
def changes (eq : α → α → Bool) : List α → List α
  | [] => []
  | x :: xs => x :: ((xs.zip (x :: xs)).filter fun p => !eq p.1 p.2).map Prod.fst

def distinct (eq : α → α → Bool) (s : Story α) : Story α := ⟨changes eq s.vals, s.fin⟩

/-- The same with a comparison that may raise: the stream stops there, without an end. `prev`: the value before. -/
def distinctTry (eq : α → α → Except Err Bool) : Option α → List α → End → Story α
  | _, [], fin => ⟨[], fin⟩
  | prev, x :: xs, fin =>
    match (prev.map (eq x)).getD (.ok false) with
    | .error _ => ⟨[], .running⟩
    | .ok true => distinctTry eq (some x) xs fin
    | .ok false => ⟨x :: (distinctTry eq (some x) xs fin).vals, (distinctTry eq (some x) xs fin).fin⟩

/-- How a stream ends when a user function raises: with that error if it is an `Exception`. A `CancelledError` is not
an `Exception` (Python 3.8), no handler sees it, and the stream stays without an end. -/
def raised : Err → End
  | .cancelled => .running
  | e => .failed e

theorem raised_failed {e : Err} (h : e ≠ .cancelled) : raised e = .failed e := by
  cases e <;> first | rfl | exact absurd rfl h

/-- Each value is replaced by zero or one values, until the function raises. -/
def tryEach (f : α → Except Err (Option β)) : List α → End → Story β
  | [], fin => ⟨[], fin⟩
  | x :: xs, fin =>
    match f x with
    | .error e => ⟨[], raised e⟩
    | .ok none => tryEach f xs fin
    | .ok (some y) => ⟨y :: (tryEach f xs fin).vals, (tryEach f xs fin).fin⟩

/-- All running accumulations: `f s x1, f (f s x1) x2, ...`. -/
def accumulate (f : ρ → α → ρ) : ρ → List α → List ρ
  | _, [] => []
  | s, x :: xs => f s x :: accumulate f (f s x) xs

def scan (f : ρ → α → ρ) (s0 : ρ) (s : Story α) : Story ρ := ⟨accumulate f s0 s.vals, s.fin⟩

/-- The fold, once the source has completed. -/
def reduce (f : ρ → α → ρ) (s0 : ρ) (s : Story α) : Story ρ :=
  match s.fin with
  | .done => ⟨[s.vals.foldl f s0], .done⟩
  | f => ⟨[], f⟩

/-- Python's normalisation of a slice bound for a list of length `len`: negative bounds count from
the end, then clamp into `0..len`. -/
def pyBound (len : Nat) (i : Int) : Nat := min (if i < 0 then i + len else i).toNat len

/-- `xs[start:stop:step]` for `step ≥ 1`. -/
def pySlice (start stop : Option Int) (step : Nat) (xs : List α) : List α :=
  let lo := start.elim 0 (pyBound xs.length)
  let hi := stop.elim xs.length (pyBound xs.length)
  (((xs.take hi).drop lo).zipIdx.filter fun p => p.2 % step == 0).map Prod.fst

/-- `[xs[i]]`, or nothing when the index is out of range. -/
def pyIndex (i : Int) (xs : List α) : List α :=
  let k := if i < 0 then i + xs.length else i
  if 0 ≤ k then xs[k.toNat]?.toList else []

/-- Pairing with a list; completes with the first element that finds the list exhausted. -/
def zipList (ys : List β) (s : Story α) : Story (α × β) :=
  ⟨s.vals.zip ys, if ys.length < s.vals.length then .done else s.fin⟩

/-- The same for a sequence that yields `ys` and then raises `e`. -/
def zipRaising (ys : List β) (e : Err) (s : Story α) : Story (α × β) :=
  ⟨s.vals.zip ys, if ys.length < s.vals.length then .failed e else s.fin⟩

end Aio.Spec
