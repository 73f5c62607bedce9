import Verif.Model.Transform
/-!
# `aioreactive/filtering.py`
-/

namespace Aio
variable {α β γ : Type}

/-- `choose(chooser)`. filtering.py:44-52. -/
def choose (chooser : α → Except Err (Option β)) : Operator α β :=
  Wrap.op (transform fun next xs => do
    match ← Py.call (chooser xs) with
    | some x => next x
    | none => Py.ret ())

/-- `choose_async(chooser)`. filtering.py:33-41. -/
def chooseAsync (chooser : α → Except Err (Option β)) : Operator α β :=
  Wrap.op (transform fun next xs => do
    let result ← Py.call (chooser xs)
    Py.forEach result.toList next)

/-- `filter(predicate)`. filtering.py:78-84. -/
def filter (predicate : α → Except Err Bool) : Operator α α :=
  Wrap.op (transform fun next x => do
    if ← Py.call (predicate x) then next x else Py.ret ())

/-- `filter_async(predicate)`. filtering.py:55-75. -/
def filterAsync (predicate : α → Except Err Bool) : Operator α α :=
  Wrap.op (transform fun next x => do
    if ← Py.call (predicate x) then next x else Py.ret ())

/-- `starfilter(predicate)` on pairs. filtering.py:87-102. -/
def starfilter (predicate : α → γ → Except Err Bool) : Operator (α × γ) (α × γ) :=
  Wrap.op (transform fun next args => do
    if ← Py.call (predicate args.1 args.2) then next args else Py.ret ())

/-- `filteri(predicate)`; `seq.head` of the pair `(x, i)` is `x`. filtering.py:105-113. -/
def filteri (predicate : α → Nat → Except Err Bool) : Operator α α :=
  ((zipSeq infinite).compose (starfilter predicate)).compose (map fun p => .ok p.1)

/-- `OnNext(x) == latest` where comparing elements may raise. notification.py:62-65. -/
def sameAs (eq : α → α → Except Err Bool) (x : α) : Notif α → Except Err Bool
  | .next l => eq x l
  | _ => .ok false

/-- The handler inside the agent of `distinct_until_changed`. filtering.py:139-158. `eq a b` is
`a == b` of Python on elements, which may raise. `latest` starts as `OnCompleted()` (160). -/
@[reducible] def distinctW (eq : α → α → Except Err Bool) : Wrap α α where
  τ := Notif α
  init := .completed
  obs safe_obv :=
    { asend := fun x => do
        let latest ← Py.getL
        -- `n != latest` (144) is the negation of `==`
        let same ← Py.call (sameAs eq x latest)
        if !same then
          Py.tryExcept ((Observer.up safe_obv).asend x) (fun ex => (Observer.up safe_obv).athrow ex)
        else Py.ret ()
        Py.setL (.next x)
      athrow := fun err => do
        (Observer.up safe_obv).athrow err
        Py.setL (.error err)
      aclose := do
        (Observer.up safe_obv).aclose
        Py.setL .completed }

/-- `distinct_until_changed`: a plain agent in front of the safe observer. filtering.py:116-170. -/
def distinctUntilChanged (eq : α → α → Except Err Bool) : Operator α α :=
  ⟨fun c => .loop (.wrap (distinctW eq) (.safe c))⟩

/-- The observer of `skip(count)`. filtering.py:192-201. -/
@[reducible] def skipW (count : Int) : Wrap α α where
  τ := Int
  init := count
  obs safe_obv :=
    { asend := fun value => do
        let remaining ← Py.getL
        if remaining ≤ 0 then (Observer.up safe_obv).asend value
        else Py.setL (remaining - 1)
      athrow := (Observer.up safe_obv).athrow
      aclose := (Observer.up safe_obv).aclose }

/-- `skip(count)`. filtering.py:173-206. -/
def skip (count : Int) : Operator α α := (skipW count).safeOp

/-- The observer of `skip_last(count)`; `isNone v` is `v is None`. filtering.py:216-227. -/
@[reducible] def skipLastW (isNone : α → Bool) (count : Int) : Wrap α α where
  τ := List α
  init := []
  obs safe_obv :=
    { asend := fun value => do
        let q ← Py.getL
        let q := q ++ [value]
        Py.setL q
        -- front = None; if len(q) > count: front = q.pop(0)
        let front ←
          if (q.length : Int) > count then
            match q with
            | f :: q' => do Py.setL q'; Py.ret (some f)
            | [] => Py.raise .typeError   -- pop from an empty list: cannot happen
          else Py.ret none
        match front with
        | none => Py.ret ()
        | some f => if isNone f then Py.ret () else (Observer.up safe_obv).asend f
      athrow := (Observer.up safe_obv).athrow
      aclose := (Observer.up safe_obv).aclose }

/-- `skip_last(count)`. filtering.py:209-232. -/
def skipLast (isNone : α → Bool) (count : Int) : Operator α α :=
  (skipLastW isNone count).safeOp

/-- The observer of `take(count)`. filtering.py:245-256. -/
@[reducible] def takeW (count : Int) : Wrap α α where
  τ := Int
  init := count
  obs safe_obv :=
    { asend := fun value => do
        let remaining ← Py.getL
        if remaining > 0 then do
          let remaining := remaining - 1
          Py.setL remaining
          (Observer.up safe_obv).asend value
          if remaining = 0 then (Observer.up safe_obv).aclose else Py.ret ()
        else Py.ret ()
      athrow := (Observer.up safe_obv).athrow
      aclose := (Observer.up safe_obv).aclose }

/-- `take(count)` after the argument check. filtering.py:241-261. -/
def takeOp (count : Int) : Operator α α := (takeW count).safeOp

/-- `take(count)`: negative counts are rejected when the operator is created. filtering.py:235-261. -/
def take (count : Int) : Except Err (Operator α α) :=
  if count < 0 then .error .valueError else .ok (takeOp count)

/-- The observer of `take_last(count)`. filtering.py:282-294. -/
@[reducible] def takeLastW (count : Int) : Wrap α α where
  τ := List α
  init := []
  obs safe_obv :=
    { asend := fun value => do
        let queue ← Py.getL
        let queue := queue ++ [value]
        Py.setL queue
        if (queue.length : Int) > count then Py.setL queue.tail   -- queue.pop(0)
        else Py.ret ()
      athrow := (Observer.up safe_obv).athrow
      aclose := do
        let queue ← Py.getL
        Py.forEach queue (Observer.up safe_obv).asend
        (Observer.up safe_obv).aclose }

/-- `take_last(count)`. filtering.py:264-299. -/
def takeLast (count : Int) : Operator α α := (takeLastW count).safeOp

/-- `reduce(accumulator, initial)` and `reduce_async`: `scan` followed by `take_last(1)`.
transform.py:515-537. -/
def reduce {ρ : Type} (accumulator : ρ → α → Except Err ρ) (initial : ρ) : Operator α ρ :=
  (scan accumulator initial).compose (takeLast 1)

/-- The part of `slice` for `start`. filtering.py:370-374. -/
def sliceStart : Option Int → Operator α α
  | none => .id
  | some start => if start < 0 then takeLast start.natAbs else skip start

/-- The part of `slice` for `stop`; `start or 0` is 0 for `None`. filtering.py:376-381. -/
def sliceStop (isNone : α → Bool) (start : Option Int) : Option Int → Except Err (Operator α α)
  | none => .ok .id
  | some stop =>
    if stop > 0 then take (stop - start.getD 0)
    else .ok (skipLast isNone stop.natAbs)

/-- `slice(start, stop, step)`. filtering.py:335-396. The assignment to the `nonlocal start` (378)
only turns `None` into 0, which a second application of the returned function treats alike
(`skip(0)`). `step` is an `int` here. -/
def slice (isNone : α → Bool) (start stop : Option Int) (step : Int) : Except Err (Operator α α) :=
  match sliceStop isNone start stop with
  | .error e => .error e
  | .ok op2 =>
    -- 383-392
    if step > 1 then
      .ok (((sliceStart start).compose op2).compose (filteri fun _ i => .ok ((i : Int) % step == 0)))
    else if step < 0 then .error .typeError
    else .ok ((sliceStart start).compose op2)

/-- `AsyncRx.__getitem__` with a slice object; a missing (or zero) step becomes 1.
__init__.py:117-122. -/
def getitemSlice (isNone : α → Bool) (start stop step : Option Int) : Except Err (Operator α α) :=
  slice isNone start stop (match step with
    | none => 1
    | some n => if n = 0 then 1 else n)

/-- `AsyncRx.__getitem__` with an integer. __init__.py:119-122. -/
def getitemInt (isNone : α → Bool) (key : Int) : Except Err (Operator α α) :=
  slice isNone (some key) (some (key + 1)) 1

end Aio
