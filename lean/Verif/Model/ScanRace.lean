import Verif.Base.Py
/-!
# `_scan` called by overlapping producers

`transform.py:461-471`. A producer that calls the operator's observer directly (a subject used by
several tasks) may start a second `anext` while an earlier one is still awaiting the accumulator.
`current` is shared; `accumulator(current, value)` receives the value that `current` has when the
call starts.
-/

namespace Aio.ScanRace
variable {α ρ : Type}

/-- `current`, the accumulator calls in flight (with the result they are going to return), and the
calls made on the downstream observer so far. -/
structure State (ρ : Type) where
  current : ρ
  inFlight : List (Except Err ρ)
  out : List (Notif ρ)

def init (initial : ρ) : State ρ := ⟨initial, [], []⟩

inductive Label (α : Type) where
  /-- a producer calls `anext(value)`: the accumulator starts with the present `current` (465) -/
  | start (v : α)
  /-- the accumulator call number `i` of those in flight returns or raises; the rest of `anext`
  (466-471) runs without suspension up to the call on the downstream observer -/
  | finish (i : Nat)

/-- transform.py:461-471. -/
def step (f : ρ → α → Except Err ρ) (s : State ρ) : Label α → Option (State ρ)
  | .start v => some { s with inFlight := s.inFlight ++ [f s.current v] }
  | .finish i =>
    match s.inFlight[i]? with
    | none => none
    | some (.ok r) => some ⟨r, s.inFlight.eraseIdx i, s.out ++ [.next r]⟩
    | some (.error e) => some { s with inFlight := s.inFlight.eraseIdx i, out := s.out ++ [.error e] }

def run (f : ρ → α → Except Err ρ) : State ρ → List (Label α) → Option (State ρ)
  | s, [] => some s
  | s, l :: ls => match step f s l with
    | none => none
    | some s' => run f s' ls

/-- The values sent, in order. -/
def sent : List (Label α) → List α
  | [] => []
  | .start v :: ls => v :: sent ls
  | .finish _ :: ls => sent ls

/-- The schedule of a *synchronous* accumulator (`scan`, transform.py:489-496): the wrapped
accumulator never suspends, so each call finishes before anything else runs. -/
def atomic : List α → List (Label α)
  | [] => []
  | v :: vs => .start v :: .finish 0 :: atomic vs

end Aio.ScanRace
