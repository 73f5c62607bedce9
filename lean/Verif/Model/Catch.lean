import Verif.Base.Notif
import Verif.Base.LTS
/-!
# `catch`, `retry`

transform.py:384-449. Sources are numbered in the order in which they are subscribed; number 0 is the
source that `catch` was applied to. `ω` is the type of (names of) observables.

There is no worker: the code runs inside `subscribe_async` and inside the `athrow` calls of the sources.
`Frame` is one activation of `action` that is suspended. The observer `aobv` is called directly.
-/

namespace Aio.Catch
variable {C ω α : Type}

/-- The handler, as code with a state `C` (for `retry`: the variable `count`): new state, and the
observable it returns or the exception it raises. -/
abbrev Handler (C ω : Type) := C → Err → C × Except Err ω

/-- Where an activation of `action` (transform.py:404-421) is suspended. -/
inductive Frame (ω : Type) where
  /-- `disposable.dispose_async()`, line 419, of the subscription `old` -/
  | disposing (next : ω) (old : Nat)
  /-- `source.subscribe_async(_obv)`, line 420, of the source number `k` -/
  | subscribing (k : Nat)
  deriving DecidableEq, Repr

/-- `disposable`: the variable of line 402 (`none`: `AsyncDisposable.empty()`). `returned`:
`subscribe_async` has returned. `started` are the sources whose `subscribe_async` was called, `disposed`
the subscriptions whose `dispose_async` has returned (both only recorded). -/
structure State (C ω : Type) where
  c : C
  disposable : Option Nat
  frames : List (Frame ω)
  returned : Bool
  started : List ω
  disposed : List Nat
  deriving DecidableEq, Repr

inductive Label (α : Type) where
  /-- source number `k` calls its observer `_obv`, lines 407-415 -/
  | call (k : Nat) (n : Notif α)
  /-- the `dispose_async` of the frame at position `j` returns -/
  | disposed (j : Nat)
  /-- the `subscribe_async` of the frame at position `j` returns -/
  | subscribed (j : Nat)
  /-- the await of the frame at position `j` raises; the exception goes to the caller of `action` -/
  | fails (j : Nat)
  /-- the returned disposable is disposed, line 425 -/
  | cancel
  deriving DecidableEq, Repr

/-- `subscribe_async` up to its first suspension: `action(source)`; disposing the empty disposable does
not suspend. Lines 401-402, 423. -/
def start (c : C) (source : ω) : State C ω :=
  ⟨c, none, [.subscribing 0], false, [source], []⟩

/-- `action(xs)` up to its first suspension. Lines 404-421. -/
def action (s : State C ω) (xs : ω) : State C ω :=
  match s.disposable with
  | none => { s with frames := s.frames ++ [.subscribing s.started.length], started := s.started ++ [xs] }
  | some d => { s with frames := s.frames ++ [.disposing xs d] }

/-- One atomic segment, and the calls made to `aobv`. With `honour`, a source whose `dispose_async` has
returned makes no further calls. -/
def step (h : Handler C ω) (honour : Bool) (s : State C ω) : Label α → Option (State C ω × List (Notif α))
  | .call k n =>
    if k < s.started.length ∧ ¬ (honour ∧ k ∈ s.disposed) then
      match n with
      -- 407-408
      | .next v => some (s, [.next v])
      -- 410-412
      | .error e =>
        match h s.c e with
        | (c, .ok xs) => some (action { s with c := c } xs, [])
        | (c, .error _) => some ({ s with c := c }, [])
      -- 414-415
      | .completed => some (s, [.completed])
    else none
  -- 419-420
  | .disposed j =>
    match s.frames[j]? with
    | some (.disposing xs d) =>
      some ({ s with frames := s.frames.set j (.subscribing s.started.length),
                     started := s.started ++ [xs], disposed := s.disposed ++ [d] }, [])
    | _ => none
  -- 420-421; for the outermost activation also 423-425: the disposable that is returned is bound to
  -- the value `disposable` has now, the subscription number 0
  | .subscribed j =>
    match s.frames[j]? with
    | some (.subscribing k) =>
      some ({ s with frames := s.frames.eraseIdx j, disposable := some k,
                     returned := s.returned || k == 0 }, [])
    | _ => none
  | .fails j =>
    if j < s.frames.length then some ({ s with frames := s.frames.eraseIdx j }, []) else none
  -- 425: `disposable.dispose_async` of the subscription number 0
  | .cancel => if s.returned then some ({ s with disposed := s.disposed ++ [0] }, []) else none

/-- The subscription together with the calls `aobv` has got. -/
def next (h : Handler C ω) (honour : Bool) (s : State C ω × List (Notif α)) (l : Label α) :
    Option (State C ω × List (Notif α)) :=
  (step h honour s.1 l).map fun r => (r.1, s.2 ++ r.2)

/-- A handler without state. -/
def pure (h : Err → Except Err ω) : Handler Unit ω := fun _ e => ((), h e)

/-- What `factory` of `retry` returns: the retried source, or `fail(exn)`. transform.py:438-445. -/
inductive Attempt where
  | source
  | fail (e : Err)
  deriving DecidableEq, Repr

/-- `factory`. transform.py:438-445. The state is `count` (line 436), which belongs to the retried
observable, not to a subscription. -/
def factory : Handler Int Attempt := fun count exn =>
  if count = 0 then (count, .ok (.fail exn))
  else (count - count, .ok .source)

end Aio.Catch
