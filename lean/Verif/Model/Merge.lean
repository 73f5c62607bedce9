import Verif.Model.Create
/-!
# `merge_inner` (and `concat_seq`, `merge`, `chain`, `flat_map`, `concat_map`)

combine.py:40-171. `merge`, `chain`, `flat_map*` and `concat_map` are `of_seq` or `map` in front of
`merge_inner(0)` / `merge_inner(1)` (transform.py:151-245, __init__.py), so one model covers them: its
source is an arbitrary observable of observables.

The source, the inner observables and whoever disposes the subscription are the environment: they
make their calls at any time. The worker's suspension points are `inbox.receive()` and the awaited
`subscribe_async` and `dispose_async` of the inner observables, which may take arbitrarily long, may
raise, and during which everybody else goes on. The downstream safe observer is that of
`Model/Create.lean` (a `Producer` posts to it).
-/

namespace Aio.Merge
variable {ω α : Type}

/-- The messages of the worker. msg.py:17-37. An inner observable is a value of `ω`. -/
inductive Msg (ω : Type) where
  | inner (xs : ω)
  | innerCompleted (key : Nat)
  | completed
  | dispose
  deriving DecidableEq, Repr

/-- `Model`. combine.py:40-50. `subs` are the keys of the map `subscriptions` in ascending order (the
order in which the map is iterated); the disposable is identified with its key. -/
structure Model (ω : Type) where
  subs : List Nat
  queue : List ω
  stopped : Bool
  key : Nat
  deriving DecidableEq, Repr

/-- `initial_model`. combine.py:61-66. -/
def Model.initial : Model ω := ⟨[], [], false, 0⟩

/-- Where the worker is suspended. -/
inductive PC (ω : Type) where
  /-- at `inbox.receive()`, line 125 -/
  | waiting
  /-- in `await xs.subscribe_async(obv(model.key))`, lines 86 and 97; `m` is the model to which the
  new subscription is added afterwards -/
  | subscribing (m : Model ω)
  /-- in `await dispose.dispose_async()`, line 119; the head is being disposed -/
  | disposing (rest : List Nat)
  /-- the worker task has ended -/
  | halted
  deriving DecidableEq, Repr

/-- `started` and `disposed` record the calls of `subscribe_async` and the returned calls of
`dispose_async`, in order; they are not part of the program's state. The `k`-th started inner
observable was given the observer `obv(k)`. -/
structure State (ω : Type) where
  inbox : List (Msg ω)
  model : Model ω
  pc : PC ω
  started : List ω
  disposed : List Nat
  deriving DecidableEq, Repr

def State.initial : State ω := ⟨[], .initial, .waiting, [], []⟩

/-- The atomic segments. -/
inductive Label (ω α : Type) where
  /-- the source calls its observer, lines 135-144 -/
  | outer (n : Notif ω)
  /-- the inner observable with this key calls its observer, lines 70-77 -/
  | inner (key : Nat) (n : Notif α)
  /-- `cancel()` after the source's subscription was disposed, line 151 -/
  | cancel
  /-- the worker takes a message and runs to its next suspension -/
  | receive
  /-- the awaited `subscribe_async` returns / raises -/
  | subscribed
  | subscribeFails
  /-- the awaited `dispose_async` returns / raises -/
  | disposed
  | disposeFails
  deriving DecidableEq, Repr

/-- After `update`: `if model.is_stopped and not model.subscriptions: break`, line 128. -/
def State.continue (s : State ω) (m : Model ω) : State ω :=
  { s with model := m, pc := if m.stopped ∧ m.subs = [] then .halted else .waiting }

/-- `await xs.subscribe_async(obv(model.key))` is called. Lines 86 and 97. -/
def State.subscribe (s : State ω) (xs : ω) (m : Model ω) : State ω :=
  { s with pc := .subscribing m, started := s.started ++ [xs] }

/-- `update`. combine.py:81-121. The second component is what is posted to `safe_obv`. -/
def update (maxConcurrent : Int) (s : State ω) : Msg ω → State ω × List (Notif α)
  -- 84-92
  | .inner xs =>
    if maxConcurrent = 0 ∨ (s.model.subs.length : Int) < maxConcurrent then
      (s.subscribe xs s.model, [])
    else (s.continue { s.model with queue := s.model.queue ++ [xs] }, [])
  -- 93-109
  | .innerCompleted key =>
    let subs := s.model.subs.erase key
    match s.model.queue with
    | xs :: queue => (s.subscribe xs { s.model with subs := subs, queue := queue }, [])
    | [] =>
      if subs ≠ [] then (s.continue { s.model with subs := subs }, [])
      else (s.continue { s.model with subs := [] }, if s.model.stopped then [.completed] else [])
  -- 110-115
  | .completed =>
    (s.continue { s.model with stopped := true },
      if s.model.subs = [] then [.completed] else [])
  -- 117-121
  | .dispose =>
    if s.model.subs = [] then (s.continue { Model.initial with stopped := true }, [])
    else ({ s with pc := .disposing s.model.subs }, [])

def step (maxConcurrent : Int) (s : State ω) :
    Label ω α → Option (State ω × List (Notif α))
  -- 135-137
  | .outer (.next xs) => some ({ s with inbox := s.inbox ++ [.inner xs] }, [])
  -- 139-141
  | .outer (.error e) => some ({ s with inbox := s.inbox ++ [.dispose] }, [.error e])
  -- 143-144
  | .outer .completed => some ({ s with inbox := s.inbox ++ [.completed] }, [])
  -- 70-77; only an inner observable that was given its observer can call it
  | .inner key n =>
    if key < s.started.length then
      match n with
      | .next v => some (s, [.next v])
      | .error e => some (s, [.error e])
      | .completed => some ({ s with inbox := s.inbox ++ [.innerCompleted key] }, [])
    else none
  -- 151
  | .cancel => some ({ s with inbox := s.inbox ++ [.dispose] }, [])
  -- 124-126
  | .receive =>
    match s.pc, s.inbox with
    | .waiting, msg :: q => some (update maxConcurrent { s with inbox := q } msg)
    | _, _ => none
  -- 87-90, 99-103
  | .subscribed =>
    match s.pc with
    | .subscribing m => some (s.continue { m with subs := m.subs ++ [m.key], key := m.key + 1 }, [])
    | _ => none
  -- the exception ends the worker task
  | .subscribeFails =>
    match s.pc with
    | .subscribing _ => some ({ s with pc := .halted }, [])
    | _ => none
  -- 117-121: the next one, or `return initial_model.replace(is_stopped=True)`
  | .disposed =>
    match s.pc with
    | .disposing (k :: k' :: rest) =>
      some ({ s with pc := .disposing (k' :: rest), disposed := s.disposed ++ [k] }, [])
    | .disposing [k] =>
      some (State.continue { s with disposed := s.disposed ++ [k] }
        { Model.initial with stopped := true }, [])
    | _ => none
  | .disposeFails =>
    match s.pc with
    | .disposing _ => some ({ s with pc := .halted }, [])
    | _ => none

end Aio.Merge

namespace Aio
variable {ω α : Type}

/-- `merge_inner(max_concurrent)`. combine.py:52-157. Disposing the source's subscription (by the
safe observer, through `auto_detach`, and by `cancel()`, line 150) acts on the environment only: the
source may or may not go on calling. -/
def mergeInner (maxConcurrent : Int) : Producer (Merge.State ω) (Merge.Label ω α) α where
  init := .initial
  step := Merge.step maxConcurrent
  dispose s := s

/-- `concat_seq`. combine.py:160-171; also `concat_map`, transform.py:239-245. -/
def concatInner : Producer (Merge.State ω) (Merge.Label ω α) α := mergeInner 1

end Aio
