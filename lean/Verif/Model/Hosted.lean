import Verif.Model.VirtualTime
import Verif.Model.Timed
/-!
# Pipelines on the `VirtualTimeEventLoop`

The parts of a pipeline are coroutines in asyncio tasks. When a coroutine can go on, asyncio has a callback for that in the loop
(`call_soon`): when the task was made, when a message was posted to the mailbox on which it waits, when a sleep is over. `asyncio.sleep(d)`
is, for `d ≤ 0`, a bare yield, and otherwise a timer (`call_later`), whose callback sets the result of a future, whose callback in turn
is a `call_soon` (CPython 3.12, asyncio/tasks.py, futures.py). How many callbacks it takes until a coroutine goes on after a message was
posted depends on the `expression` package; the model leaves the number open (`hops`).

When a task that sleeps is cancelled, the future is cancelled, whose callback is again a `call_soon`; the timer is cancelled when the coroutine
goes on, and does nothing if it comes first (`sleep`, asyncio/tasks.py: `finally: h.cancel()`). In the model a task is woken in this way whenever
what somebody else did has left it without a reason to sleep; the timer is left to other code, which may cancel it.

The loop is that of `Model/VirtualTime.lean`, testing/virtual_events.py:32-123; other code may use it in any way, but does not cancel the
handles for which these tasks wait.
-/

namespace Aio
variable {S S₁ S₂ L L₁ L₂ T T₁ T₂ M N W P α β γ : Type}

/-- What a task waits for. -/
inductive Need where
  /-- nothing that the loop could do: somebody else has to act, or the task has ended -/
  | nothing
  /-- it can go on -/
  | soon
  /-- it sleeps until `w` -/
  | until (w : Nat)
  deriving DecidableEq, Repr

/-- The tasks of a pipeline. `names s`: those that there are; `turn s t`: the segments that task `t` executes when it goes on; `outside l`:
the segment `l` is caused by other code. -/
structure Host (S L T : Type) where
  names : S → List T
  need : S → T → Need
  turn : S → T → List L
  outside : L → Bool

namespace Hosted

/-- What the loop has for a task: nothing; a `call_soon` handle, and `hops` more callbacks before the coroutine goes on; a timer. -/
inductive Status where
  | idle
  | ready (hops handle : Nat)
  | sleeping (handle : Nat)
  deriving DecidableEq, Repr

def Status.handle : Status → Option Nat
  | .idle => none
  | .ready _ i => some i
  | .sleeping i => some i

/-- `sub`: the pipeline, when it has been subscribed. `owner`: the handles made for tasks (not part of the program's state). -/
structure State (S T : Type) where
  vt : VirtualTime.State
  sub : Option S
  status : T → Status
  owner : List (Nat × T)

def init : State S T := ⟨VirtualTime.init, none, fun _ => .idle, []⟩

inductive Label (L : Type) where
  /-- the pipeline is subscribed -/
  | subscribe
  /-- other code makes it do something -/
  | outside (l : L)
  /-- the event loop and other code in it, except the start of a callback -/
  | loop (l : VirtualTime.Label)
  /-- the event loop starts the next callback; a task that goes on does up to `more` further turns in it if it can (as a worker that finds
  more messages in its mailbox) -/
  | next (more : Nat)
  deriving DecidableEq, Repr

def set [DecidableEq T] (f : T → Status) (t : T) (x : Status) : T → Status := fun t' => if t' = t then x else f t'

open VirtualTime (Heap)

/-- `call_soon` for task `t`. -/
def callSoon [DecidableEq T] (h : Heap) (m : State S T) (t : T) (hops : Nat) : Option (State S T) :=
  (VirtualTime.step h m.vt .callSoon).map fun vt =>
    { m with vt, status := set m.status t (.ready hops m.vt.made.length), owner := (m.vt.made.length, t) :: m.owner }

/-- `call_at` for task `t`. -/
def callAt [DecidableEq T] (h : Heap) (m : State S T) (t : T) (w : Nat) : Option (State S T) :=
  (VirtualTime.step h m.vt (.callAt w)).map fun vt =>
    { m with vt, status := set m.status t (.sleeping m.vt.made.length), owner := (m.vt.made.length, t) :: m.owner }

/-- The loop gets what a task needs, unless it already has it. -/
def ask [DecidableEq T] (h : Heap) (hops : T → Nat) (m : State S T) (t : T) : Need → Option (State S T)
  | .nothing => some m
  | .soon => if m.status t = .idle then callSoon h m t (hops t) else some m
  | .until w =>
    if m.status t = .idle then
      if (w : Int) ≤ m.vt.time then callSoon h m t 0 else callAt h m t w
    else some m

/-- For all tasks. -/
def askAll [DecidableEq T] (h : Heap) (hops : T → Nat) (need : T → Need) : State S T → List T → Option (State S T)
  | m, [] => some m
  | m, t :: ts =>
    match ask h hops m t (need t) with
    | none => none
    | some m => askAll h hops need m ts

/-- A task that does not want to sleep any more gives up its timer. -/
def wake (need : T → Need) (status : T → Status) (t : T) : Status :=
  match status t, need t with
  | .sleeping i, .until _ => .sleeping i
  | .sleeping _, _ => .idle
  | x, _ => x

/-- The pipeline is in state `s` now. -/
def goOn [DecidableEq T] (h : Heap) (hops : T → Nat) (H : Host S L T) (m : State S T) (s : S) : Option (State S T) :=
  askAll h hops (H.need s) { m with sub := some s, status := wake (H.need s) m.status } (H.names s)

/-- Task `t` goes on. -/
def turns (q : Clocked S L α) (H : Host S L T) (t : T) : Nat → S → Option S
  | 0, s => LTS.run q.act s (H.turn s t)
  | more + 1, s =>
    match LTS.run q.act s (H.turn s t) with
    | none => none
    | some s' => if H.need s' t = .soon then turns q H t more s' else some s'

/-- The callback that the loop has just started belongs to task `t`. -/
def runTask [DecidableEq T] (h : Heap) (hops : T → Nat) (q : Clocked S L α) (H : Host S L T) (m : State S T) (t : T) (more : Nat) :
    Option (State S T) :=
  match m.status t with
  | .idle => none
  | .ready (k + 1) _ => callSoon h m t k
  | .sleeping _ => callSoon h m t 0
  | .ready 0 _ =>
    match m.sub with
    | none => none
    | some s =>
      match turns q H t more s with
      | none => none
      | some s' => goOn h hops H { m with status := set m.status t .idle } s'

/-- Labels of the event loop that other code may cause. -/
def allowed (m : State S T) : VirtualTime.Label → Bool
  | .cancel i =>
    match m.owner.lookup i with
    | none => true
    | some t => (m.status t).handle ≠ some i
  | .next => false
  | _ => true

/-- One atomic segment. `q`: the pipeline, subscribed at the time `q.now q.init`. -/
def step [DecidableEq T] (h : Heap) (hops : T → Nat) (q : Clocked S L α) (H : Host S L T) (m : State S T) : Label L → Option (State S T)
  | .subscribe =>
    if m.sub.isNone ∧ m.vt.userCode ∧ m.vt.time = q.now q.init then goOn h hops H m q.init else none
  | .outside l =>
    match m.sub with
    | none => none
    | some s =>
      if m.vt.userCode ∧ H.outside l then
        match q.act s l with
        | none => none
        | some s' => goOn h hops H m s'
      else none
  | .loop l =>
    if allowed m l then
      match VirtualTime.step h m.vt l with
      | none => none
      | some vt =>
        match m.sub with
        | none => some { m with vt }
        | some s =>
          if vt.time = m.vt.time then some { m with vt }
          else (q.pass s (vt.time - m.vt.time).toNat).map fun s' => { m with vt, sub := some s' }
    else none
  | .next more =>
    match VirtualTime.step h m.vt .next, m.vt.ready with
    | some vt, (i, _) :: _ =>
      if vt.inCallback then
        match m.owner.lookup i with
        | some t => if (m.status t).handle = some i then runTask h hops q H { m with vt } t more else some { m with vt }
        | none => some { m with vt }
      else some { m with vt }
    | _, _ => none

end Hosted

/-- A source without a task of its own: other code makes its calls, as `asend`, `athrow`, `aclose` of a subject. Subscribed at time `t0`. -/
def Clocked.driven (t0 : Nat) : Clocked (Nat × List (Notif α × Nat)) (Notif α) α where
  init := (t0, [])
  act s n := some (s.1, s.2 ++ [(n, s.1)])
  pass s d := some (s.1 + d, s.2)
  now s := s.1
  calls s := s.2

def Clocked.drivenHost : Host (Nat × List (Notif α × Nat)) (Notif α) Empty where
  names _ := []
  need _ t := nomatch t
  turn _ t := nomatch t
  outside _ := true

/-- The task of `interval(seconds, period)`. The observer may yield to the loop, but it does not wait for anything. create.py:202-236. -/
def Interval.host : Host State Label Unit where
  names _ := [()]
  need s _ :=
    match s.pc with
    | .fresh => .soon
    | .sleeping w _ => .until w
    | .sending _ => .soon
    | .closing => .soon
    | .dead => .nothing
  turn s _ :=
    match s.pc with
    | .fresh => [.start]
    | .sleeping _ _ => [.wake]
    | .sending _ => [.ret]
    | .closing => [.ret]
    | .dead => []
  outside _ := false

/-- The tasks of a stage of a pipeline. -/
structure Stage.Host (T M N : Type) where
  names : T → List N
  need : T → N → Need
  turn : T → N → List M

/-- The tasks of `debounce(seconds)`: the worker (`none`), and one for every call (`some k`). timeshift.py:103-163. -/
def Debounce.host : Stage.Host (State α) (Label α) (Option Nat) where
  names s := none :: (List.range s.timers.length).map some
  need s
    | none => if s.inbox = [] then .nothing else .soon
    | some k =>
      match s.timers[k]? with
      | some (_, .fresh) => .soon
      | some (_, .sleeping w) => .until w
      | _ => .nothing
  turn s
    | none => if s.inbox = [] then [] else [.receive]
    | some k =>
      match s.timers[k]? with
      | some (_, .fresh) => [.start k]
      | some (_, .sleeping _) => [.wake k]
      | _ => []

/-- A stage behind a source. -/
def Host.through (H : Host S L T) (O : Stage.Host P M N) : Host (S × P) (L ⊕ M) (T ⊕ N) where
  names s := (H.names s.1).map .inl ++ (O.names s.2).map .inr
  need s
    | .inl t => H.need s.1 t
    | .inr n => O.need s.2 n
  turn s
    | .inl t => (H.turn s.1 t).map .inl
    | .inr n => (O.turn s.2 n).map .inr
  outside
    | .inl l => H.outside l
    | .inr _ => false

/-- Operators behind a source: a task for each of the segments that the workers can execute; `workers` are all of them. -/
def Host.operate (H : Host S L T) (p : Proc P W (Notif α) (Notif β)) (workers : List W) : Host (S × Timed P (Notif α) (Notif β)) (L ⊕ W) (T ⊕ W) where
  names s := (H.names s.1).map .inl ++ workers.map .inr
  need s
    | .inl t => H.need s.1 t
    | .inr w => if (p.step s.2.ps w).isSome then .soon else .nothing
  turn s
    | .inl t => (H.turn s.1 t).map .inl
    | .inr w => if (p.step s.2.ps w).isSome then [.inr w] else []
  outside
    | .inl l => H.outside l
    | .inr _ => false

/-- Operators behind two sources. -/
def Host.two (H₁ : Host S₁ L₁ T₁) (H₂ : Host S₂ L₂ T₂) (p : Proc P W (Notif α ⊕ Notif β) (Notif γ)) (workers : List W) :
    Host (S₁ × S₂ × Timed P (Notif α ⊕ Notif β) (Notif γ)) (Two.Label L₁ L₂ W) (T₁ ⊕ T₂ ⊕ W) where
  names s := (H₁.names s.1).map .inl ++ ((H₂.names s.2.1).map (.inr ∘ .inl) ++ workers.map (.inr ∘ .inr))
  need s
    | .inl t => H₁.need s.1 t
    | .inr (.inl t) => H₂.need s.2.1 t
    | .inr (.inr w) => if (p.step s.2.2.ps w).isSome then .soon else .nothing
  turn s
    | .inl t => (H₁.turn s.1 t).map .left
    | .inr (.inl t) => (H₂.turn s.2.1 t).map .right
    | .inr (.inr w) => if (p.step s.2.2.ps w).isSome then [.worker w] else []
  outside
    | .left l => H₁.outside l
    | .right l => H₂.outside l
    | .worker _ => false

end Aio
