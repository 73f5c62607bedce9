import Verif.Base.Proc
/-!
# `safe_observer`

Models `aioreactive/observers.py:151-199` in two ways:

* `safeAgent`: the worker's message handler as code, for observers whose methods run without
  observable suspension (operator code) - used to build pipelines;
* `Safe.step`: the worker as a transition system with explicit suspension points, for an observer
  and a disposable that may suspend arbitrarily long and raise arbitrarily.
-/

namespace Aio
variable {σ ο α : Type}

/-- One round of `message_loop`. observers.py:170-184. The result is the new value of `running`.
Branches: `ON_NEXT` 171-176 (with the `try` 172-175), `ON_ERROR` 177-180, else 181-184.
The `kind` test of the code is the pattern match. -/
def safeBody (obv : Observer σ ο α) (dispose : Py σ ο Unit) : Notif α → Py σ ο Bool
  | .next v =>
    Py.tryExcept
      (do obv.accept (.next v); pure true)
      (fun ex => do obv.athrow ex; pure false)
  | .error e => do
    dispose
    obv.accept (.error e)
    pure false
  | .completed => do
    dispose
    obv.aclose
    pure false

/-- The worker `message_loop(running=True)`. observers.py:167-188. State: `running` and the state of
the observer code. If the body raises (the observer's `athrow`/`aclose` or the dispose raised) the
worker task ends with that exception and no further message is received; this is the same as
`running = False`. A worker that is not running ignores its mailbox. -/
def safeAgent (obv : Observer σ ο α) (dispose : Py σ ο Unit) (s0 : σ) :
    Agent (Bool × σ) (Notif α) ο where
  init := (true, s0)
  recv s n :=
    if s.1 then
      match safeBody obv dispose n s.2 with
      | ⟨.ok running, s', o⟩ => ((running, s'), o)
      | ⟨.error _, s', o⟩ => ((false, s'), o)
    else (s, [])

/-- The final observer of a pipeline as a recorder: every call is an output, no call raises. -/
def recorder : Observer Unit (Notif α) α := Observer.post

/-- `safe_observer(obv, disposable)` in front of a final observer that does not raise; the dispose
action is not an output here (see `Safe.step` for the disposal order). -/
def safeSink : Agent (Bool × Unit) (Notif α) (Notif α) := safeAgent recorder (Py.ret ()) ()

namespace Safe

/-- Where the worker is suspended. observers.py:170-184. -/
inductive PC (α : Type) where
  /-- at `await inbox.receive()`, line 170 -/
  | waiting
  /-- inside `await msg.accept_observer(obv)` for an `OnNext`, line 173 -/
  | sending (v : α)
  /-- inside `await obv.athrow(ex)`, line 175 -/
  | rethrowing (e : Err)
  /-- inside `await disposable.dispose_async()`, lines 178, 182 -/
  | disposing (n : Notif α)
  /-- inside the observer's `athrow` (179) or `aclose` (183) -/
  | terminating (n : Notif α)
  /-- the worker task has ended -/
  | halted
  deriving DecidableEq, Repr

/-- What the observer and the disposable see, in order. -/
inductive Event (α : Type) where
  /-- a method of the observer is called -/
  | start (n : Notif α)
  /-- that call returns -/
  | finish (n : Notif α)
  /-- that call raises -/
  | raised (n : Notif α) (e : Err)
  /-- `dispose_async()` of the disposable is called -/
  | disposeStart
  /-- it returns -/
  | disposeDone
  /-- it raises -/
  | disposeRaised (e : Err)
  deriving DecidableEq, Repr

structure State (α : Type) where
  inbox : List (Notif α)
  pc : PC α
  log : List (Event α)
  deriving Repr

/-- `MailboxProcessor.start(worker)`. observers.py:188. -/
def init : State α := ⟨[], .waiting, []⟩

/-- The atomic segments. `post` is any producer calling `asend`/`athrow`/`aclose` of the returned
observer (190-197), at any time. The other labels are the worker: `receive` takes the oldest
message, `ret`/`raise` end the await at which the worker is suspended. -/
inductive Label (α : Type) where
  | post (n : Notif α)
  | receive
  | ret
  | raise (e : Err)
  deriving DecidableEq, Repr

/-- One atomic segment. -/
def step (s : State α) : Label α → Option (State α)
  -- 190-197: agent.post(...)
  | .post n => some { s with inbox := s.inbox ++ [n] }
  -- 170: msg = await inbox.receive(), then up to the next await
  | .receive =>
    match s.pc, s.inbox with
    | .waiting, .next v :: q =>
      some { inbox := q, pc := .sending v, log := s.log ++ [.start (.next v)] }
    | .waiting, n :: q =>
      some { inbox := q, pc := .disposing n, log := s.log ++ [.disposeStart] }
    | _, _ => none
  | .ret =>
    match s.pc with
    -- 173 returned; `while running` again
    | .sending v => some { s with pc := .waiting, log := s.log ++ [.finish (.next v)] }
    -- 175 returned; running = False
    | .rethrowing e => some { s with pc := .halted, log := s.log ++ [.finish (.error e)] }
    -- 178 / 182 returned; the observer's athrow / aclose is called
    | .disposing n => some { s with pc := .terminating n, log := s.log ++ [.disposeDone, .start n] }
    -- 179 / 183 returned; running = False
    | .terminating n => some { s with pc := .halted, log := s.log ++ [.finish n] }
    | _ => none
  | .raise e =>
    match s.pc with
    -- 174: except Exception as ex: await obv.athrow(ex); CancelledError is not an Exception
    | .sending v =>
      if e = .cancelled then
        some { s with pc := .halted, log := s.log ++ [.raised (.next v) e] }
      else
        some { s with pc := .rethrowing e,
                      log := s.log ++ [.raised (.next v) e, .start (.error e)] }
    -- the worker task ends with the exception
    | .rethrowing e' => some { s with pc := .halted, log := s.log ++ [.raised (.error e') e] }
    | .disposing _ => some { s with pc := .halted, log := s.log ++ [.disposeRaised e] }
    | .terminating n => some { s with pc := .halted, log := s.log ++ [.raised n e] }
    | _ => none

/-- Run a schedule. -/
def run : State α → List (Label α) → Option (State α)
  | s, [] => some s
  | s, l :: ls => (step s l).bind fun s' => run s' ls

/-- The notifications posted during a schedule, in order. -/
def posted : List (Label α) → List (Notif α)
  | [] => []
  | .post n :: ls => n :: posted ls
  | _ :: ls => posted ls

/-- The calls the observer received, in order. -/
def calls : List (Event α) → List (Notif α)
  | [] => []
  | .start n :: es => n :: calls es
  | _ :: es => calls es

/-- The schedule in which no observer call and no dispose raises. -/
def NoRaise (ls : List (Label α)) : Prop := ∀ e, Label.raise e ∉ ls

/-- Nothing is left to do for the worker: it has ended, or it waits on an empty mailbox. -/
def Drained (s : State α) : Prop := s.pc = .halted ∨ (s.pc = .waiting ∧ s.inbox = [])

end Safe
end Aio
