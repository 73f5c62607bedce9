import Verif.Model.Safe
/-!
# How operators are put together

An operator of the library is a function that, given the downstream observer, builds the observer it
subscribes to its source. There are three building blocks:

* `wrap`: an observer whose methods run user or operator code and call the downstream observer
  directly (synchronously, in the caller's task), with own local variables;
* `safe`: a `safe_observer` boundary: calls are posted to a mailbox and a worker calls the
  downstream observer (observers.py:151-199);
* `loop`: a plain mailbox agent, whose worker handles messages forever (filtering.py:134-162).

`Chain` is a pipeline made from these blocks, ending in the final observer; `compile` produces the
code and processes from it.
-/

namespace Aio

/-- An observer built around a downstream observer, with local variables `τ`. It may use the
downstream observer only by calling its methods (parametricity). -/
structure Wrap (α β : Type) : Type 1 where
  τ : Type
  init : τ
  obs : {σ ο : Type} → Observer σ ο β → Observer (τ × σ) ο α

/-- A pipeline from element type `α` to `γ`. -/
inductive Chain : Type → Type → Type 1 where
  | done {α : Type} : Chain α α
  | wrap {α β γ : Type} (w : Wrap α β) (c : Chain β γ) : Chain α γ
  | safe {α γ : Type} (c : Chain α γ) : Chain α γ
  | loop {α γ : Type} (c : Chain α γ) : Chain α γ

/-- The worker of a plain agent that passes each message to an observer, forever; an exception ends
the worker task. filtering.py:134-160 (the `while`/tail-call loop). -/
def loopAgent {σ ο α : Type} (obv : Observer σ ο α) (s0 : σ) : Agent (Bool × σ) (Notif α) ο where
  init := (true, s0)
  recv s n :=
    if s.1 then
      match obv.accept n s.2 with
      | ⟨.ok _, s', o⟩ => ((true, s'), o)
      | ⟨.error _, s', o⟩ => ((false, s'), o)
    else (s, [])

/-- A compiled pipeline: the code that runs in the caller's task (an observer posting to the first
mailbox, or calling the final observer), and the processes behind that mailbox. -/
inductive Code (α γ : Type) : Type 1 where
  /-- no mailbox: the outputs are the calls on the final observer -/
  | final {σ : Type} (obs : Observer σ (Notif γ) α) (s0 : σ)
  /-- the outputs of `obs` are posted to the process `p` -/
  | more {σ μ St Lab : Type} (obs : Observer σ (Notif μ) α) (s0 : σ)
      (p : Proc St Lab (Notif μ) (Notif γ))

/-- Put a `safe_observer` in front of compiled code: `safe_observer(obv, disposable)`.
observers.py:151-199. -/
def Code.guard {α γ : Type} : Code α γ → Code α γ
  | .final obs s0 => .more Observer.post () (Proc.mailbox (safeAgent obs (Py.ret ()) s0))
  | .more obs s0 p =>
    .more Observer.post () (Proc.seq (Proc.mailbox (safeAgent obs (Py.ret ()) s0)) p)

/-- Put a plain agent in front of compiled code. filtering.py:162-167. -/
def Code.agent {α γ : Type} : Code α γ → Code α γ
  | .final obs s0 => .more Observer.post () (Proc.mailbox (loopAgent obs s0))
  | .more obs s0 p => .more Observer.post () (Proc.seq (Proc.mailbox (loopAgent obs s0)) p)

/-- Wrap the observer that the caller sees. -/
def Code.wrap {α β γ : Type} (w : Wrap α β) : Code β γ → Code α γ
  | .final obs s0 => .final (w.obs obs) (w.init, s0)
  | .more obs s0 p => .more (w.obs obs) (w.init, s0) p

/-- Compile a pipeline. -/
def Chain.compile {α γ : Type} : Chain α γ → Code α γ
  | .done => .final Observer.post ()
  | .wrap w c => c.compile.wrap w
  | .safe c => c.compile.guard
  | .loop c => c.compile.agent

/-- State and labels of the whole pipeline as seen from outside. -/
def Code.St {α γ : Type} : Code α γ → Type
  | .final (σ := σ) _ _ => σ
  | .more (σ := σ) (St := St) _ _ _ => σ × St

def Code.Lab {α γ : Type} : Code α γ → Type
  | .final _ _ => Empty
  | .more (Lab := Lab) _ _ _ => Empty ⊕ Lab

/-- The process a producer talks to when it calls the pipeline's observer directly. -/
def Code.proc {α γ : Type} : (c : Code α γ) → Proc c.St c.Lab (Notif α) (Notif γ)
  | .final obs s0 => Proc.direct (Agent.ofObserver obs s0)
  | .more obs s0 p => Proc.seq (Proc.direct (Agent.ofObserver obs s0)) p

/-- The pipeline as a process: inputs are the notifications the source sends, outputs are the calls
on the final observer. -/
abbrev Chain.proc {α γ : Type} (c : Chain α γ) :
    Proc c.compile.St c.compile.Lab (Notif α) (Notif γ) := c.compile.proc

/-- An operator: `Callable[[AsyncObservable[α]], AsyncObservable[β]]`, seen from the observers'
side: given the pipeline downstream of it, the pipeline including it. -/
structure Operator (α β : Type) : Type 1 where
  app : {γ : Type} → Chain β γ → Chain α γ

/-- `compose(op1, op2)` / `pipe(source, op1, op2)` (package `expression`). -/
def Operator.compose {α β γ : Type} (op1 : Operator α β) (op2 : Operator β γ) : Operator α γ :=
  ⟨fun c => op1.app (op2.app c)⟩

/-- `pipe(source)`: no operator. -/
def Operator.id {α : Type} : Operator α α := ⟨fun c => c⟩

/-- An observer wrapper used directly / posting to a safe observer, as an operator. -/
def Wrap.op {α β : Type} (w : Wrap α β) : Operator α β := ⟨fun c => .wrap w c⟩
def Wrap.safeOp {α β : Type} (w : Wrap α β) : Operator α β := ⟨fun c => .wrap w (.safe c)⟩

/-- A source that delivers through a `safe_observer` (all sources of create.py except `empty`,
`interval`/`timer` and `from_async_iterable`; all operators of combine.py and filtering.py except
the filters): the operator sees its calls through a safe worker. -/
def Operator.protected {α β : Type} (op : Operator α β) : Chain α β := .safe (op.app .done)

/-- A source that calls the operator's observer directly. -/
def Operator.direct {α β : Type} (op : Operator α β) : Chain α β := op.app .done

end Aio
