import Verif.Model.Pipeline
/-!
# Pipelines whose observers suspend

In `Chain.proc` a worker handles a message in one go: all that it posts, and all calls that it makes on the final
observer, happen in one step. Here every single one of them is a step of its own (the worker is suspended before each
of them, as long as the scheduler likes), and so is each one made in the caller's task; a caller that comes while the
previous call is not over waits. The code of the stages is the same as in `Chain.compile`.
-/

namespace Aio

/-- A worker behind a mailbox: the messages that wait, what it has yet to put out for the message in hand, and its own
state. observers.py:167-188, filtering.py:134-160. -/
def Proc.slow {S ι ο : Type} (a : Agent S ι ο) : Proc (List ι × List ο × S) Unit ι ο where
  init := ([], [], a.init)
  feed s i := ((s.1 ++ [i], s.2), [])
  step s _ :=
    match s with
    | (q, o :: os, t) => some ((q, os, t), [o])
    | (i :: q, [], t) => some ((q, (a.recv t i).2, (a.recv t i).1), [])
    | ([], [], _) => none

/-- `safe_observer` in front of code. -/
def Code.guardSlow {α γ : Type} : Code α γ → Code α γ
  | .final obs s0 => .more Observer.post () (Proc.slow (safeAgent obs (Py.ret ()) s0))
  | .more obs s0 p => .more Observer.post () (Proc.seq (Proc.slow (safeAgent obs (Py.ret ()) s0)) p)

/-- A plain agent in front of code. -/
def Code.agentSlow {α γ : Type} : Code α γ → Code α γ
  | .final obs s0 => .more Observer.post () (Proc.slow (loopAgent obs s0))
  | .more obs s0 p => .more Observer.post () (Proc.seq (Proc.slow (loopAgent obs s0)) p)

/-- `Chain.compile` with suspending workers. -/
def Chain.compileSlow {α γ : Type} : Chain α γ → Code α γ
  | .done => .final Observer.post ()
  | .wrap w c => c.compileSlow.wrap w
  | .safe c => c.compileSlow.guardSlow
  | .loop c => c.compileSlow.agentSlow

def Code.SlowSt {α γ : Type} : Code α γ → Type
  | .final (σ := σ) _ _ => List (Notif α) × List (Notif γ) × σ
  | .more (σ := σ) (μ := μ) (St := St) _ _ _ => (List (Notif α) × List (Notif μ) × σ) × St

def Code.SlowLab {α γ : Type} : Code α γ → Type
  | .final _ _ => Unit
  | .more (Lab := Lab) _ _ _ => Unit ⊕ Lab

/-- The code in the caller's task suspends too. -/
def Code.slowProc {α γ : Type} : (c : Code α γ) → Proc c.SlowSt c.SlowLab (Notif α) (Notif γ)
  | .final obs s0 => Proc.slow (Agent.ofObserver obs s0)
  | .more obs s0 p => Proc.seq (Proc.slow (Agent.ofObserver obs s0)) p

/-- The pipeline with a suspension before every call and every post. -/
abbrev Chain.slowProc {α γ : Type} (c : Chain α γ) :
    Proc c.compileSlow.SlowSt c.compileSlow.SlowLab (Notif α) (Notif γ) := c.compileSlow.slowProc

end Aio
