import Verif.Model.Create
import Verif.Model.Pipeline
import Verif.Model.Awaitable
/-!
# `run(pipe(source, op1, ..., opn))`: a source of create.py, a pipeline and `run` together

The parts are those of `Model.Create` (the worker of `of_async_worker`, create.py 44-56), `Model.Pipeline` (the safe observer of
the source and the operators) and `Model.Awaitable` (`AsyncAwaitableObserver` and `run`, observers.py 249-318, subscription.py
17-44). What the worker posts is fed to the pipeline, and what the pipeline delivers are calls on the awaitable observer.
-/

namespace Aio.EndToEnd
variable {α γ : Type}

/-- `src`: the source's task; `ps`: the workers of the pipeline; `run`: the observer and the task in which `run` runs. `posts` and
`outs` record what the source has posted and what the pipeline has delivered. -/
structure State (op : Operator α γ) where
  src : OneShot
  ps : op.protected.compile.St
  run : RunUntil.State γ
  posts : List (Notif α)
  outs : List (Notif γ)

/-- `source`: the source's task runs; `worker l`: a worker of the pipeline takes a step; `detach`: an operator, or the source's safe
observer, disposes the subscription to the source (observers.py 178, 182, 218-226); `main l`: the task of `run`. -/
inductive Label (op : Operator α γ) where
  | source
  | worker (l : op.protected.compile.Lab)
  | detach
  | main (l : RunUntil.Label γ)

def init (op : Operator α γ) : State op := ⟨⟨true, false⟩, op.protected.proc.init, RunUntil.init, [], []⟩

/-- The pipeline's calls on the awaitable observer. -/
def calls (obv : RunUntil.State γ) (ns : List (Notif γ)) : RunUntil.State γ :=
  { obv with obv := Awaitable.run obv.obv (ns.map .call) }

/-- The task of `run` goes on; if it leaves its `async with` block it disposes the subscription, which is the source's
canceller (create.py 28-32; every operator of a `Chain` hands on its source's disposable). Its `subscribe_async` does not
raise, nor does its `dispose_async`. -/
def main (kill : Bool) (worker : Py Bool (Notif α) Unit) {op : Operator α γ} (s : State op) (l : RunUntil.Label γ) : Option (State op) :=
  match l with
  | .obv _ => none
  | .subscribeRaises _ => none
  | .disposeRaises _ => none
  | l =>
    match RunUntil.step s.run l with
    | none => none
    | some r => some { s with run := r, src := if s.run.disposals < r.disposals then (oneShot kill worker).dispose s.src else s.src }

/-- One atomic segment. Operators end only on account of something that the source has posted, so nobody detaches before. -/
def step (kill : Bool) (worker : Py Bool (Notif α) Unit) {op : Operator α γ} (s : State op) : Label op → Option (State op)
  | .source =>
    match (oneShot kill worker).step s.src () with
    | none => none
    | some (t, o) =>
      let r := op.protected.proc.feedAll s.ps o
      some { s with src := t, ps := r.1, run := calls s.run r.2, posts := s.posts ++ o, outs := s.outs ++ r.2 }
  | .worker l =>
    match op.protected.proc.step s.ps l with
    | none => none
    | some (t, o) => some { s with ps := t, run := calls s.run o, outs := s.outs ++ o }
  | .detach => if s.posts = [] then none else some { s with src := (oneShot kill worker).dispose s.src }
  | .main l => main kill worker s l

end Aio.EndToEnd
