import Verif.Base.Notif
/-!
# Straight-line coroutine code

A Python coroutine without observable suspension is a function that may change state, may produce
outputs (messages posted to a mailbox, or calls on the final observer) and returns or raises.
State changes and outputs made before an exception stay.
-/

namespace Aio

/-- What a coroutine run left behind: return value or exception, new state, outputs in order. -/
structure Res (σ ο α : Type) where
  val : Except Err α
  st : σ
  out : List ο

/-- Coroutines over state `σ` with outputs `ο`. -/
def Py (σ ο α : Type) : Type := σ → Res σ ο α

namespace Py
variable {σ τ ο α β : Type}

/-- `return a` -/
def ret (a : α) : Py σ ο α := fun s => ⟨.ok a, s, []⟩

/-- sequencing `x = await m; ...`: an exception in `m` skips the rest -/
def andThen (m : Py σ ο α) (k : α → Py σ ο β) : Py σ ο β := fun s =>
  match m s with
  | ⟨.ok a, s', o⟩ => let r := k a s'; ⟨r.val, r.st, o ++ r.out⟩
  | ⟨.error e, s', o⟩ => ⟨.error e, s', o⟩

instance : Monad (Py σ ο) where
  pure := ret
  bind := andThen

/-- `raise e` -/
def raise (e : Err) : Py σ ο α := fun s => ⟨.error e, s, []⟩

/-- `try: m  except Exception as ex: h ex`. `CancelledError` is not an `Exception`. -/
def tryExcept (m : Py σ ο α) (h : Err → Py σ ο α) : Py σ ο α := fun s =>
  match m s with
  | ⟨.ok a, s', o⟩ => ⟨.ok a, s', o⟩
  | ⟨.error .cancelled, s', o⟩ => ⟨.error .cancelled, s', o⟩
  | ⟨.error e, s', o⟩ => let r := h e s'; ⟨r.val, r.st, o ++ r.out⟩

/-- `try: x = m  except Exception as ex: h ex  else: k x` (exceptions of `k` are not caught) -/
def tryElse (m : Py σ ο α) (h : Err → Py σ ο β) (k : α → Py σ ο β) : Py σ ο β := fun s =>
  match m s with
  | ⟨.ok a, s', o⟩ => let r := k a s'; ⟨r.val, r.st, o ++ r.out⟩
  | ⟨.error .cancelled, s', o⟩ => ⟨.error .cancelled, s', o⟩
  | ⟨.error e, s', o⟩ => let r := h e s'; ⟨r.val, r.st, o ++ r.out⟩

/-- `try: m  finally: f` -/
def tryFinally (m : Py σ ο α) (f : Py σ ο Unit) : Py σ ο α := fun s =>
  let r := m s
  match f r.st with
  | ⟨.ok _, s', o⟩ => ⟨r.val, s', r.out ++ o⟩
  | ⟨.error e, s', o⟩ => ⟨.error e, s', r.out ++ o⟩

/-- produce one output -/
def emit (x : ο) : Py σ ο Unit := fun s => ⟨.ok (), s, [x]⟩

/-- read the local variables -/
def get : Py σ ο σ := fun s => ⟨.ok s, s, []⟩

/-- assign the local variables -/
def set (s : σ) : Py σ ο Unit := fun _ => ⟨.ok (), s, []⟩

/-- call a synchronous user function that returns or raises -/
def call (r : Except Err α) : Py σ ο α := fun s => ⟨r, s, []⟩

/-- run code that only knows the outer variables `σ` inside a scope with own variables `τ` -/
def up (m : Py σ ο α) : Py (τ × σ) ο α := fun s =>
  let r := m s.2
  ⟨r.val, (s.1, r.st), r.out⟩

/-- read the own variables of the innermost scope -/
def getL : Py (τ × σ) ο τ := fun s => ⟨.ok s.1, s, []⟩

/-- assign the own variables of the innermost scope -/
def setL (t : τ) : Py (τ × σ) ο Unit := fun s => ⟨.ok (), (t, s.2), []⟩

/-- `for x in xs: await body x` -/
def forEach : List α → (α → Py σ ο Unit) → Py σ ο Unit
  | [], _ => ret ()
  | x :: xs, body => andThen (body x) fun _ => forEach xs body

@[simp] theorem pure_run (a : α) (s : σ) : (pure a : Py σ ο α) s = ⟨.ok a, s, []⟩ := rfl
@[simp] theorem ret_run (a : α) (s : σ) : (ret a : Py σ ο α) s = ⟨.ok a, s, []⟩ := rfl
@[simp] theorem raise_run (e : Err) (s : σ) : (raise e : Py σ ο α) s = ⟨.error e, s, []⟩ := rfl
@[simp] theorem emit_run (x : ο) (s : σ) : emit x s = ⟨.ok (), s, [x]⟩ := rfl
@[simp] theorem get_run (s : σ) : (get : Py σ ο σ) s = ⟨.ok s, s, []⟩ := rfl
@[simp] theorem set_run (t s : σ) : (set t : Py σ ο Unit) s = ⟨.ok (), t, []⟩ := rfl
@[simp] theorem call_run (r : Except Err α) (s : σ) : (call r : Py σ ο α) s = ⟨r, s, []⟩ := rfl
@[simp] theorem getL_run (s : τ × σ) : (getL : Py (τ × σ) ο τ) s = ⟨.ok s.1, s, []⟩ := rfl
@[simp] theorem setL_run (t : τ) (s : τ × σ) :
    (setL t : Py (τ × σ) ο Unit) s = ⟨.ok (), (t, s.2), []⟩ := rfl
@[simp] theorem up_run (m : Py σ ο α) (s : τ × σ) :
    up m s = ⟨(m s.2).val, (s.1, (m s.2).st), (m s.2).out⟩ := rfl

@[simp] theorem bind_eq (m : Py σ ο α) (k : α → Py σ ο β) : (m >>= k) = andThen m k := rfl

theorem andThen_ok {m : Py σ ο α} {k : α → Py σ ο β} {s s' : σ} {a : α} {o : List ο}
    (h : m s = ⟨.ok a, s', o⟩) :
    andThen m k s = ⟨(k a s').val, (k a s').st, o ++ (k a s').out⟩ := by
  simp [andThen, h]

theorem andThen_error {m : Py σ ο α} {k : α → Py σ ο β} {s s' : σ} {e : Err} {o : List ο}
    (h : m s = ⟨.error e, s', o⟩) : andThen m k s = ⟨.error e, s', o⟩ := by
  simp [andThen, h]

end Py

/-- An async observer: three coroutine methods. types.py:18-33. -/
structure Observer (σ ο α : Type) where
  asend : α → Py σ ο Unit
  athrow : Err → Py σ ο Unit
  aclose : Py σ ο Unit

namespace Observer
variable {σ τ ο α : Type}

/-- `Notification.accept_observer`: call the method of the observer that corresponds to the
notification. notification.py:59-60, 89-90, 119-120. -/
def accept (obv : Observer σ ο α) : Notif α → Py σ ο Unit
  | .next v => obv.asend v
  | .error e => obv.athrow e
  | .completed => obv.aclose

/-- `AsyncAnonymousObserver`: missing functions are replaced by `anoop`, which does nothing.
observers.py:97-128, utils.py:16-17. The `iscoroutinefunction` assertions are not modelled (all
functions here are coroutine functions by type). -/
def anonymous (asend : Option (α → Py σ ο Unit)) (athrow : Option (Err → Py σ ο Unit))
    (aclose : Option (Py σ ο Unit)) : Observer σ ο α where
  asend := asend.getD fun _ => Py.ret ()
  athrow := athrow.getD fun _ => Py.ret ()
  aclose := aclose.getD (Py.ret ())

/-- An observer of the outer scope seen from an inner scope (closure capture). -/
def up (obv : Observer σ ο α) : Observer (τ × σ) ο α where
  asend v := Py.up (obv.asend v)
  athrow e := Py.up (obv.athrow e)
  aclose := Py.up obv.aclose

/-- The observer returned by `safe_observer`, as its callers see it: every method just posts the
corresponding notification to the mailbox (the output list) and returns at once.
observers.py:190-199. -/
def post : Observer Unit (Notif α) α where
  asend v := Py.emit (.next v)
  athrow e := Py.emit (.error e)
  aclose := Py.emit .completed

@[simp] theorem accept_next (obv : Observer σ ο α) (v : α) : obv.accept (.next v) = obv.asend v := rfl
@[simp] theorem accept_error (obv : Observer σ ο α) (e : Err) :
    obv.accept (.error e) = obv.athrow e := rfl
@[simp] theorem accept_completed (obv : Observer σ ο α) : obv.accept .completed = obv.aclose := rfl

@[simp] theorem post_accept (n : Notif α) : post.accept n = Py.emit n := by cases n <;> rfl

end Observer
end Aio
