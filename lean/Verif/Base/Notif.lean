/-!
# Exceptions and notifications

Models `aioreactive/notification.py`.
-/

namespace Aio

/-- Python exceptions, as far as the library distinguishes them. `user n` stands for an arbitrary
exception object created by user code (different `n`: different, unequal exception objects). The
others are the exceptions that the library (or the language runtime, at the cited places) raises:
`objectDisposed` subject.py:35,114; `valueError` filtering.py:239; `typeError` filtering.py:392;
`runtimeError` (re-awaiting a coroutine, see create.py:68); `stopAsyncIteration` observers.py:52;
`invalidState` (asyncio, resolving a future twice); `cancelled` stands for
`asyncio.CancelledError`, which is a `BaseException` and therefore *not* caught by
`except Exception`. -/
inductive Err where
  | user (n : Nat)
  | objectDisposed
  | valueError
  | typeError
  | runtimeError
  | stopAsyncIteration
  | invalidState
  | cancelled
  deriving DecidableEq, Repr

/-- `Notification` and its three subclasses. notification.py:18-128 (`OnNext` 41-68, `OnError`
71-98, `OnCompleted` 101-128). -/
inductive Notif (α : Type) where
  | next (v : α)
  | error (e : Err)
  | completed
  deriving DecidableEq, Repr

namespace Notif

/-- `MsgKind`. notification.py:12-15. -/
inductive Kind where
  | onNext | onError | onCompleted
  deriving DecidableEq, Repr

/-- `Notification.kind`, set by the constructors. notification.py:48, 78, 109. -/
def kind : Notif α → Kind
  | next _ => .onNext
  | error _ => .onError
  | completed => .onCompleted

/-- `__eq__` of the three classes with the payload's `__eq__` as a parameter.
notification.py:62-65 (OnNext), 92-95 (OnError), 122-125 (OnCompleted). -/
def pyEq (eqV : α → α → Bool) (eqE : Err → Err → Bool) : Notif α → Notif α → Bool
  | next a, other => match other with
    | next b => eqV a b
    | _ => false
  | error a, other => match other with
    | error b => eqE a b
    | _ => false
  | completed, other => match other with
    | completed => true
    | _ => false

/-- The two notifications that end a stream. -/
def isTerminal : Notif α → Bool
  | next _ => false
  | error _ => true
  | completed => true

end Notif
end Aio
