import Verif.Base.Notif
/-!
# `Notification.accept`, `accept_observer` and `AsyncNotificationObserver`

notification.py:51-60, 81-90, 111-120; observers.py:131-144.
-/

namespace Aio
variable {α : Type}

/-- A call of one of the three callbacks (or methods of an observer). -/
inductive Called (α : Type) where
  | asend (v : α)
  | athrow (e : Err)
  | aclose
  deriving DecidableEq, Repr

/-- `accept`/`accept_observer`: the call that is awaited. -/
def Notif.accept : Notif α → Called α
  | .next v => .asend v
  | .error e => .athrow e
  | .completed => .aclose

/-- `AsyncNotificationObserver`: what the function is called with when a method is. observers.py:137-144. -/
def Called.notification : Called α → Notif α
  | .asend v => .next v
  | .athrow e => .error e
  | .aclose => .completed

end Aio
