import Verif.Spec.Timed
/-!
# One event at a time
-/

namespace Aio.Spec.Queue
variable {α : Type}

/-- What an observer is told, and when each call begins, if it is told of the events `cs` (each with the time at which it was sent) one
after the other, where the call for the value `v`, if it is the `i`-th, takes `(m i v).1` and may raise an exception at its end, and where
`gone` passes before a terminal event. The observer has nothing to do before time `free`. -/
def serve (m : Nat → α → Nat × Option Err) (gone : Nat) : Nat → Nat → List (Notif α × Nat) → List (Notif α × Nat)
  | _, _, [] => []
  | i, free, (.next v, a) :: cs =>
    (.next v, max a free) ::
      match (m i v).2 with
      | none => serve m gone (i + 1) (max a free + (m i v).1) cs
      | some e => if e = .cancelled then [] else [(.error e, max a free + (m i v).1)]
  | _, free, (.error e, a) :: _ => [(.error e, max a free + gone)]
  | _, free, (.completed, a) :: _ => [(.completed, max a free + gone)]

/-- As `serve`, but before the observer is told of a value `v`, `(w v).1` passes with working on it. This may fail, which ends everything, and
may find that there is nothing to tell. -/
def handle {β : Type} (w : α → Nat × Except Err (Option β)) (m : Nat → β → Nat × Option Err) (gone : Nat) :
    Nat → Nat → List (Notif α × Nat) → List (Notif β × Nat)
  | _, _, [] => []
  | i, free, (.next v, a) :: cs =>
    match (w v).2 with
    | .error e => if e = .cancelled then [] else [(.error e, max a free + (w v).1)]
    | .ok none => handle w m gone i (max a free + (w v).1) cs
    | .ok (some y) =>
      (.next y, max a free + (w v).1) ::
        match (m i y).2 with
        | none => handle w m gone (i + 1) (max a free + (w v).1 + (m i y).1) cs
        | some e => if e = .cancelled then [] else [(.error e, max a free + (w v).1 + (m i y).1)]
  | _, free, (.error e, a) :: _ => [(.error e, max a free + gone)]
  | _, free, (.completed, a) :: _ => [(.completed, max a free + gone)]

/-- As `handle`, but what comes of a value is not told to anybody: it waits until somebody comes for it, and only then the work goes on. They come for the first one
at time `asks`, and `d` after they have taken the `i`-th, `y`, if `m i y = some d`; if `m i y = none`, they do not come again. -/
def loop {β : Type} (w : α → Nat × Except Err (Option β)) (m : Nat → β → Option Nat) (gone : Nat) :
    Nat → Nat → Nat → List (Notif α × Nat) → List (Notif β × Nat)
  | _, _, _, [] => []
  | i, free, asks, (.next v, a) :: cs =>
    match (w v).2 with
    | .error e => if e = .cancelled then [] else [(.error e, max (max a free + (w v).1) asks)]
    | .ok none => loop w m gone i (max a free + (w v).1) asks cs
    | .ok (some y) =>
      (.next y, max (max a free + (w v).1) asks) ::
        match m i y with
        | some d => loop w m gone (i + 1) (max (max a free + (w v).1) asks) (max (max a free + (w v).1) asks + d) cs
        | none => []
  | _, free, asks, (.error e, a) :: _ => [(.error e, max (max a free + gone) asks)]
  | _, free, asks, (.completed, a) :: _ => [(.completed, max (max a free + gone) asks)]

/-- As `handle`, but what comes of a value is put together with what has been accumulated so far; this takes time, too, and what comes of it is worked on by `w'` before
the observer is told. If putting together fails, the observer is told so, and all goes on with what had been accumulated before. -/
def fold {β γ ρ : Type} (w : α → Nat × Except Err (Option γ)) (f : ρ → γ → Nat × Except Err ρ) (w' : ρ → Nat × Except Err (Option β))
    (m : Nat → β → Nat × Option Err) (gone : Nat) : ρ → Nat → Nat → List (Notif α × Nat) → List (Notif β × Nat)
  | _, _, _, [] => []
  | c, i, free, (.next v, a) :: cs =>
    match (w v).2 with
    | .error e => if e = .cancelled then [] else [(.error e, max a free + (w v).1)]
    | .ok none => fold w f w' m gone c i (max a free + (w v).1) cs
    | .ok (some y) =>
      match (f c y).2 with
      | .error e =>
        if e = .cancelled then []
        else (.error e, max a free + (w v).1 + (f c y).1) :: fold w f w' m gone c i (max a free + (w v).1 + (f c y).1) cs
      | .ok c' =>
        match (w' c').2 with
        | .error e => if e = .cancelled then [] else [(.error e, max a free + (w v).1 + (f c y).1 + (w' c').1)]
        | .ok none => fold w f w' m gone c' i (max a free + (w v).1 + (f c y).1 + (w' c').1) cs
        | .ok (some z) =>
          (.next z, max a free + (w v).1 + (f c y).1 + (w' c').1) ::
            match (m i z).2 with
            | none => fold w f w' m gone c' (i + 1) (max a free + (w v).1 + (f c y).1 + (w' c').1 + (m i z).1) cs
            | some e => if e = .cancelled then [] else [(.error e, max a free + (w v).1 + (f c y).1 + (w' c').1 + (m i z).1)]
  | _, _, free, (.error e, a) :: _ => [(.error e, max a free + gone)]
  | _, _, free, (.completed, a) :: _ => [(.completed, max a free + gone)]

/-- When the last of the values `vs`, each with the time at which it was sent, has been put together with those before it, one at a time, if this takes `d c y` for the value `y` and the
total `c` so far; nothing is done before time `free`. -/
def busyUntil {γ ρ : Type} (d : ρ → γ → Nat) (g : ρ → γ → ρ) : ρ → Nat → List (γ × Nat) → Nat
  | _, free, [] => free
  | c, free, (y, a) :: vs => busyUntil d g (g c y) (max a free + d c y) vs

/-- When each of `xs` is finished, one after the other, if `x` takes `d x` and the first is begun at time `free`. -/
def finished (d : α → Nat) : Nat → List α → List (α × Nat)
  | _, [] => []
  | free, x :: xs => (x, free + d x) :: finished d (free + d x) xs

/-- When each of the questions, each with the time at which it is asked, is answered, if one is dealt with after the other and `x` takes `d x`. Nothing is done before time `free`. -/
def served (d : α → Nat) : Nat → List (α × Nat) → List (α × Nat)
  | _, [] => []
  | free, (x, a) :: cs => (x, max a free + d x) :: served d (max a free + d x) cs

/-- One piece of work after the other. -/
def andThen {β γ : Type} (f : α → Nat × Except Err (Option β)) (g : β → Nat × Except Err (Option γ)) (v : α) : Nat × Except Err (Option γ) :=
  match (f v).2 with
  | .error e => ((f v).1, .error e)
  | .ok none => ((f v).1, .ok none)
  | .ok (some y) => ((f v).1 + (g y).1, (g y).2)

/-- What an observer is told, and when, by somebody who begins at time `t`, brings the values one at a time and waits until the observer is done with a value before they go on to the next. `src k`: how
long it takes to find the `k`-th value, and whether there is one, or an end, or a failure, of which the observer is not told. Before the observer is told of `v`, `(w v).1` passes with working on it, which
may fail and may find that there is nothing to tell. If this or the observer fails, that is the end; the observer is told of it if `tells`. The first `n` rounds, the first of them for the value number `k` and the
call number `i`. -/
def pulled {β : Type} (src : Nat → Nat × Except Err (Option α)) (tells : Bool) (w : α → Nat × Except Err (Option β)) (m : Nat → β → Nat × Option Err) :
    Nat → Nat → Nat → Nat → List (Notif β × Nat)
  | 0, _, _, _ => []
  | n + 1, k, i, t =>
    match (src k).2 with
    | .error _ => []
    | .ok none => [(.completed, t + (src k).1)]
    | .ok (some v) =>
      match (w v).2 with
      | .error e => if tells ∧ e ≠ .cancelled then [(.error e, t + (src k).1 + (w v).1)] else []
      | .ok none => pulled src tells w m n (k + 1) i (t + (src k).1 + (w v).1)
      | .ok (some y) =>
        (.next y, t + (src k).1 + (w v).1) ::
          match (m i y).2 with
          | none => pulled src tells w m n (k + 1) (i + 1) (t + (src k).1 + (w v).1 + (m i y).1)
          | some e => if tells ∧ e ≠ .cancelled then [(.error e, t + (src k).1 + (w v).1 + (m i y).1)] else []

/-- The values of `interval(seconds, period)`: `0` after `seconds`, then one after every `period`; if that is 0, the end. -/
def ticks (seconds period : Int) (k : Nat) : Nat × Except Err (Option Nat) :=
  if k = 0 then (seconds.toNat, .ok (some 0)) else if period = 0 then (0, .ok none) else (period.toNat, .ok (some k))

/-- What has happened before time `t`. -/
def before (t : Nat) (cs : List (Notif α × Nat)) : List (Notif α × Nat) := cs.filter fun c => c.2 < t

/-- When value `k` of an interval is due whose observer takes `e j` for the value `j`, if the interval waits for it. -/
def paced (t0 seconds period : Nat) (e : Nat → Nat) (k : Nat) : Nat := t0 + seconds + k * period + ((List.range k).map e).sum

end Aio.Spec.Queue
