import Verif.Model.Effects
import Verif.Lemmas.Proc
import Verif.Spec.Stream
/-!
# C143, C144: functions with side effects

C143: a pipeline of `map`, `filter` and `choose` behind a protected source does what a plain `for` loop does.
C144: `take(n)` does not keep the functions before it from being called.
-/

namespace Aio.Effects
open Spec
variable {W ο α β γ : Type}

/-! ## The loop that the user would write -/

/-- What becomes of one value: the functions are called one after the other, until one of them drops the value. -/
def outcome : {α : Type} → Steps W ο α γ → α → Py W ο (Option γ)
  | _, .nil, x => Py.ret (some x)
  | _, .map f rest, x => Py.andThen (f x) (outcome rest)
  | _, .filter p rest, x => Py.andThen (p x) fun b => if b then outcome rest x else Py.ret none
  | _, .choose f rest, x => Py.andThen (f x) fun
    | some y => outcome rest y
    | none => Py.ret none

/-- ```
for x in xs:
    try:
        y = outcome(x)
        if y is not None: obv.asend(y)
    except Exception as ex:
        obv.athrow(ex)
        return
if the source has ended: dispose(); obv.athrow(e) or obv.aclose()
``` -/
def loop (body : α → Py W ο (Option γ)) (obv : Observer W ο γ) (dispose : Py W ο Unit) : List α → End → Py W ο Unit
  | [], .running => Py.ret ()
  | [], .failed e => Py.andThen dispose fun _ => obv.athrow e
  | [], .done => Py.andThen dispose fun _ => obv.aclose
  | x :: xs, fin =>
    Py.tryElse (Py.andThen (body x) fun
        | some y => obv.asend y
        | none => Py.ret ())
      obv.athrow (fun _ => loop body obv dispose xs fin)

/-! ## Proof -/

theorem andThen_ret (m : Py W ο α) (s : W) : Py.andThen m Py.ret s = m s := by
  unfold Py.andThen
  rcases h : m s with ⟨v, s', o⟩
  cases v <;> simp

theorem andThen_assoc {δ : Type} (m : Py W ο α) (k : α → Py W ο β) (j : β → Py W ο δ) (s : W) : Py.andThen (Py.andThen m k) j s = Py.andThen m (fun a => Py.andThen (k a) j) s := by
  unfold Py.andThen
  rcases h : m s with ⟨v, s', o⟩
  cases v with
  | error e => rfl
  | ok a =>
    rcases h2 : k a s' with ⟨v2, s2, o2⟩
    cases v2 <;> simp [h2]

theorem andThen_congr {m : Py W ο α} {k k' : α → Py W ο β} (h : ∀ a s, k a s = k' a s) (s : W) : Py.andThen m k s = Py.andThen m k' s := by
  have : k = k' := funext fun a => funext fun s => h a s
  rw [this]

/-- The observers of the chain, nested in one another, do what the functions do one after the other. -/
theorem asend_outcome (steps : Steps W ο α γ) (obv : Observer W ο γ) (x : α) (w : W) :
    (steps.observer obv).asend x w = Py.andThen (outcome steps x) (fun
        | some y => obv.asend y
        | none => Py.ret ()) w := by
  induction steps generalizing w with
  | nil => simp [outcome, Steps.observer, Py.andThen]
  | map f rest ih =>
    rw [outcome, andThen_assoc]
    exact andThen_congr (fun y s => ih obv y s) w
  | filter p rest ih =>
    rw [outcome, andThen_assoc]
    refine andThen_congr (fun b s => ?_) w
    cases b with
    | true => exact ih obv x s
    | false => simp [Py.andThen]
  | choose f rest ih =>
    rw [outcome, andThen_assoc]
    refine andThen_congr (fun y s => ?_) w
    cases y with
    | some y => exact ih obv y s
    | none => simp [Py.andThen]

theorem athrow_same (steps : Steps W ο α γ) (obv : Observer W ο γ) : (steps.observer obv).athrow = obv.athrow := by
  induction steps with
  | nil => rfl
  | map _ _ ih => exact ih obv
  | filter _ _ ih => exact ih obv
  | choose _ _ ih => exact ih obv

theorem aclose_same (steps : Steps W ο α γ) (obv : Observer W ο γ) : (steps.observer obv).aclose = obv.aclose := by
  induction steps with
  | nil => rfl
  | map _ _ ih => exact ih obv
  | filter _ _ ih => exact ih obv
  | choose _ _ ih => exact ih obv

theorem stopped (obv : Observer W ο α) (dispose : Py W ο Unit) (w0 w : W) : ∀ ns, (safeAgent obv dispose w0).run (false, w) ns = ((false, w), [])
  | [] => rfl
  | n :: ns => by
    rw [Agent.run, show (safeAgent obv dispose w0).recv (false, w) n = ((false, w), []) from rfl]
    simp [stopped obv dispose w0 w ns]

private theorem ends {obv : Observer W ο α} {dispose : Py W ο Unit} {w0 w w' : W} {n : Notif α} {o : List ο} (ns : List (Notif α))
    (h : (safeAgent obv dispose w0).recv (true, w) n = ((false, w'), o)) : (safeAgent obv dispose w0).run (true, w) (n :: ns) = ((false, w'), o) := by
  rw [Agent.run, h]
  simp [stopped]

/-- The worker does what the loop does. -/
theorem worker_loop (steps : Steps W ο α γ) (obv : Observer W ο γ) (dispose : Py W ο Unit) (w0 : W) : ∀ (ns : List (Notif α)) (w : W),
    ((safeAgent (steps.observer obv) dispose w0).run (true, w) ns).1.2 = (loop (outcome steps) obv dispose (story ns).vals (story ns).fin w).st ∧
    ((safeAgent (steps.observer obv) dispose w0).run (true, w) ns).2 = (loop (outcome steps) obv dispose (story ns).vals (story ns).fin w).out
  | [], w => ⟨rfl, rfl⟩
  | .error e :: ns, w => by
    have h : (safeAgent (steps.observer obv) dispose w0).recv (true, w) (.error e) =
        ((false, (Py.andThen dispose (fun _ => obv.athrow e) w).st), (Py.andThen dispose (fun _ => obv.athrow e) w).out) := by
      simp only [safeAgent, safeBody, Observer.accept_error, athrow_same, Py.bind_eq]
      rcases h : dispose w with ⟨v, s', o⟩
      cases v with
      | error e' => simp [Py.andThen, h]
      | ok a =>
        rcases h2 : obv.athrow e s' with ⟨v2, s2, o2⟩
        cases v2 <;> simp [Py.andThen, h, h2]
    rw [ends ns h]
    exact ⟨rfl, rfl⟩
  | .completed :: ns, w => by
    have h : (safeAgent (steps.observer obv) dispose w0).recv (true, w) .completed =
        ((false, (Py.andThen dispose (fun _ => obv.aclose) w).st), (Py.andThen dispose (fun _ => obv.aclose) w).out) := by
      simp only [safeAgent, safeBody, aclose_same, Py.bind_eq]
      rcases h : dispose w with ⟨v, s', o⟩
      cases v with
      | error e' => simp [Py.andThen, h]
      | ok a =>
        rcases h2 : obv.aclose s' with ⟨v2, s2, o2⟩
        cases v2 <;> simp [Py.andThen, h, h2]
    rw [ends ns h]
    exact ⟨rfl, rfl⟩
  | .next x :: ns, w => by
    have ih := fun w => worker_loop steps obv dispose w0 ns w
    simp only [story, loop]
    generalize hb : (Py.andThen (outcome steps x) fun | some y => obv.asend y | none => Py.ret ()) = body
    have hx : (steps.observer obv).asend x w = body w := by rw [asend_outcome, ← hb]
    rcases h : body w with ⟨v, s', o⟩
    cases v with
    | ok a =>
      have h1 : (safeAgent (steps.observer obv) dispose w0).recv (true, w) (.next x) = ((true, s'), o) := by
        simp [safeAgent, safeBody, Py.tryExcept, Py.andThen, hx, h]
      rw [Agent.run, h1]
      simp only [Py.tryElse, h]
      exact ⟨(ih s').1, congrArg (o ++ ·) (ih s').2⟩
    | error e =>
      by_cases hc : e = .cancelled
      · subst hc
        have h1 : (safeAgent (steps.observer obv) dispose w0).recv (true, w) (.next x) = ((false, s'), o) := by
          simp [safeAgent, safeBody, Py.tryExcept, Py.andThen, hx, h]
        rw [ends ns h1]
        simp [Py.tryElse, h]
      · have h1 : (safeAgent (steps.observer obv) dispose w0).recv (true, w) (.next x) = ((false, (obv.athrow e s').st), o ++ (obv.athrow e s').out) := by
          rcases h2 : obv.athrow e s' with ⟨v2, s2, o2⟩
          cases e <;> cases v2 <;> simp_all [safeAgent, safeBody, Py.tryExcept, Py.andThen, athrow_same]
        rw [ends ns h1]
        cases e <;> simp_all [Py.tryElse]

/-- C143: `pipe(source, map(f), filter(p), ...)` behind a protected source does what the plain loop does, whatever the functions and the observer do to the variables that they share, whether they raise, and
whatever the schedule: at every moment it has done exactly what the loop does for the notifications that have been taken up. When nothing is left to do, these are all. -/
theorem C143_loop (steps : Steps W ο α γ) (obv : Observer W ο γ) (dispose : Py W ο Unit) (w : W) {es q b w' out}
    (h : (piped steps obv dispose w).exec (piped steps obv dispose w).init es = some ((q, b, w'), out)) :
    ∃ taken, Proc.inputs es = taken ++ q ∧ w' = (loop (outcome steps) obv dispose (story taken).vals (story taken).fin w).st ∧
      out = (loop (outcome steps) obv dispose (story taken).vals (story taken).fin w).out ∧ ((piped steps obv dispose w).Quiescent (q, b, w') → taken = Proc.inputs es) := by
  have key : ∀ {es q a w' out s}, (piped steps obv dispose w).exec s es = some ((q, a, w'), out) →
      ∃ taken, s.1 ++ Proc.inputs es = taken ++ q ∧ (safeAgent (steps.observer obv) dispose w).run s.2 taken = ((a, w'), out) := by
    intro es
    induction es with
    | nil => intro q a w' out s h; simp [Proc.exec] at h; obtain ⟨rfl, rfl⟩ := h; exact ⟨[], by simp [Proc.inputs], rfl⟩
    | cons e es ih =>
      intro q a w' out s h
      cases e with
      | feed i =>
        obtain ⟨o2, h2, rfl⟩ := Proc.exec_feed_inv h
        obtain ⟨taken, h3, h4⟩ := ih h2
        refine ⟨taken, ?_, h4⟩
        simpa [piped, Proc.mailbox, Proc.inputs] using h3
      | step l =>
        obtain ⟨s1, o1, o2, hs, h2, rfl⟩ := Proc.exec_step_inv h
        obtain ⟨qs, t⟩ := s
        cases qs with
        | nil => simp [piped, Proc.mailbox] at hs
        | cons n qs =>
          simp only [piped, Proc.mailbox, Option.some.injEq, Prod.mk.injEq] at hs
          obtain ⟨rfl, rfl⟩ := hs
          obtain ⟨taken, h3, h4⟩ := ih h2
          refine ⟨n :: taken, by simpa [Proc.inputs] using h3, ?_⟩
          rw [Agent.run]
          dsimp only at h4 ⊢
          rw [h4]
  obtain ⟨taken, h1, h2⟩ := key h
  have h3 := worker_loop steps obv dispose w taken w
  have h2' : (safeAgent (steps.observer obv) dispose w).run (true, w) taken = ((b, w'), out) := h2
  rw [h2'] at h3
  have h1' : Proc.inputs es = taken ++ q := h1
  refine ⟨taken, h1', h3.1, h3.2, fun hq => ?_⟩
  cases q with
  | nil => simpa using h1'.symm
  | cons n q => have := hq (); simp [piped, Proc.mailbox] at this

/-! ## C143: the order of the calls -/

/-- What can be seen: the calls of the functions, and those on the observer. -/
inductive Seen (α β : Type) where
  | mapper (x : α)
  | predicate (y : β)
  | told (n : Notif β)
  deriving DecidableEq, Repr

/-- `pipe(source, map(f), filter(p))` with functions that say when they are called, and an observer that says what it is told. -/
def traced (f : α → β) (p : β → Bool) : Steps Unit (Seen α β) α β :=
  .map (fun x => Py.andThen (Py.emit (.mapper x)) fun _ => Py.ret (f x))
    (.filter (fun y => Py.andThen (Py.emit (.predicate y)) fun _ => Py.ret (p y)) .nil)
def listener : Observer Unit (Seen α β) β where
  asend v := Py.emit (.told (.next v))
  athrow e := Py.emit (.told (.error e))
  aclose := Py.emit (.told .completed)

/-- C143: for example, each function is called exactly once for each value that reaches it, and everything is done for one value before anything is done for the next one. -/
theorem C143_once (f : α → β) (p : β → Bool) {es s out} (h : (piped (traced f p) listener (Py.ret ()) ()).exec (piped (traced f p) listener (Py.ret ()) ()).init es = some (s, out))
    (hq : (piped (traced f p) listener (Py.ret ()) ()).Quiescent s) :
    out = ((story (Proc.inputs es)).vals.flatMap fun x => [.mapper x, .predicate (f x)] ++ if p (f x) then [.told (.next (f x))] else []) ++ (story (Proc.inputs es)).fin.events.map .told := by
  obtain ⟨q, b, u⟩ := s
  obtain ⟨taken, -, -, h3, h4⟩ := C143_loop _ _ _ _ h
  obtain rfl := h4 hq
  rw [h3]
  generalize (story (Proc.inputs es)).fin = fin
  generalize (story (Proc.inputs es)).vals = xs
  clear h3 h4 hq h
  induction xs with
  | nil => cases fin <;> rfl
  | cons x xs ih =>
    simp only [loop, traced, outcome, Py.andThen, Py.emit, Py.ret, List.flatMap_cons, List.append_assoc] at ih ⊢
    cases hp : p (f x) <;> simp [Py.tryElse, Py.andThen, Py.emit, Py.ret, listener, hp] at ih ⊢ <;> exact ih

/-! ## C144 -/

/-- What the functions did that can be seen. -/
def seen (out : List (ο ⊕ Notif γ)) : List ο := out.filterMap fun
  | .inl x => some x
  | .inr _ => none
/-- What was posted to the mailbox. -/
def posts (out : List (ο ⊕ Notif γ)) : List (Notif γ) := out.filterMap fun
  | .inl _ => none
  | .inr n => some n

theorem seen_append (a b : List (ο ⊕ Notif γ)) : seen (a ++ b) = seen a ++ seen b := List.filterMap_append ..
theorem posts_append (a b : List (ο ⊕ Notif γ)) : posts (a ++ b) = posts a ++ posts b := List.filterMap_append ..
theorem seen_inl (o : List ο) : seen (o.map .inl : List (ο ⊕ Notif γ)) = o := by
  induction o with
  | nil => rfl
  | cons x o ih => exact congrArg (x :: ·) ih
theorem posts_inl (o : List ο) : posts (o.map .inl : List (ο ⊕ Notif γ)) = [] := by
  induction o with
  | nil => rfl
  | cons x o ih => exact ih

theorem user_andThen {τ μ A B : Type} (m : Py W ο A) (k : A → Py W ο B) : (user (Py.andThen m k) : Py (τ × W) (ο ⊕ μ) B) = Py.andThen (user m) fun a => user (k a) := by
  funext s
  simp only [user, Py.andThen]
  rcases m s.2 with ⟨v, s', o⟩
  cases v <;> simp

theorem outcome_user {τ μ : Type} (steps : Steps W ο α γ) (x : α) : outcome (steps.user (τ := τ) (μ := μ)) x = user (outcome steps x) := by
  induction steps with
  | nil => rfl
  | map f rest ih =>
    rw [Steps.user, outcome, outcome, user_andThen]
    exact congrArg _ (funext fun y => ih y)
  | filter p rest ih =>
    rw [Steps.user, outcome, outcome, user_andThen]
    refine congrArg _ (funext fun b => ?_)
    cases b with
    | true => exact ih x
    | false => rfl
  | choose f rest ih =>
    rw [Steps.user, outcome, outcome, user_andThen]
    refine congrArg _ (funext fun y => ?_)
    cases y with
    | some y => exact ih y
    | none => rfl

/-- What the observer of `take` does, in short. -/
structure Taking (T : Observer (Int × W) (ο ⊕ Notif γ) γ) : Prop where
  more : ∀ v r w, 1 < r → T.asend v (r, w) = ⟨.ok (), (r - 1, w), [.inr (.next v)]⟩
  last : ∀ v w, T.asend v (1, w) = ⟨.ok (), (0, w), [.inr (.next v), .inr .completed]⟩
  over : ∀ v r w, r ≤ 0 → T.asend v (r, w) = ⟨.ok (), (r, w), []⟩
  athrow : ∀ e s, T.athrow e s = ⟨.ok (), s, [.inr (.error e)]⟩
  aclose : ∀ s, T.aclose s = ⟨.ok (), s, [.inr .completed]⟩

theorem take_taking (n : Int) : Taking (W := W) (ο := ο) (γ := γ) ((takeW n).obs posting) where
  more v r w hr := by
    simp only [Py.bind_eq, Py.andThen, Py.getL_run, if_pos (show r > 0 by omega), Py.setL_run, if_neg (show ¬ r - 1 = 0 by omega)]
    rfl
  last v w := rfl
  over v r w hr := by
    simp only [Py.bind_eq, Py.andThen, Py.getL_run, if_neg (show ¬ r > 0 by omega)]
    rfl
  athrow e s := rfl
  aclose s := rfl

theorem values_next (v : α) (ns : List (Notif α)) : values (.next v :: ns) = v :: values ns := rfl

/-- With and without `take(n)` the functions do the same; the mailbox gets the first `n` results. -/
theorem loop_take (steps : Steps W ο α γ) (dispose : Py W ο Unit) {T : Observer (Int × W) (ο ⊕ Notif γ) γ} (hT : Taking T) : ∀ (xs : List α) (fin : End) (r : Int) (w : W),
    (loop (outcome steps.user) T (user dispose) xs fin (r, w)).st.2 = (loop (outcome steps.user) posting (user dispose) xs fin ((), w)).st.2 ∧
    seen (loop (outcome steps.user) T (user dispose) xs fin (r, w)).out = seen (ο := ο) (γ := γ) (loop (outcome steps.user) posting (user dispose) xs fin ((), w)).out ∧
    values (posts (loop (outcome steps.user) T (user dispose) xs fin (r, w)).out) =
      (values (posts (ο := ο) (loop (outcome steps.user) posting (user dispose) xs fin ((), w)).out)).take r.toNat
  | [], .running, r, w => by simp [loop, seen, posts, values, story]
  | [], .failed e, r, w => by
    simp only [loop, Py.andThen, user]
    rcases dispose w with ⟨v, s', o⟩
    cases v <;> simp [posting, hT.athrow, seen_append, seen_inl, posts_append, posts_inl, values, story] <;> simp [posts, story]
  | [], .done, r, w => by
    simp only [loop, Py.andThen, user]
    rcases dispose w with ⟨v, s', o⟩
    cases v <;> simp [posting, hT.aclose, seen_append, seen_inl, posts_append, posts_inl, values, story] <;> simp [posts, story]
  | x :: xs, fin, r, w => by
    have ih := fun r w => loop_take steps dispose hT xs fin r w
    simp only [loop]
    rw [outcome_user, outcome_user]
    simp only [Py.tryElse, Py.andThen, user]
    rcases h : outcome steps x w with ⟨v, s', o⟩
    cases v with
    | error e =>
      cases e <;> simp [posting, hT.athrow, seen_append, seen_inl, posts_append, posts_inl, values, story] <;> simp [posts, story]
    | ok y =>
      cases y with
      | none =>
        obtain ⟨h1, h2, h3⟩ := ih r s'
        simp only [Py.ret, List.append_nil, seen_append, seen_inl, posts_append, posts_inl, List.nil_append]
        exact ⟨h1, congrArg _ h2, h3⟩
      | some y =>
        have hp : ∀ s, (posting (W := Unit × W) (ο := ο)).asend y s = ⟨.ok (), s, [.inr (.next y)]⟩ := fun _ => rfl
        have e1 : ∀ l : List (ο ⊕ Notif γ), posts (ο := ο) (.inr (.next y) :: l) = .next y :: posts l := fun _ => rfl
        have e2 : ∀ (m : Notif γ) (l : List (ο ⊕ Notif γ)), seen (.inr m :: l) = seen l := fun _ _ => rfl
        have e3 : ∀ l : List (ο ⊕ Notif γ), posts (ο := ο) (.inr .completed :: l) = .completed :: posts l := fun _ => rfl
        by_cases hr : r ≤ 0
        · obtain ⟨h1, h2, h3⟩ := ih r s'
          dsimp only
          rw [hT.over _ _ _ hr]
          simp only [hp, List.append_assoc, seen_append, seen_inl, posts_append, posts_inl, List.nil_append, List.cons_append, e1, e2, values_next, h1, h2, h3]
          rw [show r.toNat = 0 by omega]
          exact ⟨trivial, by simp, by simp⟩
        · by_cases hz : r = 1
          · obtain ⟨h1, h2, -⟩ := ih 0 s'
            subst hz
            dsimp only
            rw [hT.last]
            simp only [hp, List.append_assoc, seen_append, seen_inl, posts_append, posts_inl, List.nil_append, List.cons_append, e1, e2, e3, values_next, h1, h2]
            exact ⟨trivial, trivial, rfl⟩
          · obtain ⟨h1, h2, h3⟩ := ih (r - 1) s'
            dsimp only
            rw [hT.more _ _ _ (by omega)]
            simp only [hp, List.append_assoc, seen_append, seen_inl, posts_append, posts_inl, List.nil_append, List.cons_append, e1, e2, values_next, h1, h2, h3]
            rw [show r.toNat = (r - 1).toNat + 1 by omega]
            exact ⟨trivial, trivial, rfl⟩

/-- C144: the functions before `take(n)` are called for all values that the source has sent, also when `take` has its `n` values: whatever they do, to the variables or to the outside, they do as if there were
no `take(n)`. Only the observer gets the first `n` results and no more. -/
theorem C144_all_called (steps : Steps W ο α γ) (dispose : Py W ο Unit) (n : Int) (w : W) {es s out} (h : (beforeTake steps dispose n w).exec (beforeTake steps dispose n w).init es = some (s, out))
    (hq : (beforeTake steps dispose n w).Quiescent s) {es' s' out'} (h' : (beforeMailbox steps dispose w).exec (beforeMailbox steps dispose w).init es' = some (s', out'))
    (hq' : (beforeMailbox steps dispose w).Quiescent s') (hi : Proc.inputs es = Proc.inputs es') :
    s.2.2.2 = s'.2.2.2 ∧ seen out = seen out' ∧ values (posts out) = (values (posts out')).take n.toNat := by
  obtain ⟨q, b, w1⟩ := s
  obtain ⟨q', b', w2⟩ := s'
  obtain ⟨t, -, h1, h2, h3⟩ := C143_loop _ _ _ _ h
  obtain ⟨t', -, h1', h2', h3'⟩ := C143_loop _ _ _ _ h'
  obtain rfl := h3 hq
  obtain rfl := h3' hq'
  rw [h1, h2, h1', h2', hi]
  exact loop_take steps dispose (take_taking n) _ _ _ _

/-! ## The other order -/

theorem vals_prefix : ∀ {a b : List (Notif α)}, a <+: b → values a <+: values b
  | [], _, _ => List.nil_prefix
  | x :: a, [], h => absurd h (by simp)
  | x :: a, y :: b, h => by
    obtain ⟨rfl, h'⟩ := List.cons_prefix_cons.mp h
    cases x with
    | next v => exact List.cons_prefix_cons.mpr ⟨rfl, vals_prefix h'⟩
    | error e => exact List.prefix_rfl
    | completed => exact List.prefix_rfl

private theorem take_first' {T : Observer (Int × Unit) (Notif α) α} (more : ∀ v r, 1 < r → T.asend v (r, ()) = ⟨.ok (), (r - 1, ()), [.next v]⟩)
    (last : ∀ v, T.asend v (1, ()) = ⟨.ok (), (0, ()), [.next v, .completed]⟩) (over : ∀ v r, r ≤ 0 → T.asend v (r, ()) = ⟨.ok (), (r, ()), []⟩)
    (athrow : ∀ e s, T.athrow e s = ⟨.ok (), s, [.error e]⟩) (aclose : ∀ s, T.aclose s = ⟨.ok (), s, [.completed]⟩) : ∀ (xs : List α) (fin : End) (r : Int),
    values (loop (outcome .nil) T (Py.ret ()) xs fin (r, ())).out = xs.take r.toNat
  | [], .running, r => by simp [loop, values, story]
  | [], .failed e, r => by simp [loop, Py.andThen, athrow, values, story]
  | [], .done, r => by simp [loop, Py.andThen, aclose, values, story]
  | x :: xs, fin, r => by
    have ih := take_first' more last over athrow aclose xs fin
    simp only [loop, outcome, Py.tryElse, Py.andThen, Py.ret, List.nil_append]
    by_cases hr : r ≤ 0
    · rw [over _ _ hr]
      refine (ih r).trans ?_
      rw [show r.toNat = 0 by omega]
      simp
    · by_cases hz : r = 1
      · subst hz
        rw [last]
        rfl
      · rw [more _ _ (by omega)]
        refine (congrArg (x :: ·) (ih (r - 1))).trans ?_
        rw [show r.toNat = (r - 1).toNat + 1 by omega]
        rfl

theorem take_first (n : Int) (xs : List α) (fin : End) :
    values (loop (outcome .nil) ((takeW n).obs Observer.post) (Py.ret ()) xs fin (n, ())).out = xs.take n.toNat := by
  refine take_first' (fun v r hr => ?_) (fun v => rfl) (fun v r hr => ?_) (fun _ _ => rfl) (fun _ => rfl) xs fin n
  · simp only [Py.bind_eq, Py.andThen, Py.getL_run, if_pos (show r > 0 by omega), Py.setL_run, if_neg (show ¬ r - 1 = 0 by omega)]
    rfl
  · simp only [Py.bind_eq, Py.andThen, Py.getL_run, if_neg (show ¬ r > 0 by omega)]
    rfl

/-- C144: behind `take(n)` the functions are called for the first `n` values only: they do what the loop does for these. -/
theorem C144_after (steps : Steps W ο α γ) (obv : Observer W ο γ) (dispose : Py W ο Unit) (n : Int) (w : W) {es s q b w' out}
    (h : (afterTake steps obv dispose n w).exec (afterTake steps obv dispose n w).init es = some ((s, q, b, w'), out)) :
    ∃ taken, w' = (loop (outcome steps) obv dispose (story taken).vals (story taken).fin w).st ∧ out = (loop (outcome steps) obv dispose (story taken).vals (story taken).fin w).out ∧
      (story taken).vals <+: (story (Proc.inputs es)).vals.take n.toNat ∧
      ((afterTake steps obv dispose n w).Quiescent (s, q, b, w') → (story taken).vals = (story (Proc.inputs es)).vals.take n.toNat) := by
  obtain ⟨esp, esq, mid, h1, h2, h3, h4⟩ := Proc.seq_exec _ _ h
  obtain ⟨q1, b1, s1⟩ := s
  obtain ⟨t1, a1, -, a3, a4⟩ := C143_loop (W := Int × Unit) (.nil : Steps (Int × Unit) (Notif α) α α) ((takeW n).obs Observer.post) (Py.ret ()) (n, ()) (es := esp) (q := q1) (b := b1) (w' := s1) (out := mid) h1
  obtain ⟨t2, b1', b2, b3, b4⟩ := C143_loop steps obv dispose w (es := esq) (q := q) (b := b) (w' := w') (out := out) h3
  have hv : values mid = (values t1).take n.toNat := by rw [a3]; exact take_first n _ _
  have hp : values t1 <+: values (Proc.inputs es) := vals_prefix (by rw [← h2, a1]; exact List.prefix_append _ _)
  refine ⟨t2, b2, b3, ?_, fun hq => ?_⟩
  · have : values t2 <+: values mid := vals_prefix (by rw [← h4, b1']; exact List.prefix_append _ _)
    refine this.trans ?_
    rw [hv]
    obtain ⟨c, hc⟩ := hp
    show _ <+: (values (Proc.inputs es)).take n.toNat
    rw [← hc, List.take_append]
    exact List.prefix_append _ _
  · have e1 := a4 fun l => by
      have := hq (.inl l)
      simp only [afterTake, Proc.seq] at this
      split at this
      · assumption
      · simp at this
    have e2 := b4 fun l => by
      have := hq (.inr l)
      simp only [afterTake, Proc.seq] at this
      split at this
      · assumption
      · simp at this
    show values t2 = (values (Proc.inputs es)).take n.toNat
    rw [e2, h4, hv, e1, h2]

/-! ## Examples -/

/-- A counter, and a function that counts how often it is called. -/
def counting : Steps Nat String Nat Nat :=
  .map (fun x => fun k => ⟨.ok (x * 10), k + 1, ["call " ++ toString x]⟩) .nil
/-- The third call raises. -/
def tired : Steps Nat String Nat Nat :=
  .map (fun x => fun k => if k = 2 then ⟨.error (.user 3), k, ["tired"]⟩ else ⟨.ok (x * 10), k + 1, []⟩) .nil
def printer : Observer Nat String Nat where
  asend v := Py.emit ("got " ++ toString v)
  athrow _ := Py.emit "error"
  aclose := Py.emit "end"

abbrev sent : List (Proc.Ev (Notif Nat) Unit) := [.feed (.next 1), .step (), .feed (.next 2), .feed (.next 3), .feed (.next 4), .step (), .step (), .step (), .feed .completed, .step ()]

/-- A function whose result depends on how often it was called. -/
example : (piped tired printer (Py.ret ()) 0).exec (piped tired printer (Py.ret ()) 0).init sent = some (([], false, 2), ["got 10", "got 20", "tired", "error"]) := by decide
example : (loop (outcome tired) printer (Py.ret ()) [1, 2, 3, 4] .done 0).out = ["got 10", "got 20", "tired", "error"] := by decide

/-- The function before `take(1)` is called four times, although the stream has ended with the first value. -/
example : ((beforeTake counting (Py.ret ()) 1 0).exec (beforeTake counting (Py.ret ()) 1 0).init sent).map (fun r => (r.1.2.2.2, seen r.2, posts r.2)) =
    some (4, ["call 1", "call 2", "call 3", "call 4"], [.next 10, .completed, .completed]) := by decide
/-- The function behind `take(1)` is called once. -/
example : ((afterTake counting printer (Py.ret ()) 1 0).exec (afterTake counting printer (Py.ret ()) 1 0).init
      ([.feed (.next 1), .feed (.next 2), .feed (.next 3), .feed .completed] ++ List.replicate 4 (.step (.inl ())) ++ List.replicate 3 (.step (.inr ())))).map (fun r => (r.1.2.2.2, r.2)) =
    some (1, ["call 1", "got 10", "end"]) := by decide
example : (piped (traced (· + 1) (· % 2 == 0)) listener (Py.ret ()) ()).outputs [.feed (.next 1), .feed (.next 2), .feed .completed, .step (), .step (), .step ()] =
    some [.mapper 1, .predicate 2, .told (.next 2), .mapper 2, .predicate 3, .told .completed] := by decide

end Aio.Effects
