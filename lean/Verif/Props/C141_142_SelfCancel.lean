import Verif.Model.SelfCancel
/-!
# C141, C142: disposing a subscription in its own task

C141 (full statement): an observer may dispose its subscription in `asend`: the rest of this `asend` is executed as if it had not, and nothing is delivered any more.
C142 (full statement): when the source of `catch` fails, the handler's observable is subscribed to as if it were subscribed to by anybody else.
-/

namespace Aio.SelfCancel
variable {ε α ω : Type}

/-- What can be seen of code that is not interrupted. -/
def effects (ops : List (Op ε)) : List ε :=
  ops.filterMap fun
    | .effect e => some e
    | _ => none

/-- The code is not interrupted by itself, and does not raise. -/
def Quiet (p : Prog ε) : Prop := .dispose ∉ p.ops ∧ p.raises = none

theorem effects_append (a b : List (Op ε)) : effects (a ++ b) = effects a ++ effects b := List.filterMap_append ..

theorem exec_quiet {c : Bool} {a : List (Op ε)} (ha : .dispose ∉ a) (b : List (Op ε)) : exec c (a ++ b) false [] = effects a ++ exec c b false [] := by
  induction a with
  | nil => rfl
  | cons x a ih =>
    have ih := ih (fun h => ha (.tail _ h))
    cases x with
    | effect e => simp only [List.cons_append, exec, effects, List.filterMap_cons, ih]
    | await => cases c <;> simpa [exec, effects] using ih
    | dispose => exact absurd (.head _) ha

/-- A task that has been cancelled goes on up to its next `await`. -/
theorem exec_cancelled {a : List (Op ε)} (ha : .await ∉ a) (b : List (Op ε)) (ds : List Bool) : exec true (a ++ .await :: b) true ds = effects a := by
  induction a with
  | nil => simp [exec, effects]
  | cons y a ih =>
    have ih := ih (fun h => ha (.tail _ h))
    cases y with
    | effect e => simp only [List.cons_append, exec, effects, List.filterMap_cons]; exact congrArg _ ih
    | await => exact absurd (.head _) ha
    | dispose => simp only [List.cons_append, exec, effects, List.filterMap_cons]; exact ih

theorem exec_on {a : List (Op ε)} (ha : .await ∉ a) (c x : Bool) (ds : List Bool) : exec c a x ds = effects a := by
  induction a generalizing x with
  | nil => rfl
  | cons y a ih =>
    have ih := ih (fun h => ha (.tail _ h))
    cases y with
    | effect e => simp only [exec, effects, List.filterMap_cons]; exact congrArg _ (ih x)
    | await => exact absurd (.head _) ha
    | dispose => exact ih true

theorem exec_other (a : List (Op ε)) (x : Bool) (ds : List Bool) : exec false a x ds = effects a := by
  induction a generalizing x ds with
  | nil => rfl
  | cons y a ih =>
    cases y with
    | effect e => simp only [exec, effects, List.filterMap_cons]; exact congrArg _ (ih x ds)
    | await => exact ih _ _
    | dispose => exact ih true ds

/-- If others dispose the subscription, too, less may be seen. -/
theorem exec_prefix (a : List (Op ε)) (x : Bool) (ds : List Bool) : exec true a x ds <+: exec true a x [] := by
  induction a generalizing x ds with
  | nil => exact List.prefix_rfl
  | cons y a ih =>
    cases y with
    | effect e => exact (List.prefix_cons_inj e).mpr (ih x ds)
    | await =>
      simp only [exec, Bool.true_and, List.headD_nil, Bool.or_false, List.tail_nil]
      cases x with
      | true => simp
      | false =>
        cases hd : ds.headD false with
        | true => simp
        | false => simpa using ih false ds.tail
    | dispose => exact ih true ds

theorem andThen_quiet {p q : Prog ε} (hp : p.raises = none) : (p.andThen q).ops = p.ops ++ q.ops := by simp [Prog.andThen, hp]
theorem attempt_quiet {p q : Prog ε} {h} (hp : p.raises = none) : (p.attempt h q).ops = p.ops ++ q.ops := by simp [Prog.attempt, hp]

/-! ## What the sources do -/

theorem interval_skip {o : Observer Nat ε} {period : Int} (hp : period ≠ 0) {j : Nat} : ∀ (n k : Nat), (∀ i, k ≤ i → i < k + j → Quiet (o.asend i)) →
    exec true (interval o period (j + n) k).ops false [] = (List.range' k j).flatMap (fun i => effects (o.asend i).ops) ++ exec true (interval o period n (k + j)).ops false [] := by
  induction j with
  | zero => intro n k _; simp
  | succ j ih =>
    intro n k hq
    have h0 := hq k (Nat.le_refl _) (by omega)
    rw [show j + 1 + n = (j + n) + 1 by omega, interval, andThen_quiet rfl, exec_quiet (by simp [Prog.wait]), andThen_quiet h0.2, exec_quiet h0.1, if_neg hp,
      ih n (k + 1) (fun i h1 h2 => hq i (by omega) (by omega)), List.range'_succ, List.flatMap_cons, Nat.add_right_comm k 1 j, ← Nat.add_assoc]
    simp [effects, Prog.wait]

theorem iterable_skip {o : Observer α ε} {last : Bool} {xs : List (Bool × α)} : ∀ {ys : List (Bool × α)}, (∀ y ∈ ys, Quiet (o.asend y.2)) →
    exec true (iterable o last (ys ++ xs)).ops false [] = ys.flatMap (fun y => effects (o.asend y.2).ops) ++ exec true (iterable o last xs).ops false []
  | [], _ => rfl
  | (w, v) :: ys, hq => by
    have h0 := hq _ (.head _)
    have hw : (if w then Prog.wait else Prog.done : Prog ε).raises = none := by cases w <;> rfl
    have hd : .dispose ∉ (if w then Prog.wait else Prog.done : Prog ε).ops := by cases w <;> simp [Prog.wait, Prog.done]
    have he : effects (if w then Prog.wait else Prog.done : Prog ε).ops = [] := by cases w <;> rfl
    rw [List.cons_append, iterable, andThen_quiet hw, exec_quiet hd, attempt_quiet h0.2, exec_quiet h0.1, iterable_skip fun y hy => hq y (.tail _ hy), he]
    simp

theorem interval_disposes {o : Observer Nat ε} {period : Int} {n k : Nat} {pre mid : List (Op ε)} {rest : List (Op ε)} (hpre : .dispose ∉ pre) (hmid : .await ∉ mid)
    (hops : (interval o period n k).ops = .await :: (pre ++ .dispose :: (mid ++ .await :: rest))) : exec true (interval o period n k).ops false [] = effects pre ++ effects mid := by
  rw [hops, show Op.await :: (pre ++ .dispose :: (mid ++ .await :: rest)) = (.await :: pre) ++ .dispose :: (mid ++ .await :: rest) from rfl, exec_quiet (by simpa using hpre)]
  congr 1
  exact exec_cancelled hmid _ _

/-- C141 is false: if an observer of an `interval` disposes its subscription in `asend` (here for the value `j`) and then awaits anything, what comes after this `await` is not executed, in any run: of this `asend`
one sees what it does before, of the values before `j` everything, and nothing else. -/
theorem C141_violated_interval {o : Observer Nat ε} {period : Int} (hp : period ≠ 0) {j : Nat} (hq : ∀ i, i < j → Quiet (o.asend i)) {pre mid post : List (Op ε)} {r : Option Err}
    (hj : o.asend j = ⟨pre ++ .dispose :: (mid ++ .await :: post), r⟩) (hpre : .dispose ∉ pre) (hmid : .await ∉ mid) (n : Nat) (ds : List Bool) :
    exec true (interval o period (j + (n + 1)) 0).ops false ds <+: (List.range j).flatMap (fun i => effects (o.asend i).ops) ++ (effects pre ++ effects mid) ∧
    exec true (interval o period (j + (n + 1)) 0).ops false [] = (List.range j).flatMap (fun i => effects (o.asend i).ops) ++ (effects pre ++ effects mid) := by
  have eq : exec true (interval o period (j + (n + 1)) 0).ops false [] = (List.range j).flatMap (fun i => effects (o.asend i).ops) ++ (effects pre ++ effects mid) := by
    rw [interval_skip hp _ 0 (fun i _ h => hq i (by omega)), ← List.range_eq_range', Nat.zero_add]
    congr 1
    have key : ∃ rest, (interval o period (n + 1) j).ops = .await :: (pre ++ .dispose :: (mid ++ .await :: rest)) := by
      rw [interval, andThen_quiet rfl]
      cases r with
      | none => rw [andThen_quiet (by rw [hj]), hj]; exact ⟨_, by simp [Prog.wait]; rfl⟩
      | some e => rw [Prog.andThen, hj]; exact ⟨post, by simp [Prog.wait]⟩
    obtain ⟨rest, hrest⟩ := key
    exact interval_disposes hpre hmid hrest
  exact ⟨eq ▸ exec_prefix .., eq⟩

/-- C141, the part that holds for `interval`: an `asend` that does not await anything after it has disposed the subscription is executed, and the observer gets nothing any more. -/
theorem C141_interval_partial {o : Observer Nat ε} {period : Int} (hp : period ≠ 0) {j : Nat} (hq : ∀ i, i < j → Quiet (o.asend i)) {pre mid : List (Op ε)}
    (hj : o.asend j = ⟨pre ++ .dispose :: mid, none⟩) (hpre : .dispose ∉ pre) (hmid : .await ∉ mid) (n : Nat) (ds : List Bool) :
    exec true (interval o period (j + (n + 1)) 0).ops false ds <+: (List.range (j + 1)).flatMap (fun i => effects (o.asend i).ops) ∧
    exec true (interval o period (j + (n + 1)) 0).ops false [] = (List.range (j + 1)).flatMap (fun i => effects (o.asend i).ops) := by
  have eq : exec true (interval o period (j + (n + 1)) 0).ops false [] = (List.range (j + 1)).flatMap (fun i => effects (o.asend i).ops) := by
    rw [interval_skip hp _ 0 (fun i _ h => hq i (by omega)), ← List.range_eq_range', Nat.zero_add, List.range_succ, List.flatMap_append]
    congr 1
    rw [interval, andThen_quiet rfl, andThen_quiet (by rw [hj]), hj, if_neg hp, exec_quiet (by simp [Prog.wait])]
    simp only [List.append_assoc, List.cons_append, List.flatMap_cons, List.flatMap_nil, List.append_nil, hj]
    rw [exec_quiet hpre, effects_append]
    simp only [effects, Prog.wait, List.filterMap_cons, List.filterMap_nil, List.nil_append]
    congr 1
    show exec true (mid ++ (interval o period n (j + 1)).ops) true [] = effects mid
    cases n with
    | zero => rw [interval, Prog.done, List.append_nil]; exact exec_on hmid _ _ _
    | succ n => rw [interval, andThen_quiet rfl]; exact exec_cancelled hmid _ _
  exact ⟨eq ▸ exec_prefix .., eq⟩

/-- C141 is false: the same for `from_async_iterable`. -/
theorem C141_violated_iterable {o : Observer α ε} {last : Bool} {ys zs : List (Bool × α)} {w : Bool} {v : α} (hq : ∀ y ∈ ys, Quiet (o.asend y.2)) {pre mid post : List (Op ε)}
    (hj : o.asend v = ⟨pre ++ .dispose :: (mid ++ .await :: post), none⟩) (hpre : .dispose ∉ pre) (hmid : .await ∉ mid) (ds : List Bool) :
    exec true (iterable o last (ys ++ (w, v) :: zs)).ops false ds <+: ys.flatMap (fun y => effects (o.asend y.2).ops) ++ (effects pre ++ effects mid) ∧
    exec true (iterable o last (ys ++ (w, v) :: zs)).ops false [] = ys.flatMap (fun y => effects (o.asend y.2).ops) ++ (effects pre ++ effects mid) := by
  have eq : exec true (iterable o last (ys ++ (w, v) :: zs)).ops false [] = ys.flatMap (fun y => effects (o.asend y.2).ops) ++ (effects pre ++ effects mid) := by
    rw [iterable_skip hq]
    congr 1
    have hw : (if w then Prog.wait else Prog.done : Prog ε).raises = none := by cases w <;> rfl
    have hd : .dispose ∉ (if w then Prog.wait else Prog.done : Prog ε).ops := by cases w <;> simp [Prog.wait, Prog.done]
    have he : effects (if w then Prog.wait else Prog.done : Prog ε).ops = [] := by cases w <;> rfl
    rw [iterable, andThen_quiet hw, exec_quiet hd, he, List.nil_append, attempt_quiet (by rw [hj]), hj]
    simp only [List.append_assoc, List.cons_append]
    rw [exec_quiet hpre]
    congr 1
    exact exec_cancelled hmid _ _
  exact ⟨eq ▸ exec_prefix .., eq⟩

/-- C141 is false in the other direction, too: if neither the iterable nor the observer ever suspends, disposing in `asend` changes nothing: the observer gets all values, and the completion. -/
theorem C141_violated_goes_on {o : Observer α ε} {vs : List α} (hs : ∀ v ∈ vs, .await ∉ (o.asend v).ops ∧ (o.asend v).raises = none) (hc : .await ∉ o.aclose.ops) (ds : List Bool) :
    exec true (iterable o false (vs.map fun v => (false, v))).ops false ds = vs.flatMap (fun v => effects (o.asend v).ops) ++ effects o.aclose.ops := by
  have key : .await ∉ (iterable o false (vs.map fun v => (false, v))).ops ∧
      effects (iterable o false (vs.map fun v => (false, v))).ops = vs.flatMap (fun v => effects (o.asend v).ops) ++ effects o.aclose.ops := by
    induction vs with
    | nil => simpa [iterable, Prog.andThen, Prog.done] using hc
    | cons v vs ih =>
      obtain ⟨h1, h2⟩ := ih fun v hv => hs v (.tail _ hv)
      obtain ⟨h3, h4⟩ := hs v (.head _)
      have : (iterable o false ((v :: vs).map fun v => (false, v))).ops = (o.asend v).ops ++ (iterable o false (vs.map fun v => (false, v))).ops := by
        rw [List.map_cons, iterable, andThen_quiet rfl, attempt_quiet h4]; rfl
      rw [this, effects_append, h2]
      exact ⟨by simp [h1, h3], by simp⟩
  rw [exec_on key.1, key.2]

/-- C141, the part that holds behind `safe_observer`: the worker is another task; every call is executed as if there were no disposal, and nothing follows the end. -/
theorem C141_mailbox_partial {o : Observer α ε} {vs : List α} (hs : ∀ v ∈ vs, (o.asend v).raises = none) (b : Bool) (ds : List Bool) :
    exec false (mailbox o (vs.map .next)).ops b ds = vs.flatMap (fun v => effects (o.asend v).ops) ∧
    (∀ e ns, exec false (mailbox o (vs.map .next ++ .error e :: ns)).ops b ds = vs.flatMap (fun v => effects (o.asend v).ops) ++ effects (o.athrow e).ops) ∧
    ∀ ns, exec false (mailbox o (vs.map .next ++ .completed :: ns)).ops b ds = vs.flatMap (fun v => effects (o.asend v).ops) ++ effects o.aclose.ops := by
  have key : ∀ ns, effects (mailbox o (vs.map .next ++ ns)).ops = vs.flatMap (fun v => effects (o.asend v).ops) ++ effects (mailbox o ns).ops := by
    intro ns
    induction vs with
    | nil => rfl
    | cons v vs ih =>
      rw [List.map_cons, List.cons_append, mailbox, andThen_quiet rfl, attempt_quiet (hs v (.head _)), effects_append, effects_append, ih fun v hv => hs v (.tail _ hv)]
      simp [effects, Prog.wait]
  refine ⟨?_, fun e ns => ?_, fun ns => ?_⟩
  · have := key []
    rw [List.append_nil] at this
    rw [exec_other, this]
    simp [mailbox, Prog.done, effects]
  · rw [exec_other, key, mailbox, andThen_quiet rfl]
    simp [effects, Prog.wait]
  · rw [exec_other, key, mailbox, andThen_quiet rfl]
    simp [effects, Prog.wait]

/-- C141 for `timer`: an observer that disposes the subscription while it gets the value, and does not suspend any more, is told the end; if it suspends it loses the rest, and the end. -/
theorem C141_timer_partial {o : Observer Nat ε} {pre mid : List (Op ε)} (hpre : .dispose ∉ pre) (hmid : .await ∉ mid) (n k : Nat) :
    ((o.asend k = ⟨pre ++ .dispose :: mid, none⟩ ∧ .await ∉ o.aclose.ops) → exec true (interval o 0 (n + 1) k).ops false [] = effects pre ++ (effects mid ++ effects o.aclose.ops)) ∧
    (∀ post, o.asend k = ⟨pre ++ .dispose :: (mid ++ .await :: post), none⟩ → exec true (interval o 0 (n + 1) k).ops false [] = effects pre ++ effects mid) := by
  refine ⟨fun ⟨hk, hc⟩ => ?_, fun post hk => ?_⟩
  · rw [interval, andThen_quiet rfl, andThen_quiet (by rw [hk]), hk, if_pos rfl, exec_quiet (by simp [Prog.wait])]
    simp only [List.append_assoc, List.cons_append]
    rw [exec_quiet hpre, ← effects_append, exec, exec_on (by simp [hmid, hc])]
    simp [effects, Prog.wait]
  · refine interval_disposes (rest := post ++ o.aclose.ops) hpre hmid ?_
    rw [interval, andThen_quiet rfl, andThen_quiet (by rw [hk]), hk, if_pos rfl]
    simp [Prog.wait]

/-! ## catch -/

variable {handler : Err → Except Err ω} {subscribe : ω → Prog ε}

private theorem caught_ops {o : Observer α ε} {f : α → Prog ε × α} {last : Bool} {ys zs : List (Bool × α)} {w : Bool} {v : α} (hq : ∀ y ∈ ys, Quiet ((mapped f o).asend y.2))
    {e : Err} {x : ω} (hf : (f v).1.raises = some e) (he : e ≠ .cancelled) (hd : .dispose ∉ (f v).1.ops) (hx : handler e = .ok x) :
    exec true (iterable (mapped f (caught handler subscribe o)) last (ys ++ (w, v) :: zs)).ops false [] =
      ys.flatMap (fun y => effects ((mapped f o).asend y.2).ops) ++ (effects (f v).1.ops ++ exec true (subscribe x).ops true []) := by
  rw [iterable_skip (o := mapped f (caught handler subscribe o)) hq]
  congr 1
  have hw : (if w then Prog.wait else Prog.done : Prog ε).raises = none := by cases w <;> rfl
  have hd' : .dispose ∉ (if w then Prog.wait else Prog.done : Prog ε).ops := by cases w <;> simp [Prog.wait, Prog.done]
  have he' : effects (if w then Prog.wait else Prog.done : Prog ε).ops = [] := by cases w <;> rfl
  rw [iterable, andThen_quiet hw, exec_quiet hd', he', List.nil_append]
  have hs : (mapped f (caught handler subscribe o)).asend v = (f v).1 := by simp [mapped, Prog.andThen, hf]
  rw [hs, Prog.attempt, hf]
  simp only [he, if_false, mapped, caught, hx]
  rw [exec_quiet hd]
  rfl

/-- C142 is false for `pipe(from_async_iterable(it), map_async(f), catch(handler))`: the task that runs `athrow` of `catch` is the one that `catch` cancels. If `subscribe_async` of the handler's observable awaits anything, it is
interrupted there, in every run: one sees what it does before, and nothing else, ever. -/
theorem C142_violated {o : Observer α ε} {f : α → Prog ε × α} {last : Bool} {ys zs : List (Bool × α)} {w : Bool} {v : α} (hq : ∀ y ∈ ys, Quiet ((mapped f o).asend y.2))
    {e : Err} {x : ω} (hf : (f v).1.raises = some e) (he : e ≠ .cancelled) (hd : .dispose ∉ (f v).1.ops) (hx : handler e = .ok x)
    {pre post : List (Op ε)} (hs : (subscribe x).ops = pre ++ .await :: post) (hpre : .await ∉ pre) (ds : List Bool) :
    exec true (iterable (mapped f (caught handler subscribe o)) last (ys ++ (w, v) :: zs)).ops false ds <+:
      ys.flatMap (fun y => effects ((mapped f o).asend y.2).ops) ++ (effects (f v).1.ops ++ effects pre) ∧
    exec true (iterable (mapped f (caught handler subscribe o)) last (ys ++ (w, v) :: zs)).ops false [] =
      ys.flatMap (fun y => effects ((mapped f o).asend y.2).ops) ++ (effects (f v).1.ops ++ effects pre) := by
  have eq := caught_ops (handler := handler) (subscribe := subscribe) (last := last) (zs := zs) (w := w) hq hf he hd hx
  rw [hs, exec_cancelled hpre] at eq
  exact ⟨eq ▸ exec_prefix .., eq⟩

/-- C142, the part that holds: a `subscribe_async` that does not suspend is executed as it should. -/
theorem C142_partial {o : Observer α ε} {f : α → Prog ε × α} {last : Bool} {ys zs : List (Bool × α)} {w : Bool} {v : α} (hq : ∀ y ∈ ys, Quiet ((mapped f o).asend y.2))
    {e : Err} {x : ω} (hf : (f v).1.raises = some e) (he : e ≠ .cancelled) (hd : .dispose ∉ (f v).1.ops) (hx : handler e = .ok x) (hs : .await ∉ (subscribe x).ops) :
    exec true (iterable (mapped f (caught handler subscribe o)) last (ys ++ (w, v) :: zs)).ops false [] =
      ys.flatMap (fun y => effects ((mapped f o).asend y.2).ops) ++ (effects (f v).1.ops ++ effects (subscribe x).ops) := by
  rw [caught_ops hq hf he hd hx, exec_on hs]

/-- C142 without an error: `catch` is not noticed. -/
theorem C142_no_error_partial {o : Observer α ε} {f : α → Prog ε × α} {last : Bool} {ys : List (Bool × α)} (hq : ∀ y ∈ ys, Quiet ((mapped f o).asend y.2)) (hc : Quiet o.aclose) :
    exec true (iterable (mapped f (caught handler subscribe o)) last ys).ops false [] = ys.flatMap (fun y => effects ((mapped f o).asend y.2).ops) ++ effects o.aclose.ops := by
  have h := iterable_skip (o := mapped f (caught handler subscribe o)) (last := last) (xs := []) hq
  rw [List.append_nil] at h
  rw [h]
  congr 1
  have hw : (if last then Prog.wait else Prog.done : Prog ε).raises = none := by cases last <;> rfl
  have hd' : .dispose ∉ (if last then Prog.wait else Prog.done : Prog ε).ops := by cases last <;> simp [Prog.wait, Prog.done]
  have he' : effects (if last then Prog.wait else Prog.done : Prog ε).ops = [] := by cases last <;> rfl
  rw [iterable, andThen_quiet hw, exec_quiet hd', he', List.nil_append]
  have := exec_quiet (c := true) hc.1 []
  rw [List.append_nil] at this
  simpa [exec, mapped, caught] using this

/-- C142, the part that holds behind `safe_observer` (`from_iterable`, `skip(0)`, ...): the task that runs `athrow` is another one. -/
theorem C142_mailbox_partial {o : Observer α ε} {f : α → Prog ε × α} {vs : List α} {v : α} {ns : List (Notif α)} (hq : ∀ y ∈ vs, ((mapped f o).asend y).raises = none)
    {e : Err} {x : ω} (hf : (f v).1.raises = some e) (he : e ≠ .cancelled) (hx : handler e = .ok x) (b : Bool) (ds : List Bool) :
    exec false (mailbox (mapped f (caught handler subscribe o)) (vs.map .next ++ .next v :: ns)).ops b ds =
      vs.flatMap (fun y => effects ((mapped f o).asend y).ops) ++ (effects (f v).1.ops ++ effects (subscribe x).ops) := by
  rw [exec_other]
  induction vs with
  | nil =>
    have hs : (mapped f (caught handler subscribe o)).asend v = (f v).1 := by simp [mapped, Prog.andThen, hf]
    rw [List.map_nil, List.nil_append, mailbox, andThen_quiet rfl, hs, Prog.attempt, hf]
    simp only [he, if_false, mapped, caught, hx]
    simp [effects, Prog.wait]
  | cons y vs ih =>
    have h0 := hq y (.head _)
    rw [List.map_cons, List.cons_append, mailbox, andThen_quiet rfl, attempt_quiet (show ((mapped f (caught handler subscribe o)).asend y).raises = none from h0), effects_append, effects_append,
      ih fun y hy => hq y (.tail _ hy)]
    simp [effects, Prog.wait, mapped, caught]

/-! ## Examples -/

/-- What can be seen: a value is being handled, has been handled, the stream has ended, a connection is being made, has been made. -/
inductive Seen where
  | begun (v : Nat)
  | saved (v : Nat)
  | closed
  | connecting
  | connected
  deriving DecidableEq, Repr

/-- An observer that has had enough when it gets a 2, and saves every value, which takes a while. -/
def saver : Observer Nat Seen where
  asend v := ⟨.effect (.begun v) :: (if v = 2 then [.dispose] else []) ++ [.await, .effect (.saved v)], none⟩
  athrow _ := .done
  aclose := ⟨[.effect .closed], none⟩

/-- The value 2 is not saved. -/
example : exec true (interval saver 1 9 0).ops false [] = [.begun 0, .saved 0, .begun 1, .saved 1, .begun 2] := by decide

/-- The hypotheses of `C141_violated_interval`. -/
example : (∀ i, i < 2 → Quiet (saver.asend i)) ∧ saver.asend 2 = ⟨[.effect (.begun 2)] ++ .dispose :: ([] ++ .await :: [.effect (.saved 2)]), none⟩ :=
  ⟨fun i hi => by match i, hi with | 0, _ => simp [saver, Quiet] | 1, _ => simp [saver, Quiet], rfl⟩

/-- Behind a mailbox it is saved. -/
example : exec false (mailbox saver [.next 1, .next 2]).ops false [] = [.begun 1, .saved 1, .begun 2, .saved 2] := by decide

/-- An observer that never suspends gets everything from an iterable that never suspends. -/
example : exec true (iterable (⟨fun v => ⟨[.effect (.begun v), .dispose], none⟩, fun _ => .done, ⟨[.effect .closed], none⟩⟩ : Observer Nat Seen) false [(false, 1), (false, 2), (false, 3)]).ops false [] =
    [.begun 1, .begun 2, .begun 3, .closed] := by decide

/-- A function that raises for 2, and a handler that connects again, which takes a while. -/
def parse (v : Nat) : Prog Seen × Nat := (⟨[.await], if v = 2 then some (.user 7) else none⟩, v)
def quick : Observer Nat Seen := ⟨fun v => ⟨[.effect (.saved v)], none⟩, fun _ => .done, ⟨[.effect .closed], none⟩⟩
def reconnect (_ : Unit) : Prog Seen := ⟨[.effect .connecting, .await, .effect .connected], none⟩

example : exec true (iterable (mapped parse (caught (fun _ => .ok ()) reconnect quick)) true [(true, 1), (true, 2), (true, 3)]).ops false [] = [.saved 1, .connecting] := by decide
example : exec false (mailbox (mapped parse (caught (fun _ => .ok ()) reconnect quick)) [.next 1, .next 2, .next 3]).ops false [] = [.saved 1, .connecting, .connected] := by decide
example : (∀ y ∈ [(true, 1)], Quiet ((mapped parse quick).asend y.2)) ∧ (parse 2).1.raises = some (.user 7) ∧ .dispose ∉ (parse 2).1.ops ∧
    (reconnect ()).ops = [.effect .connecting] ++ .await :: [.effect .connected] :=
  ⟨by simp [mapped, parse, quick, Prog.andThen, Quiet], rfl, by simp [parse], rfl⟩

end Aio.SelfCancel
