import Verif.Lemmas.Work
import Verif.Props.C112_114_Timers
/-!
# C124: async functions that take their time
-/

namespace Aio
open Spec Spec.Timed Spec.Queue
variable {S L α β γ : Type}

/-- What a chain of `map_async`, `choose_async` and `filter_async` does with a value: one function after the other is called with what the one
before it returned. -/
def Ops.work : {α β : Type} → Ops α β → α → Nat × Except Err (Option β)
  | _, _, .nil => fun v => (0, .ok (some v))
  | _, _, .map f rest => andThen (fun v => ((f v).1, (f v).2.map some)) rest.work
  | _, _, .choose f rest => andThen f rest.work
  | _, _, .filter p rest => andThen (fun v => ((p v).1, (p v).2.map fun b => if b then some v else none)) rest.work

namespace Work
variable {w : α → Nat × Except Err (Option β)} {m : Nat → β → Nat × Option Err} {gone : Nat} {σ : Type}

theorem ops_run (ops : Ops α γ) (o : Handler σ γ β) (s : σ) : ∀ (v : α) (t : Nat), ((ops.handler o).asend s v).run t =
    match (ops.work v).2 with
    | .error e => ([], t + (ops.work v).1, .error e)
    | .ok none => ([], t + (ops.work v).1, .ok s)
    | .ok (some y) => (o.asend s y).run (t + (ops.work v).1) := by
  induction ops with
  | nil => intro v t; simp [Ops.work, Ops.handler]
  | map f rest ih =>
    intro v t
    simp only [Ops.handler, Handler.mapAsync, Handler.transform, Co.run_bind, Co.run_work, List.nil_append, Ops.work, andThen]
    cases (f v).2 with
    | error e => rfl
    | ok y => simp only [Except.map]; rw [ih, Nat.add_assoc]
  | choose f rest ih =>
    intro v t
    simp only [Ops.handler, Handler.chooseAsync, Handler.transform, Co.run_bind, Co.run_work, List.nil_append, Ops.work, andThen]
    cases (f v).2 with
    | error e => rfl
    | ok y =>
      cases y with
      | none => rfl
      | some y => dsimp only; rw [ih, Nat.add_assoc]
  | filter p rest ih =>
    intro v t
    simp only [Ops.handler, Handler.filterAsync, Handler.transform, Co.run_bind, Co.run_work, List.nil_append, Ops.work, andThen]
    cases (p v).2 with
    | error e => rfl
    | ok b =>
      cases b with
      | false => rfl
      | true => simp only [Except.map, if_true]; rw [ih, Nat.add_assoc]

theorem ops_athrow (ops : Ops α γ) (o : Handler σ γ β) (s : σ) (e : Err) : (ops.handler o).athrow s e = o.athrow s e := by
  induction ops with
  | nil => rfl
  | map f rest ih => exact ih o
  | choose f rest ih => exact ih o
  | filter p rest ih => exact ih o

theorem ops_aclose (ops : Ops α γ) (o : Handler σ γ β) (s : σ) : (ops.handler o).aclose s = o.aclose s := by
  induction ops with
  | nil => rfl
  | map f rest ih => exact ih o
  | choose f rest ih => exact ih o
  | filter p rest ih => exact ih o

theorem serve_ops (ops : Ops α β) : ∀ (cs : List (Notif α × Nat)) (i free : Nat),
    serve (ops.handler (Handler.final m)) gone i free cs = handle ops.work m gone i free cs := by
  intro cs
  induction cs with
  | nil => intros; rfl
  | cons c cs ih =>
    intro i free
    obtain ⟨n, a⟩ := c
    cases n with
    | error e => simp [serve, handle, body, ops_athrow, Handler.final, Co.run, Co.bind]
    | completed => simp [serve, handle, body, ops_aclose, Handler.final, Co.run, Co.bind]
    | next v =>
      rw [serve, handle]
      simp only [body, Co.run_attempt, ops_run, ops_athrow]
      cases hw : (ops.work v).2 with
      | error e =>
        dsimp only
        by_cases he : e = .cancelled
        · simp [he]
        · simp [he, Handler.final, Co.run, Co.bind]
      | ok y =>
        cases y with
        | none => simp [Co.run, ih]
        | some y =>
          simp only [Handler.final, Co.run]
          cases hm : (m i y).2 with
          | none =>
            simp only [Co.run, List.append_nil, List.cons_append, List.nil_append]
            exact congrArg _ (ih _ _)
          | some e =>
            dsimp only
            by_cases he : e = .cancelled
            · simp [he, Co.run]
            · simp [he, Co.run, Co.bind, Nat.add_assoc]

/-- C124: the functions of a chain are called for one value after the other; the observer is told of what comes of a value after the sum of
the times that they take, and the next value is only then looked at. -/
theorem C124_exact {q : Clocked S L α} (hq : q.Lawful) {ops : Ops α β} {ls s}
    (hr : LTS.run (q.through (stage (ops.handler (Handler.final m)) 0 gone)).step (q.through (stage (ops.handler (Handler.final m)) 0 gone)).init ls = some s) :
    (q.through (stage (ops.handler (Handler.final m)) 0 gone)).calls s <+: handle ops.work m gone 0 0 (q.calls s.1) ∧
    before (q.now s.1) ((q.through (stage (ops.handler (Handler.final m)) 0 gone)).calls s) =
      before (q.now s.1) (handle ops.work m gone 0 0 (q.calls s.1)) := by
  obtain ⟨-, ms, h1, h2, h3, -⟩ := Clocked.split hq stage_reads hr
  obtain ⟨r, h4, h5⟩ := told h1
  have hnow := (inv_run h1).2
  rw [h2, serve_ops] at h4
  rw [h3] at hnow
  refine ⟨⟨r, h4.symm⟩, ?_⟩
  have h6 : r.filter (fun c => decide (c.2 < q.now s.1)) = [] := by
    rw [List.filter_eq_nil_iff]
    intro c hc
    have := h5 c hc
    simp; omega
  rw [h4, before, before, List.filter_append, h6, List.append_nil]
  rfl

theorem index {q : Clocked S L α} (hq : q.Lawful) {ops : Ops α β} {ls s}
    (hr : LTS.run (q.through (stage (ops.handler (Handler.final m)) 0 gone)).step (q.through (stage (ops.handler (Handler.final m)) 0 gone)).init ls = some s)
    {i : Nat} {c : Notif β × Nat} (h : (handle ops.work m gone 0 0 (q.calls s.1))[i]? = some c) (hc : c.2 < q.now s.1) :
    ((q.through (stage (ops.handler (Handler.final m)) 0 gone)).calls s)[i]? = some c := by
  obtain ⟨-, ms, h1, h2, h3, -⟩ := Clocked.split hq stage_reads hr
  obtain ⟨r, h4, h5⟩ := told h1
  have hnow := (inv_run h1).2
  rw [h2, serve_ops] at h4
  rw [h3] at hnow
  rw [h4] at h
  by_cases hi : i < s.2.sent.length
  · rwa [List.getElem?_append_left hi] at h
  · rw [List.getElem?_append_right (by omega)] at h
    have := h5 c (List.mem_of_getElem? h)
    omega

/-! ## what this means -/

/-- C124: chains that do the same work for every value cannot be told apart, however the work is spread over their operators: a chain gains nothing
from being split, as no operator begins with the next value before the last one is done. -/
theorem C124_same_work {S' L' : Type} {q : Clocked S L α} {q' : Clocked S' L' α} (hq : q.Lawful) (hq' : q'.Lawful) {ops ops' : Ops α β}
    (hw : ops.work = ops'.work) {ls ls' s s'}
    (hr : LTS.run (q.through (stage (ops.handler (Handler.final m)) 0 gone)).step (q.through (stage (ops.handler (Handler.final m)) 0 gone)).init ls = some s)
    (hr' : LTS.run (q'.through (stage (ops'.handler (Handler.final m)) 0 gone)).step (q'.through (stage (ops'.handler (Handler.final m)) 0 gone)).init ls' = some s')
    (hc : q.calls s.1 = q'.calls s'.1) (hn : q.now s.1 = q'.now s'.1) :
    before (q.now s.1) ((q.through (stage (ops.handler (Handler.final m)) 0 gone)).calls s) =
      before (q.now s.1) ((q'.through (stage (ops'.handler (Handler.final m)) 0 gone)).calls s') := by
  rw [(C124_exact hq hr).2, hn, (C124_exact hq' hr').2, hc, hw]

/-- What the composition of two functions does. -/
def compose (f : α → Nat × Except Err γ) (g : γ → Nat × Except Err β) (v : α) : Nat × Except Err β :=
  match (f v).2 with
  | .error e => ((f v).1, .error e)
  | .ok y => ((f v).1 + (g y).1, (g y).2)

/-- C124: `map_async(f), map_async(g)` is `map_async` of the composition, in time too. -/
theorem C124_map_map (f : α → Nat × Except Err γ) {δ : Type} (g : γ → Nat × Except Err δ) (rest : Ops δ β) :
    (Ops.map f (Ops.map g rest)).work = (Ops.map (compose f g) rest).work := by
  funext v
  simp only [Ops.work, andThen, compose]
  cases (f v).2 with
  | error e => rfl
  | ok y =>
    simp only [Except.map]
    cases (g y).2 with
    | error e => rfl
    | ok z => simp [Nat.add_assoc]

theorem handle_values {w : α → Nat × Except Err (Option β)} (hw : ∀ v, ∃ d y, w v = (d, .ok y)) (hm : ∀ i y, (m i y).2 = none) :
    ∀ (cs : List (Notif α × Nat)) (i free : Nat), (valuesAt (handle w m gone i free cs)).map (·.1) =
      (valuesAt (Timed.cut cs)).filterMap (fun c => match (w c.1).2 with | .ok y => y | .error _ => none) := by
  intro cs
  induction cs with
  | nil => intros; rfl
  | cons c cs ih =>
    intro i free
    obtain ⟨n, a⟩ := c
    cases n with
    | error e => simp [handle, Timed.cut, valuesAt]
    | completed => simp [handle, Timed.cut, valuesAt]
    | next v =>
      obtain ⟨d, y, h⟩ := hw v
      rw [handle]
      cases y with
      | none => simpa [h, Timed.cut, valuesAt] using ih i (max a free + d)
      | some y => simpa [h, hm, Timed.cut, valuesAt] using ih (i + 1) (max a free + d + (m i y).1)

/-- C124, if no function raises: what the observer is told is, in the order of the source, what comes of its values, however long each takes. -/
theorem C124_order {q : Clocked S L α} (hq : q.Lawful) {ops : Ops α β} (hw : ∀ v, ∃ d y, ops.work v = (d, .ok y)) (hm : ∀ i y, (m i y).2 = none) {ls s}
    (hr : LTS.run (q.through (stage (ops.handler (Handler.final m)) 0 gone)).step (q.through (stage (ops.handler (Handler.final m)) 0 gone)).init ls = some s) :
    (valuesAt ((q.through (stage (ops.handler (Handler.final m)) 0 gone)).calls s)).map (·.1) <+:
      (valuesAt (Timed.cut (q.calls s.1))).filterMap (fun c => match (ops.work c.1).2 with | .ok y => y | .error _ => none) := by
  obtain ⟨⟨r, h⟩, -⟩ := C124_exact hq hr
  rw [← handle_values (m := m) (gone := gone) hw hm (q.calls s.1) 0 0, ← h, valuesAt, valuesAt, List.filterMap_append, List.map_append]
  exact List.prefix_append ..

theorem handle_batch {w : α → Nat × Except Err (Option β)} {f : α → β} (hw : ∀ v, (w v).2 = .ok (some (f v))) {xs : List α} :
    ∀ {k free i t0 : Nat}, t0 ≤ free →
    (∀ x, xs[i]? = some x → (handle w (fun _ _ => (0, none)) gone k free (xs.map (fun x => (.next x, t0)) ++ [(.completed, t0)]))[i]? =
      some (.next (f x), free + ((xs.take (i + 1)).map fun x => (w x).1).sum)) ∧
    (handle w (fun _ _ => (0, none)) gone k free (xs.map (fun x => (.next x, t0)) ++ [(.completed, t0)]))[xs.length]? =
      some (.completed, free + (xs.map fun x => (w x).1).sum + gone) := by
  induction xs with
  | nil =>
    intro k free i t0 h
    refine ⟨fun x hx => (by cases hx), ?_⟩
    simp [handle]; omega
  | cons y xs ih =>
    intro k free i t0 h
    have hmax : max t0 free = free := by omega
    rw [List.map_cons, List.cons_append, handle, hmax, hw]
    simp only [Nat.add_zero]
    constructor
    · intro x hx
      cases i with
      | zero => cases hx; simp
      | succ i =>
        rw [List.getElem?_cons_succ] at hx ⊢
        rw [(ih (k := k + 1) (free := free + (w y).1) (i := i) (by omega)).1 x hx]
        simp; omega
    · rw [List.length_cons, List.getElem?_cons_succ, (ih (k := k + 1) (free := free + (w y).1) (i := 0) (by omega)).2]
      simp; omega

/-- C124, values that are all sent at time `t0` (`from_iterable`) to functions that always return: the result for a value is there when the time for it and
for all values before it has passed, and the completion when the time for all has (compare C122, where workflows run in parallel). -/
theorem C124_batch {q : Clocked S L α} (hq : q.Lawful) {ops : Ops α β} {f : α → β} (hw : ∀ v, (ops.work v).2 = .ok (some (f v))) {ls s}
    (hr : LTS.run (q.through (stage (ops.handler (Handler.final fun _ _ => (0, none))) 0 gone)).step
      (q.through (stage (ops.handler (Handler.final fun _ _ => (0, none))) 0 gone)).init ls = some s)
    {xs : List α} {t0 : Nat} (hc : q.calls s.1 = xs.map (fun x => (.next x, t0)) ++ [(.completed, t0)]) :
    (∀ i x, xs[i]? = some x → t0 + ((xs.take (i + 1)).map fun x => (ops.work x).1).sum < q.now s.1 →
      ((q.through (stage (ops.handler (Handler.final fun _ _ => (0, none))) 0 gone)).calls s)[i]? =
        some (.next (f x), t0 + ((xs.take (i + 1)).map fun x => (ops.work x).1).sum)) ∧
    (t0 + (xs.map fun x => (ops.work x).1).sum + gone < q.now s.1 →
      ((q.through (stage (ops.handler (Handler.final fun _ _ => (0, none))) 0 gone)).calls s)[xs.length]? =
        some (.completed, t0 + (xs.map fun x => (ops.work x).1).sum + gone)) := by
  have hfree : handle ops.work (fun _ _ => (0, none)) gone 0 0 (q.calls s.1) = handle ops.work (fun _ _ => (0, none)) gone 0 t0 (q.calls s.1) := by
    rw [hc]
    cases xs with
    | nil => simp [handle]
    | cons x xs => simp [handle]
  refine ⟨fun i x hi ht => index hq hr ?_ ht, fun ht => index hq hr ?_ ht⟩
  · rw [hfree, hc]
    exact (handle_batch hw (Nat.le_refl _)).1 x hi
  · rw [hfree, hc]
    exact (handle_batch hw (i := 0) (Nat.le_refl _)).2

theorem handle_keep {w : α → Nat × Except Err (Option β)} {f : α → β} {d : Nat} (hw : ∀ v, w v = (d, .ok (some (f v)))) :
    ∀ {cs : List (Notif α × Nat)} {k free : Nat}, (∀ c ∈ cs.head?, free ≤ c.2) →
    (∀ (i : Nat) c, cs[i]? = some c → (∃ v, c.1 = .next v) ∧ ∀ c', cs[i + 1]? = some c' → c.2 + d ≤ c'.2) →
    ∀ (i : Nat) v a, cs[i]? = some (.next v, a) → (handle w (fun _ _ => (0, none)) gone k free cs)[i]? = some (.next (f v), a + d) := by
  intro cs
  induction cs with
  | nil => intro k free _ _ i v a h; cases h
  | cons x cs ih =>
    intro k free h1 h2 i v a hi
    obtain ⟨x, b⟩ := x
    have hb : max b free = b := by have := h1 (x, b) rfl; dsimp only at this; omega
    obtain ⟨⟨u, hu⟩, h3⟩ := h2 0 (x, b) rfl
    dsimp only at hu
    subst hu
    rw [handle, hb, hw]
    simp only [Nat.add_zero]
    cases i with
    | zero => cases hi; rfl
    | succ i =>
      rw [List.getElem?_cons_succ] at hi ⊢
      refine ih ?_ (fun i c h => h2 (i + 1) c h) i v a hi
      intro c hc
      cases cs with
      | nil => cases hc
      | cons y cs => cases hc; exact h3 _ rfl

/-- C124, functions that take `d` in all for every value, and values that come no faster than that: the result for each comes `d` after it, as with
`delay`. -/
theorem C124_keeps_up {q : Clocked S L α} (hq : q.Lawful) {ops : Ops α β} {f : α → β} {d : Nat} (hw : ∀ v, ops.work v = (d, .ok (some (f v)))) {ls s}
    (hr : LTS.run (q.through (stage (ops.handler (Handler.final fun _ _ => (0, none))) 0 gone)).step
      (q.through (stage (ops.handler (Handler.final fun _ _ => (0, none))) 0 gone)).init ls = some s)
    (hc : ∀ (i : Nat) c, (q.calls s.1)[i]? = some c → (∃ v, c.1 = .next v) ∧ ∀ c', (q.calls s.1)[i + 1]? = some c' → c.2 + d ≤ c'.2)
    {i : Nat} {v : α} {a : Nat} (hi : (q.calls s.1)[i]? = some (.next v, a)) (ht : a + d < q.now s.1) :
    ((q.through (stage (ops.handler (Handler.final fun _ _ => (0, none))) 0 gone)).calls s)[i]? = some (.next (f v), a + d) :=
  index hq hr (handle_keep hw (fun _ _ => Nat.zero_le _) hc i v a hi) ht

theorem handle_fall {w : α → Nat × Except Err (Option β)} {f : α → β} {d : Nat} (hw : ∀ v, w v = (d, .ok (some (f v)))) :
    ∀ {cs : List (Notif α × Nat)} {k free : Nat}, (∀ (i : Nat) c, cs[i]? = some c → (∃ v, c.1 = .next v) ∧ c.2 ≤ free + i * d) →
    ∀ (i : Nat) v a, cs[i]? = some (.next v, a) → (handle w (fun _ _ => (0, none)) gone k free cs)[i]? = some (.next (f v), free + (i + 1) * d) := by
  intro cs
  induction cs with
  | nil => intro k free _ i v a h; cases h
  | cons x cs ih =>
    intro k free h1 i v a hi
    obtain ⟨x, b⟩ := x
    obtain ⟨⟨u, hu⟩, h3⟩ := h1 0 (x, b) rfl
    dsimp only at hu h3
    subst hu
    rw [handle, show max b free = free by omega, hw]
    simp only [Nat.add_zero]
    cases i with
    | zero => cases hi; simp
    | succ i =>
      rw [List.getElem?_cons_succ] at hi ⊢
      rw [ih (k := k + 1) (free := free + d) (fun j c hj => ?_) i v a hi]
      · rw [show free + (i + 1 + 1) * d = free + d + (i + 1) * d by rw [Nat.add_mul (i + 1) 1 d]; omega]
      · obtain ⟨g1, g2⟩ := h1 (j + 1) c hj
        exact ⟨g1, by rw [Nat.add_mul] at g2; omega⟩

/-- C124, functions that take `d` in all for every value, and values that come at least that fast, the first at `a`: there is a result every `d`, so the results fall behind
more and more. -/
theorem C124_falls_behind {q : Clocked S L α} (hq : q.Lawful) {ops : Ops α β} {f : α → β} {d : Nat} (hw : ∀ v, ops.work v = (d, .ok (some (f v)))) {ls s}
    (hr : LTS.run (q.through (stage (ops.handler (Handler.final fun _ _ => (0, none))) 0 gone)).step
      (q.through (stage (ops.handler (Handler.final fun _ _ => (0, none))) 0 gone)).init ls = some s) {a : Nat} (ha : ∀ c ∈ (q.calls s.1).head?, c.2 = a)
    (hc : ∀ (i : Nat) c, (q.calls s.1)[i]? = some c → (∃ v, c.1 = .next v) ∧ c.2 ≤ a + i * d)
    {i : Nat} {v : α} {b : Nat} (hi : (q.calls s.1)[i]? = some (.next v, b)) (ht : a + (i + 1) * d < q.now s.1) :
    ((q.through (stage (ops.handler (Handler.final fun _ _ => (0, none))) 0 gone)).calls s)[i]? = some (.next (f v), a + (i + 1) * d) := by
  refine index hq hr ?_ ht
  have : handle ops.work (fun _ _ => (0, none)) gone 0 0 (q.calls s.1) = handle ops.work (fun _ _ => (0, none)) gone 0 a (q.calls s.1) := by
    cases hcs : q.calls s.1 with
    | nil => rfl
    | cons x cs =>
      rw [hcs] at ha hc
      obtain ⟨x, b⟩ := x
      have hb : b = a := ha _ rfl
      obtain ⟨⟨u, hu⟩, -⟩ := hc 0 (x, b) rfl
      dsimp only at hu
      subst hu hb
      rw [handle, handle, show max b 0 = max b b by omega]
  rw [this]
  exact handle_fall hw hc i v b hi

/-! ## Examples -/

section Examples
open Nested (ofSeqAt run_any)

local notation "src" => fun l => Time.act (Sum.inl l)
local notation "recv" => Time.act (Sum.inr Label.receive)
local notation "go" => Time.act (Sum.inr Label.go)
local notation "wake" => Time.act (Sum.inr Label.wake)

/-- `map_async` of a function that takes its argument and doubles it, then `filter_async` of one that takes 1. -/
abbrev demoOps : Ops Nat Nat := .map (fun v => (v, .ok (2 * v))) (.filter (fun v => (1, .ok (decide (v ≠ 2)))) .nil)
abbrev demo := (ofSeqAt 5 [3, 1, (2 : Nat)]).through (stage (demoOps.handler (Handler.final fun _ _ => (0, none))) 0 1)
abbrev demoRun : List (Time (Option Unit ⊕ Label Nat)) :=
  [src (some ()), recv, go, .pass 3, wake, go, .pass 1, wake, go, go, wake, go,
   recv, go, .pass 1, wake, go, .pass 1, wake, go,
   recv, go, .pass 2, wake, go, .pass 1, wake, go, go, wake, go,
   recv, go, .pass 1, wake, go, go, .pass 1]

/-- 3 comes out as 6 at 5 + 3 + 1, 1 is dropped, 2 comes out as 4 after 2 + 3 more. -/
example : ∃ s, LTS.run demo.step demo.init demoRun = some s ∧ (ofSeqAt 5 [3, 1, (2 : Nat)]).Lawful ∧ demo.now s = 16 ∧
    (ofSeqAt 5 [3, 1, (2 : Nat)]).calls s.1 = [(.next 3, 5), (.next 1, 5), (.next 2, 5), (.completed, 5)] ∧
    demo.calls s = [(.next 6, 9), (.next 4, 14), (.completed, 15)] := by
  obtain ⟨s, hs, h⟩ := run_any (c := demo) (ls := demoRun)
    (P := fun s => (ofSeqAt 5 [3, 1, (2 : Nat)]).calls s.1 == [(.next 3, 5), (.next 1, 5), (.next 2, 5), (.completed, 5)] && demo.now s == 16 &&
      demo.calls s == [(.next 6, 9), (.next 4, 14), (.completed, 15)]) (by decide +kernel)
  simp only [Bool.and_eq_true, beq_iff_eq] at h
  exact ⟨s, hs, Nested.ofSeq_lawful _ _, h.1.2, h.1.1, h.2⟩

example : handle demoOps.work (fun _ _ => (0, none)) 1 0 0 [(.next 3, 5), (.next 1, 5), (.next 2, 5), (.completed, 5)] =
    [(.next 6, 9), (.next 4, 14), (.completed, 15)] := by decide +kernel

/-- Two functions that always return, and the second raises for the second value. -/
abbrev demoRaiseOps : Ops Nat Nat := .map (fun v => (v, .ok v)) (.choose (fun v => (1, if v = 1 then .error (.user 9) else .ok (some v))) .nil)
abbrev demoRaise := (ofSeqAt 5 [3, 1, (2 : Nat)]).through (stage (demoRaiseOps.handler (Handler.final fun _ _ => (2, none))) 0 1)
abbrev demoRaiseRun : List (Time (Option Unit ⊕ Label Nat)) :=
  [src (some ()), recv, go, .pass 3, wake, go, .pass 1, wake, go, go, .pass 2, wake, go,
   recv, go, .pass 1, wake, go, .pass 1, wake, go, go, .pass 7]

example : ∃ s, LTS.run demoRaise.step demoRaise.init demoRaiseRun = some s ∧ demoRaise.now s = 20 ∧
    demoRaise.calls s = [(.next 3, 9), (.error (.user 9), 13)] := by
  obtain ⟨s, hs, h⟩ := run_any (c := demoRaise) (ls := demoRaiseRun)
    (P := fun s => demoRaise.now s == 20 && demoRaise.calls s == [(.next 3, 9), (.error (.user 9), 13)]) (by decide +kernel)
  simp only [Bool.and_eq_true, beq_iff_eq] at h
  exact ⟨s, hs, h.1, h.2⟩

/-- `interval(1, 3)` behind two functions that take 1 and 2. -/
abbrev demoKeepOps : Ops Nat Nat := .map (fun v => (1, .ok (v + 1))) (.map (fun v => (2, .ok (10 * v))) .nil)
abbrev demoKeep := (Interval.clocked true 0 1 3).through (stage (demoKeepOps.handler (Handler.final fun _ _ => (0, none))) 0 0)
abbrev demoKeepRun : List (Time (Interval.Label ⊕ Label Nat)) :=
  [src .start, .pass 1, src .wake, src .ret, recv, go, .pass 1, wake, go, .pass 2, wake, go, go, wake, go,
   src .wake, src .ret, recv, go, .pass 1, wake, go, .pass 2, src .wake, src .ret, wake, go, go, wake, go, recv, go, .pass 1]

example : ∃ s, LTS.run demoKeep.step demoKeep.init demoKeepRun = some s ∧ (Interval.clocked true 0 1 3).Lawful ∧ demoKeep.now s = 8 ∧
    (∀ v, demoKeepOps.work v = (3, .ok (some (10 * (v + 1))))) ∧
    (∀ (i : Nat) c, ((Interval.clocked true 0 1 3).calls s.1)[i]? = some c →
      (∃ v, c.1 = .next v) ∧ ∀ c', ((Interval.clocked true 0 1 3).calls s.1)[i + 1]? = some c' → c.2 + 3 ≤ c'.2) ∧
    (Interval.clocked true 0 1 3).calls s.1 = [(.next 0, 1), (.next 1, 4), (.next 2, 7)] ∧
    demoKeep.calls s = [(.next 10, 4), (.next 20, 7)] := by
  obtain ⟨s, hs, h⟩ := run_any (c := demoKeep) (ls := demoKeepRun)
    (P := fun s => demoKeep.now s == 8 && (Interval.clocked true 0 1 3).calls s.1 == [(.next 0, 1), (.next 1, 4), (.next 2, 7)] &&
      demoKeep.calls s == [(.next 10, 4), (.next 20, 7)]) (by decide +kernel)
  simp only [Bool.and_eq_true, beq_iff_eq] at h
  refine ⟨s, hs, Interval.clocked_lawful .., h.1.1, fun v => rfl, ?_, h.1.2, h.2⟩
  rw [h.1.2]
  intro i c hi
  match i, hi with
  | 0, hi => cases hi; exact ⟨⟨_, rfl⟩, fun c' h => by cases h; decide⟩
  | 1, hi => cases hi; exact ⟨⟨_, rfl⟩, fun c' h => by cases h; decide⟩
  | 2, hi => cases hi; exact ⟨⟨_, rfl⟩, fun c' h => by cases h⟩
  | i + 3, hi => cases hi

end Examples

end Work
end Aio
