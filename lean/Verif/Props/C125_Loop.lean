import Verif.Lemmas.Loop
import Verif.Props.C124_Work
/-!
# C125: `async for` with a body that takes its time
-/

namespace Aio.Loop
open Spec Spec.Timed Spec.Queue
variable {S L α β γ σ : Type} {m : Nat → β → Option Nat} {gone : Nat}

theorem ops_meet (ops : Ops α γ) (o : Handler σ γ β) (s : σ) : ∀ (v : α) (t : Nat) (c : View), ((ops.handler o).asend s v).meet m t c =
    match (ops.work v).2 with
    | .error e => ([], .raised e (t + (ops.work v).1) c)
    | .ok none => ([], .ok s (t + (ops.work v).1) c)
    | .ok (some y) => (o.asend s y).meet m (t + (ops.work v).1) c := by
  induction ops with
  | nil => intro v t c; simp [Ops.work, Ops.handler]
  | map f rest ih =>
    intro v t c
    simp only [Ops.handler, Handler.mapAsync, Handler.transform, Co.meet_work, Ops.work, andThen]
    cases (f v).2 with
    | error e => rfl
    | ok y => simp only [Except.map]; rw [ih, Nat.add_assoc]
  | choose f rest ih =>
    intro v t c
    simp only [Ops.handler, Handler.chooseAsync, Handler.transform, Co.meet_work, Ops.work, andThen]
    cases (f v).2 with
    | error e => rfl
    | ok y =>
      cases y with
      | none => rfl
      | some y => dsimp only; rw [ih, Nat.add_assoc]
  | filter p rest ih =>
    intro v t c
    simp only [Ops.handler, Handler.filterAsync, Handler.transform, Co.meet_work, Ops.work, andThen]
    cases (p v).2 with
    | error e => rfl
    | ok b =>
      cases b with
      | false => rfl
      | true => simp only [Except.map, if_true]; rw [ih, Nat.add_assoc]

theorem serve_none (ops : Ops α β) : ∀ (cs : List (Notif α × Nat)) (free : Nat), serve (ops.handler Handler.iterator) m gone () free none cs = [] := by
  intro cs
  induction cs with
  | nil => intros; rfl
  | cons c cs ih =>
    intro free
    obtain ⟨n, a⟩ := c
    cases n with
    | error e => simp [serve, Work.body, Work.ops_athrow, Handler.iterator, Co.meet, Co.bind]
    | completed => simp [serve, Work.body, Work.ops_aclose, Handler.iterator, Co.meet, Co.bind]
    | next v =>
      rw [serve]
      simp only [Work.body, Co.meet_attempt, ops_meet, Work.ops_athrow]
      cases hw : (ops.work v).2 with
      | error e =>
        dsimp only
        by_cases he : e = .cancelled
        · simp [he]
        · simp [he, Handler.iterator, Co.meet, Co.bind]
      | ok y =>
        cases y with
        | none => simp [Co.meet, ih]
        | some y => simp [Handler.iterator, Co.meet]

theorem serve_ops (ops : Ops α β) : ∀ (cs : List (Notif α × Nat)) (i free r : Nat),
    serve (ops.handler Handler.iterator) m gone () free (some (i, r)) cs = loop ops.work m gone i free r cs := by
  intro cs
  induction cs with
  | nil => intros; rfl
  | cons c cs ih =>
    intro i free r
    obtain ⟨n, a⟩ := c
    cases n with
    | error e => simp [serve, loop, Work.body, Work.ops_athrow, Handler.iterator, Co.meet, Co.bind]
    | completed => simp [serve, loop, Work.body, Work.ops_aclose, Handler.iterator, Co.meet, Co.bind]
    | next v =>
      rw [serve, loop]
      simp only [Work.body, Co.meet_attempt, ops_meet, Work.ops_athrow]
      cases hw : (ops.work v).2 with
      | error e =>
        dsimp only
        by_cases he : e = .cancelled
        · simp [he]
        · simp [he, Handler.iterator, Co.meet, Co.bind]
      | ok y =>
        cases y with
        | none => simp [Co.meet, ih]
        | some y =>
          simp only [Handler.iterator, Co.meet]
          cases hm : m i y with
          | none =>
            simp only [Option.map_none, List.append_nil, List.cons_append, List.nil_append]
            exact congrArg _ (serve_none ops _ _)
          | some d =>
            simp only [Option.map_some, List.append_nil, List.cons_append, List.nil_append]
            exact congrArg _ (ih _ _ _)

/-- C125: the worker works on one value at a time and goes on only when the loop has come for the result, the loop comes when its body is over: while the body
runs, one more result is made. -/
theorem C125_exact {q : Clocked S L α} (hq : q.Lawful) {ops : Ops α β} {ls s}
    (hr : LTS.run (q.through (stage (ops.handler Handler.iterator) () m gone)).step (q.through (stage (ops.handler Handler.iterator) () m gone)).init ls = some s) :
    (q.through (stage (ops.handler Handler.iterator) () m gone)).calls s <+: loop ops.work m gone 0 0 (q.now q.init) (q.calls s.1) ∧
    before (q.now s.1) ((q.through (stage (ops.handler Handler.iterator) () m gone)).calls s) =
      before (q.now s.1) (loop ops.work m gone 0 0 (q.now q.init) (q.calls s.1)) := by
  obtain ⟨-, ms, h1, h2, h3, -⟩ := Clocked.split hq stage_reads hr
  obtain ⟨r, h4, h5⟩ := told h1
  have hnow := (inv_run h1).2
  rw [h2, serve_ops] at h4
  rw [h3] at hnow
  refine ⟨⟨r, h4.symm⟩, ?_⟩
  have h6 : r.filter (fun c => decide (c.2 < q.now s.1)) = [] := by
    rw [List.filter_eq_nil_iff]
    intro c hc
    have := h5 c hc
    simp; omega
  rw [h4, before, before, List.filter_append, h6, List.append_nil]
  rfl

theorem index {q : Clocked S L α} (hq : q.Lawful) {ops : Ops α β} {ls s}
    (hr : LTS.run (q.through (stage (ops.handler Handler.iterator) () m gone)).step (q.through (stage (ops.handler Handler.iterator) () m gone)).init ls = some s)
    {i : Nat} {c : Notif β × Nat} (h : (loop ops.work m gone 0 0 (q.now q.init) (q.calls s.1))[i]? = some c) (hc : c.2 < q.now s.1) :
    ((q.through (stage (ops.handler Handler.iterator) () m gone)).calls s)[i]? = some c := by
  obtain ⟨-, ms, h1, h2, h3, -⟩ := Clocked.split hq stage_reads hr
  obtain ⟨r, h4, h5⟩ := told h1
  have hnow := (inv_run h1).2
  rw [h2, serve_ops] at h4
  rw [h3] at hnow
  rw [h4] at h
  by_cases hi : i < s.2.sent.length
  · rwa [List.getElem?_append_left hi] at h
  · rw [List.getElem?_append_right (by omega)] at h
    have := h5 c (List.mem_of_getElem? h)
    omega

theorem start {q : Clocked S L α} (hq : q.Lawful) {o : Handler σ α β} {s0 : σ} {ls s}
    (hr : LTS.run (q.through (stage o s0 m gone)).step (q.through (stage o s0 m gone)).init ls = some s) : ∀ c ∈ q.calls s.1, q.now q.init ≤ c.2 := by
  obtain ⟨-, ms, -, h2, -, -⟩ := Clocked.split hq stage_reads hr
  rw [← h2]
  exact arrivals_ge ms _

/-! ## what this means -/

theorem loop_values {w : α → Nat × Except Err (Option β)} (hw : ∀ v, ∃ d y, w v = (d, .ok y)) :
    ∀ (cs : List (Notif α × Nat)) (i free r : Nat), (valuesAt (loop w m gone i free r cs)).map (·.1) <+:
      (valuesAt (Timed.cut cs)).filterMap (fun c => match (w c.1).2 with | .ok y => y | .error _ => none) := by
  intro cs
  induction cs with
  | nil => intros; exact List.nil_prefix
  | cons c cs ih =>
    intro i free r
    obtain ⟨n, a⟩ := c
    cases n with
    | error e => simp [loop, valuesAt]
    | completed => simp [loop, valuesAt]
    | next v =>
      obtain ⟨d, y, h⟩ := hw v
      rw [loop]
      cases y with
      | none => simpa [h, Timed.cut, valuesAt] using ih i (max a free + d) r
      | some y =>
        cases hm : m i y with
        | none => simp [h, Timed.cut, valuesAt, hm]
        | some e => simpa [h, hm, Timed.cut, valuesAt, List.cons_prefix_cons] using ih (i + 1) (max (max a free + d) r) (max (max a free + d) r + e)

/-- C125, if no function raises: what the loop gets is, in the order of the source, what comes of its values, without a gap, however long its body and the functions
take. -/
theorem C125_order {q : Clocked S L α} (hq : q.Lawful) {ops : Ops α β} (hw : ∀ v, ∃ d y, ops.work v = (d, .ok y)) {ls s}
    (hr : LTS.run (q.through (stage (ops.handler Handler.iterator) () m gone)).step (q.through (stage (ops.handler Handler.iterator) () m gone)).init ls = some s) :
    (valuesAt ((q.through (stage (ops.handler Handler.iterator) () m gone)).calls s)).map (·.1) <+:
      (valuesAt (Timed.cut (q.calls s.1))).filterMap (fun c => match (ops.work c.1).2 with | .ok y => y | .error _ => none) := by
  obtain ⟨⟨r, h⟩, -⟩ := C125_exact hq hr
  refine List.IsPrefix.trans ?_ (loop_values (m := m) (gone := gone) hw (q.calls s.1) 0 0 (q.now q.init))
  rw [← h, valuesAt, valuesAt, List.filterMap_append, List.map_append]
  exact List.prefix_append ..

theorem loop_serial {w : α → Nat × Except Err (Option β)} : ∀ {cs : List (Notif α × Nat)} {k free r i : Nat} {y : β} {b : Nat} {n : Notif β} {c : Nat},
    (loop w m gone k free r cs)[i]? = some (.next y, b) → (loop w m gone k free r cs)[i + 1]? = some (n, c) → ∃ d, m (k + i) y = some d ∧ b + d ≤ c := by
  have late : ∀ {cs : List (Notif α × Nat)} {k free r : Nat} {x : Notif β × Nat}, x ∈ loop w m gone k free r cs → r ≤ x.2 := by
    intro cs
    induction cs with
    | nil => intro k free r x hx; cases hx
    | cons c cs ih =>
      intro k free r x hx
      obtain ⟨n, a⟩ := c
      cases n with
      | error e => simp [loop] at hx; subst hx; dsimp only; omega
      | completed => simp [loop] at hx; subst hx; dsimp only; omega
      | next v =>
        rw [loop] at hx
        split at hx
        · split at hx
          · cases hx
          · simp at hx; subst hx; dsimp only; omega
        · exact ih hx
        · rcases List.mem_cons.mp hx with rfl | hx
          · dsimp only; omega
          · split at hx
            · have := ih hx; omega
            · cases hx
  intro cs
  induction cs with
  | nil => intro k free r i y b n c h; simp [loop] at h
  | cons x cs ih =>
    intro k free r i y b n c h1 h2
    obtain ⟨x, a⟩ := x
    cases x with
    | error e => cases i <;> simp [loop] at h2
    | completed => cases i <;> simp [loop] at h2
    | next v =>
      rw [loop] at h1 h2
      split at h1
      · next e he =>
        split at h1
        · cases h1
        · cases i <;> simp at h1
      · next he =>
        rw [he] at h2
        exact ih h1 h2
      · next z he =>
        rw [he] at h2
        dsimp only at h2
        cases i with
        | zero =>
          simp only [List.getElem?_cons_zero, Option.some.injEq, Prod.mk.injEq, Notif.next.injEq] at h1
          obtain ⟨rfl, rfl⟩ := h1
          rw [Nat.zero_add, List.getElem?_cons_succ] at h2
          have hm := List.mem_of_getElem? h2
          split at hm
          · next d hd => exact ⟨d, hd, late hm⟩
          · cases hm
        | succ i =>
          rw [List.getElem?_cons_succ] at h1 h2
          split at h1
          · next d hd =>
            rw [hd] at h2
            have := ih h1 h2
            rwa [show k + 1 + i = k + (i + 1) by omega] at this
          · cases h1

/-- C125: the body runs for one value at a time, and after a `break` nothing follows. -/
theorem C125_one_at_a_time {q : Clocked S L α} (hq : q.Lawful) {ops : Ops α β} {ls s}
    (hr : LTS.run (q.through (stage (ops.handler Handler.iterator) () m gone)).step (q.through (stage (ops.handler Handler.iterator) () m gone)).init ls = some s)
    {i : Nat} {y : β} {b : Nat} {n : Notif β} {c : Nat}
    (h1 : ((q.through (stage (ops.handler Handler.iterator) () m gone)).calls s)[i]? = some (.next y, b))
    (h2 : ((q.through (stage (ops.handler Handler.iterator) () m gone)).calls s)[i + 1]? = some (n, c)) : ∃ d, m i y = some d ∧ b + d ≤ c := by
  obtain ⟨⟨r, he⟩, -⟩ := C125_exact hq hr
  have := loop_serial (m := m) (gone := gone) (w := ops.work) (cs := q.calls s.1) (k := 0) (free := 0) (r := q.now q.init) (i := i) (y := y) (b := b) (n := n) (c := c)
    (by rw [← he, List.getElem?_append_left (List.getElem?_eq_some_iff.mp h1).1]; exact h1)
    (by rw [← he, List.getElem?_append_left (List.getElem?_eq_some_iff.mp h2).1]; exact h2)
  rwa [Nat.zero_add] at this

theorem loop_batch {w : α → Nat × Except Err (Option β)} {f : α → β} {a d : Nat} (hw : ∀ v, w v = (a, .ok (some (f v)))) {xs : List α} :
    ∀ {k c t0 i : Nat}, t0 ≤ c →
    (∀ x, xs[i]? = some x → (loop w (fun _ _ => some d) gone k c (c + d) (xs.map (fun x => (.next x, t0)) ++ [(.completed, t0)]))[i]? =
      some (.next (f x), c + (i + 1) * max a d)) ∧
    (loop w (fun _ _ => some d) gone k c (c + d) (xs.map (fun x => (.next x, t0)) ++ [(.completed, t0)]))[xs.length]? =
      some (.completed, c + xs.length * max a d + max gone d) := by
  induction xs with
  | nil =>
    intro k c t0 i h
    refine ⟨fun x hx => (by cases hx), ?_⟩
    simp [loop]; omega
  | cons y xs ih =>
    intro k c t0 i h
    have hmax : max t0 c = c := by omega
    have hm : max (c + a) (c + d) = c + max a d := by omega
    rw [List.map_cons, List.cons_append, loop, hmax, hw]
    dsimp only
    rw [hm]
    constructor
    · intro x hx
      cases i with
      | zero => cases hx; simp
      | succ i =>
        rw [List.getElem?_cons_succ] at hx ⊢
        rw [(ih (k := k + 1) (c := c + max a d) (i := i) (by omega)).1 x hx]
        simp [Nat.succ_mul]; omega
    · rw [List.length_cons, List.getElem?_cons_succ, (ih (k := k + 1) (c := c + max a d) (i := 0) (by omega)).2]
      simp [Nat.succ_mul]; omega

/-- C125, values that are all sent at time `t0` (`from_iterable`), functions that take `a` in all for each and a body that takes `d`: functions and body overlap, the
loop gets a value every `max a d`; and it ends `max gone d` after it got the last one. -/
theorem C125_overlap {q : Clocked S L α} (hq : q.Lawful) {ops : Ops α β} {f : α → β} {a d : Nat} (hw : ∀ v, ops.work v = (a, .ok (some (f v)))) {ls s}
    (hr : LTS.run (q.through (stage (ops.handler Handler.iterator) () (fun _ _ => some d) gone)).step
      (q.through (stage (ops.handler Handler.iterator) () (fun _ _ => some d) gone)).init ls = some s)
    {x₀ : α} {xs : List α} {t0 : Nat} (hc : q.calls s.1 = (x₀ :: xs).map (fun x => (.next x, t0)) ++ [(.completed, t0)]) :
    (∀ i x, (x₀ :: xs)[i]? = some x → t0 + a + i * max a d < q.now s.1 →
      ((q.through (stage (ops.handler Handler.iterator) () (fun _ _ => some d) gone)).calls s)[i]? = some (.next (f x), t0 + a + i * max a d)) ∧
    (t0 + a + xs.length * max a d + max gone d < q.now s.1 →
      ((q.through (stage (ops.handler Handler.iterator) () (fun _ _ => some d) gone)).calls s)[xs.length + 1]? =
        some (.completed, t0 + a + xs.length * max a d + max gone d)) := by
  have h0 : q.now q.init ≤ t0 := start hq hr (.next x₀, t0) (by rw [hc]; simp)
  have hfirst : loop ops.work (fun _ _ => some d) gone 0 0 (q.now q.init) (q.calls s.1) =
      (.next (f x₀), t0 + a) :: loop ops.work (fun _ _ => some d) gone 1 (t0 + a) (t0 + a + d) (xs.map (fun x => (.next x, t0)) ++ [(.completed, t0)]) := by
    have hmax : max (max t0 0 + a) (q.now q.init) = t0 + a := by omega
    rw [hc, List.map_cons, List.cons_append, loop, hw]
    dsimp only
    rw [hmax]
  refine ⟨fun i x hi ht => index hq hr ?_ ht, fun ht => index hq hr ?_ ht⟩
  · rw [hfirst]
    cases i with
    | zero => cases hi; simp
    | succ i =>
      rw [List.getElem?_cons_succ] at hi ⊢
      exact (loop_batch hw (by omega)).1 x hi
  · rw [hfirst, List.getElem?_cons_succ]
    exact (loop_batch hw (i := 0) (by omega)).2

theorem handle_serial {w : α → Nat × Except Err (Option β)} {f : α → β} {a d : Nat} (hw : ∀ v, w v = (a, .ok (some (f v)))) {xs : List α} :
    ∀ {k c t0 i : Nat}, t0 ≤ c →
    (∀ x, xs[i]? = some x → (handle w (fun _ _ => (d, none)) gone k c (xs.map (fun x => (.next x, t0)) ++ [(.completed, t0)]))[i]? =
      some (.next (f x), c + a + i * (a + d))) := by
  induction xs with
  | nil => intro k c t0 i h x hx; cases hx
  | cons y xs ih =>
    intro k c t0 i h x hx
    have hmax : max t0 c = c := by omega
    rw [List.map_cons, List.cons_append, handle, hmax, hw]
    dsimp only
    cases i with
    | zero => cases hx; simp
    | succ i =>
      rw [List.getElem?_cons_succ] at hx ⊢
      rw [ih (k := k + 1) (c := c + a + d) (i := i) (by omega) x hx]
      simp [Nat.succ_mul]; omega

/-- C125: the same work in the `asend` of an observer that subscribes instead does not overlap with the functions; there is a value every `a + d`. -/
theorem C125_subscribed_instead {q : Clocked S L α} (hq : q.Lawful) {ops : Ops α β} {f : α → β} {a d : Nat} (hw : ∀ v, ops.work v = (a, .ok (some (f v)))) {ls s}
    (hr : LTS.run (q.through (Work.stage (ops.handler (Handler.final fun _ _ => (d, none))) 0 gone)).step
      (q.through (Work.stage (ops.handler (Handler.final fun _ _ => (d, none))) 0 gone)).init ls = some s)
    {xs : List α} {t0 : Nat} (hc : q.calls s.1 = xs.map (fun x => (.next x, t0)) ++ [(.completed, t0)])
    {i : Nat} {x : α} (hi : xs[i]? = some x) (ht : t0 + a + i * (a + d) < q.now s.1) :
    ((q.through (Work.stage (ops.handler (Handler.final fun _ _ => (d, none))) 0 gone)).calls s)[i]? = some (.next (f x), t0 + a + i * (a + d)) := by
  refine Work.index hq hr ?_ ht
  have hfree : handle ops.work (fun _ _ => (d, none)) gone 0 0 (q.calls s.1) = handle ops.work (fun _ _ => (d, none)) gone 0 t0 (q.calls s.1) := by
    rw [hc]
    cases xs with
    | nil => simp [handle]
    | cons x xs => simp [handle]
  rw [hfree, hc]
  exact handle_serial hw (Nat.le_refl _) x hi

theorem loop_keep {w : α → Nat × Except Err (Option β)} {f : α → β} {a d p : Nat} (hw : ∀ v, w v = (a, .ok (some (f v)))) (ha : a ≤ p) (hd : d ≤ p) :
    ∀ {cs : List (Notif α × Nat)} {k free r : Nat}, (∀ c ∈ cs.head?, free ≤ c.2 ∧ r ≤ c.2 + a) →
    (∀ (i : Nat) c, cs[i]? = some c → (∃ v, c.1 = .next v) ∧ ∀ c', cs[i + 1]? = some c' → c.2 + p ≤ c'.2) →
    ∀ (i : Nat) v b, cs[i]? = some (.next v, b) → (loop w (fun _ _ => some d) gone k free r cs)[i]? = some (.next (f v), b + a) := by
  intro cs
  induction cs with
  | nil => intro k free r _ _ i v a h; cases h
  | cons x cs ih =>
    intro k free r h1 h2 i v b hi
    obtain ⟨x, b0⟩ := x
    have hb : max (max b0 free + a) r = b0 + a := by have := h1 (x, b0) rfl; dsimp only at this; omega
    obtain ⟨⟨u, hu⟩, h3⟩ := h2 0 (x, b0) rfl
    dsimp only at hu
    subst hu
    rw [loop, hw]
    dsimp only
    rw [hb]
    cases i with
    | zero => cases hi; rfl
    | succ i =>
      rw [List.getElem?_cons_succ] at hi ⊢
      refine ih ?_ (fun i c h => h2 (i + 1) c h) i v b hi
      intro c hc
      cases cs with
      | nil => cases hc
      | cons y cs =>
        cases hc
        have := h3 _ rfl
        dsimp only at this
        omega

/-- C125, values that come no faster than one every `p`, with functions that take `a ≤ p` and a body that takes `d ≤ p`: the loop gets each exactly `a` after it was
sent, even if `a + d > p`. -/
theorem C125_keeps_up {q : Clocked S L α} (hq : q.Lawful) {ops : Ops α β} {f : α → β} {a d p : Nat} (hw : ∀ v, ops.work v = (a, .ok (some (f v)))) (ha : a ≤ p) (hd : d ≤ p) {ls s}
    (hr : LTS.run (q.through (stage (ops.handler Handler.iterator) () (fun _ _ => some d) gone)).step
      (q.through (stage (ops.handler Handler.iterator) () (fun _ _ => some d) gone)).init ls = some s)
    (hc : ∀ (i : Nat) c, (q.calls s.1)[i]? = some c → (∃ v, c.1 = .next v) ∧ ∀ c', (q.calls s.1)[i + 1]? = some c' → c.2 + p ≤ c'.2)
    {i : Nat} {v : α} {b : Nat} (hi : (q.calls s.1)[i]? = some (.next v, b)) (ht : b + a < q.now s.1) :
    ((q.through (stage (ops.handler Handler.iterator) () (fun _ _ => some d) gone)).calls s)[i]? = some (.next (f v), b + a) :=
  index hq hr (loop_keep hw ha hd (fun c h => ⟨Nat.zero_le _, Nat.le_trans (start hq hr c (List.mem_of_mem_head? h)) (Nat.le_add_right ..)⟩) hc i v b hi) ht

/-! ## Examples -/

section Examples
open Nested (ofSeqAt run_any)

local notation "src" => fun l => Time.act (Sum.inl l)
local notation "own" => fun l => Time.act (Sum.inr l)

/-- `async for x in pipe(from_iterable([3, 1, 2]), map_async(f))`, where `f` takes 2 and doubles and the body takes 3. -/
abbrev demoOps : Ops Nat Nat := .map (fun v => (2, .ok (2 * v))) .nil
abbrev demo := (ofSeqAt 5 [3, 1, (2 : Nat)]).through (stage (demoOps.handler Handler.iterator) () (fun _ _ => some 3) 1)
abbrev demoRun : List (Time (Option Unit ⊕ Label Nat)) :=
  [src (some ()), own .subscribed, own .receive, own .go, .pass 2, own .wake, own .go, own .run, own .run, own .back, own .go,
   own .receive, own .go, .pass 2, own .wake, own .go, .pass 1, own .anext, own .run, own .back, own .go,
   own .receive, own .go, .pass 2, own .wake, own .go, .pass 1, own .anext, own .run, own .back, own .go,
   own .receive, own .go, .pass 1, own .wake, own .go, .pass 2, own .anext, .pass 1]

/-- A value every 3, not every 5. -/
example : ∃ s, LTS.run demo.step demo.init demoRun = some s ∧ (ofSeqAt 5 [3, 1, (2 : Nat)]).Lawful ∧ demo.now s = 17 ∧
    (∀ v, demoOps.work v = (2, .ok (some (2 * v)))) ∧
    (ofSeqAt 5 [3, 1, (2 : Nat)]).calls s.1 = (3 :: [1, 2]).map (fun x => (.next x, 5)) ++ [(.completed, 5)] ∧
    demo.calls s = [(.next 6, 7), (.next 2, 10), (.next 4, 13), (.completed, 16)] := by
  obtain ⟨s, hs, h⟩ := run_any (c := demo) (ls := demoRun)
    (P := fun s => (ofSeqAt 5 [3, 1, (2 : Nat)]).calls s.1 == [(.next 3, 5), (.next 1, 5), (.next 2, 5), (.completed, 5)] && demo.now s == 17 &&
      demo.calls s == [(.next 6, 7), (.next 2, 10), (.next 4, 13), (.completed, 16)]) (by decide +kernel)
  simp only [Bool.and_eq_true, beq_iff_eq] at h
  exact ⟨s, hs, Nested.ofSeq_lawful _ _, h.1.2, fun _ => rfl, h.1.1, h.2⟩

/-- The loop is left at its second value. -/
abbrev demoBreak := (ofSeqAt 5 [3, 1, (2 : Nat)]).through (stage (demoOps.handler Handler.iterator) () (fun _ y => if y = 2 then none else some 3) 1)
abbrev demoBreakRun : List (Time (Option Unit ⊕ Label Nat)) :=
  [src (some ()), own .subscribed, own .receive, own .go, .pass 2, own .wake, own .go, own .run, own .run, own .back, own .go,
   own .receive, own .go, .pass 2, own .wake, own .go, .pass 1, own .anext, own .run, own .back, own .go,
   own .receive, own .go, .pass 2, own .wake, own .go, .pass 20]

example : ∃ s, LTS.run demoBreak.step demoBreak.init demoBreakRun = some s ∧ demoBreak.now s = 32 ∧ demoBreak.calls s = [(.next 6, 7), (.next 2, 10)] := by
  obtain ⟨s, hs, h⟩ := run_any (c := demoBreak) (ls := demoBreakRun)
    (P := fun s => demoBreak.now s == 32 && demoBreak.calls s == [(.next 6, 7), (.next 2, 10)]) (by decide +kernel)
  simp only [Bool.and_eq_true, beq_iff_eq] at h
  exact ⟨s, hs, h.1, h.2⟩

/-- The function raises for the second value; the loop hears of it when its body is over. -/
abbrev demoRaiseOps : Ops Nat Nat := .map (fun v => (2, if v = 1 then .error (.user 9) else .ok (2 * v))) .nil
abbrev demoRaise := (ofSeqAt 5 [3, 1, (2 : Nat)]).through (stage (demoRaiseOps.handler Handler.iterator) () (fun _ _ => some 3) 1)
abbrev demoRaiseRun : List (Time (Option Unit ⊕ Label Nat)) :=
  [src (some ()), own .subscribed, own .receive, own .go, .pass 2, own .wake, own .go, own .run, own .run, own .back, own .go,
   own .receive, own .go, .pass 2, own .wake, own .go, .pass 1, own .anext, .pass 20]

example : ∃ s, LTS.run demoRaise.step demoRaise.init demoRaiseRun = some s ∧ demoRaise.now s = 30 ∧
    demoRaise.calls s = [(.next 6, 7), (.error (.user 9), 10)] := by
  obtain ⟨s, hs, h⟩ := run_any (c := demoRaise) (ls := demoRaiseRun)
    (P := fun s => demoRaise.now s == 30 && demoRaise.calls s == [(.next 6, 7), (.error (.user 9), 10)]) (by decide +kernel)
  simp only [Bool.and_eq_true, beq_iff_eq] at h
  exact ⟨s, hs, h.1, h.2⟩

/-- The function raises CancelledError for the second value; the loop waits for ever. -/
abbrev demoCancelOps : Ops Nat Nat := .map (fun v => (2, if v = 1 then .error .cancelled else .ok (2 * v))) .nil
abbrev demoCancel := (ofSeqAt 5 [3, 1, (2 : Nat)]).through (stage (demoCancelOps.handler Handler.iterator) () (fun _ _ => some 3) 1)
abbrev demoCancelRun : List (Time (Option Unit ⊕ Label Nat)) :=
  [src (some ()), own .subscribed, own .receive, own .go, .pass 2, own .wake, own .go, own .run, own .run, own .back, own .go,
   own .receive, own .go, .pass 2, own .wake, own .go, .pass 1, own .anext, .pass 20]

example : ∃ s, LTS.run demoCancel.step demoCancel.init demoCancelRun = some s ∧ demoCancel.now s = 30 ∧ demoCancel.calls s = [(.next 6, 7)] := by
  obtain ⟨s, hs, h⟩ := run_any (c := demoCancel) (ls := demoCancelRun)
    (P := fun s => demoCancel.now s == 30 && demoCancel.calls s == [(.next 6, 7)]) (by decide +kernel)
  simp only [Bool.and_eq_true, beq_iff_eq] at h
  exact ⟨s, hs, h.1, h.2⟩

/-- `interval(1, 3)`, a function that takes 2 and a body that takes 3. -/
abbrev demoKeep := (Interval.clocked true 0 1 3).through (stage (demoOps.handler Handler.iterator) () (fun _ _ => some 3) 0)
abbrev demoKeepRun : List (Time (Interval.Label ⊕ Label Nat)) :=
  [own .subscribed, src .start, .pass 1, src .wake, src .ret, own .receive, own .go, .pass 2, own .wake, own .go, own .run, own .run, own .back, own .go,
   .pass 1, src .wake, src .ret, own .receive, own .go, .pass 2, own .wake, own .go, own .anext, own .run, own .back, own .go,
   .pass 1]

example : ∃ s, LTS.run demoKeep.step demoKeep.init demoKeepRun = some s ∧ (Interval.clocked true 0 1 3).Lawful ∧ demoKeep.now s = 7 ∧
    (∀ (i : Nat) c, ((Interval.clocked true 0 1 3).calls s.1)[i]? = some c →
      (∃ v, c.1 = .next v) ∧ ∀ c', ((Interval.clocked true 0 1 3).calls s.1)[i + 1]? = some c' → c.2 + 3 ≤ c'.2) ∧
    (Interval.clocked true 0 1 3).calls s.1 = [(.next 0, 1), (.next 1, 4)] ∧
    demoKeep.calls s = [(.next 0, 3), (.next 2, 6)] := by
  obtain ⟨s, hs, h⟩ := run_any (c := demoKeep) (ls := demoKeepRun)
    (P := fun s => demoKeep.now s == 7 && (Interval.clocked true 0 1 3).calls s.1 == [(.next 0, 1), (.next 1, 4)] &&
      demoKeep.calls s == [(.next 0, 3), (.next 2, 6)]) (by decide +kernel)
  simp only [Bool.and_eq_true, beq_iff_eq] at h
  refine ⟨s, hs, Interval.clocked_lawful .., h.1.1, ?_, h.1.2, h.2⟩
  rw [h.1.2]
  intro i c hi
  match i, hi with
  | 0, hi => cases hi; exact ⟨⟨_, rfl⟩, fun c' h => by cases h; decide⟩
  | 1, hi => cases hi; exact ⟨⟨_, rfl⟩, fun c' h => by cases h⟩
  | i + 2, hi => cases hi

end Examples

end Aio.Loop
