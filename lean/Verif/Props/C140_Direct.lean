import Verif.Lemmas.Direct
import Verif.Props.C124_Work
import Verif.Props.C117_Hosted
/-!
# C140: sources that wait for their observer, on the `VirtualTimeEventLoop`
-/

namespace Aio.Direct
open Spec Spec.Timed Spec.Queue
open VirtualTime (Heap)
variable {α β γ δ σ P W : Type} {h : Heap} {t0 : Nat}

private theorem run_done {c : Co β σ} {t : Nat} : (c.bind fun _ => (.done none : Co β (Option σ))).run t = ((c.run t).1, (c.run t).2.1, (c.run t).2.2.map fun _ => none) := by
  rw [Co.run_bind]
  cases h : (c.run t).2.2 <;> simp [Co.run, Except.map]

private theorem run_final {r : Nat → β → Nat × Option Err} (i : Nat) (y : β) (t : Nat) : ((Handler.final r).asend i y).run t =
    ([(.next y, t)], t + (r i y).1, match (r i y).2 with
      | none => .ok (i + 1)
      | some e => .error e) := by
  simp only [Handler.final, Co.run]
  cases (r i y).2 <;> simp [Co.run]

/-- The rounds of `of_async_iterable` do what `pulled` says. -/
theorem plan_iterable {src : Nat → Nat × Except Err (Option α)} {ops : Ops α β} {r : Nat → β → Nat × Option Err} : ∀ (n k i t : Nat),
    plan (AsyncSource.round (ops.handler (Handler.final r)) src) n k i t = pulled src true ops.work r n k i t
  | 0, _, _, _ => rfl
  | n + 1, k, i, t => by
    have ih := plan_iterable (src := src) (ops := ops) (r := r) n
    simp only [plan, pulled, AsyncSource.round, Co.run]
    cases hs : (src k).2 with
    | error e => simp [after, Co.run]
    | ok o =>
      cases o with
      | none => simp only [run_done, Work.ops_aclose, after, Handler.final, Co.run, Except.map]; rfl
      | some v =>
        dsimp only
        rw [Co.run_attempt, Work.ops_run]
        cases hw : (ops.work v).2 with
        | error e =>
          by_cases he : e = .cancelled
          · simp [he, after]
          · simp [he, after, run_done, Work.ops_athrow, Handler.final, Co.run, Except.map]
        | ok o =>
          cases o with
          | none => simp [after, Co.run, ih]
          | some y =>
            simp only [run_final]
            cases hr : (r i y).2 with
            | none => simp [after, Co.run, ih]
            | some e =>
              by_cases he : e = .cancelled
              · simp [he, after]
              · simp [he, after, run_done, Work.ops_athrow, Handler.final, Co.run, Except.map]

/-- The rounds of `interval` do what `pulled` says. -/
theorem plan_interval {seconds period : Int} (hp : period ≠ 0) {ops : Ops Nat β} {r : Nat → β → Nat × Option Err} : ∀ (n k i t : Nat),
    plan (Interval.round (ops.handler (Handler.final r)) seconds period) n k i t = pulled (ticks seconds period) false ops.work r n k i t
  | 0, _, _, _ => rfl
  | n + 1, k, i, t => by
    have ih := plan_interval (seconds := seconds) hp (ops := ops) (r := r) n
    have ht : ticks seconds period k = ((if k = 0 then seconds else period).toNat, .ok (some k)) := by
      unfold ticks
      split
      · next hk => rw [hk]
      · rfl
    simp only [plan, pulled, Interval.round, Co.run, ht, hp, if_false]
    rw [Co.run_bind, Work.ops_run]
    cases hw : (ops.work k).2 with
    | error e => simp [after]
    | ok o =>
      cases o with
      | none => simp [after, Co.run, ih]
      | some y =>
        simp only [run_final]
        cases hr : (r i y).2 with
        | none => simp [after, Co.run, ih]
        | some e => simp [after]

/-- The round of `timer` does what `pulled` says. -/
theorem plan_timer {seconds : Int} {ops : Ops Nat β} {r : Nat → β → Nat × Option Err} (n t : Nat) :
    plan (Interval.round (ops.handler (Handler.final r)) seconds 0) (n + 2) 0 0 t = pulled (ticks seconds 0) false ops.work r (n + 2) 0 0 t := by
  simp only [plan, pulled, Interval.round, Co.run, ticks, if_true]
  rw [Co.run_bind, Work.ops_run]
  cases hw : (ops.work 0).2 with
  | error e => simp [after]
  | ok o =>
    cases o with
    | none => simp [after, run_done, Work.ops_aclose, Handler.final, Co.run, Except.map]
    | some y =>
      simp only [run_final]
      cases hr : (r 0 y).2 with
      | none => simp [after, run_done, Work.ops_aclose, Handler.final, Co.run, Except.map]
      | some e => simp [after]

theorem exact_run {round : Nat → σ → Co β (Option σ)} {s0 : σ} {ks} {s : State β σ} (h1 : LTS.run (clocked round s0 t0).step (clocked round s0 t0).init ks = some s) :
    (∀ c, s.since = some c → c ≤ s.now ∧ ∀ x ∈ s.sent, x.2 ≤ c) ∧
    ∃ N, ∀ n, N ≤ n → s.sent <+: plan round n 0 s0 t0 ∧
      ∀ t : Nat, t ≤ s.now → (∀ c, s.since = some c → t ≤ c) → before t s.sent = before t (plan round n 0 s0 t0) := by
  have I := inv_run h1
  refine ⟨fun c hc => ⟨(I.since c hc).1, fun x hx => ?_⟩, ?_⟩
  · have := I.sent x hx; simpa [State.stop, hc] using this
  · obtain ⟨N, rest, g1, g2, -⟩ := I.told
    refine ⟨N, fun n hN => ?_⟩
    obtain ⟨n, rfl⟩ := Nat.exists_eq_add_of_le hN
    rw [g1]
    refine ⟨List.prefix_append .., fun t ht hs => ?_⟩
    have hle : t ≤ s.stop := by
      cases hc : s.since with
      | none => simp only [State.stop, hc, Option.getD_none]; omega
      | some c => simp only [State.stop, hc, Option.getD_some]; exact hs c hc
    simp only [before, List.filter_append]
    rw [show (rest n).filter (fun c => c.2 < t) = [] from List.filter_eq_nil_iff.mpr ?_, List.append_nil]
    intro x hx
    have := g2 n x hx
    simp only [decide_eq_true_eq]
    omega

theorem exact {round : Nat → σ → Co β (Option σ)} {s0 : σ} (K : h.Laws) {hops ls m}
    (hr : LTS.run (Hosted.step h hops (clocked round s0 t0) host) Hosted.init ls = some m) {s : State β σ} (hm : m.sub = some s) :
    (∀ c, s.since = some c → (c : Int) ≤ m.vt.time ∧ ∀ x ∈ s.sent, x.2 ≤ c) ∧
    ∃ N, ∀ n, N ≤ n → s.sent <+: plan round n 0 s0 t0 ∧
      ∀ t : Nat, (t : Int) ≤ m.vt.time → (∀ c, s.since = some c → t ≤ c) → before t s.sent = before t (plan round n 0 s0 t0) := by
  obtain ⟨hn, ks, h1, _, _⟩ := Hosted.C117_schedule K host_lawful hr hm
  have hn : (s.now : Int) = m.vt.time := hn
  obtain ⟨g1, N, g2⟩ := exact_run h1
  exact ⟨fun c hc => ⟨by have := (g1 c hc).1; omega, (g1 c hc).2⟩, N, fun n hN => ⟨(g2 n hN).1, fun t ht => (g2 n hN).2 t (by omega)⟩⟩

/-- C140: on the virtual loop, `pipe(from_async_iterable(gen), map_async(f), ...)`: the generator is asked for the next value when the functions and the observer are done with the one before, so everything before
the present time of the loop, and before the disposal, is exactly as `pulled` says. Nothing is told after the disposal. -/
theorem C140_iterable (K : h.Laws) {src : Nat → Nat × Except Err (Option α)} {ops : Ops α β} {r : Nat → β → Nat × Option Err} {hops ls m}
    (hr : LTS.run (Hosted.step h hops (clocked (AsyncSource.round (ops.handler (Handler.final r)) src) 0 t0) host) Hosted.init ls = some m)
    {s : State β Nat} (hm : m.sub = some s) :
    (∀ c, s.since = some c → (c : Int) ≤ m.vt.time ∧ ∀ x ∈ s.sent, x.2 ≤ c) ∧
    ∃ N, ∀ n, N ≤ n → s.sent <+: pulled src true ops.work r n 0 0 t0 ∧
      ∀ t : Nat, (t : Int) ≤ m.vt.time → (∀ c, s.since = some c → t ≤ c) → before t s.sent = before t (pulled src true ops.work r n 0 0 t0) := by
  obtain ⟨h1, N, h2⟩ := exact K hr hm
  exact ⟨h1, N, fun n hn => by rw [← plan_iterable]; exact h2 n hn⟩

/-- C140: the same for `pipe(interval(seconds, period), map_async(f), ...)`, except that the observer is not told of an exception (`tells` is `false`). -/
theorem C140_interval (K : h.Laws) {seconds period : Int} {ops : Ops Nat β} {r : Nat → β → Nat × Option Err} {hops ls m}
    (hr : LTS.run (Hosted.step h hops (clocked (Interval.round (ops.handler (Handler.final r)) seconds period) 0 t0) host) Hosted.init ls = some m)
    {s : State β Nat} (hm : m.sub = some s) :
    (∀ c, s.since = some c → (c : Int) ≤ m.vt.time ∧ ∀ x ∈ s.sent, x.2 ≤ c) ∧
    ∃ N, ∀ n, N ≤ n → s.sent <+: pulled (ticks seconds period) false ops.work r n 0 0 t0 ∧
      ∀ t : Nat, (t : Int) ≤ m.vt.time → (∀ c, s.since = some c → t ≤ c) → before t s.sent = before t (pulled (ticks seconds period) false ops.work r n 0 0 t0) := by
  obtain ⟨h1, N, h2⟩ := exact K hr hm
  by_cases hp : period = 0
  · subst hp
    refine ⟨h1, N + 2, fun n hn => ?_⟩
    obtain ⟨n, rfl⟩ := Nat.exists_eq_add_of_le hn
    rw [show N + 2 + n = N + n + 2 by omega, ← plan_timer]
    exact h2 _ (by omega)
  · exact ⟨h1, N, fun n hn => by rw [← plan_interval hp]; exact h2 n hn⟩

theorem pulled_grammar {src : Nat → Nat × Except Err (Option α)} {tells : Bool} {w : α → Nat × Except Err (Option β)} {r : Nat → β → Nat × Option Err} : ∀ (n k i t : Nat),
    Grammar ((pulled src tells w r n k i t).map (·.1)) := by
  have nil : Grammar ([] : List (Notif β)) := ⟨⟨[], .running⟩, rfl⟩
  have err : ∀ (b : Prop) [Decidable b] (e : Err) (t : Nat), Grammar ((if b then [((.error e, t) : Notif β × Nat)] else []).map (·.1)) := by
    intro b _ e t
    split
    · exact ⟨⟨[], .failed e⟩, rfl⟩
    · exact nil
  intro n
  induction n with
  | zero => intro _ _ _; exact nil
  | succ n ih =>
    intro k i t
    rw [pulled]
    cases (src k).2 with
    | error e => exact nil
    | ok o =>
      cases o with
      | none => exact ⟨⟨[], .done⟩, rfl⟩
      | some v =>
        dsimp only
        cases (w v).2 with
        | error e => exact err _ e _
        | ok o =>
          cases o with
          | none => exact ih _ _ _
          | some y =>
            have key : ∀ cs : List (Notif β × Nat), Grammar (cs.map (·.1)) → ∀ t, Grammar ((((.next y, t) : Notif β × Nat) :: cs).map (·.1)) := by
              rintro cs ⟨s, hs⟩ t
              exact ⟨⟨y :: s.vals, s.fin⟩, by simp [hs, Story.events]⟩
            refine key _ ?_ _
            cases (r i y).2 with
            | none => exact ih _ _ _
            | some e => exact err _ e _

private theorem upto_before (t : Nat) (cs : List (Notif β × Nat)) : upto t cs = (before (t + 1) cs).map (·.1) := by
  simp only [upto, before]
  congr 2
  funext c
  simp [Nat.lt_succ_iff]

theorem behind [DecidableEq W] {round : Nat → σ → Co β (Option σ)} {s0 : σ} (K : h.Laws) {p : Proc P W (Notif β) (Notif δ)} {workers : List W} (hw : ∀ w, w ∈ workers)
    {G : Story β → Story δ} (hG : Delivers p Grammar G) (h0 : (G ⟨[], .running⟩).events = []) (hg : ∀ n, Grammar ((plan round n 0 s0 t0).map (·.1))) {hops ls m}
    (hr : LTS.run (Hosted.step h hops ((clocked round s0 t0).operate p) (host.operate p workers)) Hosted.init ls = some m) {s} (hm : m.sub = some s) :
    InTime s.2.sent ∧ ∃ N, ∀ n, N ≤ n → ∀ t : Nat, (t : Int) < m.vt.time → (∀ c, s.1.since = some c → t < c) →
      upto t s.2.sent = (G (story (upto t (plan round n 0 s0 t0)))).events := by
  obtain ⟨g1, g2, -⟩ := C117_operator K host_lawful hw hG h0 (fun ls s h => by
    obtain ⟨-, N, h⟩ := exact_run h
    exact grammar_prefix ((h N (Nat.le_refl _)).1.map _) (hg N)) hr hm
  obtain ⟨hn, ks, h1, _, _⟩ := Hosted.C117_schedule K (Host.operate_lawful host_lawful hw) hr hm
  have hn : (s.1.now : Int) = m.vt.time := hn
  obtain ⟨-, N, g3⟩ := exact_run (Clocked.operate_source lawful h1).1
  refine ⟨g1, N, fun n hN t ht hc => ?_⟩
  rw [g2 t ht]
  have := (g3 n hN).2 (t + 1) (by omega) (fun c h => hc c h)
  rw [upto_before, upto_before, ← this]
  rfl

/-- C140: any operators behind it see the results at these times. -/
theorem C140_iterable_behind [DecidableEq W] (K : h.Laws) {src : Nat → Nat × Except Err (Option α)} {ops : Ops α β} {p : Proc P W (Notif β) (Notif δ)} {workers : List W} (hw : ∀ w, w ∈ workers)
    {G : Story β → Story δ} (hG : Delivers p Grammar G) (h0 : (G ⟨[], .running⟩).events = []) {hops ls m}
    (hr : LTS.run (Hosted.step h hops ((clocked (AsyncSource.round (ops.handler (Handler.final fun _ _ => (0, none))) src) 0 t0).operate p) (host.operate p workers)) Hosted.init ls = some m)
    {s} (hm : m.sub = some s) :
    InTime s.2.sent ∧ ∃ N, ∀ n, N ≤ n → ∀ t : Nat, (t : Int) < m.vt.time → (∀ c, s.1.since = some c → t < c) →
      upto t s.2.sent = (G (story (upto t (pulled src true ops.work (fun _ _ => (0, none)) n 0 0 t0)))).events := by
  obtain ⟨g1, N, g2⟩ := behind K hw hG h0 (fun n => by rw [plan_iterable]; exact pulled_grammar _ _ _ _) hr hm
  exact ⟨g1, N, fun n hN t ht hc => by rw [← plan_iterable]; exact g2 n hN t ht hc⟩

/-- C140: when the clock has moved on after the disposal, the task is gone. -/
theorem C140_released {round : Nat → σ → Co β (Option σ)} {s0 : σ} (K : h.Laws) {hops ls m}
    (hr : LTS.run (Hosted.step h hops (clocked round s0 t0) host) Hosted.init ls = some m) {s : State β σ} (hm : m.sub = some s)
    {c : Nat} (hc : s.since = some c) (ht : (c : Int) < m.vt.time) : s.pc = .dead := by
  obtain ⟨hn, ks, h1, _, _⟩ := Hosted.C117_schedule K host_lawful hr hm
  have hn : (s.now : Int) = m.vt.time := hn
  cases hp : s.pc with
  | dead => rfl
  | _ => have := ((inv_run h1).since c hc).2 (by rw [hp]; simp); omega

theorem pulled_values {seconds period : Int} (hp : period ≠ 0) {w : Nat → Nat × Except Err (Option β)} {d e : Nat → Nat} {f : Nat → β} (hw : ∀ v, w v = (d v, .ok (some (f v)))) :
    ∀ (n k t : Nat), t + (ticks seconds period k).1 = paced t0 seconds.toNat period.toNat (fun j => d j + e j) k →
      pulled (ticks seconds period) false w (fun i _ => (e i, none)) n k k t =
        (List.range' k n).map fun j => (.next (f j), paced t0 seconds.toNat period.toNat (fun j => d j + e j) j + d j)
  | 0, _, _, _ => rfl
  | n + 1, k, t, h => by
    have ih := pulled_values (seconds := seconds) (e := e) hp hw n (k + 1) (t + (ticks seconds period k).1 + d k + e k)
      (by
        rw [h]
        simp only [paced, ticks, hp, Nat.succ_ne_zero, if_false, List.range_succ, List.map_append, List.sum_append, List.map_cons, List.map_nil, List.sum_cons, List.sum_nil, Nat.succ_mul]
        omega)
    have hk : (ticks seconds period k).2 = .ok (some k) := by
      unfold ticks
      split
      · next hk => rw [hk]
      · rfl
    rw [List.range'_succ, List.map_cons, pulled]
    rw [h] at ih
    simp only [hk, hw]
    rw [h, ih]

/-- C140: `pipe(interval(seconds, period), map_async(f), ...)` with functions that take `d k` for the value `k` and an observer that takes `e k`: the source waits, so the `k`-th result comes when all this time and the periods have
passed. -/
theorem C140_interval_times (K : h.Laws) {seconds period : Int} (hp : period ≠ 0) {ops : Ops Nat β} {d e : Nat → Nat} {f : Nat → β} (hw : ∀ v, ops.work v = (d v, .ok (some (f v)))) {hops ls m}
    (hr : LTS.run (Hosted.step h hops (clocked (Interval.round (ops.handler (Handler.final fun i _ => (e i, none))) seconds period) 0 t0) host) Hosted.init ls = some m)
    {s : State β Nat} (hm : m.sub = some s) :
    ∃ n, s.sent = (List.range n).map (fun k => (.next (f k), paced t0 seconds.toNat period.toNat (fun j => d j + e j) k + d k)) ∧
      ∀ k, ((paced t0 seconds.toNat period.toNat (fun j => d j + e j) k + d k : Nat) : Int) < m.vt.time →
        (∀ c, s.since = some c → paced t0 seconds.toNat period.toNat (fun j => d j + e j) k + d k < c) → k < n := by
  obtain ⟨-, N, h2⟩ := C140_interval K hr hm
  have eq : ∀ n, pulled (ticks seconds period) false ops.work (fun i _ => (e i, none)) n 0 0 t0 = _ := fun n =>
    pulled_values (t0 := t0) (e := e) hp hw n 0 t0 (by simp [ticks, paced])
  have hN := (h2 N (Nat.le_refl _)).1
  rw [eq, ← List.range_eq_range'] at hN
  have hs := List.prefix_iff_eq_take.mp hN
  rw [← List.map_take, List.take_range] at hs
  refine ⟨min s.sent.length N, hs, fun k hk hc => ?_⟩
  obtain ⟨⟨rest, hrest⟩, hb⟩ := h2 (N + k + 1) (by omega)
  have hb := hb (paced t0 seconds.toNat period.toNat (fun j => d j + e j) k + d k + 1) (by omega) (fun c h => hc c h)
  rw [eq, ← List.range_eq_range'] at hrest hb
  rw [← hrest, before, before, List.filter_append] at hb
  have hnil := List.self_eq_append_right.mp hb
  have hlen : s.sent.length = min s.sent.length N := by
    have := congrArg List.length hs
    simpa using this
  rw [← hlen]
  refine Nat.lt_of_not_le fun hle => ?_
  have hk' : (s.sent ++ rest)[k]? = some (.next (f k), paced t0 seconds.toNat period.toNat (fun j => d j + e j) k + d k) := by
    rw [hrest, List.getElem?_map, List.getElem?_range (by omega)]; rfl
  rw [List.getElem?_append_right hle] at hk'
  have := List.filter_eq_nil_iff.mp hnil _ (List.mem_of_getElem? hk')
  simp at this

/-- What `interval` tells contains no error. -/
theorem pulled_no_error {src : Nat → Nat × Except Err (Option α)} {w : α → Nat × Except Err (Option β)} {r : Nat → β → Nat × Option Err} : ∀ (n k i t : Nat),
    ∀ x ∈ pulled src false w r n k i t, ∀ e, x.1 ≠ .error e
  | 0, _, _, _ => fun _ h => by cases h
  | n + 1, k, i, t => by
    intro x hx
    rw [pulled] at hx
    cases hs : (src k).2 with
    | error e => rw [hs] at hx; cases hx
    | ok o =>
      cases o with
      | none => rw [hs] at hx; simp at hx; subst hx; intro e; simp
      | some v =>
        rw [hs] at hx
        dsimp only at hx
        cases hw : (w v).2 with
        | error e => rw [hw] at hx; simp at hx
        | ok o =>
          cases o with
          | none => rw [hw] at hx; exact pulled_no_error n _ _ _ x hx
          | some y =>
            rw [hw] at hx
            rcases List.mem_cons.mp hx with rfl | hx
            · intro e; simp
            · cases hr : (r i y).2 with
              | none => rw [hr] at hx; exact pulled_no_error n _ _ _ x hx
              | some e => rw [hr] at hx; simp at hx

/-- If the functions raise for the value number `j`, nothing comes of it and of the values after it. -/
theorem pulled_raises {src : Nat → Nat × Except Err (Option α)} {w : α → Nat × Except Err (Option β)} {r : Nat → β → Nat × Option Err} {j : Nat} {v : α} {e : Err}
    (hj : (src j).2 = .ok (some v)) (he : (w v).2 = .error e) : ∀ (n k i t : Nat), k ≤ j → (pulled src false w r n k i t).length ≤ j - k
  | 0, _, _, _, _ => Nat.zero_le _
  | n + 1, k, i, t, hk => by
    rw [pulled]
    by_cases hkj : k = j
    · subst hkj
      rw [hj]
      dsimp only
      rw [he]
      simp
    · have ih := fun i t => pulled_raises hj he (r := r) n (k + 1) i t (by omega)
      cases hs : (src k).2 with
      | error e => simp
      | ok o =>
        cases o with
        | none => simp; omega
        | some v =>
          dsimp only
          cases hw : (w v).2 with
          | error e => simp
          | ok o =>
            cases o with
            | none => have := ih i (t + (src k).1 + (w v).1); dsimp only; omega
            | some y =>
              dsimp only
              cases hr : (r i y).2 with
              | none => have := ih (i + 1) (t + (src k).1 + (w v).1 + (r i y).1); simp only [List.length_cons]; omega
              | some e => simp; omega

/-- C140: nobody tells the observer of an `interval` when a function raises: if the functions raise for the value `j`, the observer gets at most `j` calls, none of them an error, and nothing else, ever. -/
theorem C140_interval_raises (K : h.Laws) {seconds period : Int} (hp : period ≠ 0) {ops : Ops Nat β} {r : Nat → β → Nat × Option Err} {j : Nat} {e : Err} (hj : (ops.work j).2 = .error e) {hops ls m}
    (hr : LTS.run (Hosted.step h hops (clocked (Interval.round (ops.handler (Handler.final r)) seconds period) 0 t0) host) Hosted.init ls = some m)
    {s : State β Nat} (hm : m.sub = some s) : s.sent.length ≤ j ∧ ∀ x ∈ s.sent, ∀ e, x.1 ≠ .error e := by
  obtain ⟨-, N, h2⟩ := C140_interval K hr hm
  have hN := (h2 N (Nat.le_refl _)).1
  refine ⟨Nat.le_trans hN.length_le (pulled_raises (v := j) ?_ hj N 0 0 t0 (Nat.zero_le _)), fun x hx => pulled_no_error N 0 0 t0 x (hN.subset hx)⟩
  unfold ticks
  split
  · next hk => rw [hk]
  · rfl

/-- An async generator that sleeps and yields: `for d, v in xs: await asyncio.sleep(d); yield v`. -/
def yields (xs : List (Nat × α)) (k : Nat) : Nat × Except Err (Option α) :=
  match xs[k]? with
  | some x => (x.1, .ok (some x.2))
  | none => (0, .ok none)

theorem pulled_yields {w : α → Nat × Except Err (Option β)} {d : α → Nat} {f : α → β} (hw : ∀ v, w v = (d v, .ok (some (f v)))) (pre : List (Nat × α)) :
    ∀ (xs : List (Nat × α)) (n i t : Nat), xs.length < n → pulled (yields (pre ++ xs)) true w (fun _ _ => (0, none)) n pre.length i t =
      ((finished (fun x => x.1 + d x.2) t xs).map fun x => (.next (f x.1.2), x.2)) ++ [(.completed, t + (xs.map fun x => x.1 + d x.2).sum)]
  | [], n + 1, i, t, _ => by simp [pulled, yields, finished]
  | x :: xs, n + 1, i, t, hn => by
    have ih := pulled_yields hw (pre ++ [x]) xs n (i + 1) (t + x.1 + d x.2) (by simpa using hn)
    have hx : yields (pre ++ x :: xs) pre.length = (x.1, .ok (some x.2)) := by simp [yields]
    rw [pulled, hx]
    simp only [hw, finished, List.map_cons, List.cons_append, List.sum_cons]
    simp only [List.append_assoc, List.singleton_append, List.length_append, List.length_singleton] at ih
    rw [Nat.add_zero (t + x.1 + d x.2), ih]
    simp only [Nat.add_assoc]

/-- C140: `pipe(from_async_iterable(gen), map_async(f), ...)` for a generator that sleeps and yields: nothing overlaps, so each result comes after the sum of all sleeps and of all that the functions take, up to it; and then
the completion comes. -/
theorem C140_generator (K : h.Laws) {xs : List (Nat × α)} {ops : Ops α β} {d : α → Nat} {f : α → β} (hw : ∀ v, ops.work v = (d v, .ok (some (f v)))) {hops ls m}
    (hr : LTS.run (Hosted.step h hops (clocked (AsyncSource.round (ops.handler (Handler.final fun _ _ => (0, none))) (yields xs)) 0 t0) host) Hosted.init ls = some m)
    {s : State β Nat} (hm : m.sub = some s) (hs : s.since = none) :
    s.sent <+: ((finished (fun x => x.1 + d x.2) t0 xs).map fun x => (.next (f x.1.2), x.2)) ++ [(.completed, t0 + (xs.map fun x => x.1 + d x.2).sum)] ∧
    (((t0 + (xs.map fun x => x.1 + d x.2).sum : Nat) : Int) < m.vt.time →
      s.sent = ((finished (fun x => x.1 + d x.2) t0 xs).map fun x => (.next (f x.1.2), x.2)) ++ [(.completed, t0 + (xs.map fun x => x.1 + d x.2).sum)]) := by
  obtain ⟨-, N, h2⟩ := C140_iterable K hr hm
  have eq := pulled_yields hw [] xs (N + xs.length + 1) 0 t0 (by omega)
  obtain ⟨g1, g2⟩ := h2 (N + xs.length + 1) (by omega)
  rw [List.nil_append] at eq
  rw [show ([] : List (Nat × α)).length = 0 from rfl] at eq
  rw [eq] at g1 g2
  refine ⟨g1, fun ht => ?_⟩
  have hb := g2 (t0 + (xs.map fun x => x.1 + d x.2).sum + 1) (by omega) (by rw [hs]; intro c h; cases h)
  have hmem : ((.completed, t0 + (xs.map fun x => x.1 + d x.2).sum) : Notif β × Nat) ∈ s.sent := by
    have : ((.completed, t0 + (xs.map fun x => x.1 + d x.2).sum) : Notif β × Nat) ∈ before (t0 + (xs.map fun x => x.1 + d x.2).sum + 1) s.sent := by
      rw [hb]; exact List.mem_filter.mpr ⟨by simp, by simp⟩
    exact (List.mem_filter.mp this).1
  obtain ⟨rest, hrest⟩ := g1
  rcases List.eq_nil_or_concat rest with rfl | ⟨rest', z, rfl⟩
  · simpa using hrest
  · exfalso
    rw [List.concat_eq_append, ← List.append_assoc] at hrest
    have h1 := (List.append_inj' hrest rfl).1
    have : ((.completed, t0 + (xs.map fun x => x.1 + d x.2).sum) : Notif β × Nat) ∈ (finished (fun x => x.1 + d x.2) t0 xs).map fun x => ((.next (f x.1.2), x.2) : Notif β × Nat) := by
      rw [← h1]; exact List.mem_append_left _ hmem
    obtain ⟨x, _, hx⟩ := List.mem_map.mp this
    cases hx

section Examples
open Hosted

/-- A function that takes 3, an observer that takes 1, a function that raises for the value 2. -/
abbrev slowly : Ops Nat Nat := .map (fun v => (3, .ok (10 * v))) .nil
abbrev busy : Handler Nat Nat Nat := Handler.final fun _ _ => (1, none)
abbrev failing : Ops Nat Nat := .map (fun v => (1, if v = 2 then .error (.user 7) else .ok (10 * v))) .nil

/-- The hypotheses of `C140_interval_times`, `C140_generator` and `C140_interval_raises`. -/
example : ∀ v, slowly.work v = (3, .ok (some (10 * v))) := fun _ => rfl
example : (failing.work 2).2 = .error (.user 7) := rfl

/-- `pipe(interval(1, 2), map_async(f))`: result `k` at 4 + 6k. -/
example : sent (fun _ => 1) (clocked (Interval.round (slowly.handler busy) 1 2) 0 0) host ([some .subscribe] ++ List.replicate 100 none) =
    some (23, some [(.next 0, 4), (.next 10, 10), (.next 20, 16), (.next 30, 22)]) := by decide +kernel

/-- A function that raises: nobody is told. -/
example : sent (fun _ => 1) (clocked (Interval.round (failing.handler busy) 1 2) 0 0) host ([some (.loop (.callAt 30)), some .subscribe] ++ List.replicate 120 none) =
    some (30, some [(.next 0, 2), (.next 10, 6)]) := by decide +kernel

/-- `from_async_iterable` tells the observer. -/
example : sent (fun _ => 1) (clocked (AsyncSource.round (failing.handler busy) (yields [(1, 1), (0, 5), (4, 2), (1, 3)])) 0 0) host
    ([some (.loop (.callAt 30)), some .subscribe] ++ List.replicate 120 none) = some (30, some [(.next 10, 2), (.next 50, 4), (.error (.user 7), 10)]) := by decide +kernel

example : sent (fun _ => 1) (clocked (AsyncSource.round (slowly.handler busy) (yields [(1, 1), (0, 5), (4, 2)])) 0 0) host
    ([some (.loop (.callAt 30)), some .subscribe] ++ List.replicate 120 none) =
    some (30, some [(.next 10, 4), (.next 50, 8), (.next 20, 16), (.completed, 17)]) := by decide +kernel

/-- Disposed at 8, while the function is called for the value 1, whose result would come at 10. -/
example : sent (fun _ => 1) (clocked (Interval.round (slowly.handler busy) 1 2) 0 0) host
    ([some (.loop (.callAt 8)), some (.loop (.callAt 30)), some .subscribe] ++ List.replicate 44 none ++ [some (.outside .dispose)] ++ List.replicate 60 none) =
    some (30, some [(.next 0, 4)]) := by decide +kernel

end Examples
end Aio.Direct
