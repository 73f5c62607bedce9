import Verif.Lemmas.HostedWork
import Verif.Props.C117_Hosted
import Verif.Props.C128_Reduce
/-!
# C130: async functions that sleep, on the `VirtualTimeEventLoop`

The theorems of C124, C127 and C128 assume a loop that is not overloaded; `VirtualTimeEventLoop` is one.
-/

namespace Aio.Work
open Spec Spec.Timed Spec.Queue
open VirtualTime (Heap)
variable {S L T P W α β γ δ ρ : Type} [DecidableEq T] {h : Heap} {q : Clocked S L α} {H : Host S L T}

/-- C130: on the virtual loop, behind any source, whatever else runs on the loop: a chain of async functions has told the observer exactly what `handle` says, of everything
before the present time of the loop. -/
theorem C130_chain (K : h.Laws) (hH : H.Lawful q) {ops : Ops α β} {r : Nat → β → Nat × Option Err} {gone : Nat} {hops ls m}
    (hr : LTS.run (Hosted.step h hops (q.through (stage (ops.handler (Handler.final r)) 0 gone)) (H.through host)) Hosted.init ls = some m)
    {s : S × State α β Nat} (hm : m.sub = some s) :
    s.2.sent <+: handle ops.work r gone 0 0 (q.calls s.1) ∧
    ∀ t : Nat, (t : Int) ≤ m.vt.time → before t s.2.sent = before t (handle ops.work r gone 0 0 (q.calls s.1)) := by
  obtain ⟨hn, ks, h1, _, _⟩ := Hosted.C117_schedule K (Host.through_lawful hH stage_lawful host_lawful) hr hm
  obtain ⟨g1, g2⟩ := C124_exact hH.clock h1
  refine ⟨g1, fun t ht => ?_⟩
  have hn : (q.now s.1 : Int) = m.vt.time := hn
  have cut : ∀ cs : List (Notif β × Nat), before t cs = before t (before (q.now s.1) cs) := by
    intro cs
    simp only [before, List.filter_filter]
    congr 1
    funext c
    by_cases hc : c.2 < t
    · simp [hc]; omega
    · simp [hc]
  rw [cut s.2.sent, cut (handle ..)]
  exact congrArg _ g2

/-- C130: the same for `scan_async`, with functions before and after it. -/
theorem C130_scan (K : h.Laws) (hH : H.Lawful q) {ops : Ops α γ} {f : ρ → γ → Nat × Except Err ρ} {ops' : Ops ρ β} {s0 : ρ} {r : Nat → β → Nat × Option Err} {gone : Nat} {hops ls m}
    (hr : LTS.run (Hosted.step h hops (q.through (stage (ops.scanned f ops' (Handler.final r)) (s0, 0) gone)) (H.through host)) Hosted.init ls = some m)
    {s : S × State α β (ρ × Nat)} (hm : m.sub = some s) :
    s.2.sent <+: fold ops.work f ops'.work r gone s0 0 0 (q.calls s.1) ∧
    ∀ t : Nat, (t : Int) ≤ m.vt.time → before t s.2.sent = before t (fold ops.work f ops'.work r gone s0 0 0 (q.calls s.1)) := by
  obtain ⟨hn, ks, h1, _, _⟩ := Hosted.C117_schedule K (Host.through_lawful hH stage_lawful host_lawful) hr hm
  obtain ⟨g1, g2⟩ := C127_exact hH.clock h1
  refine ⟨g1, fun t ht => ?_⟩
  have hn : (q.now s.1 : Int) = m.vt.time := hn
  have cut : ∀ cs : List (Notif β × Nat), before t cs = before t (before (q.now s.1) cs) := by
    intro cs
    simp only [before, List.filter_filter]
    congr 1
    funext c
    by_cases hc : c.2 < t
    · simp [hc]; omega
    · simp [hc]
  rw [cut s.2.sent, cut (fold ..)]
  exact congrArg _ g2

/-- C130: any operator that takes no time itself behind async functions that do. -/
theorem C130_behind [DecidableEq W] (K : h.Laws) (hH : H.Lawful q) {ops : Ops α β} {gone : Nat} {p : Proc P W (Notif β) (Notif δ)} {workers : List W} (hw : ∀ w, w ∈ workers)
    {G : Story β → Story δ} (hG : Delivers p Grammar G) (h0 : (G ⟨[], .running⟩).events = []) {hops ls m}
    (hr : LTS.run (Hosted.step h hops ((q.through (stage (ops.handler (Handler.final fun _ _ => (0, none))) 0 gone)).operate p)
      ((H.through host).operate p workers)) Hosted.init ls = some m) {s} (hm : m.sub = some s) :
    InTime s.2.sent ∧ ∀ t : Nat, (t : Int) < m.vt.time →
      upto t s.2.sent = (G (story (upto t (handle ops.work (fun _ _ => (0, none)) gone 0 0 (q.calls s.1.1))))).events := by
  have hl := Host.operate_lawful (p := p) (Host.through_lawful hH
    (stage_lawful (o := ops.handler (Handler.final fun _ _ => (0, none))) (s0 := 0) (gone := gone)) host_lawful) hw
  obtain ⟨hn, ks, h1, h2, h3⟩ := Hosted.C117_schedule K hl hr hm
  have hn : (q.now s.1.1 : Int) = m.vt.time := hn
  obtain ⟨g1, g2⟩ := C128_behind hH.clock hG h0 h1 (fun a d b s he ha w => by
    have := h2 a d b s he ha (.inr w)
    simp only [Host.operate] at this
    cases hc : p.step s.2.ps w with
    | none => rfl
    | some x => simp [hc] at this)
  exact ⟨g1, fun t ht => g2 t (by omega)⟩

/-- C130: `reduce_async` of an accumulator that takes time: when the source has completed, the total and the completion come exactly when the accumulator is done with all
values, and nothing before. -/
theorem C130_reduce [DecidableEq (takeLast 1 : Operator ρ ρ).direct.compileSlow.SlowLab] (K : h.Laws) {q : Clocked S L γ} (hH : H.Lawful q) {d : ρ → γ → Nat} {g : ρ → γ → ρ} {s0 : ρ}
    {gone : Nat} {workers} (hw : ∀ w, w ∈ workers) {hops ls m}
    (hr : LTS.run (Hosted.step h hops (reduced q Ops.nil (fun c y => (d c y, .ok (g c y))) s0 gone)
      ((H.through host).operate (takeLast 1 : Operator ρ ρ).direct.slowProc workers)) Hosted.init ls = some m) {s} (hm : m.sub = some s)
    {vs : List (γ × Nat)} {a : Nat} {more : List (Notif γ × Nat)} (hc : q.calls s.1.1 = vs.map (fun x => (.next x.1, x.2)) ++ (.completed, a) :: more) :
    ∀ t : Nat, (t : Int) < m.vt.time → upto t s.2.sent =
      if t < max a (busyUntil d g s0 0 vs) + gone then []
      else if vs = [] then [.completed] else [.next ((vs.map (·.1)).foldl g s0), .completed] := by
  have hl := Host.operate_lawful (p := (takeLast 1 : Operator ρ ρ).direct.slowProc) (Host.through_lawful hH
    (stage_lawful (o := Ops.nil.scanned (fun c y => (d c y, .ok (g c y))) Ops.nil (Handler.final fun _ _ => (0, none))) (s0 := (s0, 0)) (gone := gone)) host_lawful) hw
  obtain ⟨hn, ks, h1, h2, h3⟩ := Hosted.C117_schedule K hl hr hm
  have hn : (q.now s.1.1 : Int) = m.vt.time := hn
  intro t ht
  refine C128_reduce hH.clock h1 (fun a d b s he ha w => ?_) hc t (by omega)
  have := h2 a d b s he ha (.inr w)
  simp only [Host.operate] at this
  cases hc : (takeLast 1 : Operator ρ ρ).direct.slowProc.step s.2.ps w with
  | none => rfl
  | some x => simp [hc] at this

theorem handle_length {w : α → Nat × Except Err (Option β)} {f : α → β} {d : α → Nat} (hw : ∀ v, w v = (d v, .ok (some (f v)))) {gone : Nat} : ∀ (vs : List (α × Nat)) (i free : Nat),
    (handle w (fun _ _ => (0, none)) gone i free (vs.map fun x => (.next x.1, x.2))).length = vs.length
  | [], _, _ => rfl
  | x :: vs, i, free => by
    rw [List.map_cons, handle, hw]
    exact congrArg Nat.succ (handle_length hw vs _ _)

end Aio.Work

namespace Aio.Interval
open Spec Spec.Timed Spec.Queue
open VirtualTime (Heap)
variable {h : Heap} {t0 : Nat} {seconds period : Int} {β : Type} {ops : Ops Nat β} {f : Nat → β} {d gone : Nat}

private theorem left_own {σ : Type} {ks : List (Time (Label ⊕ Work.Label Nat))} (ho : ∀ l, Time.act l ∈ ks → (host.through (Work.host (α := Nat) (β := β) (σ := σ))).Own l) :
    Time.act (.inl .dispose) ∉ ks ∧ ∀ e, Time.act (.inl (.raise e)) ∉ ks := by
  have key : ∀ l, Time.act (.inl l) ∈ ks → l ≠ .dispose ∧ ∀ e, l ≠ .raise e := by
    intro l h
    rcases ho _ h with h | ⟨s, t, h⟩
    · cases h
    · cases t with
      | inl t =>
        simp only [Host.through, List.mem_map] at h
        obtain ⟨x, hx, he⟩ := h
        cases he
        simp only [host] at hx
        split at hx <;> simp at hx <;> subst hx <;> exact ⟨by simp, by simp⟩
      | inr n => simp [Host.through] at h
  exact ⟨fun h => (key _ h).1 rfl, fun e h => (key _ h).2 e rfl⟩

private theorem hosted_calls (K : h.Laws) (hp : period ≠ 0) (hw : ∀ v, ops.work v = (d, .ok (some (f v)))) {hops ls m}
    (hr : LTS.run (Hosted.step h hops ((clocked true t0 seconds period).through (Work.stage (ops.handler (Handler.final fun _ _ => (0, none))) 0 gone))
      (host.through Work.host)) Hosted.init ls = some m) {s : State × Work.State Nat β Nat} (hm : m.sub = some s) {g : Nat → Nat} (hle : ∀ k, due t0 seconds period k ≤ g k)
    (hg : ∀ n k, k < n → (handle ops.work (fun _ _ => (0, none)) gone 0 0 ((List.range n).map fun k => (.next k, due t0 seconds period k)))[k]? = some (.next (f k), g k)) :
    ∃ n, s.2.sent = (List.range n).map (fun k => (.next (f k), g k)) ∧ ∀ k, (g k : Int) < m.vt.time → k < n := by
  obtain ⟨hn, ks, h1, _, h3⟩ := Hosted.C117_schedule K (Host.through_lawful host_lawful Work.stage_lawful Work.host_lawful) hr hm
  have hn : (s.1.now : Int) = m.vt.time := hn
  have hl := clocked_lawful true t0 seconds period
  obtain ⟨n, h4, h5⟩ := clocked_exact hp (Clocked.clocks hl Work.stage_lawful h1).1
  have eq : handle ops.work (fun _ _ => (0, none)) gone 0 0 ((clocked true t0 seconds period).calls s.1) = (List.range n).map (fun k => (.next (f k), g k)) := by
    rw [h4]
    apply List.ext_getElem?
    intro k
    by_cases hk : k < n
    · rw [hg n k hk]; simp [hk]
    · have hlen := Work.handle_length (d := fun _ => d) hw (gone := gone) ((List.range n).map fun k => (k, due t0 seconds period k)) 0 0
      rw [List.map_map] at hlen
      have hlen : (handle ops.work (fun _ _ => (0, none)) gone 0 0 ((List.range n).map fun k => (.next k, due t0 seconds period k))).length = _ := hlen
      rw [List.getElem?_eq_none (Nat.le_trans (Nat.le_of_eq hlen) (by simpa using hk)), List.getElem?_eq_none (by simpa using hk)]
  obtain ⟨g1, -⟩ := Work.C124_exact hl h1
  rw [eq] at g1
  have g1 : s.2.sent <+: (List.range n).map (fun k => (.next (f k), g k)) := g1
  refine ⟨s.2.sent.length, ?_, fun k hk => ?_⟩
  · have := g1.length_le
    simp only [List.length_map, List.length_range] at this
    have e := List.prefix_iff_eq_take.mp g1
    rw [← List.map_take, List.take_range, Nat.min_eq_left this] at e
    exact e
  · have hkn : k < n := by
      refine h5 ?_ ?_ k (by have := hle k; omega)
      · intro hx
        obtain ⟨x, hx, he⟩ := List.mem_filterMap.mp hx
        split at he <;> cases he
        exact (left_own h3).1 hx
      · intro e hx
        obtain ⟨x, hx, he⟩ := List.mem_filterMap.mp hx
        split at he <;> cases he
        exact (left_own h3).2 e hx
    have hi := Work.index hl h1 (i := k) (c := (.next (f k), g k)) (by rw [eq]; simp [hkn]) (show g k < s.1.now by omega)
    exact (List.getElem?_eq_some_iff.mp hi).1

/-- C130: `pipe(interval(s, p), skip(0), map_async(f), ...)` on the virtual loop (`skip` has a mailbox; without one, the interval waits for the functions, C123), with functions that take `d ≤ p` in all: the result for `k` comes exactly at `t0 + s + kp + d`. -/
theorem C130_interval (K : h.Laws) (hp : 0 < period) (hw : ∀ v, ops.work v = (d, .ok (some (f v)))) (hd : d ≤ period.toNat) {hops ls m}
    (hr : LTS.run (Hosted.step h hops ((clocked true t0 seconds period).through (Work.stage (ops.handler (Handler.final fun _ _ => (0, none))) 0 gone))
      (host.through Work.host)) Hosted.init ls = some m) {s : State × Work.State Nat β Nat} (hm : m.sub = some s) :
    ∃ n, s.2.sent = (List.range n).map (fun k => (.next (f k), due t0 seconds period k + d)) ∧ ∀ k, ((due t0 seconds period k + d : Nat) : Int) < m.vt.time → k < n := by
  refine hosted_calls K (by omega) hw hr hm (fun k => Nat.le_add_right ..) fun n k hk => ?_
  refine Work.handle_keep hw (fun _ _ => Nat.zero_le _) (fun i c hi => ?_) k k (due t0 seconds period k) (by simp [hk])
  have hin : i < n := by have := (List.getElem?_eq_some_iff.mp hi).1; simpa using this
  rw [List.getElem?_map, List.getElem?_range hin] at hi
  cases hi
  refine ⟨⟨_, rfl⟩, fun c' hc' => ?_⟩
  have hin : i + 1 < n := by have := (List.getElem?_eq_some_iff.mp hc').1; simpa using this
  rw [List.getElem?_map, List.getElem?_range hin] at hc'
  cases hc'
  simp only [due, Nat.add_mul, Nat.one_mul]
  omega

/-- C130: with functions that take `d ≥ p` in all: there is a result every `d`, so the one for `k` comes at `t0 + s + (k + 1)d`, which is `k(d - p) + d` after the interval
sent `k`. No value is lost. -/
theorem C130_interval_slow (K : h.Laws) (hp : 0 < period) (hw : ∀ v, ops.work v = (d, .ok (some (f v)))) (hd : period.toNat ≤ d) {hops ls m}
    (hr : LTS.run (Hosted.step h hops ((clocked true t0 seconds period).through (Work.stage (ops.handler (Handler.final fun _ _ => (0, none))) 0 gone))
      (host.through Work.host)) Hosted.init ls = some m) {s : State × Work.State Nat β Nat} (hm : m.sub = some s) :
    ∃ n, s.2.sent = (List.range n).map (fun k => (.next (f k), t0 + seconds.toNat + (k + 1) * d)) ∧
      ∀ k, ((t0 + seconds.toNat + (k + 1) * d : Nat) : Int) < m.vt.time → k < n := by
  have hmul : ∀ k, k * period.toNat ≤ k * d := fun k => Nat.mul_le_mul_left k hd
  refine hosted_calls K (by omega) hw hr hm (fun k => ?_) fun n k hk => ?_
  · have := hmul k
    simp only [due, Nat.add_mul, Nat.one_mul]
    omega
  · have key := Work.handle_fall hw (gone := gone) (cs := (List.range n).map fun k => (.next k, due t0 seconds period k)) (k := 0) (free := t0 + seconds.toNat) (fun i c hi => by
      have hin : i < n := by have := (List.getElem?_eq_some_iff.mp hi).1; simpa using this
      rw [List.getElem?_map, List.getElem?_range hin] at hi
      cases hi
      exact ⟨⟨_, rfl⟩, by have := hmul i; simp only [due]; omega⟩) k k (due t0 seconds period k) (by simp [hk])
    rw [← key]
    congr 1
    cases n with
    | zero => omega
    | succ n =>
      rw [List.range_succ_eq_map, List.map_cons, handle, handle]
      have : max (due t0 seconds period 0) 0 = max (due t0 seconds period 0) (t0 + seconds.toNat) := by simp only [due]; omega
      rw [this]

end Aio.Interval

namespace Aio.Work
open Spec.Queue

/-! ## Examples -/

section Examples
open Hosted (sent)

/-- A subject behind `map_async` of a function that takes its argument, then `filter_async` of one that takes 1; it sends 3 and 1 at time 0 and 2 at time 9. -/
abbrev hostedOps : Ops Nat Nat := .map (fun v => (v, .ok (2 * v))) (.filter (fun v => (1, .ok (decide (v ≠ 2)))) .nil)
abbrev hostedDemo := (Clocked.driven (α := Nat) 0).through (stage (hostedOps.handler (Handler.final fun _ _ => (0, none))) 0 1)
abbrev hostedHost := (Clocked.drivenHost (α := Nat)).through (host (α := Nat) (β := Nat) (σ := Nat))

example : sent (fun _ => 0) hostedDemo hostedHost
    ([some .subscribe, some (.outside (.inl (.next 3))), some (.outside (.inl (.next 1))), some (.loop (.callAt 9))] ++
      List.replicate 60 none ++ [some (.outside (.inl (.next 2)))] ++ List.replicate 30 none) =
    some (12, some [(.next 6, 4), (.next 4, 12)]) := by decide +kernel

/-- `interval(1, 2)` behind a function that takes 3: results at 4, 7, 10. -/
abbrev hostedSlow := (Interval.clocked true 0 1 2).through (stage (Ops.handler (.map (fun v => (3, .ok (10 * v))) .nil) (Handler.final fun _ _ => (0, none))) 0 0)

example : sent (fun _ => 1) hostedSlow (Interval.host.through (host (α := Nat) (β := Nat) (σ := Nat))) ([some .subscribe] ++ List.replicate 100 none) =
    some (7, some [(.next 0, 4), (.next 10, 7)]) := by decide +kernel

/-- The sum of 2 and 3, where adding takes as long as the number that is added: 2 is sent at time 0, and 3 and the completion, too. -/
abbrev hostedSum := reduced (Clocked.driven (α := Nat) 0) Ops.nil (fun (c : Nat) y => (y, .ok (c + y))) 0 0
abbrev hostedSumHost := ((Clocked.drivenHost (α := Nat)).through (host (α := Nat) (β := Nat) (σ := Nat × Nat))).operate (takeLast 1 : Operator Nat Nat).direct.slowProc [.inl (), .inr ()]
instance : DecidableEq (takeLast 1 : Operator Nat Nat).direct.compileSlow.SlowLab := inferInstanceAs (DecidableEq (Unit ⊕ Unit))

example : sent (fun _ => 0) hostedSum hostedSumHost
    ([some .subscribe, some (.outside (.inl (.inl (.next 2)))), some (.outside (.inl (.inl (.next 3)))), some (.outside (.inl (.inl .completed))), some (.loop (.callAt 9))] ++
      List.replicate 110 none) =
    some (9, some [(.next 5, 5), (.completed, 5)]) := by decide +kernel

end Examples
end Aio.Work
