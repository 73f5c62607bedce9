import Verif.Lemmas.HostedLoop
import Verif.Props.C117_Hosted
import Verif.Props.C125_Loop
/-!
# C138: `async for` on the `VirtualTimeEventLoop`
-/

namespace Aio.Loop
open Spec Spec.Timed Spec.Queue
open VirtualTime (Heap)
variable {S L T α β γ σ : Type} [DecidableEq T] {h : Heap} {q : Clocked S L α} {H : Host S L T} {m : Nat → β → Option Nat} {gone : Nat}

/-- C138: `async for y in pipe(source, map_async(f), ...): body` on the virtual loop, behind any source, whatever else runs on the loop: the loop has got exactly what `loop` says,
of everything before the present time. -/
theorem C138_exact (K : h.Laws) (hH : H.Lawful q) {ops : Ops α β} {hops ls x}
    (hr : LTS.run (Hosted.step h hops (q.through (stage (ops.handler Handler.iterator) () m gone)) (H.through host)) Hosted.init ls = some x)
    {s : S × State α β Unit} (hm : x.sub = some s) :
    s.2.sent <+: loop ops.work m gone 0 0 (q.now q.init) (q.calls s.1) ∧
    ∀ t : Nat, (t : Int) ≤ x.vt.time → before t s.2.sent = before t (loop ops.work m gone 0 0 (q.now q.init) (q.calls s.1)) := by
  obtain ⟨hn, ks, h1, _, _⟩ := Hosted.C117_schedule K (Host.through_lawful hH stage_lawful host_lawful) hr hm
  obtain ⟨g1, g2⟩ := C125_exact hH.clock h1
  refine ⟨g1, fun t ht => ?_⟩
  have hn : (q.now s.1 : Int) = x.vt.time := hn
  have cut : ∀ cs : List (Notif β × Nat), before t cs = before t (before (q.now s.1) cs) := by
    intro cs
    simp only [before, List.filter_filter]
    congr 1
    funext c
    by_cases hc : c.2 < t
    · simp [hc]; omega
    · simp [hc]
  rw [cut s.2.sent, cut (loop ..)]
  exact congrArg _ g2

/-- C138: a task that is resumed has something to do; none spins. -/
theorem C138_no_spin (K : h.Laws) (hH : H.Lawful q) {ops : Ops α β} {hops ls x}
    (hr : LTS.run (Hosted.step h hops (q.through (stage (ops.handler Handler.iterator) () m gone)) (H.through host)) Hosted.init ls = some x)
    {s : S × State α β Unit} (hm : x.sub = some s) (n : Task) (hn : host.need s.2 n ≠ .nothing) : host.turn s.2 n ≠ [] := by
  obtain ⟨_, ks, h1, _, _⟩ := Hosted.C117_schedule K (Host.through_lawful hH stage_lawful host_lawful) hr hm
  obtain ⟨-, ms, h1, -⟩ := Clocked.split hH.clock stage_reads h1
  cases n with
  | worker => exact can_worker h1 hn
  | consumer => exact can_consumer h1 hn

theorem loop_length {w : α → Nat × Except Err (Option β)} {f : α → β} {a d : Nat} (hw : ∀ v, w v = (a, .ok (some (f v)))) : ∀ (vs : List (α × Nat)) (i free r : Nat),
    (loop w (fun _ _ => some d) gone i free r (vs.map fun x => (.next x.1, x.2))).length = vs.length
  | [], _, _, _ => rfl
  | x :: vs, i, free, r => by
    rw [List.map_cons, loop, hw]
    exact congrArg Nat.succ (loop_length hw vs _ _ _)

theorem loop_fall {w : α → Nat × Except Err (Option β)} {f : α → β} {a d : Nat} (hw : ∀ v, w v = (a, .ok (some (f v)))) :
    ∀ {cs : List (Notif α × Nat)} {k free r t : Nat}, (∀ c ∈ cs.head?, max (max c.2 free + a) r = t) →
    (∀ (i : Nat) c, cs[i]? = some c → (∃ v, c.1 = .next v) ∧ c.2 + a ≤ t + i * max a d) →
    ∀ (i : Nat) v b, cs[i]? = some (.next v, b) → (loop w (fun _ _ => some d) gone k free r cs)[i]? = some (.next (f v), t + i * max a d) := by
  intro cs
  induction cs with
  | nil => intro k free r t _ _ i v b h; cases h
  | cons x cs ih =>
    intro k free r t h1 h2 i v b hi
    obtain ⟨x, b0⟩ := x
    have hb : max (max b0 free + a) r = t := h1 (x, b0) rfl
    obtain ⟨⟨u, hu⟩, -⟩ := h2 0 (x, b0) rfl
    dsimp only at hu
    subst hu
    rw [loop, hw]
    dsimp only
    rw [hb]
    cases i with
    | zero => cases hi; simp
    | succ i =>
      rw [List.getElem?_cons_succ] at hi ⊢
      have := ih (k := k + 1) (free := t) (r := t + d) (t := t + max a d) ?_ ?_ i v b hi
      · rw [this, Nat.add_mul, Nat.one_mul]; congr 2; omega
      · intro c hc
        cases cs with
        | nil => cases hc
        | cons y cs =>
          cases hc
          have := (h2 1 c rfl).2
          omega
      · intro i c hc
        obtain ⟨g1, g2⟩ := h2 (i + 1) c hc
        refine ⟨g1, ?_⟩
        rw [Nat.add_mul, Nat.one_mul] at g2
        omega

end Aio.Loop

namespace Aio.Interval
open Spec Spec.Timed Spec.Queue
open VirtualTime (Heap)
variable {h : Heap} {t0 : Nat} {seconds period : Int} {β M P N : Type} {ops : Ops Nat β} {f : Nat → β} {a d gone : Nat}

theorem through_own {O : Stage.Host P M N} {ks : List (Time (Label ⊕ M))} (ho : ∀ l, Time.act l ∈ ks → (host.through O).outside l = true ∨ ∃ s t, l ∈ (host.through O).turn s t) :
    Time.act (.inl .dispose) ∉ ks ∧ ∀ e, Time.act (.inl (.raise e)) ∉ ks := by
  have key : ∀ l, Time.act (.inl l) ∈ ks → l ≠ .dispose ∧ ∀ e, l ≠ .raise e := by
    intro l h
    rcases ho _ h with h | ⟨s, t, h⟩
    · cases h
    · cases t with
      | inl t =>
        simp only [Host.through, List.mem_map] at h
        obtain ⟨x, hx, he⟩ := h
        cases he
        simp only [host] at hx
        split at hx <;> simp at hx <;> subst hx <;> exact ⟨by simp, by simp⟩
      | inr n => simp [Host.through] at h
  exact ⟨fun h => (key _ h).1 rfl, fun e h => (key _ h).2 e rfl⟩

private theorem loop_calls (K : h.Laws) (hp : period ≠ 0) (hw : ∀ v, ops.work v = (a, .ok (some (f v)))) {hops ls m}
    (hr : LTS.run (Hosted.step h hops ((clocked true t0 seconds period).through (Loop.stage (ops.handler Handler.iterator) () (fun _ _ => some d) gone))
      (host.through Loop.host)) Hosted.init ls = some m) {s : State × Loop.State Nat β Unit} (hm : m.sub = some s) {g : Nat → Nat} (hle : ∀ k, due t0 seconds period k ≤ g k)
    (hg : ∀ n k, k < n → (loop ops.work (fun _ _ => some d) gone 0 0 t0 ((List.range n).map fun k => (.next k, due t0 seconds period k)))[k]? = some (.next (f k), g k)) :
    ∃ n, s.2.sent = (List.range n).map (fun k => (.next (f k), g k)) ∧ ∀ k, (g k : Int) < m.vt.time → k < n := by
  obtain ⟨hn, ks, h1, _, h3⟩ := Hosted.C117_schedule K (Host.through_lawful host_lawful Loop.stage_lawful Loop.host_lawful) hr hm
  have hn : (s.1.now : Int) = m.vt.time := hn
  have hl := clocked_lawful true t0 seconds period
  obtain ⟨n, h4, h5⟩ := clocked_exact hp (Clocked.clocks hl Loop.stage_lawful h1).1
  have eq : loop ops.work (fun _ _ => some d) gone 0 0 t0 ((clocked true t0 seconds period).calls s.1) = (List.range n).map (fun k => (.next (f k), g k)) := by
    rw [h4]
    apply List.ext_getElem?
    intro k
    by_cases hk : k < n
    · rw [hg n k hk]; simp [hk]
    · have hlen := Loop.loop_length (d := d) hw (gone := gone) ((List.range n).map fun k => (k, due t0 seconds period k)) 0 0 t0
      rw [List.map_map] at hlen
      have hlen : (loop ops.work (fun _ _ => some d) gone 0 0 t0 ((List.range n).map fun k => (.next k, due t0 seconds period k))).length = _ := hlen
      rw [List.getElem?_eq_none (Nat.le_trans (Nat.le_of_eq hlen) (by simpa using hk)), List.getElem?_eq_none (by simpa using hk)]
  obtain ⟨g1, -⟩ := Loop.C125_exact hl h1
  have g1 : s.2.sent <+: loop ops.work (fun _ _ => some d) gone 0 0 t0 ((clocked true t0 seconds period).calls s.1) := g1
  rw [eq] at g1
  refine ⟨s.2.sent.length, ?_, fun k hk => ?_⟩
  · have := g1.length_le
    simp only [List.length_map, List.length_range] at this
    have e := List.prefix_iff_eq_take.mp g1
    rw [← List.map_take, List.take_range, Nat.min_eq_left this] at e
    exact e
  · have hkn : k < n := by
      refine h5 ?_ ?_ k (by have := hle k; omega)
      · intro hx
        obtain ⟨x, hx, he⟩ := List.mem_filterMap.mp hx
        split at he <;> cases he
        exact (through_own h3).1 hx
      · intro e hx
        obtain ⟨x, hx, he⟩ := List.mem_filterMap.mp hx
        split at he <;> cases he
        exact (through_own h3).2 e hx
    have hi := Loop.index hl h1 (i := k) (c := (.next (f k), g k)) (by rw [show (clocked true t0 seconds period).now (clocked true t0 seconds period).init = t0 from rfl, eq]; simp [hkn]) (show g k < s.1.now by omega)
    exact (List.getElem?_eq_some_iff.mp hi).1

/-- C138: `async for y in pipe(interval(s, p), skip(0), map_async(f), ...): body` on the virtual loop, with functions that take `a ≤ p` in all and a body that takes `d ≤ p`: the body begins
for `k` exactly at `t0 + s + kp + a`, even if `a + d > p`. -/
theorem C138_interval (K : h.Laws) (hp : 0 < period) (hw : ∀ v, ops.work v = (a, .ok (some (f v)))) (ha : a ≤ period.toNat) (hd : d ≤ period.toNat) {hops ls m}
    (hr : LTS.run (Hosted.step h hops ((clocked true t0 seconds period).through (Loop.stage (ops.handler Handler.iterator) () (fun _ _ => some d) gone))
      (host.through Loop.host)) Hosted.init ls = some m) {s : State × Loop.State Nat β Unit} (hm : m.sub = some s) :
    ∃ n, s.2.sent = (List.range n).map (fun k => (.next (f k), due t0 seconds period k + a)) ∧ ∀ k, ((due t0 seconds period k + a : Nat) : Int) < m.vt.time → k < n := by
  refine loop_calls K (by omega) hw hr hm (fun k => Nat.le_add_right ..) fun n k hk => ?_
  refine Loop.loop_keep hw ha hd (fun c hc => ?_) (fun i c hi => ?_) k k (due t0 seconds period k) (by simp [hk])
  · cases n with
    | zero => cases hc
    | succ n => rw [List.range_succ_eq_map] at hc; cases hc; simp only [due]; omega
  · have hin : i < n := by have := (List.getElem?_eq_some_iff.mp hi).1; simpa using this
    rw [List.getElem?_map, List.getElem?_range hin] at hi
    cases hi
    refine ⟨⟨_, rfl⟩, fun c' hc' => ?_⟩
    have hin : i + 1 < n := by have := (List.getElem?_eq_some_iff.mp hc').1; simpa using this
    rw [List.getElem?_map, List.getElem?_range hin] at hc'
    cases hc'
    simp only [due, Nat.add_mul, Nat.one_mul]
    omega

/-- C138: if the functions take `a` and the body `d`, one of them at least `p`: the body begins for `k` exactly at `t0 + s + a + k * max(a, d)`: nothing is lost and the lag grows. -/
theorem C138_interval_slow (K : h.Laws) (hp : 0 < period) (hw : ∀ v, ops.work v = (a, .ok (some (f v)))) (hd : period.toNat ≤ max a d) {hops ls m}
    (hr : LTS.run (Hosted.step h hops ((clocked true t0 seconds period).through (Loop.stage (ops.handler Handler.iterator) () (fun _ _ => some d) gone))
      (host.through Loop.host)) Hosted.init ls = some m) {s : State × Loop.State Nat β Unit} (hm : m.sub = some s) :
    ∃ n, s.2.sent = (List.range n).map (fun k => (.next (f k), t0 + seconds.toNat + a + k * max a d)) ∧
      ∀ k, ((t0 + seconds.toNat + a + k * max a d : Nat) : Int) < m.vt.time → k < n := by
  have hmul : ∀ k, k * period.toNat ≤ k * max a d := fun k => Nat.mul_le_mul_left k hd
  refine loop_calls K (by omega) hw hr hm (fun k => by have := hmul k; simp only [due]; omega) fun n k hk => ?_
  refine Loop.loop_fall hw (t := t0 + seconds.toNat + a) (fun c hc => ?_) (fun i c hi => ?_) k k (due t0 seconds period k) (by simp [hk])
  · cases n with
    | zero => cases hc
    | succ n => rw [List.range_succ_eq_map] at hc; cases hc; simp only [due]; omega
  · have hin : i < n := by have := (List.getElem?_eq_some_iff.mp hi).1; simpa using this
    rw [List.getElem?_map, List.getElem?_range hin] at hi
    cases hi
    exact ⟨⟨_, rfl⟩, by have := hmul i; simp only [due]; omega⟩

end Aio.Interval

namespace Aio.Loop

/-! ## Examples -/

section Examples
open Hosted (sent)

/-- A subject behind a function that takes its argument; the body takes 3, 4, 5. The subject sends 2 and 1 at time 0, 2 and the completion at time 9. -/
abbrev hostedOps : Ops Nat Nat := .map (fun v => (v, .ok (2 * v))) .nil
abbrev hostedDemo := (Clocked.driven (α := Nat) 0).through (stage (hostedOps.handler Handler.iterator) () (fun i _ => some (i + 3)) 0)
abbrev hostedHost := (Clocked.drivenHost (α := Nat)).through (host (α := Nat) (β := Nat) (σ := Unit))
abbrev hostedCalls : List (Option (Hosted.Label (Notif Nat ⊕ Label Nat))) :=
  [some .subscribe, some (.outside (.inl (.next 2))), some (.outside (.inl (.next 1))), some (.loop (.callAt 9)), some (.loop (.callAt 30))] ++
    List.replicate 61 none ++ [some (.outside (.inl (.next 2))), some (.outside (.inl .completed))] ++ List.replicate 90 none

example : sent (fun _ => 0) hostedDemo hostedHost hostedCalls = some (30, some [(.next 4, 2), (.next 2, 5), (.next 4, 11), (.completed, 16)]) := by decide +kernel

/-- `interval(1, 2)` behind a function that takes 1, with a body that takes 2. -/
abbrev hostedKeep := (Interval.clocked true 0 1 2).through (stage (Ops.handler (.map (fun v => (1, .ok (10 * v))) .nil) Handler.iterator) () (fun _ _ => some 2) 0)

example : sent (fun _ => 1) hostedKeep (Interval.host.through (host (α := Nat) (β := Nat) (σ := Unit))) ([some .subscribe] ++ List.replicate 150 none) =
    some (6, some [(.next 0, 2), (.next 10, 4)]) := by decide +kernel

end Examples
end Aio.Loop
