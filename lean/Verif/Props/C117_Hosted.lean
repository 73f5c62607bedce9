import Verif.Lemmas.HostedParts
import Verif.Lemmas.Heapq
import Verif.Props.C112_114_Timers
/-!
# C117: on the `VirtualTimeEventLoop` everything happens exactly on time

The theorems of C25, C60 and C107 to C116 with exact times assume a loop that is not overloaded. Here it is shown that
`VirtualTimeEventLoop` is such a loop, whatever else runs on it.
-/

namespace Aio.Hosted
open Spec Spec.Timed Spec.Debounce
open VirtualTime (Heap heapq heapqLaws)
variable {S S₁ S₂ L L₁ L₂ T T₁ T₂ P W α β γ : Type} [DecidableEq T]
variable {h : Heap} {q : Clocked S L α} {H : Host S L T} {hops : T → Nat}

/-- C117: the clock of the loop advances only when no task of the pipeline can go on, and never beyond the end of a sleep of one of them. -/
theorem C117_calm (K : h.Laws) (hl : H.Lawful q) {ls : List (Label L)} {m m' : State S T} {l : Label L}
    (hr : LTS.run (step h hops q H) init ls = some m) (hs : step h hops q H m l = some m') {s : S} (hm : m.sub = some s)
    (ht : m'.vt.time ≠ m.vt.time) : ∀ t, H.need s t ≠ .soon ∧ ∀ w, H.need s t = .until w → m'.vt.time ≤ w := by
  obtain ⟨I, R⟩ := good K hl hr
  have I' := (good_step hl ⟨I, R⟩ hs).1
  have key : ∀ (a : VirtualTime.Label) v, VirtualTime.step h m.vt a = some v → v.time ≠ m.vt.time →
      ∀ t, H.need s t ≠ .soon ∧ ∀ w, H.need s t = .until w → v.time ≤ w := by
    intro a v hv ht t
    have hc := I.calm hv ht hm t
    have := I.clock s hm
    have := TestSubject.vt_time hv
    constructor
    · intro hn; rw [hn] at hc; exact hc
    · intro w hn; rw [hn] at hc; dsimp only at hc; omega
  cases l with
  | subscribe =>
    simp only [step] at hs
    split at hs
    · next hc => rw [hm] at hc; simp at hc
    · cases hs
  | outside a =>
    simp only [step] at hs
    split at hs
    · cases hs
    · split at hs
      · split at hs
        · cases hs
        · exact absurd (askAll_frame hs).2 ht
      · cases hs
  | loop a =>
    simp only [step] at hs
    split at hs
    · split at hs
      · cases hs
      · next v hv =>
        split at hs
        · cases hs; exact key a v hv ht
        · split at hs
          · cases hs; exact key a v hv ht
          · obtain ⟨s', hp, rfl⟩ := Option.map_eq_some_iff.mp hs
            exact key a v hv ht
    · cases hs
  | next more =>
    -- starting a callback takes no time
    exfalso
    simp only [step] at hs
    split at hs
    · next v i due rest hv hrd =>
      have hvt : v.time = m.vt.time := by
        simp only [VirtualTime.step] at hv
        split at hv
        · split at hv <;> cases hv <;> rfl
        · cases hv
      have soon : ∀ {m1 : State S T} {t k}, callSoon h m1 t k = some m' → m'.vt.time = m1.vt.time := by
        intro m1 t k hc
        unfold callSoon at hc
        obtain ⟨_, hv, rfl⟩ := Option.map_eq_some_iff.mp hc
        exact (TestSubject.soon_spec hv).2.2.2.2
      split at hs
      · split at hs
        · split at hs
          rotate_left
          · cases hs; exact ht hvt
          unfold runTask at hs
          split at hs
          · cases hs
          · exact ht ((soon hs).trans hvt)
          · exact ht ((soon hs).trans hvt)
          · split at hs
            · cases hs
            · split at hs
              · cases hs
              · exact ht ((askAll_frame hs).2.trans hvt)
        · cases hs; exact ht hvt
      · cases hs; exact ht hvt
    · cases hs

/-- C117: whatever happens on the loop, what happens to the pipeline is a schedule of the pipeline alone, on a clock that shows the time of the
loop, in which time passes only when no task can go on. -/
theorem C117_schedule (K : h.Laws) (hl : H.Lawful q) {ls : List (Label L)} {m : State S T} (hr : LTS.run (step h hops q H) init ls = some m)
    {s : S} (hm : m.sub = some s) : (q.now s : Int) = m.vt.time ∧ ∃ ks, LTS.run q.step q.init ks = some s ∧
      (q.Prompt (fun s => ∀ t, H.need s t ≠ .soon) ks) ∧ ∀ l, Time.act l ∈ ks → H.outside l = true ∨ ∃ s t, l ∈ H.turn s t := by
  obtain ⟨I, R⟩ := good K hl hr
  obtain ⟨ks, h1, h2, h3⟩ := R s hm
  refine ⟨I.clock s hm, ks, h1, ?_, fun l h => (h3 l h).imp (·.2) id⟩
  intro a d b s he ha t hn
  have := h2 a d b s he ha t
  rw [hn] at this; exact this

/-- C117: the pipeline does not hold up the loop. -/
theorem C117_progress (K : h.Laws) (hl : H.Lawful q) {ls : List (Label L)} {m : State S T}
    (hr : LTS.run (step h hops q H) init ls = some m) {l : VirtualTime.Label} {v : VirtualTime.State} (hv : VirtualTime.step h m.vt l = some v)
    (hc : ∀ i t, (m.status t).handle = some i → l ≠ .cancel i) (more : Nat) :
    ∃ m', step h hops q H m (if l = .next then .next more else .loop l) = some m' := progress K hl hr hv hc more

/-- C117: when no callback is due, no task could go on. -/
theorem C117_rest (K : h.Laws) (hl : H.Lawful q) {ls : List (Label L)} {m : State S T} (hr : LTS.run (step h hops q H) init ls = some m)
    {s : S} (hm : m.sub = some s) (h1 : m.vt.ready = []) :
    (∀ t, H.need s t ≠ .soon) ∧ ∀ t w, H.need s t = .until w → ∃ i, (i, (w : Int)) ∈ m.vt.scheduled ∧ i ∉ m.vt.cancelled := by
  obtain ⟨I, _⟩ := good K hl hr
  have place : ∀ t i, (m.status t).handle = some i → i ∈ m.vt.scheduled.map (·.1) ∧ i ∉ m.vt.cancelled := by
    intro t i hi
    obtain ⟨a, b, d⟩ := I.held t i hi
    rcases I.vt.placed i (I.owners i t a) with h | h | h | h
    · exact absurd h d
    · exact ⟨h, d⟩
    · rw [h1] at h; cases h
    · exact absurd h b
  have noready : ∀ t k i, m.status t ≠ .ready k i := by
    intro t k i hst
    obtain ⟨c, hc⟩ := I.ready t k i hst
    obtain ⟨y, hy, rfl⟩ := List.mem_map.mp (place t i (by rw [hst]; rfl)).1
    obtain ⟨c', hc', _⟩ := I.vt.scheduled y hy
    rw [hc] at hc'; cases hc'
  constructor
  · intro t hn
    cases hst : m.status t with
    | idle => have := (I.idle s t hm hst).resolve_right id; rw [hn] at this; cases this
    | ready k i => exact noready t k i hst
    | sleeping i =>
      obtain ⟨w, s', c, a, b, _⟩ := I.sleeping t i hst
      rw [hm] at a; cases a; rw [hn] at b; cases b
  · intro t w hn
    cases hst : m.status t with
    | idle => have := (I.idle s t hm hst).resolve_right id; rw [hn] at this; cases this
    | ready k i => exact absurd hst (noready t k i)
    | sleeping i =>
      obtain ⟨w', s', c, a, b, hc⟩ := I.sleeping t i hst
      rw [hm] at a; cases a; rw [hn] at b; cases b
      obtain ⟨h2, h3⟩ := place t i (by rw [hst]; rfl)
      obtain ⟨y, hy, rfl⟩ := List.mem_map.mp h2
      obtain ⟨c', hc', _⟩ := I.vt.scheduled y hy
      rw [hc] at hc'
      have : (w : Int) = y.2 := by simpa using congrArg (·.map (·.1)) hc'
      exact ⟨y.1, by rw [this]; exact hy, h3⟩

end Aio.Hosted

namespace Aio
open Spec Spec.Timed Spec.Debounce
open VirtualTime (Heap)
variable {S S₁ S₂ L L₁ L₂ T T₁ T₂ P W α β γ : Type} [DecidableEq T] [DecidableEq T₁] [DecidableEq T₂] [DecidableEq W] {h : Heap}

/-! ## intervals and timers -/

namespace Interval
variable {t0 : Nat} {seconds period : Int}

private theorem own {l : Label} (ho : host.Own l) : l = .start ∨ l = .wake ∨ l = .ret := by
  rcases ho with h | ⟨s1, t, h⟩
  · cases h
  · simp only [host] at h
    split at h <;> simp at h <;> simp [h]

private theorem calm_own {ks : List (Time Label)} (ho : ∀ l, Time.act l ∈ ks → host.Own l) :
    Time.act .dispose ∉ ks ∧ ∀ e, Time.act (.raise e) ∉ ks := by
  constructor
  · intro h; have := own (ho _ h); simp at this
  · intro e h; have := own (ho _ h); simp at this

/-- C117: on the virtual loop, whatever else runs on it, `interval(s, p)` subscribed at `t0` sends `k` exactly at `t0 + s + kp`, and everything
that was due before the present time of the loop has been sent. -/
theorem C117_interval (K : h.Laws) (hp : period ≠ 0) {hops ls m} (hr : LTS.run (Hosted.step h hops (clocked true t0 seconds period) host) Hosted.init ls = some m)
    {s : State} (hm : m.sub = some s) :
    ∃ n, (clocked true t0 seconds period).calls s = (List.range n).map (fun k => (.next k, due t0 seconds period k)) ∧
      ∀ k, (due t0 seconds period k : Int) < m.vt.time → k < n := by
  obtain ⟨hn, ks, h1, _, h3⟩ := Hosted.C117_schedule K host_lawful hr hm
  obtain ⟨n, h4, h5⟩ := clocked_exact hp h1
  refine ⟨n, h4, fun k hk => h5 (calm_own h3).1 (calm_own h3).2 k ?_⟩
  have : (s.now : Int) = m.vt.time := hn
  omega

/-- C117: and `timer(s)` sends 0 and completes exactly at `t0 + s`. -/
theorem C117_timer (K : h.Laws) {hops ls m} (hr : LTS.run (Hosted.step h hops (clocked true t0 seconds 0) host) Hosted.init ls = some m)
    {s : State} (hm : m.sub = some s) :
    (clocked true t0 seconds 0).calls s <+: [(.next 0, t0 + seconds.toNat), (.completed, t0 + seconds.toNat)] ∧
    ((t0 + seconds.toNat : Nat) < m.vt.time →
      (clocked true t0 seconds 0).calls s = [(.next 0, t0 + seconds.toNat), (.completed, t0 + seconds.toNat)]) := by
  obtain ⟨hn, ks, h1, _, h3⟩ := Hosted.C117_schedule K host_lawful hr hm
  refine ⟨(timer_exact h1).1, fun hk => timer_done h1 (calm_own h3).1 (calm_own h3).2 ?_⟩
  have : (s.now : Int) = m.vt.time := hn
  omega

/-- C117: the task of a `timer` that has sent its value and its completion needs one more turn of the loop, and is then gone: it does not hold up the clock. -/
theorem C117_timer_ends (prompt : Bool) {s : State} (hs : s.pc = .closing) (hc : s.cancelling = false) :
    ∃ s', LTS.run (clocked prompt t0 seconds period).act s (host.turn s ()) = some s' ∧ host.need s' () = .nothing ∧ s'.calls = s.calls := by
  obtain ⟨now, pc, c, calls⟩ := s
  subst hs
  subst hc
  exact ⟨_, rfl, rfl, rfl⟩

end Interval

/-! ## debounce -/

namespace Debounce

private theorem through_own {q : Clocked S L α} {H : Host S L T} {ks : List (Time (L ⊕ Label α))}
    (ho : ∀ l, Time.act l ∈ ks → (H.through (host (α := α))).Own l) : Time.act (.inr .dispose) ∉ ks := by
  intro h
  rcases ho _ h with h | ⟨s, t, h⟩
  · cases h
  · cases t with
    | inl t => simp [Host.through] at h
    | inr n =>
      simp only [Host.through, List.mem_map] at h
      obtain ⟨x, hx, he⟩ := h
      cases he
      cases n with
      | none => simp only [host] at hx; split at hx <;> simp at hx
      | some k => simp only [host] at hx; split at hx <;> simp at hx

/-- C117: on the virtual loop, behind any source, `debounce(d)` sends those values of the source that nothing follows within `d`, exactly `d` after
the source sent them. -/
theorem C117_debounce (K : h.Laws) {q : Clocked S L α} {H : Host S L T} (hH : H.Lawful q) (d : Nat) {hops ls m}
    (hr : LTS.run (Hosted.step h hops (q.through (stage true d)) (H.through host)) Hosted.init ls = some m) {s : S × State α} (hm : m.sub = some s) :
    ∃ ks, Debounced d (q.calls s.1) ks (timedValues (seen (s.2.posted))) ∧
      (∀ (p k : Nat) (v : α) (t tk : Nat), ks[p]? = some k → (timedValues (seen s.2.posted))[p]? = some (v, t) →
        (q.calls s.1)[k]? = some (.next v, tk) → t = tk + d) ∧
      ∀ (k : Nat) (v : α) (tk : Nat), (q.calls s.1)[k]? = some (.next v, tk) → ((tk + d : Nat) : Int) < m.vt.time →
        (∀ (j : Nat) (n : Notif α) (tj : Nat), (q.calls s.1)[j]? = some (n, tj) → k < j ∨ n.isTerminal = true → tk + d < tj) →
        ∃ p : Nat, ks[p]? = some k ∧ (timedValues (seen s.2.posted))[p]? = some (v, tk + d) := by
  have hl := Host.through_lawful hH (stage_lawful true d) (host_lawful d)
  obtain ⟨hn, ms, h1, _, h3⟩ := Hosted.C117_schedule K hl hr hm
  obtain ⟨ks, g1, g2, g3⟩ := C108_exact hH.clock d h1
  refine ⟨ks, g1, g2, fun k v tk a b => g3 (through_own (q := q) h3) k v tk a ?_⟩
  have : (q.now s.1 : Int) = m.vt.time := hn
  omega

end Debounce

namespace Interval
variable {t0 : Nat} {seconds period : Int}

private theorem left_own {ks : List (Time (Label ⊕ Debounce.Label Nat))} (ho : ∀ l, Time.act l ∈ ks → (host.through (Debounce.host (α := Nat))).Own l) :
    ∀ l, Time.act (.inl l) ∈ ks → host.Own l := by
  intro l h
  rcases ho _ h with h | ⟨s, t, h⟩
  · exact .inl h
  · cases t with
    | inl t => simp only [Host.through, List.mem_map] at h; obtain ⟨x, hx, he⟩ := h; cases he; exact .inr ⟨s.1, t, hx⟩
    | inr n => simp [Host.through] at h

/-- C117: `pipe(interval(s, p), debounce(d))` with `d < p` sends every `k` exactly at `t0 + s + kp + d`. -/
theorem C117_interval_debounce (K : h.Laws) (hp : 0 < period) (d : Nat) (hd : d < period.toNat) {hops ls m}
    (hr : LTS.run (Hosted.step h hops ((clocked true t0 seconds period).through (Debounce.stage true d)) (host.through Debounce.host)) Hosted.init ls = some m)
    {s : State × Debounce.State Nat} (hm : m.sub = some s) :
    ∃ n, timedValues (seen s.2.posted) = (List.range n).map (fun k => (k, due t0 seconds period k + d)) ∧
      ∀ k, ((due t0 seconds period k + d : Nat) : Int) < m.vt.time → k < n := by
  have hl := Host.through_lawful (host_lawful (t0 := t0) (seconds := seconds) (period := period)) (Debounce.stage_lawful true d) (Debounce.host_lawful d)
  obtain ⟨hn, ms, h1, _, h3⟩ := Hosted.C117_schedule K hl hr hm
  obtain ⟨n, g1, g2⟩ := C108_interval_slow hp d hd h1 (Debounce.through_own (q := clocked true t0 seconds period) h3)
  have hl := left_own h3
  refine ⟨n, g1, fun k hk => g2 ?_ ?_ k ?_⟩
  · intro h; have := own (hl _ h); simp at this
  · intro e h; have := own (hl _ h); simp at this
  · have : (s.1.now : Int) = m.vt.time := hn
    omega

end Interval

/-! ## operators without timers -/

/-- C117: on the virtual loop, behind any source, operators without timers take no time: at every time in the past the observer had got what they make of what
the source had sent by then; also now, when no callback is due. -/
theorem C117_operator (K : h.Laws) {q : Clocked S L α} {H : Host S L T} (hH : H.Lawful q) {p : Proc P W (Notif α) (Notif β)} {workers : List W}
    (hw : ∀ w, w ∈ workers) {dom : List (Notif α) → Prop} {G : Story α → Story β} (hG : Delivers p dom G) (h0 : (G ⟨[], .running⟩).events = [])
    (hd : ∀ ls s, LTS.run q.step q.init ls = some s → dom ((q.calls s).map (·.1))) {hops ls m}
    (hr : LTS.run (Hosted.step h hops (q.operate p) (H.operate p workers)) Hosted.init ls = some m) {s} (hm : m.sub = some s) :
    InTime s.2.sent ∧ (∀ t : Nat, (t : Int) < m.vt.time → upto t s.2.sent = (G (story (upto t (q.calls s.1)))).events) ∧
    (m.vt.ready = [] → ∀ t, upto t s.2.sent = (G (story (upto t (q.calls s.1)))).events) := by
  have hl := Host.operate_lawful (p := p) hH hw
  obtain ⟨hn, ks, h1, h2, h3⟩ := Hosted.C117_schedule K hl hr hm
  have quiet : ∀ s : S × Timed P (Notif α) (Notif β), (∀ t, (H.operate p workers).need s t ≠ .soon) → p.Quiescent s.2.ps := by
    intro s hs w
    have := hs (.inr w)
    simp only [Host.operate] at this
    cases hc : p.step s.2.ps w with
    | none => rfl
    | some x => simp [hc] at this
  obtain ⟨g1, g2, g3⟩ := C109_operator hH.clock hG h0 hd h1 (fun a d b s he ha => quiet s (h2 a d b s he ha))
  refine ⟨g1, fun t ht => g2 t ?_, fun he => g3 (quiet s (Hosted.C117_rest K hl hr hm he).1)⟩
  have : (q.now s.1 : Int) = m.vt.time := hn
  omega

/-- C117: the same for operators with two sources. -/
theorem C117_two (K : h.Laws) {q₁ : Clocked S₁ L₁ α} {q₂ : Clocked S₂ L₂ β} {H₁ : Host S₁ L₁ T₁} {H₂ : Host S₂ L₂ T₂} (hH₁ : H₁.Lawful q₁) (hH₂ : H₂.Lawful q₂)
    (h0 : q₁.now q₁.init = q₂.now q₂.init) {p : Proc P W (Notif α ⊕ Notif β) (Notif γ)} {workers : List W} (hw : ∀ w, w ∈ workers)
    {F : List (Notif α ⊕ Notif β) → Story γ} (hF : DeliversFrom p F) (hF0 : (F []).events = []) {hops ls m}
    (hr : LTS.run (Hosted.step h hops (q₁.two q₂ p) (H₁.two H₂ p workers)) Hosted.init ls = some m) {s} (hm : m.sub = some s) :
    ∃ got : List ((Notif α ⊕ Notif β) × Nat), InTime got ∧ Timed.lefts got = q₁.calls s.1 ∧ Timed.rights got = q₂.calls s.2.1 ∧ InTime s.2.2.sent ∧
      (∀ t : Nat, (t : Int) < m.vt.time → upto t s.2.2.sent = (F (upto t got)).events) ∧
      (m.vt.ready = [] → ∀ t, upto t s.2.2.sent = (F (upto t got)).events) := by
  have hl := Host.two_lawful (p := p) hH₁ hH₂ h0 hw
  obtain ⟨hn, ks, h1, h2, h3⟩ := Hosted.C117_schedule K hl hr hm
  have quiet : ∀ s : S₁ × S₂ × Timed P (Notif α ⊕ Notif β) (Notif γ), (∀ t, (H₁.two H₂ p workers).need s t ≠ .soon) → p.Quiescent s.2.2.ps := by
    intro s hs w
    have := hs (.inr (.inr w))
    simp only [Host.two] at this
    cases hc : p.step s.2.2.ps w with
    | none => rfl
    | some x => simp [hc] at this
  obtain ⟨got, g1, g2, g3, g4, g5, g6⟩ := C109_two hH₁.clock hH₂.clock h0 hF hF0 h1 (fun a d b s he ha => quiet s (h2 a d b s he ha))
  refine ⟨got, g1, g2, g3, g4, fun t ht => g5 t ?_, fun he => g6 (quiet s (Hosted.C117_rest K hl hr hm he).1)⟩
  have : (q₁.now s.1 : Int) = m.vt.time := hn
  omega

namespace Interval
variable {t0 : Nat} {seconds period : Int}

/-- C117: `pipe(interval(s, p), take(n))` on the virtual loop: once the time of the last value is past, the observer has got the values
0, ..., n - 1, each when it was due, and the completion together with the last one, and nothing else. -/
theorem C117_interval_take (n : Nat) [DecidableEq (takeOp (n : Int) : Operator Nat Nat).direct.compileSlow.SlowLab] (K : h.Laws) (hp : period ≠ 0) (hn : 0 < n) {workers} (hw : ∀ w, w ∈ workers) {hops ls m}
    (hr : LTS.run (Hosted.step h hops ((clocked true t0 seconds period).operate (takeOp (n : Int) : Operator Nat Nat).direct.slowProc)
      (host.operate (takeOp (n : Int) : Operator Nat Nat).direct.slowProc workers)) Hosted.init ls = some m) {s} (hm : m.sub = some s)
    (he : m.vt.ready = []) (hd : (due t0 seconds period (n - 1) : Int) < m.vt.time) :
    s.2.sent = (List.range n).map (fun k => (.next k, due t0 seconds period k)) ++ [(.completed, due t0 seconds period (n - 1))] := by
  have hl := Host.operate_lawful (p := (takeOp (n : Int) : Operator Nat Nat).direct.slowProc) (host_lawful (t0 := t0) (seconds := seconds) (period := period)) hw
  obtain ⟨hc, ks, h1, h2, h3⟩ := Hosted.C117_schedule K hl hr hm
  have quiet : ∀ s : State × Timed _ _ _, (∀ t, (host.operate (takeOp (n : Int) : Operator Nat Nat).direct.slowProc workers).need s t ≠ .soon) →
      (takeOp (n : Int) : Operator Nat Nat).direct.slowProc.Quiescent s.2.ps := by
    intro s hs w
    have := hs (.inr w)
    simp only [Host.operate] at this
    cases hc : (takeOp (n : Int) : Operator Nat Nat).direct.slowProc.step s.2.ps w with
    | none => rfl
    | some x => simp [hc] at this
  obtain ⟨k, h4, h5⟩ := clocked_exact hp (Clocked.operate_source (clocked_lawful true t0 seconds period) h1).1
  have hown : ∀ l, Time.act l ∈ Clocked.sources ks → host.Own l := by
    intro l h
    obtain ⟨x, hx, hxe⟩ := List.mem_filterMap.mp h
    have hx : Time.act (Sum.inl l) ∈ ks := by
      split at hxe <;> cases hxe <;> exact hx
    rcases h3 _ hx with h | ⟨s, t, h⟩
    · exact .inl h
    · match t with
      | .inl t => simp only [Host.operate, List.mem_map] at h; obtain ⟨x, hx, he⟩ := h; cases he; exact .inr ⟨s.1, t, hx⟩
      | .inr w => simp only [Host.operate] at h; split at h <;> simp at h
  have := h5 (calm_own hown).1 (calm_own hown).2 (n - 1) (by
    have : (s.1.now : Int) = m.vt.time := hc
    omega)
  refine C109_interval_take hp n hn h1 (fun a d b s he ha => quiet s (h2 a d b s he ha)) (quiet s (Hosted.C117_rest K hl hr hm he).1) ?_
  rw [h4]; simp; omega

/-- C117: `pipe(interval(s, p), take_until(timer(t)))` on the virtual loop. -/
theorem C117_take_until [DecidableEq (Operator.id (α := Nat)).protected.compileSlow.SlowLab] (K : h.Laws) (hp : 0 < period) {wait : Int} {workers} (hw : ∀ w, w ∈ workers) {hops ls m}
    (hr : LTS.run (Hosted.step h hops ((clocked true t0 seconds period).two (clocked true t0 wait 0) (takeUntilSlow Nat Operator.id))
      (host.two host (takeUntilSlow Nat (Operator.id (α := Nat))) workers)) Hosted.init ls = some m) {s} (hm : m.sub = some s)
    (he : m.vt.ready = []) (hn : ((t0 + wait.toNat : Nat) : Int) < m.vt.time) :
    ∃ n, s.2.2.sent = (List.range n).map (fun k => (.next k, due t0 seconds period k)) ++ [(.completed, t0 + wait.toNat)] ∧
      (∀ k < n, due t0 seconds period k ≤ t0 + wait.toNat) ∧ (∀ k, due t0 seconds period k < t0 + wait.toNat → k < n) := by
  have hl := Host.two_lawful (p := takeUntilSlow Nat (Operator.id (α := Nat))) (host_lawful (t0 := t0) (seconds := seconds) (period := period))
    (host_lawful (t0 := t0) (seconds := wait) (period := 0)) rfl hw
  obtain ⟨hc, ks, h1, h2, h3⟩ := Hosted.C117_schedule K hl hr hm
  have quiet : ∀ s : State × State × Timed _ _ _, (∀ t, (host.two host (takeUntilSlow Nat (Operator.id (α := Nat))) workers).need s t ≠ .soon) →
      (takeUntilSlow Nat (Operator.id (α := Nat))).Quiescent s.2.2.ps := by
    intro s hs w
    have := hs (.inr (.inr w))
    simp only [Host.two] at this
    cases hc : (takeUntilSlow Nat (Operator.id (α := Nat))).step s.2.2.ps w with
    | none => rfl
    | some x => simp [hc] at this
  have hown : ∀ l, (Time.act (.left l) ∈ ks ∨ Time.act (.right l) ∈ ks) → host.Own l := by
    rintro l (h | h)
    · rcases h3 _ h with h | ⟨s, t, h⟩
      · exact .inl h
      · match t with
        | .inl t => simp only [Host.two, List.mem_map] at h; obtain ⟨x, hx, he⟩ := h; cases he; exact .inr ⟨s.1, t, hx⟩
        | .inr (.inl t) => simp [Host.two] at h
        | .inr (.inr w) => simp only [Host.two] at h; split at h <;> simp at h
    · rcases h3 _ h with h | ⟨s, t, h⟩
      · exact .inl h
      · match t with
        | .inl t => simp [Host.two] at h
        | .inr (.inl t) => simp only [Host.two, List.mem_map] at h; obtain ⟨x, hx, he⟩ := h; cases he; exact .inr ⟨s.2.1, t, hx⟩
        | .inr (.inr w) => simp only [Host.two] at h; split at h <;> simp at h
  refine C110_interval hp h1 (fun a d b s he ha => quiet s (h2 a d b s he ha)) (quiet s (Hosted.C117_rest K hl hr hm he).1) ?_ ⟨?_, ?_⟩ fun e => ⟨?_, ?_⟩
  · have : (s.1.now : Int) = m.vt.time := hc
    omega
  · intro h; have := own (hown _ (.inl h)); simp at this
  · intro h; have := own (hown _ (.inr h)); simp at this
  · intro h; have := own (hown _ (.inl h)); simp at this
  · intro h; have := own (hown _ (.inr h)); simp at this

end Interval

/-! ## the hypotheses can be met -/

namespace Hosted

/-- What the loop does next if nothing else happens. -/
def auto (m : State S T) : Label L :=
  match m.vt.todo with
  | none => .loop .runOnce
  | some 0 => .loop .done
  | some (_ + 1) => .next 0

/-- A run in which `none` stands for what the loop does next. -/
def play (hops : T → Nat) (q : Clocked S L α) (H : Host S L T) : State S T → List (Option (Label L)) → Option (State S T)
  | m, [] => some m
  | m, l :: ls => (step VirtualTime.heapq hops q H m (l.getD (auto m))).bind fun m => play hops q H m ls

omit [DecidableEq T₁] [DecidableEq T₂] [DecidableEq W] in
theorem play_run {hops : T → Nat} {q : Clocked S L α} {H : Host S L T} : ∀ {ls : List (Option (Label L))} {m m' : State S T}, play hops q H m ls = some m' →
    ∃ ls', LTS.run (step VirtualTime.heapq hops q H) m ls' = some m'
  | [], m, m', h => ⟨[], h⟩
  | l :: ls, m, m', h => by
    obtain ⟨m1, h1, h2⟩ := Option.bind_eq_some_iff.mp h
    obtain ⟨ls', h3⟩ := play_run h2
    exact ⟨l.getD (auto m) :: ls', LTS.run_cons.mpr ⟨m1, h1, h3⟩⟩

omit [DecidableEq T₁] [DecidableEq T₂] [DecidableEq W] in
/-- What a run has sent, and the time then. -/
def sent (hops : T → Nat) (q : Clocked S L α) (H : Host S L T) (ls : List (Option (Label L))) : Option (Int × Option (List (Notif α × Nat))) :=
  (play hops q H init ls).map fun m => (m.vt.time, m.sub.map q.calls)

/-- `interval(1, 2)` subscribed at time 0, with a timer of other code, due at 2, that is made before. -/
example : sent (fun _ => 1) (Interval.clocked true 0 1 2) Interval.host ([some (.loop (.callAt 2)), some .subscribe] ++ List.replicate 45 none) =
    some (5, some [(.next 0, 1), (.next 1, 3), (.next 2, 5)]) := by decide +kernel

/-- `timer(1)`, and a timer of other code at 5: the clock gets there. -/
example : sent (fun _ => 1) (Interval.clocked true 0 1 0) Interval.host ([some (.loop (.callAt 5)), some .subscribe] ++ List.replicate 45 none) =
    some (5, some [(.next 0, 1), (.completed, 1)]) := by decide +kernel

/-- A subject with `debounce(2)`: 5 and 6 at time 0, 7 at time 3 and 8 at time 4, by callbacks of other code; 6 comes through at 2, 8 at 6. -/
abbrev demoSubject := (Clocked.driven (α := Nat) 0).through (Debounce.stage true 2)
abbrev demoHost := (Clocked.drivenHost (α := Nat)).through (Debounce.host (α := Nat))
abbrev demoCalls : List (Option (Label (Notif Nat ⊕ Debounce.Label Nat))) :=
  [some .subscribe, some (.outside (.inl (.next 5))), some (.outside (.inl (.next 6))), some (.loop (.callAt 3)), some (.loop (.callAt 4))] ++
  List.replicate 28 none ++ [some (.outside (.inl (.next 7)))] ++ List.replicate 7 none ++ [some (.outside (.inl (.next 8)))] ++ List.replicate 40 none

example : sent (fun _ => 0) demoSubject demoHost demoCalls = some (6, some [(.next 6, 2), (.next 8, 6)]) := by decide +kernel

/-- The hypotheses of `C117_interval_take` for `n = 2`; below, a run of it with two extra steps of the loop per turn. -/
abbrev demoOperator := (takeOp ((2 : Nat) : Int) : Operator Nat Nat).direct
abbrev demoWorkers : List demoOperator.compileSlow.SlowLab := [.inl (), .inr ()]
instance : DecidableEq demoOperator.compileSlow.SlowLab := inferInstanceAs (DecidableEq (Unit ⊕ Unit))

example (hops ls m) (hr : LTS.run (step VirtualTime.heapq hops ((Interval.clocked true 0 1 2).operate demoOperator.slowProc)
      (Interval.host.operate demoOperator.slowProc demoWorkers)) init ls = some m) {s} (hm : m.sub = some s) (he : m.vt.ready = []) (hd : 3 < m.vt.time) :
    s.2.sent = [(.next 0, 1), (.next 1, 3), (.completed, 3)] :=
  Interval.C117_interval_take 2 VirtualTime.heapqLaws (by decide) (by decide) (fun w => match w with | .inl () => .head _ | .inr () => .tail _ (.head _))
    hr hm he hd

example : sent (fun _ => 2) ((Interval.clocked true 0 1 2).operate demoOperator.slowProc) (Interval.host.operate demoOperator.slowProc demoWorkers)
    ([some .subscribe] ++ List.replicate 160 none) = some (9, some [(.next 0, 1), (.next 1, 3), (.completed, 3)]) := by decide +kernel

end Hosted

end Aio
