import Verif.Props.C126_Sample
import Verif.Props.C131_HostedNested
/-!
# C178: `sample` on the `VirtualTimeEventLoop`

In full: in tests with the `VirtualTimeEventLoop`, `pipe(source, sample(s))` sends at most one value per s, the latest one, at the times s, 2s, ... after the subscription. It does not: the timer is the
second source of `with_latest_from` (timeshift.py:172-177), so from the first tick on every value is sent when it comes.
-/

namespace Aio
open Spec Spec.Timed
open VirtualTime (Heap)
variable {S L T α : Type} {h : Heap} {q : Clocked S L α} {H : Host S L T} {seconds : Int}

theorem cut_sub : ∀ {cs : List (Notif α × Nat)} {c}, c ∈ Timed.cut cs → c ∈ cs
  | (.next v, t) :: cs, c, h => by
    rcases List.mem_cons.mp h with rfl | h
    · simp
    · exact List.mem_cons_of_mem _ (cut_sub h)
  | (.error e, t) :: cs, c, h => by simp [Timed.cut] at h; simp [h]
  | (.completed, t) :: cs, c, h => by simp [Timed.cut] at h; simp [h]

/-- The workers of `with_latest_from` and `map`. -/
abbrev SampleWorker (α : Type) := Unit ⊕ (Aio.map fun p : α × Nat => .ok p.1).protected.compileSlow.SlowLab

/-- The tasks of `pipe(source, sample(s))`. -/
abbrev Host.sampled (H : Host S L T) (workers : List (SampleWorker α)) := H.two (Interval.host) (withLatestFromSlow (Aio.map fun p : α × Nat => .ok p.1)) workers

section
variable [DecidableEq T] [DecidableEq (SampleWorker α)]

/-- C178 is violated, in general: on the virtual loop, whatever else runs on it, there is a point in what the source sends, at the time s after the subscription, from which on the observer gets every
event of the source when it is sent; of what the source sends before that point it gets no value, but an end at once. -/
theorem C178_all_violated (K : h.Laws) (hH : H.Lawful q) (hs : 0 < seconds) {workers : List (SampleWorker α)} (hw : ∀ w, w ∈ workers) {hops ls m}
    (hr : LTS.run (Hosted.step h hops (q.sampled seconds) (H.sampled workers)) Hosted.init ls = some m) {s} (hm : m.sub = some s) (hrest : m.vt.ready = []) :
    ∃ pre post, q.calls s.1 = pre ++ post ∧ (∀ c ∈ pre, c.2 ≤ q.now q.init + seconds.toNat) ∧ (∀ c ∈ post, q.now q.init + seconds.toNat ≤ c.2) ∧
      s.2.2.sent = Timed.cut (ends pre ++ post) := by
  have hl := Host.two_lawful (p := withLatestFromSlow (Aio.map fun p : α × Nat => .ok p.1)) hH (Interval.host_lawful (t0 := q.now q.init) (seconds := seconds) (period := seconds)) rfl hw
  obtain ⟨hn, ks, h1, h2, h3⟩ := Hosted.C117_schedule K hl hr hm
  have quiet : ∀ s : S × Interval.State × Timed _ (Notif α ⊕ Notif Nat) (Notif α), (∀ t, (H.sampled workers).need s t ≠ .soon) → SampleRest s := by
    intro s hs w
    have := hs (.inr (.inr w))
    simp only [Host.two] at this
    cases hc : (withLatestFromSlow (Aio.map fun p : α × Nat => .ok p.1)).step s.2.2.ps w with
    | none => rfl
    | some x => simp [hc] at this
  have own : ∀ l, Time.act (.right l) ∈ ks → l ≠ .dispose ∧ ∀ e, l ≠ .raise e := by
    intro l hl
    rcases h3 _ hl with h | ⟨s, t, h⟩
    · cases h
    · match t with
      | .inl t => simp [Host.two] at h
      | .inr (.inr w) => simp only [Host.two] at h; split at h <;> simp at h
      | .inr (.inl t) =>
        simp only [Host.two, List.mem_map] at h
        obtain ⟨x, hx, he⟩ := h
        cases he
        simp only [Interval.host] at hx
        split at hx <;> simp at hx <;> (try rcases hx with rfl | rfl) <;> (try subst hx) <;> simp
  exact C126_exact hH.clock hs h1 (fun a d b s he ha => quiet s (h2 a d b s he ha)) (quiet s (Hosted.C117_rest K hl hr hm hrest).1) (fun h => (own _ h).1 rfl) (fun e h => (own _ h).2 e rfl)

/-- C178, the part that holds: every value that is sent is one of the source, sent at the same time, and none is sent in the first s. Missing: that there is at most one per s, and that it is sent at a
multiple of s. -/
theorem C178_partial (K : h.Laws) (hH : H.Lawful q) (hs : 0 < seconds) {workers : List (SampleWorker α)} (hw : ∀ w, w ∈ workers) {hops ls m}
    (hr : LTS.run (Hosted.step h hops (q.sampled seconds) (H.sampled workers)) Hosted.init ls = some m) {s} (hm : m.sub = some s) (hrest : m.vt.ready = []) {v t}
    (hv : (.next v, t) ∈ s.2.2.sent) : (.next v, t) ∈ q.calls s.1 ∧ q.now q.init + seconds.toNat ≤ t := by
  obtain ⟨pre, post, h1, h2, h3, h4⟩ := C178_all_violated K hH hs hw hr hm hrest
  rw [h4] at hv
  have hv := cut_sub hv
  rcases List.mem_append.mp hv with h | h
  · exact absurd (List.mem_filter.mp h).2 (by simp)
  · exact ⟨by rw [h1]; simp [h], h3 _ h⟩

end

/-! ## Examples -/

section Examples

/-- `pipe(interval(1, 1), sample(2))`, subscribed at 0. -/
abbrev sampleWorkers : List (SampleWorker Nat) := [.inl (), .inr (.inl ()), .inr (.inr ())]
theorem sampleWorkers_all : ∀ w, w ∈ sampleWorkers := fun w =>
  match w with
  | .inl () => .head _
  | .inr (.inl ()) => .tail _ (.head _)
  | .inr (.inr ()) => .tail _ (.tail _ (.head _))

instance : DecidableEq (Aio.map fun p : Nat × Nat => .ok p.1).protected.compileSlow.SlowLab := inferInstanceAs (DecidableEq (Unit ⊕ Unit))

/-- C178 is violated: value 2 is sent at 3, which is not a multiple of 2. -/
theorem C178_violated : Nested.shown demoSample (Host.sampled Interval.host sampleWorkers) (fun _ => 0) ([some .subscribe] ++ List.replicate 73 none) = some (3, some [(.next 1, 2), (.next 2, 3)]) := by
  decide +kernel

/-- What comes until 5, without that of the first tick: 1 comes at 2 or not at all. -/
example {hops ls m} (hr : LTS.run (Hosted.step VirtualTime.heapq hops demoSample (Host.sampled Interval.host sampleWorkers)) Hosted.init ls = some m) {s} (hm : m.sub = some s) (hrest : m.vt.ready = [])
    (has : (Interval.clocked true 0 1 1).calls s.1 = [(.next 0, 1), (.next 1, 2), (.next 2, 3), (.next 3, 4)]) :
    s.2.2.sent = [(.next 1, 2), (.next 2, 3), (.next 3, 4)] ∨ s.2.2.sent = [(.next 2, 3), (.next 3, 4)] := by
  obtain ⟨pre, post, h1, h2, h3, h4⟩ := C178_all_violated VirtualTime.heapqLaws Interval.host_lawful (by decide) sampleWorkers_all hr hm hrest
  rw [has] at h1
  change ∀ c ∈ pre, c.2 ≤ 2 at h2
  change ∀ c ∈ post, 2 ≤ c.2 at h3
  rw [h4]
  match pre, h1 with
  | [], h1 => subst h1; simp at h3
  | [a], h1 => obtain ⟨rfl, rfl⟩ := List.cons.inj h1; exact .inl rfl
  | [a, b], h1 =>
    simp only [List.cons_append, List.nil_append, List.cons.injEq] at h1
    obtain ⟨rfl, rfl, rfl⟩ := h1
    exact .inr rfl
  | a :: b :: c :: pre, h1 =>
    simp only [List.cons_append, List.cons.injEq] at h1
    obtain ⟨rfl, rfl, rfl, -⟩ := h1
    simp at h2

example {hops ls m} (hr : LTS.run (Hosted.step VirtualTime.heapq hops demoSample (Host.sampled Interval.host sampleWorkers)) Hosted.init ls = some m) {s} (hm : m.sub = some s) (hrest : m.vt.ready = [])
    {v t} (hv : (.next v, t) ∈ s.2.2.sent) : 2 ≤ t := by
  have := (C178_partial VirtualTime.heapqLaws Interval.host_lawful (by decide) sampleWorkers_all hr hm hrest hv).2
  change 0 + 2 ≤ t at this
  omega

end Examples
end Aio
