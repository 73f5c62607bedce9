import Verif.Props.C109_111_Timed
import Verif.Props.C49_54_Combine
import Verif.Props.C112_114_Timers
/-!
# C126: what `sample` does to streams with times

timeshift.py 166-182: for `seconds > 0`, `sample(seconds)` is `pipe(source, with_latest_from(interval(seconds, seconds)), map(fst))`. C56
refutes what its documentation says; this is the law that holds instead.
-/

namespace Aio
open Spec Spec.Timed
variable {S L α : Type}

/-- `pipe(source, sample(seconds))` for `seconds > 0` (timeshift.py 166-182): the source and an interval that is started with it, at the
two sides of `with_latest_from`, behind it `map(fst)`. -/
abbrev Clocked.sampled (q : Clocked S L α) (seconds : Int) :=
  q.two (Interval.clocked true (q.now q.init) seconds seconds) (withLatestFromSlow (Aio.map fun p : α × Nat => .ok p.1))

/-- All workers of `sample` are at rest. -/
abbrev SampleRest {S α : Type} := fun s : S × Interval.State × Timed _ (Notif α ⊕ Notif Nat) (Notif α) =>
  (withLatestFromSlow (Aio.map fun p : α × Nat => .ok p.1)).Quiescent s.2.2.ps

/-- The ends among the events of a stream. -/
def ends (cs : List (Notif α × Nat)) : List (Notif α × Nat) := cs.filter fun
  | (.next _, _) => false
  | _ => true

theorem ends_cons (c : Notif α × Nat) (cs : List (Notif α × Nat)) :
    ends (c :: cs) = match c.1 with | .next _ => ends cs | _ => c :: ends cs := by
  obtain ⟨_ | _ | _, t⟩ := c <;> rfl

/-- The same without times. -/
def ends' (ns : List (Notif α)) : List (Notif α) := ns.filter fun
  | .next _ => false
  | _ => true

theorem upto_ends (t : Nat) (cs : List (Notif α × Nat)) : upto t (ends cs) = ends' (upto t cs) := by
  induction cs with
  | nil => rfl
  | cons c cs ih =>
    obtain ⟨n, u⟩ := c
    rw [ends_cons, upto_cons]
    by_cases h : u ≤ t
    · cases n <;> dsimp only <;> rw [if_pos h]
      · rw [ih]; rfl
      · rw [upto_cons, if_pos h, ih]; rfl
      · rw [upto_cons, if_pos h, ih]; rfl
    · cases n <;> dsimp only <;> rw [if_neg h]
      · rw [ih]
      · rw [upto_cons, if_neg h, ih]
      · rw [upto_cons, if_neg h, ih]

/-- Before the first tick only an end gets through. -/
theorem sample_before : ∀ {is : List (Notif α ⊕ Notif Nat)}, is.filterMap Sum.getRight? = [] →
    (⟨afterFirst (both is).1, (both is).2⟩ : Story α) = story (ends' (is.filterMap Sum.getLeft?)) := by
  intro is
  induction is with
  | nil => intro _; rfl
  | cons i is ih =>
    intro h
    match i with
    | .inl (.next a) => exact ih h
    | .inl (.error e) => rfl
    | .inl .completed => rfl
    | .inr n => exact absurd (show n :: is.filterMap Sum.getRight? = [] from h) (by simp)

/-- While there is a tick, everything of the source gets through. -/
theorem sample_ticked : ∀ {is : List (Notif α ⊕ Notif Nat)}, (∀ n ∈ is.filterMap Sum.getRight?, ∃ k, n = .next k) →
    (⟨(both is).1.filterMap Sum.getLeft?, (both is).2⟩ : Story α) = story (is.filterMap Sum.getLeft?) := by
  intro is
  induction is with
  | nil => intro _; rfl
  | cons i is ih =>
    intro h
    match i with
    | .inl (.next a) =>
      have := ih h
      show (⟨a :: (both is).1.filterMap Sum.getLeft?, (both is).2⟩ : Story α) =
        ⟨a :: (story (is.filterMap Sum.getLeft?)).vals, (story (is.filterMap Sum.getLeft?)).fin⟩
      rw [← this]
    | .inl (.error e) => rfl
    | .inl .completed => rfl
    | .inr (.next k) => exact ih fun n hn => h n (List.mem_cons_of_mem _ hn)
    | .inr (.error e) => obtain ⟨k, hk⟩ := h (.error e) (List.mem_cons_self ..); cases hk
    | .inr .completed => obtain ⟨k, hk⟩ := h .completed (List.mem_cons_self ..); cases hk

theorem sample_split : ∀ {is : List (Notif α ⊕ Notif Nat)} {k : Nat} {js : List (Notif α ⊕ Notif Nat)}, is.filterMap Sum.getRight? = [] →
    (∀ n ∈ js.filterMap Sum.getRight?, ∃ k, n = .next k) →
    (⟨afterFirst (both (is ++ .inr (.next k) :: js)).1, (both (is ++ .inr (.next k) :: js)).2⟩ : Story α) =
      story (ends' (is.filterMap Sum.getLeft?) ++ js.filterMap Sum.getLeft?) := by
  intro is k js
  induction is with
  | nil => intro _ hj; exact sample_ticked hj
  | cons i is ih =>
    intro h hj
    match i with
    | .inl (.next a) => exact ih h hj
    | .inl (.error e) => rfl
    | .inl .completed => rfl
    | .inr n => exact absurd (show n :: is.filterMap Sum.getRight? = [] from h) (by simp)

theorem sample_delivers : DeliversFrom (withLatestFromSlow (Aio.map fun p : α × Nat => .ok p.1))
    fun is => ⟨afterFirst (both is).1, (both is).2⟩ := by
  have hm : (Aio.map fun p : α × Nat => .ok p.1).Computes fun s => ⟨s.vals.map (·.1), s.fin⟩ := C27_map (fun p : α × Nat => p.1)
  have := C106_with_latest_from hm
  simp only [sample_spec] at this
  exact this

/-- C126: `pipe(source, sample(s))` on a loop that is not overloaded, for any source: there is a point in what the source sends, at the time
s after the subscription, from which on the observer gets every event of the source when it is sent; of what the source sends before that
point it gets no value, but an end at once. -/
theorem C126_exact {q : Clocked S L α} (hq : q.Lawful) {seconds : Int} (hs : 0 < seconds) {ls s}
    (hr : LTS.run (q.sampled seconds).step (q.sampled seconds).init ls = some s)
    (hp : (q.sampled seconds).Prompt SampleRest ls) (hqu : SampleRest s)
    (hd : Time.act (.right .dispose) ∉ ls) (hx : ∀ e, Time.act (.right (.raise e)) ∉ ls) :
    ∃ pre post, q.calls s.1 = pre ++ post ∧ (∀ c ∈ pre, c.2 ≤ q.now q.init + seconds.toNat) ∧ (∀ c ∈ post, q.now q.init + seconds.toNat ≤ c.2) ∧
      (q.sampled seconds).calls s = Timed.cut (ends pre ++ post) := by
  have hl := Interval.clocked_lawful true (q.now q.init) seconds seconds
  obtain ⟨got, h1, h2, h3, h4, -, h5⟩ := C109_two hq hl rfl sample_delivers rfl hr hp
  obtain ⟨g1, g2, g3, -, -⟩ := Clocked.two_sources hq hl rfl hr
  generalize hT : q.now q.init + seconds.toNat = T
  obtain ⟨n, hn, hlive⟩ := Interval.clocked_exact (by omega) g2
  have hmem : ∀ {l : Interval.Label}, Time.act l ∈ Clocked.rights ls → Time.act (Two.Label.right l) ∈ ls := by
    intro l hl
    obtain ⟨x, hx, hx'⟩ := List.mem_filterMap.mp hl
    rcases x with d | (l' | l' | w) <;> cases hx'
    exact hx
  have hlive := hlive (fun h => hd (hmem h)) (fun e h => hx e (hmem h))
  have hall : ∀ c ∈ Timed.rights got, ∃ k, c.1 = .next k := by
    rw [h3, hn]
    intro c hc
    obtain ⟨k, -, rfl⟩ := List.mem_map.mp hc
    exact ⟨k, rfl⟩
  have hdue : Interval.due (q.now q.init) seconds seconds 0 = T := by simp [Interval.due, hT]
  cases n with
  | zero =>
    have hnil : Timed.rights got = [] := by rw [h3, hn]; rfl
    refine ⟨q.calls s.1, [], (List.append_nil _).symm, fun c hc => ?_, (by simp), ?_⟩
    · have a := (hq.inTime g1).2 c hc
      have g3 : q.now s.1 = s.2.1.now := g3
      apply Classical.byContradiction
      intro hlt
      have := hlive 0 (by omega)
      omega
    · rw [List.append_nil]
      have hsrt : InTime (ends (q.calls s.1)) := InTime.sublist List.filter_sublist (hq.inTime g1).1
      refine Spec.Timed.ext h4 (InTime.sublist (Spec.Timed.cut_prefix _).sublist hsrt) fun t => ?_
      rw [h5 hqu, upto_cut hsrt, upto_ends, ← h2, sample_before (by rw [upto_rights, hnil]; rfl), upto_lefts]
      rfl
  | succ n =>
    obtain ⟨r, hr'⟩ : ∃ r, Timed.rights got = (.next 0, T) :: r := by
      rw [h3, hn, List.range_succ_eq_map]
      exact ⟨_, by rw [← hdue]; rfl⟩
    obtain ⟨a, b, rfl, hra⟩ := split_right hr'
    dsimp only at h1 h2 h5
    obtain ⟨i1, i2, i3⟩ := List.pairwise_append.mp h1
    obtain ⟨i4, i5⟩ := List.pairwise_cons.mp i2
    have hla : ∀ c ∈ Timed.lefts a, c.2 ≤ T := fun c hc => i3 _ (mem_lefts.mp hc) (.inr (.next 0), T) (List.mem_cons_self ..)
    have hlb : ∀ c ∈ Timed.lefts b, T ≤ c.2 := fun c hc => i4 _ (mem_lefts.mp hc)
    have hcalls : q.calls s.1 = Timed.lefts a ++ Timed.lefts b := by rw [← h2, lefts_append]; rfl
    have hb : ∀ t, ∀ m ∈ (upto t b).filterMap Sum.getRight?, ∃ k, m = .next k := by
      intro t m hm
      rw [upto_rights] at hm
      obtain ⟨c, hc, rfl⟩ := List.mem_map.mp hm
      have hc := (List.mem_filter.mp hc).1
      exact hall c (mem_rights.mpr (List.mem_append_right _ (List.mem_cons_of_mem _ (mem_rights.mp hc))))
    have hsrt : InTime (ends (Timed.lefts a) ++ Timed.lefts b) := (InTime.sublist List.filter_sublist (InTime.lefts i1)).append (InTime.lefts i5) (by
      intro x hx y hy
      exact Nat.le_trans (hla x (List.mem_filter.mp hx).1) (hlb y hy))
    refine ⟨Timed.lefts a, Timed.lefts b, hcalls, hla, hlb, ?_⟩
    refine Spec.Timed.ext h4 (InTime.sublist (Spec.Timed.cut_prefix _).sublist hsrt) fun t => ?_
    rw [h5 hqu, upto_cut hsrt, upto_append, upto_append, upto_cons, upto_ends]
    by_cases ht : T ≤ t
    · rw [if_pos ht, sample_split (by rw [upto_rights, hra]; rfl) (hb t), upto_lefts, upto_lefts]
      rfl
    · rw [if_neg ht, upto_none (cs := b) fun c hc => by have := i4 c hc; dsimp only at this; omega, List.append_nil,
        upto_none (cs := Timed.lefts b) fun c hc => by have := hlb c hc; omega, List.append_nil,
        sample_before (by rw [upto_rights, hra]; rfl), upto_lefts]
      rfl

/-- C126: what comes out of `sample` is never less than the source sent: of an interval every value that is due after the first s is
forwarded, when it is due, however many of them there are between two ticks of `sample`. -/
theorem C126_interval {t0 : Nat} {first period seconds : Int} (hpp : period ≠ 0) (hs : 0 < seconds) {ls s}
    (hr : LTS.run ((Interval.clocked true t0 first period).sampled seconds).step ((Interval.clocked true t0 first period).sampled seconds).init ls = some s)
    (hp : ((Interval.clocked true t0 first period).sampled seconds).Prompt SampleRest ls) (hqu : SampleRest s)
    (hd : Time.act (.left .dispose) ∉ ls ∧ Time.act (.right .dispose) ∉ ls)
    (hx : ∀ e, Time.act (.left (.raise e)) ∉ ls ∧ Time.act (.right (.raise e)) ∉ ls) :
    ∃ m n, ((Interval.clocked true t0 first period).sampled seconds).calls s =
        (List.range' m n).map (fun k => (.next k, Interval.due t0 first period k)) ∧
      (∀ k < m, Interval.due t0 first period k ≤ t0 + seconds.toNat) ∧
      (∀ k, m ≤ k → k < m + n → t0 + seconds.toNat ≤ Interval.due t0 first period k) ∧
      (∀ k, Interval.due t0 first period k < s.1.now → k < m + n) := by
  have hl := Interval.clocked_lawful true t0 first period
  obtain ⟨pre, post, h1, h2, h3, h4⟩ := C126_exact hl hs hr hp hqu hd.2 (fun e => (hx e).2)
  obtain ⟨g1, -⟩ := Clocked.two_sources hl (Interval.clocked_lawful true t0 seconds seconds) rfl hr
  obtain ⟨N, hN, hlive⟩ := Interval.clocked_exact hpp g1
  have hmem : ∀ {l : Interval.Label}, Time.act l ∈ Clocked.lefts ls → Time.act (Two.Label.left l) ∈ ls := by
    intro l hl
    obtain ⟨x, hx, hx'⟩ := List.mem_filterMap.mp hl
    rcases x with d | (l' | l' | w) <;> cases hx'
    exact hx
  have hlive := hlive (fun h => hd.1 (hmem h)) (fun e h => (hx e).1 (hmem h))
  rw [hN] at h1
  have hlen : N = pre.length + post.length := by simpa using congrArg List.length h1
  have hpre : pre = (List.range pre.length).map fun k => ((Notif.next k : Notif Nat), Interval.due t0 first period k) := by
    have := congrArg (List.take pre.length) h1
    rw [List.take_left, ← List.map_take, List.take_range, Nat.min_eq_left (by omega)] at this
    exact this.symm
  have hpost : post = (List.range' pre.length post.length).map fun k => ((Notif.next k : Notif Nat), Interval.due t0 first period k) := by
    have := congrArg (List.drop pre.length) h1
    rw [List.drop_left, ← List.map_drop, List.range_eq_range', List.drop_range'] at this
    rw [← this, List.length_map, List.length_range']
    simp
  have hends : ∀ vs : List Nat, ends (vs.map fun k => ((Notif.next k : Notif Nat), Interval.due t0 first period k)) = [] := by
    intro vs
    induction vs with
    | nil => rfl
    | cons v vs ih => exact ih
  have hcut : ∀ vs : List Nat, Timed.cut (vs.map fun k => ((Notif.next k : Notif Nat), Interval.due t0 first period k)) =
      vs.map fun k => ((Notif.next k : Notif Nat), Interval.due t0 first period k) := by
    intro vs
    induction vs with
    | nil => rfl
    | cons v vs ih => exact congrArg ((Notif.next v, Interval.due t0 first period v) :: ·) ih
  refine ⟨pre.length, post.length, ?_, ?_, ?_, ?_⟩
  · rw [h4]
    have : ends pre = [] := by rw [hpre]; exact hends _
    rw [this, List.nil_append, hpost, hcut]
    simp
  · intro k hk
    exact h2 (.next k, Interval.due t0 first period k) (by rw [hpre]; exact List.mem_map.mpr ⟨k, List.mem_range.mpr hk, rfl⟩)
  · intro k hk hk'
    exact h3 (.next k, Interval.due t0 first period k) (by rw [hpost]; exact List.mem_map.mpr ⟨k, List.mem_range'_1.mpr ⟨hk, hk'⟩, rfl⟩)
  · intro k hk
    have := hlive k hk
    omega

/-! ## Examples -/

/-- `pipe(interval(1, 1), sample(2))`, subscribed at 0: 0 is lost, 1 comes after the tick at 2, 2 and 3 come between the ticks at 2 and 4,
or at 4 -/
abbrev demoSample := (Interval.clocked true 0 1 1).sampled 2
abbrev SampleLabel := Time (Two.Label Interval.Label Interval.Label (Unit ⊕ (Aio.map fun p : Nat × Nat => .ok p.1).protected.compileSlow.SlowLab))
abbrev sampleA : SampleLabel := .act (.worker (.inl ()))
abbrev sampleB : SampleLabel := .act (.worker (.inr (.inl ())))
abbrev sampleC : SampleLabel := .act (.worker (.inr (.inr ())))
abbrev sampleThrough : List SampleLabel := [.act (.left .wake), sampleA, sampleA, sampleB, sampleB, sampleC, sampleC, .act (.left .ret)]
abbrev demoSampleRun : List SampleLabel :=
  [.act (.right .start), .act (.left .start), .pass 1, .act (.left .wake), sampleA, .act (.left .ret), .pass 1, .act (.right .wake), sampleA,
   .act (.right .ret)] ++ sampleThrough ++ [.pass 1] ++ sampleThrough ++ [.pass 1] ++ sampleThrough ++ [.act (.right .wake), sampleA, .act (.right .ret)]

example : (LTS.run demoSample.step demoSample.init demoSampleRun).map (fun s => (demoSample.calls s, demoSample.now s)) =
    some ([(.next 1, 2), (.next 2, 3), (.next 3, 4)], 4) := by decide +kernel

theorem sampleIdle {s : Interval.State × Interval.State × Timed _ (Notif Nat ⊕ Notif Nat) (Notif Nat)}
    (h : (((withLatestFromSlow (Aio.map fun p : Nat × Nat => .ok p.1)).step s.2.2.ps (.inl ())).isNone &&
      ((withLatestFromSlow (Aio.map fun p : Nat × Nat => .ok p.1)).step s.2.2.ps (.inr (.inl ()))).isNone &&
      ((withLatestFromSlow (Aio.map fun p : Nat × Nat => .ok p.1)).step s.2.2.ps (.inr (.inr ()))).isNone) = true) : SampleRest s := by
  simp only [Bool.and_eq_true, Option.isNone_iff_eq_none] at h
  intro l
  match l with
  | .inl () => exact h.1.1
  | .inr (.inl ()) => exact h.1.2
  | .inr (.inr ()) => exact h.2

example : demoSample.Prompt SampleRest demoSampleRun := Clocked.Prompt.of_rests (fun _ => sampleIdle) (by decide +kernel)
example : ∃ s, LTS.run demoSample.step demoSample.init demoSampleRun = some s ∧ SampleRest s ∧
    Time.act (.right .dispose) ∉ demoSampleRun ∧ ∀ e, Time.act (.right (.raise e)) ∉ demoSampleRun := by
  obtain ⟨s, hs, h⟩ := Nested.run_any (c := demoSample) (ls := demoSampleRun)
    (P := fun s => ((withLatestFromSlow (Aio.map fun p : Nat × Nat => .ok p.1)).step s.2.2.ps (.inl ())).isNone &&
      ((withLatestFromSlow (Aio.map fun p : Nat × Nat => .ok p.1)).step s.2.2.ps (.inr (.inl ()))).isNone &&
      ((withLatestFromSlow (Aio.map fun p : Nat × Nat => .ok p.1)).step s.2.2.ps (.inr (.inr ()))).isNone) (by decide +kernel)
  exact ⟨s, hs, sampleIdle h, by simp, by simp⟩

end Aio
