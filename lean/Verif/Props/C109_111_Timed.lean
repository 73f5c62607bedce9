import Verif.Lemmas.Timed
import Verif.Props.C106_TwoSources
import Verif.Props.C107_108_Clocked
import Verif.Props.C27_30_Map
import Verif.Props.C45_52_Filtering
/-!
# C109, C110, C111: operators without timers behind sources that send at certain times
-/

namespace Aio
open Spec Spec.Timed
variable {S S₁ S₂ L L₁ L₂ P W α β γ : Type}

/-! ## C109: such operators take no time -/

/-- C109: on a loop that is not overloaded, at any time in the past the observer had got exactly what the operator makes of what the source
had sent by then; so every event is sent at the time of the source's event that causes it. The same up to now when the workers are at rest. -/
theorem C109_operator {q : Clocked S L α} (hq : q.Lawful) {p : Proc P W (Notif α) (Notif β)} {dom : List (Notif α) → Prop} {G : Story α → Story β}
    (hG : Delivers p dom G) (h0 : (G ⟨[], .running⟩).events = []) (hd : ∀ ls s, LTS.run q.step q.init ls = some s → dom ((q.calls s).map (·.1)))
    {ls s} (hr : LTS.run (q.operate p).step (q.operate p).init ls = some s) (hp : (q.operate p).Prompt (fun s => p.Quiescent s.2.ps) ls) :
    InTime ((q.operate p).calls s) ∧
    (∀ t < q.now s.1, upto t ((q.operate p).calls s) = (G (story (upto t (q.calls s.1)))).events) ∧
    (p.Quiescent s.2.ps → ∀ t, upto t ((q.operate p).calls s) = (G (story (upto t (q.calls s.1)))).events) := by
  have hg := Clocked.operate_good hq (F := fun ns => (G (story ns)).events) hG.all h0 hd hr hp
  obtain ⟨h1, h2⟩ := Clocked.operate_source hq hr
  rw [← h2]
  exact ⟨hg.sent.1, hg.past, hg.at_rest hG.all (by rw [h2]; exact hd _ _ h1)⟩

/-- C109 for two sources: the same, with the calls of both in some order that agrees with their times. -/
theorem C109_two {q₁ : Clocked S₁ L₁ α} {q₂ : Clocked S₂ L₂ β} (h₁ : q₁.Lawful) (h₂ : q₂.Lawful) (h0 : q₁.now q₁.init = q₂.now q₂.init)
    {p : Proc P W (Notif α ⊕ Notif β) (Notif γ)} {F : List (Notif α ⊕ Notif β) → Story γ} (hF : DeliversFrom p F) (hF0 : (F []).events = [])
    {ls s} (hr : LTS.run (q₁.two q₂ p).step (q₁.two q₂ p).init ls = some s) (hp : (q₁.two q₂ p).Prompt (fun s => p.Quiescent s.2.2.ps) ls) :
    ∃ got : List ((Notif α ⊕ Notif β) × Nat), InTime got ∧ Timed.lefts got = q₁.calls s.1 ∧ Timed.rights got = q₂.calls s.2.1 ∧
      InTime ((q₁.two q₂ p).calls s) ∧
      (∀ t < q₁.now s.1, upto t ((q₁.two q₂ p).calls s) = (F (upto t got)).events) ∧
      (p.Quiescent s.2.2.ps → ∀ t, upto t ((q₁.two q₂ p).calls s) = (F (upto t got)).events) := by
  have hg := Clocked.two_good h₁ h₂ h0 (F := fun is => (F is).events) hF.all hF0 hr hp
  obtain ⟨-, -, -, g4, g5⟩ := Clocked.two_sources h₁ h₂ h0 hr
  exact ⟨s.2.2.got, hg.got.1, g4, g5, hg.sent.1, hg.past, hg.at_rest (dom := fun _ => True) (fun es s out h _ => hF.all es s out h) trivial⟩

/-- The calls of a lawful source are in the order of time. -/
theorem Clocked.Lawful.inTime {q : Clocked S L α} (hq : q.Lawful) {ls s} (hr : LTS.run q.step q.init ls = some s) :
    InTime (q.calls s) ∧ ∀ c ∈ q.calls s, c.2 ≤ q.now s := by
  refine LTS.inv_reach (step := q.step) (fun _ s => InTime (q.calls s) ∧ ∀ c ∈ q.calls s, c.2 ≤ q.now s) (s0 := q.init)
    (by rw [hq.init]; exact ⟨.nil, by simp⟩) ?_ hr
  intro ls s l t hr hi h
  cases l with
  | pass d =>
    obtain ⟨h1, h2⟩ := hq.pass hr h
    rw [h1, h2]
    exact ⟨hi.1, fun c hc => Nat.le_trans (hi.2 c hc) (by omega)⟩
  | act l =>
    obtain ⟨h1, ns, h2⟩ := hq.act hr h
    rw [h1, h2]
    exact Timed.stamped hi ns

/-- C109, `pipe(source, map(f))`: the same calls at the same times with the values mapped, for a source that keeps the grammar. -/
theorem C109_map {q : Clocked S L α} (hq : q.Lawful) (f : α → β) (hg : ∀ ls s, LTS.run q.step q.init ls = some s → Grammar ((q.calls s).map (·.1)))
    {ls s} (hr : LTS.run (q.operate (map fun x => .ok (f x)).direct.slowProc).step (q.operate (map fun x => .ok (f x)).direct.slowProc).init ls = some s)
    (hp : (q.operate (map fun x => .ok (f x)).direct.slowProc).Prompt (fun s => (map fun x => .ok (f x)).direct.slowProc.Quiescent s.2.ps) ls)
    (hqu : (map fun x => .ok (f x)).direct.slowProc.Quiescent s.2.ps) :
    (q.operate (map fun x => .ok (f x)).direct.slowProc).calls s = (q.calls s.1).map fun c => (mapEvent f c.1, c.2) := by
  obtain ⟨h1, -, h2⟩ := C109_operator hq (C27_map f).direct.slow rfl hg hr hp
  have hs := (Clocked.operate_source hq hr).1
  have ht := (hq.inTime hs).1
  refine Spec.Timed.ext h1 ?_ fun t => ?_
  · rw [InTime, List.pairwise_map]; exact ht
  · rw [h2 hqu, upto_map]
    have hm : ∀ st : Story α, (mapped f st).events = st.events.map (mapEvent f) := by
      rintro ⟨vs, fin⟩
      cases fin <;> simp [mapped, Story.events, End.events, mapEvent]
    have := cut_of_grammar (grammar_prefix (upto_prefix (t := t) ht) (hg _ _ hs))
    rw [hm]
    show (cut (upto t (q.calls s.1))).map _ = _
    rw [this]

namespace Interval
variable {t0 : Nat} {seconds period : Int}

theorem due_mono {a b : Nat} (h : a ≤ b) : due t0 seconds period a ≤ due t0 seconds period b := by
  have := Nat.mul_le_mul_right period.toNat h
  simp only [due]; omega

/-- What an interval has sent up to some time. -/
theorem upto_range (t : Nat) : ∀ m, ∃ j ≤ m, upto t ((List.range m).map fun k => ((Notif.next k : Notif Nat), due t0 seconds period k)) = (List.range j).map .next ∧
    ∀ k < m, k < j ↔ due t0 seconds period k ≤ t := by
  intro m
  induction m with
  | zero => exact ⟨0, Nat.le_refl _, rfl, by simp⟩
  | succ m ih =>
    obtain ⟨j, h1, h2, h3⟩ := ih
    rw [List.range_succ, List.map_append, upto_append, h2]
    simp only [List.map_cons, List.map_nil, upto_cons, upto_nil]
    by_cases hd : due t0 seconds period m ≤ t
    · have hj : j = m := by
        apply Classical.byContradiction
        intro hne
        have := (h3 j (by omega)).mpr (Nat.le_trans (due_mono h1) hd)
        omega
      subst hj
      refine ⟨j + 1, Nat.le_refl _, by rw [if_pos hd, List.range_succ, List.map_append]; rfl, fun k hk => ?_⟩
      exact ⟨fun _ => Nat.le_trans (due_mono (Nat.le_of_lt_succ hk)) hd, fun _ => hk⟩
    · refine ⟨j, by omega, by rw [if_neg hd, List.append_nil], fun k hk => ?_⟩
      rcases Nat.lt_or_ge k m with h | h
      · exact h3 k h
      · obtain rfl : k = m := by omega
        exact ⟨fun h => by omega, fun h => absurd h hd⟩

theorem inTime_range (m : Nat) : InTime ((List.range m).map fun k => ((Notif.next k : Notif Nat), due t0 seconds period k)) := by
  rw [InTime, List.pairwise_map]
  exact (List.pairwise_lt_range (n := m)).imp fun h => due_mono (Nat.le_of_lt h)

/-- C109: `pipe(interval(s, p), take(n))` on a loop that is not overloaded: once the interval has sent `n` values, the observer has got
0, ..., n - 1, each when it was due, and the completion together with the last one, and nothing else. -/
theorem C109_interval_take (hp : period ≠ 0) (n : Nat) (hn : 0 < n) {ls s}
    (hr : LTS.run ((clocked true t0 seconds period).operate (takeOp (n : Int) : Operator Nat Nat).direct.slowProc).step
      ((clocked true t0 seconds period).operate (takeOp (n : Int) : Operator Nat Nat).direct.slowProc).init ls = some s)
    (hpr : ((clocked true t0 seconds period).operate (takeOp (n : Int) : Operator Nat Nat).direct.slowProc).Prompt
      (fun s => (takeOp (n : Int) : Operator Nat Nat).direct.slowProc.Quiescent s.2.ps) ls)
    (hqu : (takeOp (n : Int) : Operator Nat Nat).direct.slowProc.Quiescent s.2.ps) (hm : n ≤ ((clocked true t0 seconds period).calls s.1).length) :
    ((clocked true t0 seconds period).operate (takeOp (n : Int) : Operator Nat Nat).direct.slowProc).calls s =
      (List.range n).map (fun k => (.next k, due t0 seconds period k)) ++ [(.completed, due t0 seconds period (n - 1))] := by
  have hl := clocked_lawful true t0 seconds period
  have hG : (takeOp (n : Int) : Operator Nat Nat).Computes (Spec.take n) := (take_acts _).computes (take_calm _)
  have hgr : ∀ ls s, LTS.run (clocked true t0 seconds period).step (clocked true t0 seconds period).init ls = some s →
      Grammar (((clocked true t0 seconds period).calls s).map (·.1)) := by
    intro ls s h
    obtain ⟨m, hm, -⟩ := clocked_exact hp h
    refine ⟨⟨List.range m, .running⟩, ?_⟩
    rw [hm]
    simp [Story.events, Function.comp_def]
  obtain ⟨h1, -, h2⟩ := C109_operator hl hG.direct.slow (by
    simp only [Spec.take, List.take_nil, List.length_nil, Story.events]; rw [if_neg (by omega)]; rfl) hgr hr hpr
  obtain ⟨m, hc, -⟩ := clocked_exact hp (Clocked.operate_source hl hr).1
  rw [hc] at hm
  have hm : n ≤ m := by simpa using hm
  refine Spec.Timed.ext h1 ?_ fun t => ?_
  · refine (inTime_range n).append (List.pairwise_singleton ..) ?_
    intro x hx y hy
    obtain ⟨k, hk, rfl⟩ := List.mem_map.mp hx
    obtain rfl : y = _ := by simpa using hy
    have := List.mem_range.mp hk
    exact due_mono (by omega)
  · rw [h2 hqu, hc, upto_append]
    obtain ⟨j, j1, j2, j3⟩ := upto_range (t0 := t0) (seconds := seconds) (period := period) t m
    obtain ⟨i, i1, i2, i3⟩ := upto_range (t0 := t0) (seconds := seconds) (period := period) t n
    rw [i2, j2]
    have hst : story ((List.range j).map (Notif.next : Nat → Notif Nat)) = ⟨List.range j, .running⟩ := by
      have := story_events (⟨List.range j, .running⟩ : Story Nat)
      simpa [Story.events] using this
    rw [hst]
    simp only [Spec.take, List.length_range, Int.toNat_natCast, List.take_range]
    by_cases hj : n ≤ j
    · have hi : i = n := by
        have := (i3 (n - 1) (by omega)).mpr ((j3 (n - 1) (by omega)).mp (by omega))
        omega
      have hd := (j3 (n - 1) (by omega)).mp (by omega)
      rw [if_pos (by omega), hi, Nat.min_eq_left hj, upto_cons, if_pos hd]
      rfl
    · have hi : i = j := by
        rcases Nat.lt_trichotomy i j with h | h | h
        · have := (i3 i (by omega)).mpr ((j3 i (by omega)).mp h); omega
        · exact h
        · have := (j3 j (by omega)).mpr ((i3 j (by omega)).mp h); omega
      have hd : ¬ due t0 seconds period (n - 1) ≤ t := fun h => by
        have := (j3 (n - 1) (by omega)).mpr h; omega
      rw [if_neg (by omega), hi, Nat.min_eq_right (by omega), upto_cons, if_neg hd]
      simp [Story.events]

/-- The calls of a timer on a loop that is not overloaded. -/
theorem timer_exact {ls : List (Time Label)} {s : State}
    (hr : LTS.run (clocked true t0 seconds 0).step (clocked true t0 seconds 0).init ls = some s) :
    (clocked true t0 seconds 0).calls s <+: [(.next 0, t0 + seconds.toNat), (.completed, t0 + seconds.toNat)] ∧
      (Time.act .dispose ∉ ls → (∀ e, Time.act (.raise e) ∉ ls) → t0 + seconds.toNat < s.now → (clocked true t0 seconds 0).calls s ≠ []) := by
  obtain ⟨ms, h1, h2⟩ := clocked_run hr
  have h1 : LTS.run (promptStep seconds 0) (init t0) ms = some s := h1
  have hdue : ∀ k, due t0 seconds 0 k = t0 + seconds.toNat := by simp [due]
  refine ⟨?_, ?_⟩
  · have ht : ∀ c ∈ s.calls, c.1 = t0 + seconds.toNat := by
      refine LTS.inv_reach (step := promptStep seconds 0) (fun (_ : List Label) (s : State) => ∀ c ∈ s.calls, c.1 = t0 + seconds.toNat) (s0 := init t0)
        (by simp [init]) ?_ h1
      rintro ls ⟨now, pc, c, calls⟩ l t hr hi hs
      obtain ⟨p1, p2, p3, -⟩ := prompt_inv t0 seconds 0 hr
      simp only [hdue] at p1 p2 p3
      dsimp only at p1 p2 p3 hi
      simp only [promptStep] at hs
      split at hs
      · cases hs
      have hsnoc : ∀ {n : Notif Nat}, now = t0 + seconds.toNat → ∀ c ∈ calls ++ [(now, n)], c.1 = t0 + seconds.toNat := by
        intro n hn c hc
        rcases List.mem_append.mp hc with hc | hc
        · exact hi c hc
        · obtain rfl : c = _ := by simpa using hc
          exact hn
      cases l <;> cases pc <;> simp [step, afterSend] at hs
      all_goals try (first | (subst hs; exact hi) | (obtain ⟨-, rfl⟩ := hs; exact hi) | (split at hs <;> cases hs <;> exact hi))
      · next w n _ =>
        obtain ⟨⟨hw, -⟩, rfl⟩ := hs
        have := p2 w n rfl
        exact hsnoc (by omega)
      · next n _ => subst hs; exact hsnoc (p3 n rfl)
      · next n _ => obtain ⟨-, rfl⟩ := hs; exact hsnoc (p3 n rfl)
    have h3 := C25_timer t0 seconds (prompt_run h1)
    have hc : (clocked true t0 seconds 0).calls s = (s.calls.map (·.2)).map fun n => (n, t0 + seconds.toNat) := by
      show s.calls.map (fun c => (c.2, c.1)) = _
      rw [List.map_map]
      exact List.map_congr_left fun c hc => by simp [ht c hc]
    rw [hc]
    exact h3.map _
  · intro hd hx hlt hnil
    have hal : s.cancelling = false ∧ (s.calls = [] → s.pc = .fresh ∨ ∃ w n, s.pc = .sleeping w n) := by
      refine LTS.inv_of (step := promptStep seconds 0) (fun l => l ≠ .dispose ∧ ∀ e, l ≠ .raise e)
        (fun s : State => s.cancelling = false ∧ (s.calls = [] → s.pc = .fresh ∨ ∃ w n, s.pc = .sleeping w n)) (s0 := init t0) (by simp [init]) ?_ ?_ h1
      · rintro ⟨now, pc, c, calls⟩ l t ⟨l1, l2⟩ ⟨i1, i2⟩ hs
        dsimp only at i1 i2
        subst i1
        simp only [promptStep] at hs
        split at hs
        · cases hs
        cases l <;> cases pc <;> simp [step, afterSend] at hs l1 l2 i2 ⊢
        all_goals first | (subst hs; simp [i2]; done) | (obtain ⟨-, rfl⟩ := hs; simp; done)
      · intro l hl
        rcases h2 l hl with rfl | h
        · simp
        · exact ⟨fun he => hd (he ▸ h), fun e he => hx e (he ▸ h)⟩
    have hn : s.calls = [] := by
      have : s.calls.map (fun c => (c.2, c.1)) = [] := hnil
      simpa using this
    obtain ⟨p1, p2, -⟩ := prompt_inv t0 seconds 0 h1
    rcases hal.2 hn with h | ⟨w, n, h⟩
    · have := p1 h; omega
    · have := p2 w n h; rw [hdue] at this; omega

end Interval

/-! ## C110: cutting a stream off after some time -/

theorem upto_lefts (t : Nat) (cs : List ((Notif α ⊕ Notif β) × Nat)) : (upto t cs).filterMap Sum.getLeft? = upto t (Timed.lefts cs) := by
  induction cs with
  | nil => rfl
  | cons c cs ih =>
    obtain ⟨n | n, u⟩ := c
    · have : Timed.lefts ((Sum.inl n, u) :: cs) = (n, u) :: Timed.lefts cs := rfl
      rw [this, upto_cons, upto_cons]
      split
      · exact congrArg (n :: ·) ih
      · exact ih
    · have : Timed.lefts ((Sum.inr n, u) :: cs) = Timed.lefts cs := rfl
      rw [this, upto_cons]
      split
      · exact ih
      · exact ih

theorem upto_rights (t : Nat) (cs : List ((Notif α ⊕ Notif β) × Nat)) : (upto t cs).filterMap Sum.getRight? = upto t (Timed.rights cs) := by
  induction cs with
  | nil => rfl
  | cons c cs ih =>
    obtain ⟨n | n, u⟩ := c
    · have : Timed.rights ((Sum.inl n, u) :: cs) = Timed.rights cs := rfl
      rw [this, upto_cons]
      split
      · exact ih
      · exact ih
    · have : Timed.rights ((Sum.inr n, u) :: cs) = (n, u) :: Timed.rights cs := rfl
      rw [this, upto_cons, upto_cons]
      split
      · exact congrArg (n :: ·) ih
      · exact ih

theorem mem_lefts {cs : List ((Notif α ⊕ Notif β) × Nat)} {c : Notif α × Nat} : c ∈ Timed.lefts cs ↔ (.inl c.1, c.2) ∈ cs := by
  simp only [Timed.lefts, List.mem_filterMap]
  constructor
  · rintro ⟨⟨n | n, u⟩, h, h'⟩
    · cases h'; exact h
    · cases h'
  · exact fun h => ⟨_, h, rfl⟩

theorem mem_rights {cs : List ((Notif α ⊕ Notif β) × Nat)} {c : Notif β × Nat} : c ∈ Timed.rights cs ↔ (.inr c.1, c.2) ∈ cs := by
  simp only [Timed.rights, List.mem_filterMap]
  constructor
  · rintro ⟨⟨n | n, u⟩, h, h'⟩
    · cases h'
    · cases h'; exact h
  · exact fun h => ⟨_, h, rfl⟩

theorem lefts_append (a b : List ((Notif α ⊕ Notif β) × Nat)) : Timed.lefts (a ++ b) = Timed.lefts a ++ Timed.lefts b := List.filterMap_append ..

theorem split_right : ∀ {got : List ((Notif α ⊕ Notif β) × Nat)} {c : Notif β × Nat} {r}, Timed.rights got = c :: r →
    ∃ g₁ g₂, got = g₁ ++ (.inr c.1, c.2) :: g₂ ∧ Timed.rights g₁ = [] := by
  intro got
  induction got with
  | nil => intro c r h; cases h
  | cons x got ih =>
    intro c r h
    obtain ⟨n | n, u⟩ := x
    · obtain ⟨g₁, g₂, h1, h2⟩ := ih (show Timed.rights got = c :: r from h)
      exact ⟨(.inl n, u) :: g₁, g₂, by rw [h1]; rfl, h2⟩
    · have h : (n, u) :: Timed.rights got = c :: r := h
      obtain ⟨rfl, -⟩ := List.cons.inj h
      exact ⟨[], got, rfl, rfl⟩

theorem takeUntil_split {is : List (Notif α ⊕ Notif β)} (h : is.filterMap Sum.getRight? = []) (b : β) (js : List (Notif α ⊕ Notif β)) :
    Spec.takeUntil (is ++ .inr (.next b) :: js) = story (is.filterMap Sum.getLeft? ++ [.completed]) := by
  induction is with
  | nil => rfl
  | cons i is ih =>
    match i with
    | .inl (.next a) =>
      have := ih h
      show (⟨a :: (Spec.takeUntil (is ++ .inr (.next b) :: js)).vals, (Spec.takeUntil (is ++ .inr (.next b) :: js)).fin⟩ : Story α) = _
      rw [this]; rfl
    | .inl (.error e) => rfl
    | .inl .completed => rfl
    | .inr n => exact absurd (show n :: is.filterMap Sum.getRight? = [] from h) (by simp)

theorem InTime.lefts {cs : List ((Notif α ⊕ Notif β) × Nat)} (h : InTime cs) : InTime (Timed.lefts cs) := by
  induction cs with
  | nil => exact .nil
  | cons c cs ih =>
    obtain ⟨h1, h2⟩ := List.pairwise_cons.mp h
    obtain ⟨n | n, u⟩ := c
    · exact List.pairwise_cons.mpr ⟨fun d hd => h1 _ (mem_lefts.mp hd), ih h2⟩
    · exact ih h2

/-- C110: `pipe(source, take_until(timer(t)))` for any source, on a loop that is not overloaded: before the time is up the observer has got
the source's stream, each event when the source sent it. -/
theorem C110_before {q : Clocked S L α} (hq : q.Lawful) {seconds : Int} {ls s}
    (hr : LTS.run (q.two (Interval.clocked true (q.now q.init) seconds 0) (takeUntilSlow Nat Operator.id)).step
      (q.two (Interval.clocked true (q.now q.init) seconds 0) (takeUntilSlow Nat Operator.id)).init ls = some s)
    (hp : (q.two (Interval.clocked true (q.now q.init) seconds 0) (takeUntilSlow Nat Operator.id)).Prompt
      (fun s => (takeUntilSlow Nat (Operator.id (α := α))).Quiescent s.2.2.ps) ls)
    (hqu : (takeUntilSlow Nat (Operator.id (α := α))).Quiescent s.2.2.ps) (hn : q.now s.1 < q.now q.init + seconds.toNat) :
    (q.two (Interval.clocked true (q.now q.init) seconds 0) (takeUntilSlow Nat Operator.id)).calls s = Spec.Timed.cut (q.calls s.1) := by
  have hl := Interval.clocked_lawful true (q.now q.init) seconds 0
  obtain ⟨got, h1, h2, h3, h4, -, h5⟩ := C109_two hq hl rfl (C106_take_until (β := Nat) id_computes) rfl hr hp
  obtain ⟨g1, g2, g3, -, -⟩ := Clocked.two_sources hq hl rfl hr
  have hnil : Timed.rights got = [] := by
    rw [h3]
    obtain ⟨ht, -⟩ := Interval.timer_exact g2
    rw [List.eq_nil_iff_forall_not_mem]
    intro c hc
    have a := (hl.inTime g2).2 c hc
    have b := ht.subset hc
    have : c.2 = q.now q.init + seconds.toNat := by simp at b; rcases b with rfl | rfl <;> rfl
    omega
  refine Spec.Timed.ext h4 (InTime.sublist (Spec.Timed.cut_prefix _).sublist (hq.inTime g1).1) fun t => ?_
  rw [h5 hqu, upto_cut (hq.inTime g1).1, ← h2]
  have := (C106_until (upto t got)).2.1 (by rw [upto_rights, hnil]; simp)
  rw [this, upto_lefts]
  rfl

/-- C110: when the time is up the observer has got the events that the source had sent before, and possibly some of those that it sent at
that very moment, each when the source sent it, and then the completion at that moment. -/
theorem C110_after {q : Clocked S L α} (hq : q.Lawful) {seconds : Int} {ls s}
    (hr : LTS.run (q.two (Interval.clocked true (q.now q.init) seconds 0) (takeUntilSlow Nat Operator.id)).step
      (q.two (Interval.clocked true (q.now q.init) seconds 0) (takeUntilSlow Nat Operator.id)).init ls = some s)
    (hp : (q.two (Interval.clocked true (q.now q.init) seconds 0) (takeUntilSlow Nat Operator.id)).Prompt
      (fun s => (takeUntilSlow Nat (Operator.id (α := α))).Quiescent s.2.2.ps) ls)
    (hqu : (takeUntilSlow Nat (Operator.id (α := α))).Quiescent s.2.2.ps) (hn : q.now q.init + seconds.toNat < q.now s.1)
    (hd : Time.act (.right .dispose) ∉ ls) (hx : ∀ e, Time.act (.right (.raise e)) ∉ ls) :
    ∃ cs : List (Notif α × Nat), (q.calls s.1).filter (fun c => c.2 < q.now q.init + seconds.toNat) <+: cs ∧
      cs <+: (q.calls s.1).filter (fun c => c.2 ≤ q.now q.init + seconds.toNat) ∧
      (q.two (Interval.clocked true (q.now q.init) seconds 0) (takeUntilSlow Nat Operator.id)).calls s =
        Spec.Timed.cut (cs ++ [(.completed, q.now q.init + seconds.toNat)]) := by
  have hl := Interval.clocked_lawful true (q.now q.init) seconds 0
  obtain ⟨got, h1, h2, h3, h4, -, h5⟩ := C109_two hq hl rfl (C106_take_until (β := Nat) id_computes) rfl hr hp
  obtain ⟨g1, g2, g3, -, -⟩ := Clocked.two_sources hq hl rfl hr
  generalize hT : q.now q.init + seconds.toNat = T at hn
  obtain ⟨r, hr'⟩ : ∃ r, Timed.rights got = (.next 0, T) :: r := by
    obtain ⟨ht, hlive⟩ := Interval.timer_exact g2
    have hmem : ∀ {l : Interval.Label}, Time.act l ∈ Clocked.rights ls → Time.act (Two.Label.right l) ∈ ls := by
      intro l hl
      obtain ⟨x, hx, hx'⟩ := List.mem_filterMap.mp hl
      rcases x with d | (l' | l' | w) <;> cases hx'
      exact hx
    have hne := hlive (fun h => hd (hmem h)) (fun e h => hx e (hmem h)) (by
      have g3 : q.now s.1 = s.2.1.now := g3
      omega)
    rw [h3]
    rw [hT] at ht
    match hc : (Interval.clocked true (q.now q.init) seconds 0).calls s.2.1, ht, hne with
    | [], _, hne => exact absurd rfl hne
    | c :: r, ht, _ => 
      obtain ⟨z, hz⟩ := ht
      obtain ⟨rfl, -⟩ := List.cons.inj hz
      exact ⟨r, rfl⟩
  obtain ⟨a, b, rfl, hra⟩ := split_right hr'
  dsimp only at h1 h2 h5
  obtain ⟨i1, i2, i3⟩ := List.pairwise_append.mp h1
  obtain ⟨i4, i5⟩ := List.pairwise_cons.mp i2
  have ha : ∀ c ∈ a, c.2 ≤ T := fun c hc => i3 c hc (.inr (.next 0), T) (List.mem_cons_self ..)
  have hla : ∀ c ∈ Timed.lefts a, c.2 ≤ T := fun c hc => ha _ (mem_lefts.mp hc)
  have hlb : ∀ c ∈ Timed.lefts b, T ≤ c.2 := fun c hc => i4 _ (mem_lefts.mp hc)
  have hcalls : q.calls s.1 = Timed.lefts a ++ Timed.lefts b := by rw [← h2, lefts_append]; rfl
  have hsrt : InTime (Timed.lefts a ++ [(Notif.completed, T)]) := (InTime.lefts i1).append (List.pairwise_singleton ..) (by
    intro x hx y hy
    obtain rfl : y = _ := by simpa using hy
    exact hla x hx)
  refine ⟨Timed.lefts a, ?_, ?_, ?_⟩
  · rw [hcalls, List.filter_append, (List.filter_eq_nil_iff (l := Timed.lefts b)).mpr (by intro c hc; have := hlb c hc; simp; omega), List.append_nil]
    have : ∀ {cs : List (Notif α × Nat)}, InTime cs → cs.filter (fun c => c.2 < T) <+: cs := by
      intro cs
      induction cs with
      | nil => intro _; exact List.prefix_refl _
      | cons c cs ih =>
        intro h
        obtain ⟨u1, u2⟩ := List.pairwise_cons.mp h
        by_cases hc : c.2 < T
        · rw [List.filter_cons_of_pos (by simpa using hc)]; exact (List.prefix_cons_inj _).mpr (ih u2)
        · rw [List.filter_cons_of_neg (by simpa using hc), List.filter_eq_nil_iff.mpr (by intro d hd; have := u1 d hd; simp; omega)]
          exact List.nil_prefix
    exact this (InTime.lefts i1)
  · rw [hcalls, List.filter_append, List.filter_eq_self.mpr (by intro c hc; simpa using hla c hc)]
    exact List.prefix_append ..
  · refine Spec.Timed.ext h4 (InTime.sublist (Spec.Timed.cut_prefix _).sublist hsrt) fun t => ?_
    rw [h5 hqu, upto_cut hsrt, upto_append, upto_append, upto_cons, upto_cons, upto_nil]
    by_cases ht : T ≤ t
    · rw [if_pos ht, if_pos ht, takeUntil_split (by rw [upto_rights, hra]; rfl), upto_lefts]
      rfl
    · rw [if_neg ht, if_neg ht, List.append_nil, upto_none (cs := b) fun c hc => by have := i4 c hc; dsimp only at this; omega, List.append_nil]
      have := (C106_until (upto t a)).2.1 (by rw [upto_rights, hra]; simp)
      rw [this, upto_lefts]
      rfl

namespace Interval
variable {t0 : Nat} {seconds period : Int}

/-- C110: `pipe(interval(s, p), take_until(timer(t)))`, on a loop that is not overloaded: after the time is up the observer has got
0, 1, ..., n - 1, each when it was due, and then the completion when the time was up. The values are those that were due before that, and
possibly one that was due at that very moment. -/
theorem C110_interval (hp : 0 < period) {wait : Int} {ls s}
    (hr : LTS.run ((clocked true t0 seconds period).two (clocked true t0 wait 0) (takeUntilSlow Nat Operator.id)).step
      ((clocked true t0 seconds period).two (clocked true t0 wait 0) (takeUntilSlow Nat Operator.id)).init ls = some s)
    (hpr : ((clocked true t0 seconds period).two (clocked true t0 wait 0) (takeUntilSlow Nat Operator.id)).Prompt
      (fun s => (takeUntilSlow Nat (Operator.id (α := Nat))).Quiescent s.2.2.ps) ls)
    (hqu : (takeUntilSlow Nat (Operator.id (α := Nat))).Quiescent s.2.2.ps) (hn : t0 + wait.toNat < s.1.now)
    (hd : Time.act (.left .dispose) ∉ ls ∧ Time.act (.right .dispose) ∉ ls)
    (hx : ∀ e, Time.act (.left (.raise e)) ∉ ls ∧ Time.act (.right (.raise e)) ∉ ls) :
    ∃ n, ((clocked true t0 seconds period).two (clocked true t0 wait 0) (takeUntilSlow Nat Operator.id)).calls s =
        (List.range n).map (fun k => (.next k, due t0 seconds period k)) ++ [(.completed, t0 + wait.toNat)] ∧
      (∀ k < n, due t0 seconds period k ≤ t0 + wait.toNat) ∧ (∀ k, due t0 seconds period k < t0 + wait.toNat → k < n) := by
  have hl := clocked_lawful true t0 seconds period
  obtain ⟨cs, h1, h2, h3⟩ := C110_after (seconds := wait) hl hr hpr hqu hn hd.2 (fun e => (hx e).2)
  obtain ⟨g1, -⟩ := Clocked.two_sources hl (clocked_lawful true t0 wait 0) rfl hr
  obtain ⟨m, hm, hlive⟩ := clocked_exact (by omega) g1
  have hmem : ∀ {l : Label}, Time.act l ∈ Clocked.lefts ls → Time.act (Two.Label.left l) ∈ ls := by
    intro l hl
    obtain ⟨x, hx, hx'⟩ := List.mem_filterMap.mp hl
    rcases x with d | (l' | l' | w) <;> cases hx'
    exact hx
  have hlive := hlive (fun h => hd.1 (hmem h)) (fun e h => (hx e).1 (hmem h))
  have hpre : cs <+: (List.range m).map fun k => ((Notif.next k : Notif Nat), due t0 seconds period k) := by
    rw [← hm]
    refine h2.trans ?_
    have : ∀ {cs : List (Notif Nat × Nat)} {T : Nat}, InTime cs → cs.filter (fun c => c.2 ≤ T) <+: cs := by
      intro cs T
      induction cs with
      | nil => intro _; exact List.prefix_refl _
      | cons c cs ih =>
        intro h
        obtain ⟨u1, u2⟩ := List.pairwise_cons.mp h
        by_cases hc : c.2 ≤ T
        · rw [List.filter_cons_of_pos (by simpa using hc)]; exact (List.prefix_cons_inj _).mpr (ih u2)
        · rw [List.filter_cons_of_neg (by simpa using hc), List.filter_eq_nil_iff.mpr (by intro d hd; have := u1 d hd; simp; omega)]
          exact List.nil_prefix
    exact this (hl.inTime g1).1
  obtain ⟨n, hn'⟩ : ∃ n, n = cs.length := ⟨_, rfl⟩
  have hnm : n ≤ m := by simpa [← hn'] using hpre.length_le
  have hcs : cs = (List.range n).map fun k => ((Notif.next k : Notif Nat), due t0 seconds period k) := by
    have := List.prefix_iff_eq_take.mp hpre
    rw [← hn', ← List.map_take, List.take_range, Nat.min_eq_left hnm] at this
    exact this
  have hcut : ∀ (vs : List Nat) (d : Nat → Nat) (T : Nat), Spec.Timed.cut ((vs.map fun k => ((Notif.next k : Notif Nat), d k)) ++ [(.completed, T)]) =
      (vs.map fun k => ((Notif.next k : Notif Nat), d k)) ++ [(.completed, T)] := by
    intro vs d T
    induction vs with
    | nil => rfl
    | cons v vs ih => exact congrArg ((Notif.next v, d v) :: ·) ih
  refine ⟨n, ?_, ?_, ?_⟩
  · refine h3.trans ?_
    rw [hcs, hcut]
    rfl
  · intro k hk
    have : ((Notif.next k : Notif Nat), due t0 seconds period k) ∈ cs := by
      rw [hcs]; exact List.mem_map.mpr ⟨k, List.mem_range.mpr hk, rfl⟩
    exact of_decide_eq_true (List.mem_filter.mp (h2.subset this)).2
  · intro k hk
    have hkm := hlive k (by
      have : t0 + wait.toNat < s.1.now := hn
      omega)
    have : ((Notif.next k : Notif Nat), due t0 seconds period k) ∈ cs := h1.subset (by
      rw [hm]
      exact List.mem_filter.mpr ⟨List.mem_map.mpr ⟨k, List.mem_range.mpr hkm, rfl⟩, decide_eq_true hk⟩)
    rw [hcs] at this
    obtain ⟨j, hj, he⟩ := List.mem_map.mp this
    simp only [Prod.mk.injEq, Notif.next.injEq] at he
    rw [← he.1]
    exact List.mem_range.mp hj

end Interval

/-! ## C111: pairs of values that belong together -/

/-- What came before time `t`. -/
def before (t : Nat) {ι : Type} (cs : List (ι × Nat)) : List (ι × Nat) := cs.filter fun c => c.2 < t
def during (t : Nat) {ι : Type} (cs : List (ι × Nat)) : List (ι × Nat) := cs.filter fun c => c.2 = t

theorem before_cons {ι : Type} (t : Nat) (c : ι × Nat) (cs : List (ι × Nat)) : before t (c :: cs) = if c.2 < t then c :: before t cs else before t cs := by
  by_cases h : c.2 < t <;> simp [before, h]
theorem during_cons {ι : Type} (t : Nat) (c : ι × Nat) (cs : List (ι × Nat)) : during t (c :: cs) = if c.2 = t then c :: during t cs else during t cs := by
  by_cases h : c.2 = t <;> simp [during, h]

theorem upto_split {ι : Type} (t : Nat) {cs : List (ι × Nat)} (h : InTime cs) : upto t cs = (before t cs ++ during t cs).map (·.1) := by
  induction cs with
  | nil => rfl
  | cons c cs ih =>
    obtain ⟨h1, h2⟩ := List.pairwise_cons.mp h
    have ih := ih h2
    rcases Nat.lt_trichotomy c.2 t with hc | hc | hc
    · rw [upto_cons, if_pos (by omega), ih, before_cons, during_cons, if_pos hc, if_neg (by omega)]
      rfl
    · have hb : before t cs = [] := List.filter_eq_nil_iff.mpr fun d hd => by have := h1 d hd; simp; omega
      rw [upto_cons, if_pos (by omega), ih, before_cons, during_cons, if_neg (by omega), if_pos hc, hb]
      rfl
    · rw [upto_none fun d hd => ?_]
      · rw [before, during, List.filter_eq_nil_iff.mpr, List.filter_eq_nil_iff.mpr]
        · rfl
        · intro d hd
          rcases List.mem_cons.mp hd with rfl | hd
          · simp; omega
          · have := h1 d hd; simp; omega
        · intro d hd
          rcases List.mem_cons.mp hd with rfl | hd
          · simp; omega
          · have := h1 d hd; simp; omega
      · rcases List.mem_cons.mp hd with rfl | hd
        · exact hc
        · have := h1 d hd; omega

theorem before_upto {ι : Type} (t : Nat) (cs : List (ι × Nat)) : (before t cs).map (·.1) = if t = 0 then [] else upto (t - 1) cs := by
  cases t with
  | zero => simp [before]
  | succ t =>
    simp only [before, upto, Nat.add_one_ne_zero, if_false, Nat.add_sub_cancel]
    congr 2
    funext c
    simp only [decide_eq_decide]; omega

/-- A value of either side as the event it came in. -/
def event : α ⊕ β → Notif α ⊕ Notif β
  | .inl a => .inl (.next a)
  | .inr b => .inr (.next b)

theorem both_append_running {xs ys : List (Notif α ⊕ Notif β)} (h : (both xs).2 = .running) :
    both (xs ++ ys) = ((both xs).1 ++ (both ys).1, (both ys).2) ∧ (both xs).1.length = xs.length := by
  induction xs with
  | nil => exact ⟨rfl, rfl⟩
  | cons x xs ih =>
    match x with
    | .inl (.next a) => obtain ⟨h1, h2⟩ := ih h; exact ⟨by simp only [List.cons_append, both, h1], by simp [both, h2]⟩
    | .inr (.next a) => obtain ⟨h1, h2⟩ := ih h; exact ⟨by simp only [List.cons_append, both, h1], by simp [both, h2]⟩
    | .inl (.error e) => cases h
    | .inl .completed => cases h
    | .inr (.error e) => cases h
    | .inr .completed => cases h

theorem both_append_ended {xs : List (Notif α ⊕ Notif β)} (ys : List (Notif α ⊕ Notif β)) (h : (both xs).2 ≠ .running) :
    both (xs ++ ys) = both xs := by
  induction xs with
  | nil => exact absurd rfl h
  | cons x xs ih =>
    match x with
    | .inl (.next a) => have := ih h; simp only [List.cons_append, both, this]
    | .inr (.next a) => have := ih h; simp only [List.cons_append, both, this]
    | .inl (.error e) => rfl
    | .inl .completed => rfl
    | .inr (.error e) => rfl
    | .inr .completed => rfl

theorem both_get : ∀ {is : List (Notif α ⊕ Notif β)} {j : Nat} {v : α ⊕ β}, (both is).1[j]? = some v → is[j]? = some (event v) := by
  intro is
  induction is with
  | nil => intro j v h; simp [both] at h
  | cons x xs ih =>
    intro j v h
    match x with
    | .inl (.next a) =>
      cases j with
      | zero => simp [both] at h; subst h; rfl
      | succ j => exact ih (by simpa [both] using h)
    | .inr (.next a) =>
      cases j with
      | zero => simp [both] at h; subst h; rfl
      | succ j => exact ih (by simpa [both] using h)
    | .inl (.error e) => simp [both] at h
    | .inl .completed => simp [both] at h
    | .inr (.error e) => simp [both] at h
    | .inr .completed => simp [both] at h

theorem both_length (is : List (Notif α ⊕ Notif β)) : (both is).1.length ≤ is.length := by
  induction is with
  | nil => exact Nat.le_refl _
  | cons x xs ih =>
    match x with
    | .inl (.next a) => simpa [both] using ih
    | .inr (.next a) => simpa [both] using ih
    | .inl (.error e) => simp [both]
    | .inl .completed => simp [both]
    | .inr (.error e) => simp [both]
    | .inr .completed => simp [both]

/-- When something is sent that is made of the values that have come in so far: with each new value. -/
theorem sent_iff {w : List (α ⊕ β) → Nat → Option γ} (hw : ∀ a b i, i < a.length → w (a ++ b) i = w a i)
    {got : List ((Notif α ⊕ Notif β) × Nat)} {sent : List (Notif γ × Nat)} (hg : InTime got) (hs : InTime sent)
    (h : ∀ t, upto t sent = (⟨(List.range (both (upto t got)).1.length).filterMap (w (both (upto t got)).1), (both (upto t got)).2⟩ : Story γ).events)
    (x : γ) (t : Nat) :
    (.next x, t) ∈ sent ↔ ∃ i, (before t got).length ≤ i ∧ i < (both ((before t got ++ during t got).map (·.1))).1.length ∧
      w (both ((before t got ++ during t got).map (·.1))).1 i = some x := by
  have h1 : (before t sent).map (·.1) = (⟨(List.range (both ((before t got).map (·.1))).1.length).filterMap (w (both ((before t got).map (·.1))).1),
      (both ((before t got).map (·.1))).2⟩ : Story γ).events := by
    rw [before_upto, before_upto]
    split
    · rfl
    · exact h _
  have h2 := h t
  rw [upto_split t hs, upto_split t hg] at h2
  have hmem : (.next x, t) ∈ sent ↔ .next x ∈ (during t sent).map (·.1) := by
    simp only [during, List.mem_map, List.mem_filter, decide_eq_true_eq]
    constructor
    · exact fun h => ⟨_, ⟨h, rfl⟩, rfl⟩
    · rintro ⟨⟨y, u⟩, ⟨hm, rfl⟩, rfl⟩; exact hm
  rw [hmem]
  rw [List.map_append, h1] at h2
  by_cases hrun : (both ((before t got).map (·.1))).2 = .running
  · obtain ⟨b1, b2⟩ := both_append_running (ys := (during t got).map (·.1)) hrun
    rw [← List.map_append] at b1
    rw [List.length_map] at b2
    have hsplit : (List.range (both ((before t got ++ during t got).map (·.1))).1.length).filterMap (w (both ((before t got ++ during t got).map (·.1))).1) =
        (List.range (both ((before t got).map (·.1))).1.length).filterMap (w (both ((before t got).map (·.1))).1) ++
        ((List.range (both ((during t got).map (·.1))).1.length).map ((before t got).length + ·)).filterMap
          (w (both ((before t got ++ during t got).map (·.1))).1) := by
      conv => lhs; arg 2; rw [b1]
      rw [List.length_append, List.range_add, List.filterMap_append, b2]
      congr 1
      have : ∀ i ∈ List.range (before t got).length, w (both ((before t got ++ during t got).map (·.1))).1 i = w (both ((before t got).map (·.1))).1 i := by
        intro i hi
        rw [b1]
        exact hw _ _ _ (by rw [b2]; exact List.mem_range.mp hi)
      generalize List.range (before t got).length = l at this
      induction l with
      | nil => rfl
      | cons i l ih => rw [List.filterMap_cons, List.filterMap_cons, this i (List.mem_cons_self ..), ih fun i hi => this i (List.mem_cons_of_mem _ hi)]
    rw [hsplit] at h2
    simp only [Story.events, hrun, End.events, List.append_nil, List.map_append, List.append_assoc] at h2
    have h3 := List.append_cancel_left h2
    rw [h3]
    have hlen : (both ((before t got ++ during t got).map (·.1))).1.length = (before t got).length + (both ((during t got).map (·.1))).1.length := by
      rw [b1, List.length_append, b2]
    rw [hlen]
    constructor
    · intro hx
      rcases List.mem_append.mp hx with hx | hx
      · obtain ⟨y, hy, he⟩ := List.mem_map.mp hx
        cases he
        obtain ⟨i, hi, hi'⟩ := List.mem_filterMap.mp hy
        obtain ⟨k, hk, rfl⟩ := List.mem_map.mp hi
        have := List.mem_range.mp hk
        exact ⟨(before t got).length + k, by omega, by omega, by rw [List.map_append]; exact hi'⟩
      · exfalso
        revert hx
        split <;> simp
    · rintro ⟨i, i1, i2, i3⟩
      rw [List.map_append] at i3
      refine List.mem_append_left _ (List.mem_map.mpr ⟨x, List.mem_filterMap.mpr ⟨i, List.mem_map.mpr ⟨i - (before t got).length, ?_, by omega⟩, i3⟩, rfl⟩)
      exact List.mem_range.mpr (by omega)
  · have hb := both_append_ended ((during t got).map (·.1)) hrun
    rw [← List.map_append] at hb
    rw [hb] at h2 ⊢
    have h3 : (during t sent).map (·.1) = [] := by
      have := congrArg List.length h2
      simp only [List.length_append] at this
      exact List.length_eq_zero_iff.mp (by omega)
    rw [h3]
    have := both_length ((before t got).map (·.1))
    rw [List.length_map] at this
    constructor
    · intro h; cases h
    · rintro ⟨i, i1, i2, -⟩; omega

theorem getLast_filterMap {δ ε : Type} {f : δ → Option ε} : ∀ {us : List δ} {y : ε}, (us.filterMap f).getLast? = some y →
    ∃ (j : Nat) (x : δ), us[j]? = some x ∧ f x = some y ∧ ∀ (k : Nat) (x' : δ), j < k → us[k]? = some x' → f x' = none := by
  intro us
  induction us with
  | nil => intro y h; simp at h
  | cons u us ih =>
    intro y h
    cases hl : (us.filterMap f).getLast? with
    | some z =>
      obtain ⟨j, x, h1, h2, h3⟩ := ih hl
      have : z = y := by
        rw [List.filterMap_cons] at h
        split at h
        · rw [hl] at h; exact Option.some.inj h
        · rw [List.getLast?_cons, hl] at h; simpa using h
      subst this
      refine ⟨j + 1, x, h1, h2, fun k x' hk hx' => ?_⟩
      obtain ⟨k, rfl⟩ : ∃ m, k = m + 1 := ⟨k - 1, by omega⟩
      exact h3 k x' (by omega) hx'
    | none =>
      have hn : us.filterMap f = [] := List.getLast?_eq_none_iff.mp hl
      refine ⟨0, u, rfl, ?_, fun k x' hk hx' => ?_⟩
      · rw [List.filterMap_cons, hn] at h
        split at h
        · cases h
        · next e => simpa [e] using h
      · obtain ⟨k, rfl⟩ : ∃ m, k = m + 1 := ⟨k - 1, by omega⟩
        exact List.filterMap_eq_nil_iff.mp hn x' (List.mem_of_getElem? (show us[k]? = some x' from hx'))

theorem inTime_split {ι : Type} {cs : List (ι × Nat)} (h : InTime cs) (t : Nat) : InTime (before t cs ++ during t cs) := by
  refine InTime.append (InTime.sublist List.filter_sublist h) (InTime.sublist List.filter_sublist h) fun x hx y hy => ?_
  have h1 := of_decide_eq_true (List.mem_filter.mp hx).2
  have h2 := of_decide_eq_true (List.mem_filter.mp hy).2
  omega

theorem both_index {got : List ((Notif α ⊕ Notif β) × Nat)} {t j : Nat} {v : α ⊕ β}
    (h : (both ((before t got ++ during t got).map (·.1))).1[j]? = some v) :
    ∃ u, (before t got ++ during t got)[j]? = some (event v, u) ∧ (event v, u) ∈ got ∧ u ≤ t ∧ ((before t got).length ≤ j → u = t) := by
  have h1 := both_get h
  rw [List.getElem?_map] at h1
  obtain ⟨⟨n, u⟩, h2, h3⟩ := Option.map_eq_some_iff.mp h1
  dsimp only at h3
  subst h3
  refine ⟨u, h2, ?_⟩
  rcases Nat.lt_or_ge j (before t got).length with hj | hj
  · rw [List.getElem?_append_left hj] at h2
    obtain ⟨g1, g2⟩ := List.mem_filter.mp (List.mem_of_getElem? h2)
    have := of_decide_eq_true g2
    dsimp only at this
    exact ⟨g1, by omega, fun h => by omega⟩
  · rw [List.getElem?_append_right hj] at h2
    obtain ⟨g1, g2⟩ := List.mem_filter.mp (List.mem_of_getElem? h2)
    have := of_decide_eq_true g2
    dsimp only at this
    exact ⟨g1, by omega, fun _ => this⟩

/-- The newest value of one side among those that have come in: there is no newer one from before time `t`. -/
theorem latest_left {got : List ((Notif α ⊕ Notif β) × Nat)} (hg : InTime got) {t n : Nat} (h1 : (before t got).length ≤ n)
    (h2 : n ≤ (both ((before t got ++ during t got).map (·.1))).1.length) {b : α} (hb : newestL ((both ((before t got ++ during t got).map (·.1))).1.take n) = some b) :
    ∃ u ≤ t, (.next b, u) ∈ Timed.lefts got ∧ ∀ c ∈ Timed.lefts got, c.2 < t → c.2 ≤ u := by
  obtain ⟨j, x, hj, hx, hlast⟩ := getLast_filterMap hb
  obtain rfl : x = Sum.inl b := by cases x <;> simp at hx; subst hx; rfl
  have hjn : j < n := by
    apply Classical.byContradiction
    intro hge
    rw [List.getElem?_take_eq_none (by omega)] at hj
    cases hj
  rw [List.getElem?_take_of_lt hjn] at hj
  obtain ⟨u, e1, e2, e3, -⟩ := both_index hj
  refine ⟨u, e3, mem_lefts.mpr e2, fun c hc hct => ?_⟩
  have hm : (Sum.inl c.1, c.2) ∈ before t got := List.mem_filter.mpr ⟨mem_lefts.mp hc, decide_eq_true hct⟩
  obtain ⟨k, hk, he⟩ := List.getElem_of_mem hm
  have hk' : (before t got ++ during t got)[k]? = some (Sum.inl c.1, c.2) := by
    rw [List.getElem?_append_left hk, List.getElem?_eq_getElem hk, he]
  rcases Nat.lt_or_ge j k with hjk | hjk
  · exfalso
    have hkv : k < (both ((before t got ++ during t got).map (·.1))).1.length := by omega
    have hv := List.getElem?_eq_getElem hkv
    have hside := hlast k _ hjk (by rw [List.getElem?_take_of_lt (by omega)]; exact hv)
    obtain ⟨u', e, -⟩ := both_index hv
    rw [hk'] at e
    generalize (both ((before t got ++ during t got).map (·.1))).1[k] = v at hside e
    cases v with
    | inl a => simp [event] at hside e
    | inr a => simp [event] at hside e
  · have hsrt := (inTime_split hg t)
    rcases Nat.lt_or_eq_of_le hjk with h | h
    · obtain ⟨hk1, hk2⟩ := List.getElem?_eq_some_iff.mp hk'
      obtain ⟨hj1, hj2⟩ := List.getElem?_eq_some_iff.mp e1
      have := List.pairwise_iff_getElem.mp hsrt k j hk1 hj1 h
      rw [hk2, hj2] at this
      exact this
    · subst h
      rw [hk'] at e1
      simp only [Option.some.injEq, Prod.mk.injEq] at e1
      omega

/-- The newest value of one side among those that have come in: there is no newer one from before time `t`. -/
theorem latest_right {got : List ((Notif α ⊕ Notif β) × Nat)} (hg : InTime got) {t n : Nat} (h1 : (before t got).length ≤ n)
    (h2 : n ≤ (both ((before t got ++ during t got).map (·.1))).1.length) {b : β} (hb : newestR ((both ((before t got ++ during t got).map (·.1))).1.take n) = some b) :
    ∃ u ≤ t, (.next b, u) ∈ Timed.rights got ∧ ∀ c ∈ Timed.rights got, c.2 < t → c.2 ≤ u := by
  obtain ⟨j, x, hj, hx, hlast⟩ := getLast_filterMap hb
  obtain rfl : x = Sum.inr b := by cases x <;> simp at hx; subst hx; rfl
  have hjn : j < n := by
    apply Classical.byContradiction
    intro hge
    rw [List.getElem?_take_eq_none (by omega)] at hj
    cases hj
  rw [List.getElem?_take_of_lt hjn] at hj
  obtain ⟨u, e1, e2, e3, -⟩ := both_index hj
  refine ⟨u, e3, mem_rights.mpr e2, fun c hc hct => ?_⟩
  have hm : (Sum.inr c.1, c.2) ∈ before t got := List.mem_filter.mpr ⟨mem_rights.mp hc, decide_eq_true hct⟩
  obtain ⟨k, hk, he⟩ := List.getElem_of_mem hm
  have hk' : (before t got ++ during t got)[k]? = some (Sum.inr c.1, c.2) := by
    rw [List.getElem?_append_left hk, List.getElem?_eq_getElem hk, he]
  rcases Nat.lt_or_ge j k with hjk | hjk
  · exfalso
    have hkv : k < (both ((before t got ++ during t got).map (·.1))).1.length := by omega
    have hv := List.getElem?_eq_getElem hkv
    have hside := hlast k _ hjk (by rw [List.getElem?_take_of_lt (by omega)]; exact hv)
    obtain ⟨u', e, -⟩ := both_index hv
    rw [hk'] at e
    generalize (both ((before t got ++ during t got).map (·.1))).1[k] = v at hside e
    cases v with
    | inl a => simp [event] at hside e
    | inr a => simp [event] at hside e
  · have hsrt := (inTime_split hg t)
    rcases Nat.lt_or_eq_of_le hjk with h | h
    · obtain ⟨hk1, hk2⟩ := List.getElem?_eq_some_iff.mp hk'
      obtain ⟨hj1, hj2⟩ := List.getElem?_eq_some_iff.mp e1
      have := List.pairwise_iff_getElem.mp hsrt k j hk1 hj1 h
      rw [hk2, hj2] at this
      exact this
    · subst h
      rw [hk'] at e1
      simp only [Option.some.injEq, Prod.mk.injEq] at e1
      omega

/-- What `with_latest_from` sends with the `i`-th value. -/
def latestPair (vs : List (α ⊕ β)) (i : Nat) : Option (α × β) :=
  match vs[i]? with
  | some (.inl a) => (newestR (vs.take i)).map fun b => (a, b)
  | _ => none

theorem latestPair_local (a b : List (α ⊕ β)) (i : Nat) (h : i < a.length) : latestPair (a ++ b) i = latestPair a i := by
  simp only [latestPair, List.getElem?_append_left h, List.take_append_of_le_length (Nat.le_of_lt h)]

theorem newest_local (a b : List (α ⊕ β)) (i : Nat) (h : i < a.length) : newest ((a ++ b).take (i + 1)) = newest (a.take (i + 1)) := by
  rw [List.take_append_of_le_length h]

theorem index_during {ι : Type} {cs : List (ι × Nat)} {n : ι} {t : Nat} (h : (n, t) ∈ cs) :
    ∃ i, (before t cs).length ≤ i ∧ (before t cs ++ during t cs)[i]? = some (n, t) := by
  obtain ⟨i, hi, he⟩ := List.getElem_of_mem (show (n, t) ∈ during t cs from List.mem_filter.mpr ⟨h, decide_eq_true rfl⟩)
  exact ⟨(before t cs).length + i, by omega, by rw [List.getElem?_append_right (by omega), Nat.add_sub_cancel_left, List.getElem?_eq_getElem hi, he]⟩

theorem index_before {ι : Type} {cs : List (ι × Nat)} {n : ι} {t u : Nat} (h : (n, u) ∈ cs) (hu : u < t) :
    ∃ i, i < (before t cs).length ∧ (before t cs ++ during t cs)[i]? = some (n, u) := by
  obtain ⟨i, hi, he⟩ := List.getElem_of_mem (show (n, u) ∈ before t cs from List.mem_filter.mpr ⟨h, decide_eq_true hu⟩)
  exact ⟨i, hi, by rw [List.getElem?_append_left hi, List.getElem?_eq_getElem hi, he]⟩

theorem both_all : ∀ {is : List (Notif α ⊕ Notif β)}, (∀ n ∈ is, ∃ v, n = event v) → ∀ (i : Nat) (n), is[i]? = some n → ∃ v, (both is).1[i]? = some v ∧ event v = n := by
  intro is
  induction is with
  | nil => intro _ i n h; cases h
  | cons x xs ih =>
    intro hv i n h
    obtain ⟨v, rfl⟩ := hv x List.mem_cons_self
    have ih' := ih fun n hn => hv n (List.mem_cons_of_mem _ hn)
    cases v with
    | inl a =>
      cases i with
      | zero => exact ⟨.inl a, rfl, Option.some.inj h⟩
      | succ i => exact ih' _ _ h
    | inr a =>
      cases i with
      | zero => exact ⟨.inr a, rfl, Option.some.inj h⟩
      | succ i => exact ih' _ _ h

theorem both_values {got : List ((Notif α ⊕ Notif β) × Nat)} {t : Nat} (hl : ∀ c ∈ Timed.lefts got, c.2 ≤ t → ∃ v, c.1 = .next v)
    (hr : ∀ c ∈ Timed.rights got, c.2 ≤ t → ∃ v, c.1 = .next v) (i : Nat) (n u) (h : (before t got ++ during t got)[i]? = some (n, u)) :
    ∃ v, (both ((before t got ++ during t got).map (·.1))).1[i]? = some v ∧ event v = n := by
  refine both_all (fun m hm => ?_) _ _ (by rw [List.getElem?_map, h]; rfl)
  obtain ⟨⟨m', u'⟩, hm', rfl⟩ := List.mem_map.mp hm
  have : (m', u') ∈ got ∧ u' ≤ t := by
    rcases List.mem_append.mp hm' with h | h
    · obtain ⟨h1, h2⟩ := List.mem_filter.mp h
      exact ⟨h1, Nat.le_of_lt (of_decide_eq_true h2)⟩
    · obtain ⟨h1, h2⟩ := List.mem_filter.mp h
      exact ⟨h1, Nat.le_of_eq (of_decide_eq_true h2)⟩
  rcases m' with m | m
  · obtain ⟨v, hv⟩ := hl (m, u') (mem_lefts.mpr this.1) this.2
    exact ⟨.inl v, by rw [show m = _ from hv]; rfl⟩
  · obtain ⟨v, hv⟩ := hr (m, u') (mem_rights.mpr this.1) this.2
    exact ⟨.inr v, by rw [show m = _ from hv]; rfl⟩

theorem newest_exists {vs : List (α ⊕ β)} {b : β} (h : .inr b ∈ vs) : ∃ b', newestR vs = some b' := by
  apply Option.ne_none_iff_exists'.mp
  intro hnone
  have hnil := List.getLast?_eq_none_iff.mp hnone
  cases List.filterMap_eq_nil_iff.mp hnil _ h

theorem newest_exists_left {vs : List (α ⊕ β)} {a : α} (h : .inl a ∈ vs) : ∃ a', newestL vs = some a' := by
  apply Option.ne_none_iff_exists'.mp
  intro hnone
  have hnil := List.getLast?_eq_none_iff.mp hnone
  cases List.filterMap_eq_nil_iff.mp hnil _ h

theorem newestL_last {vs : List (α ⊕ β)} {i : Nat} {a : α} (h : vs[i]? = some (.inl a)) : newestL (vs.take (i + 1)) = some a := by
  rw [List.take_add_one, h, newestL, List.filterMap_append]
  simp

theorem newestR_last {vs : List (α ⊕ β)} {i : Nat} {b : β} (h : vs[i]? = some (.inr b)) : newestR (vs.take (i + 1)) = some b := by
  rw [List.take_add_one, h, newestR, List.filterMap_append]
  simp

/-- C111: `pipe(source, with_latest_from(other))` for any two sources, on a loop that is not overloaded: every pair is sent at the moment at
which the source sends its first component, and the second component is not outdated: `other` has not sent anything newer before. -/
theorem C111_with_latest_from {q₁ : Clocked S₁ L₁ α} {q₂ : Clocked S₂ L₂ β} (h₁ : q₁.Lawful) (h₂ : q₂.Lawful) (h0 : q₁.now q₁.init = q₂.now q₂.init)
    {ls s} (hr : LTS.run (q₁.two q₂ (withLatestFromSlow Operator.id)).step (q₁.two q₂ (withLatestFromSlow Operator.id)).init ls = some s)
    (hp : (q₁.two q₂ (withLatestFromSlow Operator.id)).Prompt (fun s => (withLatestFromSlow (Operator.id (α := α × β))).Quiescent s.2.2.ps) ls)
    (hqu : (withLatestFromSlow (Operator.id (α := α × β))).Quiescent s.2.2.ps) {a b t}
    (h : (.next (a, b), t) ∈ (q₁.two q₂ (withLatestFromSlow Operator.id)).calls s) :
    (.next a, t) ∈ q₁.calls s.1 ∧ ∃ u ≤ t, (.next b, u) ∈ q₂.calls s.2.1 ∧ ∀ c ∈ q₂.calls s.2.1, c.2 < t → c.2 ≤ u := by
  obtain ⟨got, g1, g2, g3, g4, -, g5⟩ := C109_two h₁ h₂ h0 (C106_with_latest_from id_computes) rfl hr hp
  rw [sent_iff (w := latestPair) latestPair_local g1 g4 (g5 hqu)] at h
  obtain ⟨i, i1, i2, i3⟩ := h
  rw [← g2, ← g3]
  unfold latestPair at i3
  split at i3
  · next a' hv =>
    obtain ⟨b', hb, he⟩ := Option.map_eq_some_iff.mp i3
    cases he
    obtain ⟨u, -, e2, -, e4⟩ := both_index hv
    rw [e4 i1] at e2
    exact ⟨mem_lefts.mpr e2, latest_right g1 i1 (Nat.le_of_lt i2) hb⟩
  · cases i3

/-- C111: and no element of the source is left out after the first value of `other`, as long as neither has ended. -/
theorem C111_with_latest_from_all {q₁ : Clocked S₁ L₁ α} {q₂ : Clocked S₂ L₂ β} (h₁ : q₁.Lawful) (h₂ : q₂.Lawful) (h0 : q₁.now q₁.init = q₂.now q₂.init)
    {ls s} (hr : LTS.run (q₁.two q₂ (withLatestFromSlow Operator.id)).step (q₁.two q₂ (withLatestFromSlow Operator.id)).init ls = some s)
    (hp : (q₁.two q₂ (withLatestFromSlow Operator.id)).Prompt (fun s => (withLatestFromSlow (Operator.id (α := α × β))).Quiescent s.2.2.ps) ls)
    (hqu : (withLatestFromSlow (Operator.id (α := α × β))).Quiescent s.2.2.ps) {a b t u} (ha : (.next a, t) ∈ q₁.calls s.1)
    (hb : (.next b, u) ∈ q₂.calls s.2.1) (hut : u < t) (hl : ∀ c ∈ q₁.calls s.1, c.2 ≤ t → ∃ v, c.1 = .next v)
    (hr' : ∀ c ∈ q₂.calls s.2.1, c.2 ≤ t → ∃ v, c.1 = .next v) :
    ∃ b', (.next (a, b'), t) ∈ (q₁.two q₂ (withLatestFromSlow Operator.id)).calls s := by
  obtain ⟨got, g1, g2, g3, g4, -, g5⟩ := C109_two h₁ h₂ h0 (C106_with_latest_from id_computes) rfl hr hp
  rw [← g2] at ha hl
  rw [← g3] at hb hr'
  obtain ⟨i, i1, i2⟩ := index_during (mem_lefts.mp ha)
  dsimp only at i1 i2
  obtain ⟨k, k1, k2⟩ := index_before (mem_rights.mp hb) hut
  have hv := both_values (got := got) (t := t) (fun c hc hct => hl c hc hct) (fun c hc hct => hr' c hc hct)
  obtain ⟨v, v1, v2⟩ := hv _ _ _ i2
  obtain ⟨w, w1, w2⟩ := hv _ _ _ k2
  have ev : v = .inl a := by cases v <;> simp [event] at v2 <;> rw [v2]
  have ew : w = .inr b := by cases w <;> simp [event] at w2 <;> rw [w2]
  subst ev ew
  obtain ⟨b', hb'⟩ := newest_exists (vs := (both ((before t got ++ during t got).map (·.1))).1.take i) (b := b)
    (List.mem_of_getElem? (i := k) (by rw [List.getElem?_take_of_lt (by omega)]; exact w1))
  refine ⟨b', (sent_iff (w := latestPair) latestPair_local g1 g4 (g5 hqu) _ _).mpr ⟨i, i1, (List.getElem?_eq_some_iff.mp v1).1, ?_⟩⟩
  rw [latestPair, v1]
  simp only [hb', Option.map_some]

/-- C111: `pipe(a, combine_latest(b))` for any two sources, on a loop that is not overloaded: every pair is sent at the moment at which one
of the two sends its component, and neither component is outdated. -/
theorem C111_combine_latest {q₁ : Clocked S₁ L₁ α} {q₂ : Clocked S₂ L₂ β} (h₁ : q₁.Lawful) (h₂ : q₂.Lawful) (h0 : q₁.now q₁.init = q₂.now q₂.init)
    {ls s} (hr : LTS.run (q₁.two q₂ (combineLatestSlow Operator.id)).step (q₁.two q₂ (combineLatestSlow Operator.id)).init ls = some s)
    (hp : (q₁.two q₂ (combineLatestSlow Operator.id)).Prompt (fun s => (combineLatestSlow (Operator.id (α := α × β))).Quiescent s.2.2.ps) ls)
    (hqu : (combineLatestSlow (Operator.id (α := α × β))).Quiescent s.2.2.ps) {a b t}
    (h : (.next (a, b), t) ∈ (q₁.two q₂ (combineLatestSlow Operator.id)).calls s) :
    ((.next a, t) ∈ q₁.calls s.1 ∨ (.next b, t) ∈ q₂.calls s.2.1) ∧
    (∃ u ≤ t, (.next a, u) ∈ q₁.calls s.1 ∧ ∀ c ∈ q₁.calls s.1, c.2 < t → c.2 ≤ u) ∧
    ∃ u ≤ t, (.next b, u) ∈ q₂.calls s.2.1 ∧ ∀ c ∈ q₂.calls s.2.1, c.2 < t → c.2 ≤ u := by
  obtain ⟨got, g1, g2, g3, g4, -, g5⟩ := C109_two h₁ h₂ h0 (C106_combine_latest id_computes) rfl hr hp
  obtain ⟨i, i1, i2, i3⟩ := (sent_iff (w := fun vs i => newest (vs.take (i + 1))) newest_local g1 g4 (g5 hqu) _ _).mp h
  rw [← g2, ← g3]
  obtain ⟨ha, hb⟩ : newestL ((both ((before t got ++ during t got).map (·.1))).1.take (i + 1)) = some a ∧
      newestR ((both ((before t got ++ during t got).map (·.1))).1.take (i + 1)) = some b := by
    unfold newest at i3
    split at i3
    · next e1 e2 => cases i3; exact ⟨e1, e2⟩
    · cases i3
  refine ⟨?_, latest_left g1 (by omega) i2 ha, latest_right g1 (by omega) i2 hb⟩
  have hv := List.getElem?_eq_getElem i2
  obtain ⟨u, -, e2, -, e4⟩ := both_index hv
  rw [e4 i1] at e2
  generalize (both ((before t got ++ during t got).map (·.1))).1[i] = v at hv e2
  cases v with
  | inl a' =>
    rw [newestL_last hv] at ha
    cases ha
    exact .inl (mem_lefts.mpr e2)
  | inr b' =>
    rw [newestR_last hv] at hb
    cases hb
    exact .inr (mem_rights.mpr e2)

/-- C111: and every value of either makes a pair at once, when the other one has sent something before and neither has ended. -/
theorem C111_combine_latest_all {q₁ : Clocked S₁ L₁ α} {q₂ : Clocked S₂ L₂ β} (h₁ : q₁.Lawful) (h₂ : q₂.Lawful) (h0 : q₁.now q₁.init = q₂.now q₂.init)
    {ls s} (hr : LTS.run (q₁.two q₂ (combineLatestSlow Operator.id)).step (q₁.two q₂ (combineLatestSlow Operator.id)).init ls = some s)
    (hp : (q₁.two q₂ (combineLatestSlow Operator.id)).Prompt (fun s => (combineLatestSlow (Operator.id (α := α × β))).Quiescent s.2.2.ps) ls)
    (hqu : (combineLatestSlow (Operator.id (α := α × β))).Quiescent s.2.2.ps) {t : Nat}
    (hl : ∀ c ∈ q₁.calls s.1, c.2 ≤ t → ∃ v, c.1 = .next v) (hr' : ∀ c ∈ q₂.calls s.2.1, c.2 ≤ t → ∃ v, c.1 = .next v) {a b u}
    (ha : (.next a, u) ∈ q₁.calls s.1) :
    (∀ {v}, (.next b, v) ∈ q₂.calls s.2.1 → u = t → v < t → ∃ b', (.next (a, b'), t) ∈ (q₁.two q₂ (combineLatestSlow Operator.id)).calls s) ∧
    (∀ {v}, (.next b, v) ∈ q₂.calls s.2.1 → u < t → v = t → ∃ a', (.next (a', b), t) ∈ (q₁.two q₂ (combineLatestSlow Operator.id)).calls s) := by
  obtain ⟨got, g1, g2, g3, g4, -, g5⟩ := C109_two h₁ h₂ h0 (C106_combine_latest id_computes) rfl hr hp
  rw [← g2] at ha hl
  rw [← g3] at hr'
  have hv := both_values (got := got) (t := t) (fun c hc hct => hl c hc hct) (fun c hc hct => hr' c hc hct)
  refine ⟨fun {v} hb hu hvt => ?_, fun {v} hb hu hvt => ?_⟩
  · subst hu
    rw [← g3] at hb
    obtain ⟨i, i1, i2⟩ := index_during (mem_lefts.mp ha)
    dsimp only at i1 i2
    obtain ⟨k, k1, k2⟩ := index_before (mem_rights.mp hb) hvt
    obtain ⟨x, x1, x2⟩ := hv _ _ _ i2
    obtain ⟨y, y1, y2⟩ := hv _ _ _ k2
    have ex : x = .inl a := by cases x <;> simp [event] at x2 <;> rw [x2]
    have ey : y = .inr b := by cases y <;> simp [event] at y2 <;> rw [y2]
    subst ex ey
    obtain ⟨b', hb'⟩ := newest_exists (vs := (both ((before u got ++ during u got).map (·.1))).1.take (i + 1)) (b := b)
      (List.mem_of_getElem? (i := k) (by rw [List.getElem?_take_of_lt (by omega)]; exact y1))
    refine ⟨b', (sent_iff (w := fun vs i => newest (vs.take (i + 1))) newest_local g1 g4 (g5 hqu) _ _).mpr ⟨i, i1, (List.getElem?_eq_some_iff.mp x1).1, ?_⟩⟩
    simp only [newest, newestL_last x1, hb']
  · subst hvt
    rw [← g3] at hb
    obtain ⟨i, i1, i2⟩ := index_during (mem_rights.mp hb)
    dsimp only at i1 i2
    obtain ⟨k, k1, k2⟩ := index_before (mem_lefts.mp ha) hu
    obtain ⟨x, x1, x2⟩ := hv _ _ _ i2
    obtain ⟨y, y1, y2⟩ := hv _ _ _ k2
    have ex : x = .inr b := by cases x <;> simp [event] at x2 <;> rw [x2]
    have ey : y = .inl a := by cases y <;> simp [event] at y2 <;> rw [y2]
    subst ex ey
    obtain ⟨a', ha'⟩ := newest_exists_left (vs := (both ((before v got ++ during v got).map (·.1))).1.take (i + 1)) (a := a)
      (List.mem_of_getElem? (i := k) (by rw [List.getElem?_take_of_lt (by omega)]; exact y1))
    refine ⟨a', (sent_iff (w := fun vs i => newest (vs.take (i + 1))) newest_local g1 g4 (g5 hqu) _ _).mpr ⟨i, i1, (List.getElem?_eq_some_iff.mp x1).1, ?_⟩⟩
    simp only [newest, newestR_last x1, ha']

/-- `Clocked.Prompt`, checked step by step. -/
def Clocked.rests (q : Clocked S L α) (idle : S → Bool) : S → List (Time L) → Bool
  | _, [] => true
  | s, .pass d :: ls =>
    idle s && match q.pass s d with
      | some s' => q.rests idle s' ls
      | none => true
  | s, .act l :: ls =>
    match q.act s l with
    | some s' => q.rests idle s' ls
    | none => true

theorem Clocked.Prompt.of_rests {q : Clocked S L α} {rest : S → Prop} {idle : S → Bool} (hi : ∀ s, idle s = true → rest s) {ls : List (Time L)}
    (h : q.rests idle q.init ls = true) : q.Prompt rest ls := by
  suffices ∀ (ls₁ : List (Time L)) (s0 : S) (d ls₂ s), q.rests idle s0 (ls₁ ++ .pass d :: ls₂) = true → LTS.run q.step s0 ls₁ = some s → rest s from
    fun ls₁ d ls₂ s he hr => this ls₁ q.init d ls₂ s (he ▸ h) hr
  intro ls₁
  induction ls₁ with
  | nil =>
    intro s0 d ls₂ s h hr
    cases hr
    rw [List.nil_append, Clocked.rests, Bool.and_eq_true] at h
    exact hi _ h.1
  | cons l ls₁ ih =>
    intro s0 d ls₂ s h hr
    obtain ⟨s1, h1, h2⟩ := LTS.run_cons.mp hr
    cases l with
    | pass d' =>
      rw [List.cons_append, Clocked.rests, Bool.and_eq_true, show q.pass s0 d' = some s1 from h1] at h
      exact ih s1 d ls₂ s h.2 h2
    | act l =>
      rw [List.cons_append, Clocked.rests, show q.act s0 l = some s1 from h1] at h
      exact ih s1 d ls₂ s h h2

/-! ## Examples -/

/-- `pipe(interval(1, 2), take(2))`, subscribed at 0 -/
abbrev demoTake := (Interval.clocked true 0 1 2).operate (takeOp 2 : Operator Nat Nat).direct.slowProc
abbrev takeA : Time (Interval.Label ⊕ (takeOp 2 : Operator Nat Nat).direct.compileSlow.SlowLab) := .act (.inr (.inl ()))
abbrev takeB : Time (Interval.Label ⊕ (takeOp 2 : Operator Nat Nat).direct.compileSlow.SlowLab) := .act (.inr (.inr ()))
abbrev demoTakeRun : List (Time (Interval.Label ⊕ (takeOp 2 : Operator Nat Nat).direct.compileSlow.SlowLab)) :=
  [.act (.inl .start), .pass 1, .act (.inl .wake), takeA, takeA, takeB, takeB, .act (.inl .ret), .pass 2, .act (.inl .wake), takeA, takeA, takeA, takeB, takeB, takeB, takeB, .act (.inl .ret), .pass 1]

example : (LTS.run demoTake.step demoTake.init demoTakeRun).map (fun s => (demoTake.calls s, demoTake.now s)) =
    some ([(.next 0, 1), (.next 1, 3), (.completed, 3)], 4) := by decide +kernel
example : demoTake.Prompt (fun s => (takeOp 2 : Operator Nat Nat).direct.slowProc.Quiescent s.2.ps) demoTakeRun := by
  refine Clocked.Prompt.of_rests (idle := fun s => ((takeOp 2 : Operator Nat Nat).direct.slowProc.step s.2.ps (.inl ())).isNone && ((takeOp 2 : Operator Nat Nat).direct.slowProc.step s.2.ps (.inr ())).isNone) (fun s h l => ?_) (by decide +kernel)
  simp only [Bool.and_eq_true, Option.isNone_iff_eq_none] at h
  match l with
  | .inl () => exact h.1
  | .inr () => exact h.2

/-- `pipe(interval(0, 2), take_until(timer(3)))`, subscribed at 0; the source is disposed of afterwards -/
abbrev demoUntil := (Interval.clocked true 0 0 2).two (Interval.clocked true 0 3 0) (takeUntilSlow Nat (Operator.id (α := Nat)))
abbrev untilA : Time (Two.Label Interval.Label Interval.Label (Empty ⊕ (Operator.id (α := Nat)).protected.compileSlow.SlowLab)) := .act (.worker (.inr (.inl ())))
abbrev untilB : Time (Two.Label Interval.Label Interval.Label (Empty ⊕ (Operator.id (α := Nat)).protected.compileSlow.SlowLab)) := .act (.worker (.inr (.inr ())))
abbrev demoUntilRun : List (Time (Two.Label Interval.Label Interval.Label (Empty ⊕ (Operator.id (α := Nat)).protected.compileSlow.SlowLab))) :=
  [.act (.right .start), .act (.left .start), .act (.left .wake), untilA, untilA, untilB, untilB, .act (.left .ret), .pass 2, .act (.left .wake),
   untilA, untilA, untilB, untilB, .act (.left .ret), .pass 1, .act (.right .wake), untilA, untilA, untilB, untilB, .act (.right .ret),
   .act (.right .ret), .act (.left .dispose), .act (.left .thrown), .pass 1]

example : (LTS.run demoUntil.step demoUntil.init demoUntilRun).map (fun s => (demoUntil.calls s, demoUntil.now s)) =
    some ([(.next 0, 0), (.next 1, 2), (.completed, 3)], 4) := by decide +kernel
example : demoUntil.Prompt (fun s => (takeUntilSlow Nat (Operator.id (α := Nat))).Quiescent s.2.2.ps) demoUntilRun := by
  refine Clocked.Prompt.of_rests (idle := fun s => ((takeUntilSlow Nat (Operator.id (α := Nat))).step s.2.2.ps (.inr (.inl ()))).isNone && ((takeUntilSlow Nat (Operator.id (α := Nat))).step s.2.2.ps (.inr (.inr ()))).isNone) (fun s h l => ?_) (by decide +kernel)
  simp only [Bool.and_eq_true, Option.isNone_iff_eq_none] at h
  match l with
  | .inr (.inl ()) => exact h.1
  | .inr (.inr ()) => exact h.2

/-- `pipe(interval(1, 2), with_latest_from(interval(0, 3)))`, subscribed at 0 -/
abbrev demoLatest := (Interval.clocked true 0 1 2).two (Interval.clocked true 0 0 3) (withLatestFromSlow (Operator.id (α := Nat × Nat)))
abbrev LatestLabel := Time (Two.Label Interval.Label Interval.Label (Unit ⊕ (Operator.id (α := Nat × Nat)).protected.compileSlow.SlowLab))
abbrev latestA : LatestLabel := .act (.worker (.inl ()))
abbrev latestB : LatestLabel := .act (.worker (.inr (.inl ())))
abbrev latestC : LatestLabel := .act (.worker (.inr (.inr ())))
abbrev demoLatestRun : List LatestLabel :=
  [.act (.right .start), .act (.left .start), .act (.right .wake), latestA, .act (.right .ret), .pass 1, .act (.left .wake), latestA, latestA,
   latestB, latestB, latestC, latestC, .act (.left .ret), .pass 2, .act (.right .wake), latestA, .act (.right .ret), .act (.left .wake),
   latestA, latestA, latestB, latestB, latestC, latestC, .act (.left .ret), .pass 2, .act (.left .wake), latestA, latestA, latestB, latestB,
   latestC, latestC, .act (.left .ret)]

example : (LTS.run demoLatest.step demoLatest.init demoLatestRun).map (fun s => (demoLatest.calls s, demoLatest.now s)) =
    some ([(.next (0, 0), 1), (.next (1, 1), 3), (.next (2, 1), 5)], 5) := by decide +kernel
example : demoLatest.Prompt (fun s => (withLatestFromSlow (Operator.id (α := Nat × Nat))).Quiescent s.2.2.ps) demoLatestRun := by
  refine Clocked.Prompt.of_rests (idle := fun s => ((withLatestFromSlow (Operator.id (α := Nat × Nat))).step s.2.2.ps (.inl ())).isNone && ((withLatestFromSlow (Operator.id (α := Nat × Nat))).step s.2.2.ps (.inr (.inl ()))).isNone && ((withLatestFromSlow (Operator.id (α := Nat × Nat))).step s.2.2.ps (.inr (.inr ()))).isNone) (fun s h l => ?_) (by decide +kernel)
  simp only [Bool.and_eq_true, Option.isNone_iff_eq_none] at h
  match l with
  | .inl () => exact h.1.1
  | .inr (.inl ()) => exact h.1.2
  | .inr (.inr ()) => exact h.2

end Aio
