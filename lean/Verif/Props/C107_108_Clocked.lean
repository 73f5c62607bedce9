import Verif.Lemmas.Clocked
import Verif.Props.C25_Interval
import Verif.Props.C57_59_Delay
import Verif.Props.C60_61_Debounce
/-!
# C107, C108: delay and debounce behind any source, on one clock
-/

namespace Aio
variable {S L α : Type}

/-! ## C107 -/

namespace Delay
open Aio.Spec.Delay

private theorem from_init {prompt : Bool} {seconds t : Nat} {ms : List (Label α)} {s : State α}
    (h : LTS.run (stage prompt seconds : Stage _ _ α α).step ((stage prompt seconds : Stage _ _ α α).init t) ms = some s) :
    LTS.run (stage prompt seconds : Stage _ _ α α).step init (.tick t t :: .subscribe :: ms) = some s ∧
    arrivals 0 (.tick t t :: .subscribe :: ms) = arrivalsFrom 0 t ms ∧ clock (.tick t t :: .subscribe :: ms) = t + clock ms := by
  refine ⟨?_, by simp [arrivals, arrivalsFrom], by simp [clock]⟩
  refine LTS.run_cons.mpr ⟨⟨t, t, false, []⟩, ?_, LTS.run_cons.mpr ⟨_, ?_, h⟩⟩
  · cases prompt <;> simp [stage, promptStep, prompt, step, init]
  · cases prompt <;> simp [stage, promptStep, Delay.prompt, step]

/-- What a run of a source with `delay(seconds)` behind it says about `delay` alone. -/
private theorem split {q : Clocked S L α} (hq : q.Lawful) {prompt : Bool} {seconds : Nat} {ls : List (Time (L ⊕ Label α))} {s : S × State α}
    (hr : LTS.run (q.through (stage prompt seconds)).step (q.through (stage prompt seconds)).init ls = some s) :
    ∃ (ds : List (Label α)) (b : Sub α), LTS.run (if prompt then promptStep seconds else step seconds) init ds = some s.2 ∧ s.2.subs[0]? = some b ∧
      (q.through (stage prompt seconds)).calls s = b.delivered ∧ arrivals 0 ds = q.calls s.1 ∧ clock ds = q.now s.1 ∧ Synchronous ds ∧
      (∀ i, Label.dispose i ∈ ds → Time.act (Sum.inr (Label.dispose 0)) ∈ ls) ∧ (Label.raise 0 ∈ ds → Time.act (Sum.inr (Label.raise 0)) ∈ ls) := by
  obtain ⟨-, ms, h1, h2, h3, h4⟩ := Clocked.split hq (stage_reads prompt seconds) hr
  obtain ⟨g1, g2, g3⟩ := from_init h1
  have hb : ∃ b, s.2.subs[0]? = some b := by
    have : 0 < s.2.subs.length := by
      refine LTS.inv (step := (stage prompt seconds : Stage _ _ α α).step) (fun s : State α => 0 < s.subs.length) (by simp [stage]) ?_ h1
      intro s l s' h hs
      rcases step_cases (stage_step hs) with ⟨rfl, rfl⟩ | ⟨dw, dl, rfl, rfl⟩ | ⟨i, b, b', ht, _, _, rfl⟩
      · simp
      · exact h
      · simpa [State.upd] using h
    exact ⟨_, List.getElem?_eq_getElem this⟩
  obtain ⟨b, hb⟩ := hb
  refine ⟨_, b, g1, hb, by simp [Clocked.through, stage, hb], g2.trans h2, g3.trans h3, ?_, ?_, ?_⟩
  · intro dw dl hm
    simp only [List.mem_cons, Label.tick.injEq, reduceCtorEq, false_or] at hm
    rcases hm with ⟨rfl, rfl⟩ | hm
    · rfl
    · rcases h4 _ hm with ⟨h, -⟩ | ⟨n, h⟩ | ⟨d, h⟩
      · simp [stage] at h
      · simp [stage] at h
      · simp [stage] at h; omega
  · intro i hm
    simp only [List.mem_cons, reduceCtorEq, false_or] at hm
    rcases h4 _ hm with ⟨h, h'⟩ | ⟨n, h⟩ | ⟨d, h⟩
    · cases i with
      | zero => exact h'
      | succ i => simp [stage] at h
    · simp [stage] at h
    · simp [stage] at h
  · intro hm
    simp only [List.mem_cons, reduceCtorEq, false_or] at hm
    rcases h4 _ hm with ⟨-, h'⟩ | ⟨n, h⟩ | ⟨d, h⟩
    · exact h'
    · simp [stage] at h
    · simp [stage] at h

/-- C107, any source: `delay` delivers the source's calls in order, none of them less than `seconds` after it was made. -/
theorem C107_delay {q : Clocked S L α} (hq : q.Lawful) (prompt : Bool) (seconds : Nat) {ls s}
    (hr : LTS.run (q.through (stage prompt seconds)).step (q.through (stage prompt seconds)).init ls = some s) :
    InOrder (q.calls s.1) ((q.through (stage prompt seconds)).calls s) ∧ NeverEarly seconds (q.calls s.1) ((q.through (stage prompt seconds)).calls s) := by
  obtain ⟨ds, b, h1, h2, h3, h4, h5, h6, -⟩ := split hq hr
  have h1 : LTS.run (step seconds) init ds = some s.2 := by
    cases prompt
    · exact h1
    · exact prompt_run h1
  rw [h3, ← h4]
  exact ⟨C57_order seconds ds s.2 h1 0 b h2, C57_never_early seconds ds s.2 h1 h6 0 b h2⟩

/-- C107, any source, on a loop that is not overloaded: each call is delivered exactly `seconds` after it was made, and all that are due
before the present time have been delivered (unless the subscription was disposed or the observer raised). -/
theorem C107_exact {q : Clocked S L α} (hq : q.Lawful) (seconds : Nat) {ls s}
    (hr : LTS.run (q.through (stage true seconds)).step (q.through (stage true seconds)).init ls = some s) :
    (q.through (stage true seconds)).calls s <+: shifted seconds (q.calls s.1) ∧
    (Time.act (Sum.inr (Label.dispose 0)) ∉ ls → Time.act (Sum.inr (Label.raise 0)) ∉ ls →
      ∀ (k : Nat) c, (q.calls s.1)[k]? = some c → c.2 + seconds < q.now s.1 →
        ((q.through (stage true seconds)).calls s)[k]? = some (c.1, c.2 + seconds)) := by
  obtain ⟨ds, b, h1, h2, h3, h4, h5, h6, h7, h8⟩ := split hq hr
  rw [h3, ← h4, ← h5]
  exact ⟨C58_exact seconds ds s.2 h1 0 b h2, fun hd hx => (C58_none_overdue seconds ds s.2 h1 (fun i hi => hd (h7 i hi)) 0 b h2 (fun hi => hx (h8 hi))).2⟩

/-- C107: `pipe(source, delay(a), delay(b))` is `pipe(source, delay(a + b))`, on a loop that is not overloaded. -/
theorem C107_twice {q : Clocked S L α} (hq : q.Lawful) (a b : Nat) {ls s}
    (hr : LTS.run ((q.through (stage true a)).through (stage true b)).step ((q.through (stage true a)).through (stage true b)).init ls = some s) :
    ((q.through (stage true a)).through (stage true b)).calls s <+: shifted (a + b) (q.calls s.1.1) ∧
    (Time.act (.inl (.inr (.dispose 0))) ∉ ls → Time.act (.inl (.inr (.raise 0))) ∉ ls → Time.act (.inr (.dispose 0)) ∉ ls → Time.act (.inr (.raise 0)) ∉ ls →
      ∀ (k : Nat) c, (q.calls s.1.1)[k]? = some c → c.2 + (a + b) < q.now s.1.1 →
        (((q.through (stage true a)).through (stage true b)).calls s)[k]? = some (c.1, c.2 + (a + b))) := by
  have hl := Clocked.through_lawful hq (stage_lawful (α := α) true a)
  obtain ⟨h1, h3⟩ := C107_exact hl b hr
  obtain ⟨h2, h4⟩ := C107_exact hq a (Clocked.clocks hl (stage_lawful (α := α) true b) hr).1
  refine ⟨h1.trans ?_, fun d1 d2 d3 d4 k c hc ht => ?_⟩
  · have : shifted (a + b) (q.calls s.1.1) = shifted b (shifted a (q.calls s.1.1)) := by
      simp [shifted, Function.comp_def, Nat.add_assoc]
    rw [this]
    exact h2.map _
  · have hmem : ∀ {l : L ⊕ Label α}, Time.act l ∈ Clocked.sources ls → Time.act (Sum.inl l) ∈ ls := by
      intro l hl
      obtain ⟨x, hx, hx'⟩ := List.mem_filterMap.mp hl
      rcases x with d | l' | m
      · cases hx'
      · cases hx'; exact hx
      · cases hx'
    have h5 := h4 (fun h => d1 (hmem h)) (fun h => d2 (hmem h)) k c hc (by omega)
    have h6 := h3 d3 d4 k _ h5 (show c.2 + a + b < q.now s.1.1 by omega)
    rw [h6, Nat.add_assoc]

end Delay

namespace Interval
variable {t0 : Nat} {seconds period : Int}

theorem clocked_run {prompt : Bool} {ls : List (Time Label)} {s : State}
    (hr : LTS.run (clocked prompt t0 seconds period).step (clocked prompt t0 seconds period).init ls = some s) :
    ∃ ms, LTS.run (if prompt then promptStep seconds period else step seconds period) (init t0) ms = some s ∧ ∀ l ∈ ms, l = .tick ∨ Time.act l ∈ ls := by
  refine LTS.inv_hist (step := (clocked prompt t0 seconds period).step) (fun ls s =>
    ∃ ms, LTS.run (if prompt then promptStep seconds period else step seconds period) (init t0) ms = some s ∧ ∀ l ∈ ms, l = .tick ∨ Time.act l ∈ ls)
    (s0 := (clocked prompt t0 seconds period).init) ⟨[], rfl, by simp⟩ ?_ hr
  rintro ls s l s' ⟨ms, h1, h2⟩ h
  cases l with
  | pass d =>
    have h' : LTS.run (if prompt then promptStep seconds period else step seconds period) s (List.replicate d Label.tick) = some s' := h
    refine ⟨ms ++ List.replicate d .tick, LTS.run_append.mpr ⟨s, h1, h'⟩, fun l hl => ?_⟩
    rcases List.mem_append.mp hl with hl | hl
    · exact (h2 l hl).imp id (List.mem_append_left _)
    · exact .inl (List.mem_replicate.mp hl).2
  | act l =>
    simp only [Clocked.step, clocked] at h
    split at h
    · cases h
    · next hne =>
      refine ⟨ms ++ [l], LTS.run_append.mpr ⟨s, h1, LTS.run_cons.mpr ⟨s', ?_, rfl⟩⟩, fun m hm => ?_⟩
      · cases prompt
        · exact h
        · simp only [if_true, promptStep, hne, false_and, if_false]; exact h
      · rcases List.mem_append.mp hm with hm | hm
        · exact (h2 m hm).imp id (List.mem_append_left _)
        · exact .inr (by simp_all)

theorem prompt_run : ∀ {ls : List Label} {s s' : State}, LTS.run (promptStep seconds period) s ls = some s' → LTS.run (step seconds period) s ls = some s' := by
  intro ls
  induction ls with
  | nil => intro s s' h; exact h
  | cons l ls ih =>
    intro s s' h
    obtain ⟨u, h1, h2⟩ := LTS.run_cons.mp h
    refine LTS.run_cons.mpr ⟨u, ?_, ih h2⟩
    simp only [promptStep] at h1
    split at h1
    · cases h1
    · exact h1

/-- The calls of an interval in any run. -/
theorem clocked_calls (hp : period ≠ 0) {prompt : Bool} {ls : List (Time Label)} {s : State}
    (hr : LTS.run (clocked prompt t0 seconds period).step (clocked prompt t0 seconds period).init ls = some s) :
    (∃ n, ((clocked prompt t0 seconds period).calls s).map Prod.fst = (List.range n).map .next) ∧
    ∀ k t, (Notif.next k, t) ∈ (clocked prompt t0 seconds period).calls s → due t0 seconds period k ≤ t := by
  obtain ⟨ms, h1, -⟩ := clocked_run hr
  have h1 : LTS.run (step seconds period) (init t0) ms = some s := by
    cases prompt
    · exact h1
    · exact prompt_run h1
  obtain ⟨n, hn⟩ := C25_no_terminal t0 seconds period hp h1
  refine ⟨⟨n, by simpa [clocked, Function.comp_def] using hn⟩, fun k t hk => C25_never_early t0 seconds period h1 t k ?_⟩
  simp only [clocked, List.mem_map, Prod.mk.injEq] at hk
  obtain ⟨⟨t', n'⟩, hc, rfl, rfl⟩ := hk
  exact List.mem_filterMap.mpr ⟨_, hc, rfl⟩

/-- The task has not been cancelled and has not ended; it is at the value after the ones sent. -/
def Alive (s : State) : Prop :=
  s.cancelling = false ∧ s.pc ≠ .dead ∧ s.pc ≠ .closing ∧ (∀ w m, s.pc = .sleeping w m → s.calls.length = m) ∧
    (s.pc = .fresh → s.calls = []) ∧ ∀ m, s.pc = .sending m → s.calls.length = m + 1

theorem alive_step (hp : period ≠ 0) {s s' : State} {l : Label} (hl : l ≠ .dispose) (hl' : ∀ e, l ≠ .raise e) (h : Alive s)
    (hs : promptStep seconds period s l = some s') : Alive s' := by
  obtain ⟨now, pc, c, calls⟩ := s
  obtain ⟨i1, i2, i3, i4, i5, i6⟩ := h
  dsimp only at i1 i2 i3 i4 i5 i6
  subst i1
  simp only [promptStep] at hs
  split at hs
  · cases hs
  cases l with
  | dispose => exact absurd rfl hl
  | raise e => exact absurd rfl (hl' e)
  | tick => simp only [step, Option.some.injEq] at hs; subst hs; exact ⟨rfl, i2, i3, i4, i5, i6⟩
  | thrown => cases pc <;> simp [step] at hs
  | swallow => simp [step] at hs
  | start =>
    cases pc <;> simp [step] at hs
    subst hs
    exact ⟨rfl, by simp, by simp, by simp [i5], by simp, by simp⟩
  | wake =>
    cases pc <;> simp [step] at hs
    obtain ⟨-, rfl⟩ := hs
    exact ⟨rfl, by simp, by simp, by simp, by simp, by simpa using i4⟩
  | ret =>
    cases pc <;> simp [step, afterSend, hp] at hs
    · subst hs
      exact ⟨rfl, by simp, by simp, by simpa using i6, by simp, by simp⟩
    · exact absurd rfl i3

/-- The calls of an interval on a loop that is not overloaded. -/
theorem clocked_exact (hp : period ≠ 0) {ls : List (Time Label)} {s : State}
    (hr : LTS.run (clocked true t0 seconds period).step (clocked true t0 seconds period).init ls = some s) :
    ∃ n, (clocked true t0 seconds period).calls s = (List.range n).map (fun k => (.next k, due t0 seconds period k)) ∧
      (Time.act .dispose ∉ ls → (∀ e, Time.act (.raise e) ∉ ls) → ∀ k, due t0 seconds period k < s.now → k < n) := by
  obtain ⟨ms, h1, h2⟩ := clocked_run hr
  have h1 : LTS.run (promptStep seconds period) (init t0) ms = some s := h1
  obtain ⟨n, hn⟩ := C25_no_terminal t0 seconds period hp (prompt_run h1)
  refine ⟨n, ?_, ?_⟩
  · have hg : ∀ c ∈ s.calls, (c.2, c.1) = (fun m : Notif Nat => match m with | .next k => (Notif.next k, due t0 seconds period k) | m => (m, 0)) c.2 := by
      rintro ⟨t, m⟩ hc
      have hm : m ∈ s.calls.map (·.2) := List.mem_map.mpr ⟨_, hc, rfl⟩
      rw [hn] at hm
      obtain ⟨k, -, rfl⟩ := List.mem_map.mp hm
      have := C25_exact t0 seconds period h1 t k (List.mem_filterMap.mpr ⟨_, hc, rfl⟩)
      simp [this, due]
    show s.calls.map (fun c => (c.2, c.1)) = _
    rw [List.map_congr_left hg]
    have : s.calls.map (fun c => (fun m : Notif Nat => match m with | .next k => (Notif.next k, due t0 seconds period k) | m => (m, 0)) c.2) =
        (s.calls.map (·.2)).map (fun m : Notif Nat => match m with | .next k => (Notif.next k, due t0 seconds period k) | m => (m, 0)) := by
      rw [List.map_map]; rfl
    rw [this, hn, List.map_map]
    rfl
  · intro hd hx k hk
    have hlen : n = s.calls.length := by
      have := congrArg List.length hn
      simpa using this.symm
    have hi := prompt_inv t0 seconds period h1
    have hal : Alive s := by
      refine LTS.inv_of (step := promptStep seconds period) (fun l => l ≠ .dispose ∧ ∀ e, l ≠ .raise e) Alive (s0 := init t0) (by simp [init, Alive])
        (fun s l s' hl h hs => alive_step hp hl.1 hl.2 h hs) ?_ h1
      intro l hl
      rcases h2 l hl with rfl | h
      · simp
      · exact ⟨fun he => hd (he ▸ h), fun e he => hx e (he ▸ h)⟩
    obtain ⟨i1, i2, i3, -⟩ := hi
    obtain ⟨-, j1, j2, j3, j4, j5⟩ := hal
    have hmono : ∀ {a b}, due t0 seconds period a < due t0 seconds period b → a < b := by
      intro a b h
      apply Classical.byContradiction
      intro hn
      have : b * period.toNat ≤ a * period.toNat := Nat.mul_le_mul_right _ (by omega)
      simp only [due] at h
      omega
    cases hpc : s.pc with
    | fresh => have := i1 hpc; simp only [due] at hk; omega
    | sleeping w m =>
      obtain ⟨rfl, hle⟩ := i2 w m hpc
      have := hmono (Nat.lt_of_lt_of_le hk hle)
      rw [hlen, j3 _ _ hpc]; exact this
    | sending m =>
      have := hmono (Nat.lt_of_lt_of_le hk (Nat.le_of_eq (i3 m hpc)))
      rw [hlen, j5 _ hpc]; omega
    | closing => exact absurd hpc j2
    | dead => exact absurd hpc j1

/-- C107: `pipe(interval(s, p), delay(d))` sends 0, 1, 2, ..., the value k never before s + kp + d. -/
theorem C107_interval (hp : period ≠ 0) (prompt : Bool) (d : Nat) {ls s}
    (hr : LTS.run ((clocked prompt t0 seconds period).through (Delay.stage prompt d)).step
      ((clocked prompt t0 seconds period).through (Delay.stage prompt d)).init ls = some s) :
    (∃ n, (((clocked prompt t0 seconds period).through (Delay.stage prompt d)).calls s).map Prod.fst = (List.range n).map .next) ∧
    ∀ k t, (Notif.next k, t) ∈ ((clocked prompt t0 seconds period).through (Delay.stage prompt d)).calls s → due t0 seconds period k + d ≤ t := by
  have hl := clocked_lawful prompt t0 seconds period
  obtain ⟨h1, h2⟩ := Delay.C107_delay hl prompt d hr
  obtain ⟨⟨n, h3⟩, h4⟩ := clocked_calls hp (Clocked.clocks hl (Delay.stage_lawful prompt d) hr).1
  rw [Spec.Delay.InOrder, h3] at h1
  refine ⟨?_, ?_⟩
  · obtain ⟨m, hm⟩ : ∃ m, (((clocked prompt t0 seconds period).through (Delay.stage prompt d)).calls s).length = m := ⟨_, rfl⟩
    refine ⟨m, ?_⟩
    have hle : m ≤ n := by simpa [hm] using h1.length_le
    have := List.prefix_iff_eq_take.mp h1
    rw [this, List.length_map, hm, ← List.map_take, List.take_range, Nat.min_eq_left hle]
  · intro k t hk
    obtain ⟨j, hj, he⟩ := List.getElem_of_mem hk
    have hd : (((clocked prompt t0 seconds period).through (Delay.stage prompt d)).calls s)[j]? = some (.next k, t) := by rw [List.getElem?_eq_getElem hj, he]
    have hjn : j < ((clocked prompt t0 seconds period).calls s.1).length := by
      have := h1.length_le
      have h5 := congrArg List.length h3
      simp only [List.length_map] at this h5
      omega
    have hc := List.getElem?_eq_getElem hjn
    have := h2 j _ _ hc hd
    have hf : (((clocked prompt t0 seconds period).calls s.1)[j]).1 = .next k := by
      rw [← h3] at h1
      obtain ⟨z, hz⟩ := h1
      have h6 : (((clocked prompt t0 seconds period).calls s.1).map Prod.fst)[j]? = some (.next k) := by
        rw [← hz, List.getElem?_append_left (by simpa using hj), List.getElem?_map, hd]; rfl
      rw [List.getElem?_map, hc] at h6
      simpa using h6
    have h7 := h4 k (((clocked prompt t0 seconds period).calls s.1)[j]).2 (by rw [← hf]; exact List.getElem_mem hjn)
    dsimp only at this
    omega

/-- C107: on a loop that is not overloaded, the value k exactly at s + kp + d, and all values that are due before the present time have
been sent (unless something was disposed or raised). -/
theorem C107_interval_exact (hp : period ≠ 0) (d : Nat) {ls s}
    (hr : LTS.run ((clocked true t0 seconds period).through (Delay.stage true d)).step
      ((clocked true t0 seconds period).through (Delay.stage true d)).init ls = some s) :
    ∃ n, ((clocked true t0 seconds period).through (Delay.stage true d)).calls s = (List.range n).map (fun k => (.next k, due t0 seconds period k + d)) ∧
      (Time.act (.inl .dispose) ∉ ls → (∀ e, Time.act (.inl (.raise e)) ∉ ls) → Time.act (.inr (.dispose 0)) ∉ ls → Time.act (.inr (.raise 0)) ∉ ls →
        ∀ k, due t0 seconds period k + d < s.1.now → k < n) := by
  have hl := clocked_lawful true t0 seconds period
  obtain ⟨h1, h2⟩ := Delay.C107_exact hl d hr
  obtain ⟨n, h3, h4⟩ := clocked_exact hp (Clocked.clocks hl (Delay.stage_lawful true d) hr).1
  rw [h3] at h1 h2
  have hs : Spec.Delay.shifted d ((List.range n).map fun k => (Notif.next k, due t0 seconds period k)) =
      (List.range n).map (fun k => (Notif.next k, due t0 seconds period k + d)) := by
    simp [Spec.Delay.shifted, Function.comp_def]
  rw [hs] at h1
  obtain ⟨m, hm⟩ : ∃ m, (((clocked true t0 seconds period).through (Delay.stage true d)).calls s).length = m := ⟨_, rfl⟩
  have hle : m ≤ n := by simpa [hm] using h1.length_le
  have he := List.prefix_iff_eq_take.mp h1
  rw [hm, ← List.map_take, List.take_range, Nat.min_eq_left hle] at he
  refine ⟨m, he, fun a b c e k hk => ?_⟩
  have hmem : ∀ {l : Label}, Time.act l ∈ Clocked.sources ls → Time.act (Sum.inl l) ∈ ls := by
    intro l hl
    obtain ⟨x, hx, hx'⟩ := List.mem_filterMap.mp hl
    rcases x with d | l' | m
    · cases hx'
    · cases hx'; exact hx
    · cases hx'
  have hkn := h4 (fun h => a (hmem h)) (fun x h => b x (hmem h)) k (by omega)
  have := h2 c e k (.next k, due t0 seconds period k) (by rw [List.getElem?_map, List.getElem?_range hkn]; rfl) hk
  rw [he] at this
  obtain ⟨hj, -⟩ := List.getElem?_eq_some_iff.mp this
  simpa using hj

end Interval

/-! ## C108 -/

theorem Clocked.Lawful.stamps {q : Clocked S L α} (hq : q.Lawful) {ls s} (hr : LTS.run q.step q.init ls = some s) : ∀ c ∈ q.calls s, c.2 ≤ q.now s := by
  refine LTS.inv_reach (step := q.step) (fun _ s => ∀ c ∈ q.calls s, c.2 ≤ q.now s) (s0 := q.init) (by simp [hq.init]) ?_ hr
  intro ls s l s' hr ih h c hc
  cases l with
  | pass d =>
    obtain ⟨h1, h2⟩ := hq.pass hr h
    rw [h2] at hc
    have := ih c hc
    omega
  | act l =>
    obtain ⟨h1, ns, h2⟩ := hq.act hr h
    rw [h2] at hc
    rw [h1]
    rcases List.mem_append.mp hc with hc | hc
    · exact ih c hc
    · obtain ⟨n, -, rfl⟩ := List.mem_map.mp hc
      exact Nat.le_refl _

namespace Debounce
open Aio.Spec.Debounce

private theorem split {q : Clocked S L α} (hq : q.Lawful) {prompt : Bool} {seconds : Nat} {ls : List (Time (L ⊕ Label α))} {s : S × State α}
    (hr : LTS.run (q.through (stage prompt seconds)).step (q.through (stage prompt seconds)).init ls = some s) :
    ∃ ds : List (Label α), LTS.run (if prompt then promptStep seconds else step seconds) init ds = some s.2 ∧
      arrivals ds = q.calls s.1 ∧ clock ds = q.now s.1 ∧ (Label.dispose ∈ ds → Time.act (Sum.inr Label.dispose) ∈ ls) := by
  obtain ⟨-, ms, h1, h2, h3, h4⟩ := Clocked.split hq (stage_reads prompt seconds) hr
  refine ⟨.tick (q.now q.init) :: ms, LTS.run_cons.mpr ⟨_, ?_, h1⟩, by simpa [arrivals, arrivalsFrom] using h2, by simpa [clock] using h3, ?_⟩
  · cases prompt <;> simp [stage, promptStep, Debounce.prompt, step, init]
  · intro hm
    simp only [List.mem_cons, reduceCtorEq, false_or] at hm
    rcases h4 _ hm with ⟨-, h'⟩ | ⟨n, h⟩ | ⟨d, h⟩
    · exact h'
    · simp [stage] at h
    · simp [stage] at h

/-- C108, any source: the values that `debounce` lets through are values of the source, in order, each at most once, at least `seconds`
after the source sent them, and none that was followed within that time by another one or by the end. -/
theorem C108_debounce {q : Clocked S L α} (hq : q.Lawful) (prompt : Bool) (seconds : Nat) {ls s}
    (hr : LTS.run (q.through (stage prompt seconds)).step (q.through (stage prompt seconds)).init ls = some s) :
    ∃ ks, Debounced seconds (q.calls s.1) ks (timedValues (seen ((q.through (stage prompt seconds)).calls s))) := by
  obtain ⟨ds, h1, h2, -⟩ := split hq hr
  rw [← h2]
  refine C60_quiet seconds ds s.2 ?_
  cases prompt
  · exact h1
  · exact prompt_run h1

/-- C108, any source, on a loop that is not overloaded: the same with the exact times; and every value that nothing follows within
`seconds` is let through. -/
theorem C108_exact {q : Clocked S L α} (hq : q.Lawful) (seconds : Nat) {ls s}
    (hr : LTS.run (q.through (stage true seconds)).step (q.through (stage true seconds)).init ls = some s) :
    ∃ ks, Debounced seconds (q.calls s.1) ks (timedValues (seen ((q.through (stage true seconds)).calls s))) ∧
      (∀ (p k : Nat) (v : α) (t tk : Nat), ks[p]? = some k → (timedValues (seen ((q.through (stage true seconds)).calls s)))[p]? = some (v, t) →
        (q.calls s.1)[k]? = some (.next v, tk) → t = tk + seconds) ∧
      (Time.act (Sum.inr Label.dispose) ∉ ls → ∀ (k : Nat) (v : α) (tk : Nat), (q.calls s.1)[k]? = some (.next v, tk) → tk + seconds < q.now s.1 →
        (∀ (j : Nat) (n : Notif α) (tj : Nat), (q.calls s.1)[j]? = some (n, tj) → k < j ∨ n.isTerminal = true → tk + seconds < tj) →
        ∃ p : Nat, ks[p]? = some k ∧ (timedValues (seen ((q.through (stage true seconds)).calls s)))[p]? = some (v, tk + seconds)) := by
  obtain ⟨ds, h1, h2, h3, h4⟩ := split hq hr
  obtain ⟨ks, g1, g2, g3⟩ := C60_exact seconds ds s.2 h1
  rw [h2] at g1 g2 g3
  rw [h3] at g3
  exact ⟨ks, g1, g2, fun hd => g3 fun h => hd (h4 h)⟩

theorem timedValues_mem {l : List (Notif α × Nat)} {v : α} {t : Nat} (h : (v, t) ∈ timedValues (seen l)) : (.next v, t) ∈ l := by
  induction l with
  | nil => cases h
  | cons c l ih =>
    obtain ⟨n, u⟩ := c
    cases n with
    | next w =>
      simp only [seen, timedValues, List.mem_cons, Prod.mk.injEq] at h
      rcases h with ⟨rfl, rfl⟩ | h
      · simp
      · exact List.mem_cons_of_mem _ (ih h)
    | error e => simp [seen, timedValues] at h
    | completed => simp [seen, timedValues] at h

end Debounce

private theorem sorted_closed : ∀ (ks : List Nat) (a : Nat), ks.Pairwise (· < ·) → (∀ x ∈ ks, a ≤ x) → (∀ x ∈ ks, ∀ y, a ≤ y → y < x → y ∈ ks) →
    ks = List.range' a ks.length := by
  intro ks
  induction ks with
  | nil => intros; rfl
  | cons x xs ih =>
    intro a hs hge hcl
    obtain ⟨h1, h2⟩ := List.pairwise_cons.mp hs
    have hx : x = a := by
      apply Classical.byContradiction
      intro hne
      have := hge x (by simp)
      have hm := hcl x (by simp) a (Nat.le_refl _) (by omega)
      rcases List.mem_cons.mp hm with rfl | hm
      · exact hne rfl
      · have := h1 a hm; omega
    subst hx
    rw [List.length_cons, List.range'_succ]
    congr 1
    refine ih (x + 1) h2 (fun y hy => h1 y hy) (fun y hy z hz hlt => ?_)
    rcases List.mem_cons.mp (hcl y (List.mem_cons_of_mem _ hy) z (by omega) hlt) with rfl | h
    · omega
    · exact h

namespace Interval
variable {t0 : Nat} {seconds period : Int}
open Aio.Spec.Debounce

private theorem undisturbed {M : Type} {ls : List (Time (Label ⊕ M))} {l : Label} (hl : Time.act l ∈ Clocked.sources ls) : Time.act (Sum.inl l) ∈ ls := by
  obtain ⟨x, hx, hx'⟩ := List.mem_filterMap.mp hl
  rcases x with d | l' | m
  · cases hx'
  · cases hx'; exact hx
  · cases hx'

private theorem calls_get {n : Nat} {l : List (Notif Nat × Nat)} {g : Nat → Nat} (h : l = (List.range n).map fun k => (.next k, g k)) {k : Nat} {c : Notif Nat × Nat}
    (hk : l[k]? = some c) : k < n ∧ c = (.next k, g k) := by
  subst h
  rw [List.getElem?_map] at hk
  rcases Nat.lt_or_ge k n with hlt | hge
  · rw [List.getElem?_range hlt] at hk
    exact ⟨hlt, by simpa using hk.symm⟩
  · rw [List.getElem?_eq_none (by simpa using hge)] at hk
    cases hk

/-- C108: `pipe(interval(s, p), debounce(d))` with p < d sends nothing, ever (on a loop that is not overloaded, as long as the interval
goes on). -/
theorem C108_interval_fast (hp : 0 < period) (d : Nat) (hd : period.toNat < d) {ls s}
    (hr : LTS.run ((clocked true t0 seconds period).through (Debounce.stage true d)).step
      ((clocked true t0 seconds period).through (Debounce.stage true d)).init ls = some s)
    (hu : Time.act (.inl .dispose) ∉ ls) (hu' : ∀ e, Time.act (.inl (.raise e)) ∉ ls) :
    timedValues (seen (((clocked true t0 seconds period).through (Debounce.stage true d)).calls s)) = [] := by
  have hl := clocked_lawful true t0 seconds period
  obtain ⟨ks, ⟨h1, h2, h3⟩, h4, -⟩ := Debounce.C108_exact hl d hr
  obtain ⟨n, h5, h6⟩ := clocked_exact (by omega) (Clocked.clocks hl (Debounce.stage_lawful true d) hr).1
  have h6 := h6 (fun h => hu (undisturbed h)) (fun e h => hu' e (undisturbed h))
  have hst := (Clocked.through_lawful hl (Debounce.stage_lawful true d)).stamps hr
  cases ho : timedValues (seen (((clocked true t0 seconds period).through (Debounce.stage true d)).calls s)) with
  | nil => rfl
  | cons vt rest =>
    exfalso
    obtain ⟨v, t⟩ := vt
    have ho0 : (timedValues (seen (((clocked true t0 seconds period).through (Debounce.stage true d)).calls s)))[0]? = some (v, t) := by rw [ho]; rfl
    have hk0 : ∃ k, ks[0]? = some k := by
      rw [ho] at h2
      cases ks with
      | nil => simp at h2
      | cons k ks => exact ⟨k, rfl⟩
    obtain ⟨k, hk⟩ := hk0
    obtain ⟨tk, ha, -, hlater⟩ := h3 0 k v t hk ho0
    have ht := h4 0 k v t tk hk ho0 ha
    obtain ⟨hkn, hc⟩ := calls_get h5 ha
    simp only [Prod.mk.injEq, Notif.next.injEq] at hc
    obtain ⟨rfl, rfl⟩ := hc
    have hle : t ≤ s.1.now := hst (.next v, t) (Debounce.timedValues_mem (by rw [ho]; simp))
    have hdue : due t0 seconds period (v + 1) = due t0 seconds period v + period.toNat := by
      simp only [due, Nat.add_mul]; omega
    have hn := h6 (v + 1) (by omega)
    have := hlater (v + 1) (.next (v + 1)) (due t0 seconds period (v + 1)) (by rw [h5]; simp [hn]) (.inl (by omega))
    omega

/-- C108: with d < p it sends every value, the value k exactly at s + kp + d (on a loop that is not overloaded, unless the subscription
is disposed); also the last one before the interval is stopped. -/
theorem C108_interval_slow (hp : 0 < period) (d : Nat) (hd : d < period.toNat) {ls s}
    (hr : LTS.run ((clocked true t0 seconds period).through (Debounce.stage true d)).step
      ((clocked true t0 seconds period).through (Debounce.stage true d)).init ls = some s)
    (hdis : Time.act (.inr .dispose) ∉ ls) :
    ∃ n, timedValues (seen (((clocked true t0 seconds period).through (Debounce.stage true d)).calls s)) =
        (List.range n).map (fun k => (k, due t0 seconds period k + d)) ∧
      (Time.act (.inl .dispose) ∉ ls → (∀ e, Time.act (.inl (.raise e)) ∉ ls) → ∀ k, due t0 seconds period k + d < s.1.now → k < n) := by
  have hl := clocked_lawful true t0 seconds period
  obtain ⟨ks, ⟨h1, h2, h3⟩, h4, h7⟩ := Debounce.C108_exact hl d hr
  obtain ⟨n, h5, h6⟩ := clocked_exact (by omega) (Clocked.clocks hl (Debounce.stage_lawful true d) hr).1
  have h7 := h7 hdis
  have hst := (Clocked.through_lawful hl (Debounce.stage_lawful true d)).stamps hr
  have hmul : ∀ {a b}, a < b → due t0 seconds period a + period.toNat ≤ due t0 seconds period b := by
    intro a b h
    have : (a + 1) * period.toNat ≤ b * period.toNat := Nat.mul_le_mul_right _ h
    simp only [due]
    rw [Nat.add_mul] at this
    omega
  -- every value whose time has passed is let through
  have hall : ∀ k, k < n → due t0 seconds period k + d < s.1.now → ∃ p : Nat, ks[p]? = some k := by
    intro k hk hlt
    obtain ⟨p, h, -⟩ := h7 k k (due t0 seconds period k) (by rw [h5]; simp [hk]) hlt (by
      intro j m tj hj hor
      obtain ⟨-, hc⟩ := calls_get h5 hj
      simp only [Prod.mk.injEq] at hc
      obtain ⟨rfl, rfl⟩ := hc
      rcases hor with h | h
      · have := hmul h; omega
      · simp [Notif.isTerminal] at h)
    exact ⟨p, h⟩
  -- what is let through
  have hout : ∀ p k : Nat, ks[p]? = some k →
      (timedValues (seen (((clocked true t0 seconds period).through (Debounce.stage true d)).calls s)))[p]? = some (k, due t0 seconds period k + d) ∧
      k < n ∧ due t0 seconds period k + d ≤ s.1.now := by
    intro p k hk
    obtain ⟨hp', -⟩ := List.getElem?_eq_some_iff.mp hk
    rw [h2] at hp'
    obtain ⟨⟨v, t⟩, ho⟩ : ∃ x, (timedValues (seen (((clocked true t0 seconds period).through (Debounce.stage true d)).calls s)))[p]? = some x :=
      ⟨_, List.getElem?_eq_getElem hp'⟩
    obtain ⟨tk, ha, -, -⟩ := h3 p k v t hk ho
    have ht := h4 p k v t tk hk ho ha
    obtain ⟨hkn, hc⟩ := calls_get h5 ha
    simp only [Prod.mk.injEq, Notif.next.injEq] at hc
    obtain ⟨rfl, rfl⟩ := hc
    subst ht
    exact ⟨ho, hkn, hst (.next v, _) (Debounce.timedValues_mem (List.mem_of_getElem? ho))⟩
  have hks : ks = List.range ks.length := by
    rw [List.range_eq_range']
    refine sorted_closed ks 0 h1 (fun _ _ => Nat.zero_le _) (fun x hx y _ hy => ?_)
    obtain ⟨p, hp', he⟩ := List.getElem_of_mem hx
    obtain ⟨-, hxn, hle⟩ := hout p x (by rw [List.getElem?_eq_getElem hp', he])
    have := hmul hy
    obtain ⟨p', h⟩ := hall y (by omega) (by omega)
    exact List.mem_of_getElem? h
  refine ⟨ks.length, ?_, fun a b k hk => ?_⟩
  · apply List.ext_getElem?
    intro p
    rcases Nat.lt_or_ge p ks.length with hlt | hge
    · have hk : ks[p]? = some p := by rw [hks, List.getElem?_range (by simpa using hlt)]
      rw [(hout p p hk).1]
      simp [hlt]
    · rw [List.getElem?_eq_none (by omega), List.getElem?_eq_none (by simpa using hge)]
  · have hn := h6 (fun h => a (undisturbed h)) (fun e h => b e (undisturbed h)) k (by omega)
    obtain ⟨p, h⟩ := hall k hn hk
    have := List.mem_of_getElem? h
    rw [hks] at this
    simpa using this

end Interval

/-! ## the hypotheses can be met -/

namespace Clocked

/-- `pipe(interval(1, 2), delay(3))`, subscribed at 0 -/
abbrev demoDelay : List (Time (Interval.Label ⊕ Delay.Label Nat)) :=
  [.act (.inl .start), .act (.inr (.start 0)), .pass 1, .act (.inl .wake), .act (.inl .ret), .act (.inr (.receive 0)), .pass 2,
   .act (.inl .wake), .act (.inl .ret), .pass 1, .act (.inr (.wake 0)), .act (.inr (.ret 0)), .act (.inr (.receive 0)), .pass 1,
   .act (.inl .wake), .act (.inl .ret), .pass 1, .act (.inr (.wake 0)), .act (.inr (.ret 0)), .act (.inr (.receive 0)), .pass 1]

example : (LTS.run ((Interval.clocked true 0 1 2).through (Delay.stage true 3)).step ((Interval.clocked true 0 1 2).through (Delay.stage true 3)).init
    demoDelay).map (fun s => (((Interval.clocked true 0 1 2).through (Delay.stage true 3)).calls s, s.1.now)) =
    some ([(.next 0, 4), (.next 1, 6)], 7) := by decide
-- the second time may not pass before the interval's call
example : (LTS.run ((Interval.clocked true 0 1 2).through (Delay.stage true 3)).step ((Interval.clocked true 0 1 2).through (Delay.stage true 3)).init
    [.act (.inl .start), .act (.inr (.start 0)), .pass 2]).isNone = true := by decide
-- on an overloaded loop it may, and then everything is late
example : (LTS.run ((Interval.clocked false 0 1 2).through (Delay.stage false 3)).step ((Interval.clocked false 0 1 2).through (Delay.stage false 3)).init
    [.act (.inl .start), .act (.inr (.start 0)), .pass 2, .act (.inl .wake), .act (.inr (.receive 0)), .pass 5, .act (.inr (.wake 0))]).map
    (fun s => ((Interval.clocked false 0 1 2).through (Delay.stage false 3)).calls s) = some [(.next 0, 7)] := by decide

/-- `pipe(interval(0, 5), debounce(2))`, subscribed at 0 -/
abbrev demoSlow : List (Time (Interval.Label ⊕ Debounce.Label Nat)) :=
  [.act (.inl .start), .act (.inl .wake), .act (.inl .ret), .act (.inr (.start 0)), .act (.inr .receive), .pass 2, .act (.inr (.wake 0)),
   .act (.inr .receive), .pass 3, .act (.inl .wake), .act (.inl .ret), .act (.inr (.start 1)), .act (.inr .receive), .pass 2, .act (.inr (.wake 1)),
   .act (.inr .receive), .pass 1]

example : (LTS.run ((Interval.clocked true 0 0 5).through (Debounce.stage true 2)).step ((Interval.clocked true 0 0 5).through (Debounce.stage true 2)).init
    demoSlow).map (fun s => (((Interval.clocked true 0 0 5).through (Debounce.stage true 2)).calls s, s.1.now)) =
    some ([(.next 0, 2), (.next 1, 7)], 8) := by decide

/-- `pipe(interval(0, 2), debounce(3))`, subscribed at 0 -/
abbrev demoFast : List (Time (Interval.Label ⊕ Debounce.Label Nat)) :=
  [.act (.inl .start), .act (.inl .wake), .act (.inl .ret), .act (.inr (.start 0)), .act (.inr .receive), .pass 2, .act (.inl .wake), .act (.inl .ret),
   .act (.inr (.start 1)), .act (.inr .receive), .pass 1, .act (.inr (.wake 0)), .act (.inr .receive), .pass 1, .act (.inl .wake), .act (.inl .ret),
   .act (.inr (.start 2)), .act (.inr .receive), .pass 1, .act (.inr (.wake 1)), .act (.inr .receive)]

example : (LTS.run ((Interval.clocked true 0 0 2).through (Debounce.stage true 3)).step ((Interval.clocked true 0 0 2).through (Debounce.stage true 3)).init
    demoFast).map (fun s => (((Interval.clocked true 0 0 2).through (Debounce.stage true 3)).calls s, (Interval.clocked true 0 0 2).calls s.1, s.1.now)) =
    some ([], [(.next 0, 0), (.next 1, 2), (.next 2, 4)], 5) := by decide

/-- The stages can be combined: `pipe(interval(s, p), delay(a), debounce(d))`. -/
example (s p : Int) (a d : Nat) {ls x}
    (hr : LTS.run (((Interval.clocked true 0 s p).through (Delay.stage true a)).through (Debounce.stage true d)).step
      (((Interval.clocked true 0 s p).through (Delay.stage true a)).through (Debounce.stage true d)).init ls = some x) :=
  Debounce.C108_debounce (through_lawful (Interval.clocked_lawful true 0 s p) (Delay.stage_lawful true a)) true d hr

end Clocked

end Aio
