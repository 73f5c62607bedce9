import Verif.Props.C109_111_Timed
import Verif.Props.C112_114_Timers
/-!
# C116: `sample` on a clock
-/

namespace Aio.Sampled
open Spec Spec.Timed
variable {S L α : Type}

/-- `sample(seconds)` behind the two sources, `source` and `interval(seconds, seconds)`. timeshift.py:166-182, with suspensions everywhere. -/
abbrev sampleSlow := withLatestFromSlow (α := α) (β := Nat) (Aio.map fun p : α × Nat => .ok p.1)

/-- `pipe(source, sample(seconds))` for `seconds > 0`. -/
abbrev sampled (q : Clocked S L α) (t0 : Nat) (seconds : Nat) := q.two (Interval.clocked true t0 seconds seconds) (sampleSlow (α := α))

theorem sampleSlow_delivers : DeliversFrom (sampleSlow (α := α)) fun is => ⟨afterFirst (both is).1, (both is).2⟩ := by
  have hm : (Aio.map fun p : α × Nat => .ok p.1).Computes fun s => ⟨s.vals.map (·.1), s.fin⟩ :=
    C27_map (fun p : α × Nat => p.1)
  have := C106_with_latest_from hm
  simp only [sample_spec] at this
  exact this

/-- What comes through; `seen`: there was a tick before. -/
def through : Bool → List ((Notif α ⊕ Notif Nat) × Nat) → List (Notif α × Nat)
  | _, [] => []
  | true, (.inl (.next a), t) :: cs => (.next a, t) :: through true cs
  | false, (.inl (.next _), _) :: cs => through false cs
  | _, (.inr (.next _), _) :: cs => through true cs
  | _, (.inl (.error e), t) :: _ => [(.error e, t)]
  | _, (.inl .completed, t) :: _ => [(.completed, t)]
  | _, (.inr (.error e), t) :: _ => [(.error e, t)]
  | _, (.inr .completed, t) :: _ => [(.completed, t)]

theorem through_times : ∀ (cs : List ((Notif α ⊕ Notif Nat) × Nat)) (seen : Bool), ((through seen cs).map (·.2)).Sublist (cs.map (·.2)) := by
  intro cs
  induction cs with
  | nil => intro seen; simp [through]
  | cons c cs ih =>
    intro seen
    obtain ⟨n, t⟩ := c
    rcases n with n | n <;> cases n <;> cases seen <;> simp only [through, List.map_cons, List.map_nil] <;>
      first
      | exact (ih _).cons_cons _
      | exact (ih _).cons _
      | exact (List.nil_sublist _).cons_cons _

theorem through_inTime {cs : List ((Notif α ⊕ Notif Nat) × Nat)} (h : InTime cs) (seen : Bool) : InTime (through seen cs) := by
  have h1 : (cs.map (·.2)).Pairwise (· ≤ ·) := List.pairwise_map.mpr h
  exact List.pairwise_map.mp (h1.sublist (through_times cs seen))

theorem through_upto {cs : List ((Notif α ⊕ Notif Nat) × Nat)} (h : InTime cs) (t : Nat) : ∀ seen : Bool,
    upto t (through seen cs) = (⟨if seen then (both (upto t cs)).1.filterMap Sum.getLeft? else afterFirst (both (upto t cs)).1, (both (upto t cs)).2⟩ : Story α).events := by
  induction cs with
  | nil => intro seen; cases seen <;> simp [through, both, Story.events, afterFirst]
  | cons c cs ih =>
    intro seen
    have hin := through_inTime h seen
    obtain ⟨g1, g2⟩ := List.pairwise_cons.mp h
    have ih := ih g2
    by_cases hc : c.2 ≤ t
    · obtain ⟨n, u⟩ := c
      dsimp only at hc
      rw [upto_cons, if_pos hc]
      rcases n with n | n <;> cases n <;> cases seen <;> simp only [through, both, upto_cons, if_pos hc] <;>
        first
        | (rw [ih]; simp [Story.events, afterFirst]; done)
        | (rw [ih]; simp [Story.events, List.filterMap_cons]; done)
        | simp [Story.events, afterFirst]
    · have hall : ∀ x ∈ c :: cs, t < x.2 := by
        intro x hx
        rcases List.mem_cons.mp hx with rfl | hx
        · omega
        · have := g1 x hx; omega
      rw [upto_none hall, upto_none (cs := through seen (c :: cs))]
      · cases seen <;> simp [both, Story.events, afterFirst]
      · intro x hx
        have h1 : x.2 ∈ (c :: cs).map (·.2) := (through_times _ seen).subset (List.mem_map.mpr ⟨x, hx, rfl⟩)
        obtain ⟨y, hy, hxy⟩ := List.mem_map.mp h1
        have := hall y hy
        omega

theorem terminal_last {cs : List (Notif α × Nat)} {n : Notif α} {t : Nat} (hg : Grammar (((n, t) :: cs).map (·.1))) (hn : n.isTerminal = true) : cs = [] := by
  obtain ⟨⟨vs, f⟩, he⟩ := hg
  cases vs with
  | nil =>
    cases f <;> simp [Story.events] at he
    · exact he.2
    · exact he.2
  | cons v vs =>
    simp [Story.events] at he
    rw [he.1] at hn
    cases hn

theorem grammar_tail {cs : List (Notif α × Nat)} {v : α} {t : Nat} (hg : Grammar (((.next v, t) :: cs).map (·.1))) : Grammar (cs.map (·.1)) := by
  obtain ⟨⟨vs, f⟩, he⟩ := hg
  cases vs with
  | nil => cases f <;> simp [Story.events] at he
  | cons w vs =>
    simp [Story.events] at he
    exact ⟨⟨vs, f⟩, by simp [Story.events, he.2]⟩

/-- After the first tick everything that the source sends. -/
theorem through_seen : ∀ {cs : List ((Notif α ⊕ Notif Nat) × Nat)}, Grammar ((Timed.lefts cs).map (·.1)) → (∀ c ∈ Timed.rights cs, ∃ k, c.1 = .next k) →
    through true cs = Timed.lefts cs := by
  intro cs
  induction cs with
  | nil => intro _ _; rfl
  | cons c cs ih =>
    intro hg hr
    obtain ⟨n, t⟩ := c
    rcases n with n | n
    · have hl : Timed.lefts ((Sum.inl n, t) :: cs) = (n, t) :: Timed.lefts cs := rfl
      have hr' : Timed.rights ((Sum.inl n, t) :: cs) = Timed.rights cs := rfl
      rw [hl] at hg ⊢
      rw [hr'] at hr
      cases n with
      | next a => rw [through, ih (grammar_tail hg) hr]
      | error e => rw [through, terminal_last hg rfl]
      | completed => rw [through, terminal_last hg rfl]
    · have hl : Timed.lefts ((Sum.inr n, t) :: cs) = Timed.lefts cs := rfl
      have hr' : Timed.rights ((Sum.inr n, t) :: cs) = (n, t) :: Timed.rights cs := rfl
      rw [hl] at hg ⊢
      rw [hr'] at hr
      obtain ⟨k, rfl⟩ := hr _ List.mem_cons_self
      rw [through, ih hg fun c hc => hr c (List.mem_cons_of_mem _ hc)]

/-- The values before the first tick are dropped, and nothing else. -/
theorem through_split : ∀ {cs : List ((Notif α ⊕ Notif Nat) × Nat)}, InTime cs → Grammar ((Timed.lefts cs).map (·.1)) →
    (∀ c ∈ Timed.rights cs, ∃ k, c.1 = .next k) →
    ∃ as bs, Timed.lefts cs = as ++ bs ∧ through false cs = as.filter (fun c => c.1.isTerminal) ++ bs ∧
      (∀ c ∈ as, ∀ r, (Timed.rights cs).head? = some r → c.2 ≤ r.2) ∧ (∀ c ∈ bs, ∃ r, (Timed.rights cs).head? = some r ∧ r.2 ≤ c.2) := by
  intro cs
  induction cs with
  | nil => intro _ _ _; exact ⟨[], [], rfl, rfl, by simp, by simp⟩
  | cons c cs ih =>
    intro ht hg hr
    obtain ⟨g1, g2⟩ := List.pairwise_cons.mp ht
    obtain ⟨n, t⟩ := c
    rcases n with n | n
    · have hl : Timed.lefts ((Sum.inl n, t) :: cs) = (n, t) :: Timed.lefts cs := rfl
      have hr' : Timed.rights ((Sum.inl n, t) :: cs) = Timed.rights cs := rfl
      rw [hl] at hg ⊢
      rw [hr'] at hr ⊢
      have hfirst : ∀ r, (Timed.rights cs).head? = some r → t ≤ r.2 := by
        intro r hr
        have hm := mem_rights.mp (List.mem_of_mem_head? hr)
        exact g1 _ hm
      cases n with
      | next a =>
        obtain ⟨as, bs, i1, i2, i3, i4⟩ := ih g2 (grammar_tail hg) hr
        refine ⟨(.next a, t) :: as, bs, by rw [i1]; rfl, by rw [through, i2]; rfl, ?_, i4⟩
        intro c hc r hr
        rcases List.mem_cons.mp hc with rfl | hc
        · exact hfirst r hr
        · exact i3 c hc r hr
      | error e =>
        refine ⟨[(.error e, t)], [], by rw [terminal_last hg rfl]; rfl, by rw [through]; rfl, ?_, by simp⟩
        intro c hc r hr
        obtain rfl := List.mem_singleton.mp hc
        exact hfirst r hr
      | completed =>
        refine ⟨[(.completed, t)], [], by rw [terminal_last hg rfl]; rfl, by rw [through]; rfl, ?_, by simp⟩
        intro c hc r hr
        obtain rfl := List.mem_singleton.mp hc
        exact hfirst r hr
    · have hl : Timed.lefts ((Sum.inr n, t) :: cs) = Timed.lefts cs := rfl
      have hr' : Timed.rights ((Sum.inr n, t) :: cs) = (n, t) :: Timed.rights cs := rfl
      rw [hl] at hg ⊢
      rw [hr'] at hr ⊢
      obtain ⟨k, rfl⟩ := hr _ List.mem_cons_self
      refine ⟨[], Timed.lefts cs, rfl, ?_, by simp, ?_⟩
      · rw [through, through_seen hg fun c hc => hr c (List.mem_cons_of_mem _ hc)]; rfl
      · intro c hc
        refine ⟨_, rfl, ?_⟩
        exact g1 _ (mem_lefts.mp hc)

/-- C116: on a loop that is not overloaded, `pipe(source, sample(seconds))` drops the values that the source sends in the first `seconds`
after the subscription (at that very moment: possibly), and sends everything else that the source sends, at the same times, as long as
its timer is not disposed. -/
theorem C116_sample {q : Clocked S L α} (hq : q.Lawful) (hg : ∀ ls s, LTS.run q.step q.init ls = some s → Grammar ((q.calls s).map (·.1)))
    {t0 : Nat} (h0 : q.now q.init = t0) {seconds : Nat} (hs : 0 < seconds) {ls s}
    (hr : LTS.run (sampled q t0 seconds).step (sampled q t0 seconds).init ls = some s)
    (hp : (sampled q t0 seconds).Prompt (fun s => (sampleSlow (α := α)).Quiescent s.2.2.ps) ls) (hqu : (sampleSlow (α := α)).Quiescent s.2.2.ps)
    (hd : Time.act (.right .dispose) ∉ ls) (hx : ∀ e, Time.act (.right (.raise e)) ∉ ls) :
    ∃ as bs, q.calls s.1 = as ++ bs ∧ (sampled q t0 seconds).calls s = as.filter (fun c => c.1.isTerminal) ++ bs ∧
      (∀ c ∈ as, c.2 ≤ t0 + seconds) ∧ ∀ c ∈ bs, t0 + seconds ≤ c.2 := by
  have h₂ := Interval.clocked_lawful true t0 seconds seconds
  have h0' : q.now q.init = (Interval.clocked true t0 seconds seconds).now (Interval.clocked true t0 seconds seconds).init := h0
  obtain ⟨got, g1, g2, g3, g4, -, g5⟩ := C109_two hq h₂ h0' sampleSlow_delivers rfl hr hp
  obtain ⟨r1, r2, r3, -, -⟩ := Clocked.two_sources hq h₂ h0' hr
  obtain ⟨m, hm, hall⟩ := Interval.clocked_exact (by omega) r2
  have hcalls : (sampled q t0 seconds).calls s = through false got :=
    Spec.Timed.ext g4 (through_inTime g1 false) fun t => by rw [g5 hqu, through_upto g1]; rfl
  have hright : ∀ c ∈ Timed.rights got, ∃ k, c.1 = .next k := by
    intro c hc
    rw [g3, hm] at hc
    obtain ⟨k, -, rfl⟩ := List.mem_map.mp hc
    exact ⟨k, rfl⟩
  obtain ⟨as, bs, i1, i2, i3, i4⟩ := through_split g1 (by rw [g2]; exact hg _ _ r1) hright
  have hhead : ∀ r, (Timed.rights got).head? = some r → r.2 = t0 + seconds := by
    intro r hr
    rw [g3, hm] at hr
    cases m with
    | zero => simp at hr
    | succ m =>
      rw [List.range_succ_eq_map] at hr
      simp at hr
      subst hr
      simp [Interval.due]
  refine ⟨as, bs, by rw [← g2, i1], by rw [hcalls, i2], ?_, ?_⟩
  · intro c hc
    cases hh : (Timed.rights got).head? with
    | some r =>
      have := i3 c hc r hh
      have := hhead r hh
      omega
    | none =>
      have hnil : m = 0 := by
        rw [g3, hm] at hh
        cases m with
        | zero => rfl
        | succ m => rw [List.range_succ_eq_map] at hh; simp at hh
      have hmem : c ∈ q.calls s.1 := by rw [← g2, i1]; exact List.mem_append_left _ hc
      have h1 := (hq.inTime r1).2 c hmem
      have h2 : s.2.1.now ≤ t0 + seconds := by
        rcases Nat.lt_or_ge (t0 + seconds) s.2.1.now with hlt | hge
        · have hnd : ∀ l, Time.act l ∈ Clocked.rights ls → Time.act (.right l) ∈ ls := by
            intro l hl
            simp only [Clocked.rights, List.mem_filterMap] at hl
            obtain ⟨x, hx, hxl⟩ := hl
            split at hxl <;> cases hxl
            exact hx
          have := hall (fun h => hd (hnd _ h)) (fun e h => hx e (hnd _ h)) 0 (by simpa [Interval.due] using hlt)
          omega
        · exact hge
      have h3 : q.now s.1 = s.2.1.now := r3
      omega
  · intro c hc
    obtain ⟨r, hr, hrc⟩ := i4 c hc
    rw [← hhead r hr]
    exact hrc

/-! ## Example: `pipe(interval(1, 2), sample(4))` sends 2 at time 5 and 3 at time 7 -/

section Example
abbrev demo := sampled (Interval.clocked true 0 1 2) 0 4
abbrev DemoLabel := Time (Two.Label Interval.Label Interval.Label (Unit ⊕ (Aio.map fun p : Nat × Nat => .ok p.1 : Operator (Nat × Nat) Nat).protected.compileSlow.SlowLab))
abbrev a : DemoLabel := .act (.worker (.inl ()))
abbrev b : DemoLabel := .act (.worker (.inr (.inl ())))
abbrev c : DemoLabel := .act (.worker (.inr (.inr ())))
abbrev demoRun : List DemoLabel :=
  [.act (.right .start), .act (.left .start), .pass 1, .act (.left .wake), a, .act (.left .ret), .pass 2, .act (.left .wake), a, .act (.left .ret),
   .pass 1, .act (.right .wake), a, .act (.right .ret), .pass 1, .act (.left .wake), a, a, b, b, c, c, .act (.left .ret),
   .pass 2, .act (.left .wake), a, a, b, b, c, c, .act (.left .ret)]


example : (LTS.run demo.step demo.init demoRun).map (fun s => (demo.calls s, demo.now s)) = some ([(.next 2, 5), (.next 3, 7)], 7) := by decide +kernel
example : demo.Prompt (fun s => (sampleSlow (α := Nat)).Quiescent s.2.2.ps) demoRun := by
  refine Clocked.Prompt.of_rests (idle := fun s => ((sampleSlow (α := Nat)).step s.2.2.ps (.inl ())).isNone && ((sampleSlow (α := Nat)).step s.2.2.ps (.inr (.inl ()))).isNone && ((sampleSlow (α := Nat)).step s.2.2.ps (.inr (.inr ()))).isNone) (fun s h l => ?_) (by decide +kernel)
  simp only [Bool.and_eq_true, Option.isNone_iff_eq_none] at h
  match l with
  | .inl () => exact h.1.1
  | .inr (.inl ()) => exact h.1.2
  | .inr (.inr ()) => exact h.2
example : Time.act (.right .dispose) ∉ demoRun ∧ ∀ e, Time.act (.right (.raise e)) ∉ demoRun := by simp
end Example

end Aio.Sampled
