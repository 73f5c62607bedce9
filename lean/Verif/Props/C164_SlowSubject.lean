import Verif.Model.SlowSubject
import Verif.Props.C98_100_SubjectOrder
/-!
# C164: a slow subscriber of an AsyncSubject, and the others
-/

namespace Aio.SlowSubject
open Subject (Disposed Ended Plain live made)
variable {α : Type} {guard : Bool} {d : Nat → Notif α → Nat}

/-! ### vocabulary -/

/-- What happens to the subject. -/
def acts (ls : List (Label α)) : List (Subject.Label α) := ls.filterMap fun | .act l => some l | .tick => none

/-- The time. -/
def clock : List (Label α) → Nat
  | [] => 0
  | .tick :: ls => clock ls + 1
  | .act _ :: ls => clock ls

/-- The subscribers in the order in which they subscribed. -/
def subscribers (ls : List (Label α)) : List Nat := (live (acts ls)).map (·.2)

/-- The time that `os` take over `n`, one after the other. -/
def total (d : Nat → Notif α → Nat) (n : Notif α) (os : List Nat) : Nat := (os.map (d · n)).sum

/-- One after the other, from time `t` on: who is told, and when. -/
def sched (d : Nat → Notif α → Nat) (n : Notif α) (t : Nat) : List Nat → List (Nat × Nat)
  | [] => []
  | o :: os => (o, t) :: sched d n (t + d o n) os

/-- What the observers have been told by call number `c`, and when. -/
def heard (c : Nat) (s : State α) : List (Nat × Nat) :=
  s.told.filterMap fun x => if x.1.1 = c then some (x.1.2.1, x.2) else none

/-! ### lemmas -/

private theorem log_step {u u' : Subject.State α} {l : Subject.Label α} (h : Subject.step guard u l = some u') :
    u'.log.drop u.log.length = [] ∨ ∃ c o n, u'.log.drop u.log.length = [(c, o, n)] := by
  have hl : ∀ (v : Subject.State α) c n os, v.log = u.log → (v.loop c n os).log.drop u.log.length = [] ∨
      ∃ c' o n', (v.loop c n os).log.drop u.log.length = [(c', o, n')] := by
    intro v c n os hv
    rw [Subject.loop_log, hv]
    cases os <;> simp
  rcases Subject.step_cases h with ⟨n, rfl, rfl⟩ | ⟨c, n, o, rest, rfl, hc, rfl⟩ | ⟨c, e, n, o, rest, rfl, hc, rfl⟩ |
    ⟨o, rfl, hd, rfl⟩ | ⟨o, rfl, hd, rfl⟩ | ⟨k, o, rfl, hk, hg, rfl⟩ | ⟨k, o, g, rfl, hk, hg, rfl⟩ | ⟨rfl, rfl⟩
  · rcases Subject.begin_cases u n with ⟨-, h⟩ | ⟨-, -, h⟩ | ⟨-, -, h⟩
    · rw [h]; exact .inl (by simp)
    · rw [h]; exact .inl (by simp)
    · rw [h]; exact hl _ _ _ _ rfl
  · exact hl _ _ _ _ rfl
  all_goals exact .inl (by simp)

private theorem log_grow {u u' : Subject.State α} {l : Subject.Label α} (h : Subject.step guard u l = some u') :
    u'.log = u.log ++ u'.log.drop u.log.length := by
  have : u.log <+: u'.log := by
    rcases Subject.step_cases h with ⟨n, rfl, rfl⟩ | ⟨c, n, o, rest, rfl, hc, rfl⟩ | ⟨c, e, n, o, rest, rfl, hc, rfl⟩ |
      ⟨o, rfl, hd, rfl⟩ | ⟨o, rfl, hd, rfl⟩ | ⟨k, o, rfl, hk, hg, rfl⟩ | ⟨k, o, g, rfl, hk, hg, rfl⟩ | ⟨rfl, rfl⟩
    · rcases Subject.begin_cases u n with ⟨-, h⟩ | ⟨-, -, h⟩ | ⟨-, -, h⟩
      · rw [h]; exact List.prefix_refl _
      · rw [h]; exact List.prefix_refl _
      · rw [h, Subject.loop_log]; exact List.prefix_append _ _
    · rw [Subject.loop_log]; exact List.prefix_append _ _
    all_goals exact List.prefix_refl _
  obtain ⟨r, hr⟩ := this
  rw [← hr]; simp

private theorem step_cases {s s' : State α} {l : Label α} (h : step d guard s l = some s') :
    (l = .tick ∧ (∀ c, s.over c = false) ∧ s' = { s with now := s.now + 1 }) ∨
    ∃ m u, l = .act m ∧ s.allows m = true ∧ Subject.step guard s.sub m = some u ∧
      ((u.log.drop s.sub.log.length = [] ∧ s' = { s with sub := u }) ∨
       ∃ x, u.log.drop s.sub.log.length = [x] ∧ s' = State.note d { s with sub := u } x) := by
  cases l with
  | tick =>
    simp only [step] at h
    split at h
    · simp at h
    · rename_i hn
      refine .inl ⟨rfl, fun c => ?_, by simpa using h.symm⟩
      by_cases hc : c < s.sub.calls.length
      · simp only [List.any_eq_true, List.mem_range, not_exists, not_and, Bool.not_eq_true] at hn
        exact hn c hc
      · simp [State.over, List.getElem?_eq_none (Nat.le_of_not_lt hc)]
  | act m =>
    simp only [step] at h
    split at h
    · rename_i ha
      obtain ⟨u, hu, rfl⟩ := Option.map_eq_some_iff.mp h
      refine .inr ⟨m, u, rfl, ha, hu, ?_⟩
      rcases log_step hu with h0 | ⟨c, o, n, h0⟩
      · exact .inl ⟨h0, by rw [h0]; rfl⟩
      · exact .inr ⟨_, h0, by rw [h0]; rfl⟩
    · simp at h

private theorem acts_snoc (ls : List (Label α)) (l : Label α) : acts (ls ++ [l]) =
    acts ls ++ (match l with | .act m => [m] | .tick => []) := by
  rw [acts, List.filterMap_append]; cases l <;> rfl

private theorem acts_append (a b : List (Label α)) : acts (a ++ b) = acts a ++ acts b := by
  simp [acts]

private theorem clock_append (a b : List (Label α)) : clock (a ++ b) = clock a + clock b := by
  induction a with
  | nil => simp [clock]
  | cons l a ih => cases l <;> simp only [List.cons_append, clock, ih] <;> omega

/-- The subject does what it always does; the clock counts the ticks. -/
theorem refines {ls : List (Label α)} {s : State α} (hr : LTS.run (step d guard) init ls = some s) :
    LTS.run (Subject.step guard) Subject.init (acts ls) = some s.sub ∧ s.now = clock ls ∧ s.told.map (·.1) = s.sub.log := by
  refine LTS.inv_hist (step := step d guard) (s0 := init)
    (fun ls s => LTS.run (Subject.step guard) Subject.init (acts ls) = some s.sub ∧ s.now = clock ls ∧
      s.told.map (·.1) = s.sub.log) ⟨rfl, rfl, rfl⟩ ?_ hr
  rintro ls s l s' ⟨h1, h2, h3⟩ h
  rw [acts_snoc, clock_append]
  rcases step_cases h with ⟨rfl, -, rfl⟩ | ⟨m, u, rfl, -, hu, ⟨hx, rfl⟩ | ⟨x, hx, rfl⟩⟩
  · exact ⟨by simpa using h1, by simp [clock, h2], h3⟩
  · refine ⟨LTS.run_append.mpr ⟨_, h1, LTS.run_cons.mpr ⟨_, hu, rfl⟩⟩, by simp [clock, h2], ?_⟩
    show _ = u.log
    rw [log_grow hu, hx, ← h3]; simp
  · refine ⟨LTS.run_append.mpr ⟨_, h1, LTS.run_cons.mpr ⟨_, hu, rfl⟩⟩, by simp [clock, h2, State.note], ?_⟩
    show _ = u.log
    rw [log_grow hu, hx, ← h3]; simp [State.note]

private theorem total_snoc (n : Notif α) (os : List Nat) (o : Nat) : total d n (os ++ [o]) = total d n os + d o n := by
  simp [total]

private theorem sched_append (n : Notif α) (os os' : List Nat) (t : Nat) :
    sched d n t (os ++ os') = sched d n t os ++ sched d n (t + total d n os) os' := by
  induction os generalizing t with
  | nil => simp [sched, total]
  | cons o os ih => simp [sched, ih, total, Nat.add_assoc]

private theorem sched_bounds (n : Notif α) (os : List Nat) (t : Nat) :
    ∀ x ∈ sched d n t os, t ≤ x.2 ∧ x.2 ≤ t + total d n os := by
  induction os generalizing t with
  | nil => simp [sched]
  | cons o os ih =>
    intro x hx
    simp only [sched, List.mem_cons] at hx
    simp only [total, List.map_cons, List.sum_cons]
    rcases hx with rfl | hx
    · exact ⟨Nat.le_refl _, by simp⟩
    · have := ih _ x hx
      simp only [total] at this
      omega

/-- What holds of call number `c`, made at time `t` with notification `n` when the observers were `os`. -/
private def Track (d : Nat → Notif α → Nat) (c : Nat) (n : Notif α) (t : Nat) (os : List Nat) (ls : List (Label α)) (s : State α) : Prop :=
  (∃ pre o rest, os = pre ++ o :: rest ∧ s.sub.calls[c]? = some (.running n o rest) ∧ heard c s = sched d n t (pre ++ [o]) ∧
    s.due c = t + total d n (pre ++ [o]) ∧ t + total d n pre ≤ s.now ∧ s.now ≤ s.due c) ∨
  (s.sub.calls[c]? = some .returned ∧ heard c s = sched d n t os ∧ t + total d n os ≤ s.now) ∨
  (∃ e, .act (.raise c e) ∈ ls)

private theorem heard_note (c : Nat) (s : State α) (x) : heard c (s.note d x) =
    heard c s ++ (if x.1 = c then [(x.2.1, s.now)] else []) := by
  rw [heard, State.note, List.filterMap_append]
  by_cases h : x.1 = c <;> simp [h, heard]

/-- Calls other than `c` leave it alone. -/
private theorem track_other {c : Nat} {n : Notif α} {t os ls} {s : State α} {u : Subject.State α} (l : Label α)
    (h : Track d c n t os ls s) (hu : u.calls[c]? = s.sub.calls[c]?) :
    Track d c n t os (ls ++ [l]) { s with sub := u } ∧
      ∀ x : Nat × Nat × Notif α, x.1 ≠ c → Track d c n t os (ls ++ [l]) (State.note d { s with sub := u } x) := by
  refine ⟨?_, fun x hx => ?_⟩
  · rcases h with ⟨pre, o, rest, h1, h2, h3, h4, h5, h6⟩ | ⟨h1, h2, h3⟩ | ⟨e, h⟩
    · exact .inl ⟨pre, o, rest, h1, hu.trans h2, h3, h4, h5, h6⟩
    · exact .inr (.inl ⟨hu.trans h1, h2, h3⟩)
    · exact .inr (.inr ⟨e, by simp [h]⟩)
  · have hh : heard c (State.note d { s with sub := u } x) = heard c s := by
      rw [heard_note, if_neg hx, List.append_nil]; rfl
    have hd : (State.note d { s with sub := u } x).due c = s.due c := by
      simp [State.note, Ne.symm hx]
    rcases h with ⟨pre, o, rest, h1, h2, h3, h4, h5, h6⟩ | ⟨h1, h2, h3⟩ | ⟨e, h⟩
    · exact .inl ⟨pre, o, rest, h1, hu.trans h2, hh.trans h3, hd.trans h4, h5, by rw [hd]; exact h6⟩
    · exact .inr (.inl ⟨hu.trans h1, hh.trans h2, h3⟩)
    · exact .inr (.inr ⟨e, by simp [h]⟩)

private theorem track_lt {c : Nat} {n : Notif α} {t os ls} {s : State α} (h : Track d c n t os ls s) :
    c < s.sub.calls.length ∨ ∃ e, .act (.raise c e) ∈ ls := by
  rcases h with ⟨pre, o, rest, h1, h2, -⟩ | ⟨h1, -⟩ | h
  · exact .inl (List.getElem?_eq_some_iff.mp h2).1
  · exact .inl (List.getElem?_eq_some_iff.mp h1).1
  · exact .inr h

private theorem track_step {c : Nat} {n : Notif α} {t os ls} {s s' : State α} {l : Label α}
    (h : Track d c n t os ls s) (hs : step d guard s l = some s') : Track d c n t os (ls ++ [l]) s' := by
  by_cases hra : ∃ e, .act (.raise c e) ∈ ls
  · obtain ⟨e, he⟩ := hra
    exact .inr (.inr ⟨e, by simp [he]⟩)
  have hlt := (track_lt h).resolve_right hra
  rcases step_cases hs with ⟨rfl, hn, rfl⟩ | ⟨m, u, rfl, ha, hu, hx⟩
  · rcases h with ⟨pre, o, rest, h1, h2, h3, h4, h5, h6⟩ | ⟨h1, h2, h3⟩ | ⟨e, h⟩
    · have := hn c
      simp only [State.over, h2, decide_eq_false_iff_not] at this
      exact .inl ⟨pre, o, rest, h1, h2, h3, h4, Nat.le_succ_of_le h5, by show s.now + 1 ≤ s.due c; omega⟩
    · exact .inr (.inl ⟨h1, h2, Nat.le_succ_of_le h3⟩)
    · exact .inr (.inr ⟨e, by simp [h]⟩)
  have other : u.calls[c]? = s.sub.calls[c]? → (∀ x, u.log.drop s.sub.log.length = [x] → x.1 ≠ c) →
      Track d c n t os (ls ++ [.act m]) s' := by
    intro h1 h2
    rcases hx with ⟨-, rfl⟩ | ⟨x, hx, rfl⟩
    · exact (track_other (.act m) h h1).1
    · exact (track_other (.act m) h h1).2 x (h2 x hx)
  have hloop : ∀ (v : Subject.State α) c' n' os', v.log = s.sub.log → c' ≠ c →
      ∀ x, (v.loop c' n' os').log.drop s.sub.log.length = [x] → x.1 ≠ c := by
    intro v c' n' os' hv hc x hx
    rw [Subject.loop_log, hv] at hx
    cases os' with
    | nil => simp at hx
    | cons o' os' => simp at hx; subst hx; exact hc
  rcases Subject.step_cases hu with ⟨n', rfl, rfl⟩ | ⟨c', n', o', rest', rfl, hc, rfl⟩ | ⟨c', e, n', o', rest', rfl, hc, rfl⟩ |
    ⟨o, rfl, hd, rfl⟩ | ⟨o, rfl, hd, rfl⟩ | ⟨k, o, rfl, hk, hg, rfl⟩ | ⟨k, o, g, rfl, hk, hg, rfl⟩ | ⟨rfl, rfl⟩
  · refine other (Subject.begin_other hlt).1 ?_
    rcases Subject.begin_cases s.sub n' with ⟨-, hb⟩ | ⟨-, -, hb⟩ | ⟨-, -, hb⟩
    · rw [hb]; intro x hx; simp at hx
    · rw [hb]; intro x hx; simp at hx
    · rw [hb]; exact hloop _ _ _ _ rfl (by omega)
  · by_cases hcc : c' = c
    · subst hcc
      rcases h with ⟨pre, o, rest, h1, h2, h3, h4, h5, h6⟩ | ⟨h1, h2, h3⟩ | h
      · rw [h2] at hc
        simp only [Option.some.injEq, Subject.Call.running.injEq] at hc
        obtain ⟨rfl, rfl, rfl⟩ := hc
        have hnow : s.now = s.due c' := by
          have : s.due c' ≤ s.now := by simpa [State.allows, State.over, h2] using ha
          omega
        cases rest with
        | nil =>
          rcases hx with ⟨-, rfl⟩ | ⟨x, hx, rfl⟩
          · refine .inr (.inl ⟨by simp [Subject.loop_calls, hlt], ?_, ?_⟩)
            · rw [h1]; exact h3
            · rw [h1, ← h4]; exact Nat.le_of_eq hnow.symm
          · rw [Subject.loop_log] at hx; simp at hx
        | cons o' rest =>
          rcases hx with ⟨hx, -⟩ | ⟨x, hx, rfl⟩
          · rw [Subject.loop_log] at hx; simp at hx
          · rw [Subject.loop_log] at hx
            simp at hx; subst hx
            refine .inl ⟨pre ++ [o], o', rest, by simp [h1], by simp [State.note, Subject.loop_calls, hlt], ?_, ?_, ?_, ?_⟩
            · rw [heard_note, sched_append, ← h3]
              simp only [if_pos, sched]
              rw [← h4, ← hnow]; rfl
            · simp only [State.note, if_pos, total_snoc n (pre ++ [o])]
              omega
            · show _ ≤ s.now; omega
            · simp [State.note]
      · rw [h1] at hc; simp at hc
      · exact absurd h hra
    · exact other (Subject.loop_other hcc).1 (hloop _ _ _ _ rfl hcc)
  · by_cases hcc : c' = c
    · subst hcc; exact .inr (.inr ⟨e, by simp⟩)
    · exact other (List.getElem?_set_ne hcc) (fun x hx => by simp at hx)
  all_goals exact other rfl (fun x hx => by simp at hx)

private theorem track_begin {a : List (Label α)} {n : Notif α} {s s' : State α}
    (hr : LTS.run (step d guard) init a = some s) (hd : ¬ Disposed (acts a)) (he : ¬ Ended (acts a)) (hp : Plain (acts a))
    (h : step d guard s (.act (.call n)) = some s') :
    Track d (made (acts a)).length n (clock a) (subscribers a) [] s' := by
  obtain ⟨h1, h2, h3⟩ := refines hr
  rw [← (Subject.inv_run h1).made, subscribers, ← Subject.observers_run h1 hp, ← h2]
  have hd' : s.sub.isDisposed = false := by
    cases h : s.sub.isDisposed with
    | false => rfl
    | true => exact absurd ((Subject.disposed_iff h1).mp h) hd
  have he' : s.sub.isStopped = false := by
    cases h : s.sub.isStopped with
    | false => rfl
    | true => exact absurd ((Subject.stopped_iff h1).mp h) he
  have hf : heard s.sub.calls.length s = [] := by
    have hf := Subject.fresh_deliveries h1
    rw [Subject.deliveries_eq, List.filterMap_eq_nil_iff, ← h3] at hf
    rw [heard, List.filterMap_eq_nil_iff]
    intro x hx
    have := hf x.1 (List.mem_map_of_mem hx)
    split at this
    · simp at this
    · rename_i hne; simp [hne]
  have hb : s.sub.begin n = Subject.State.loop { s.sub with isStopped := n.isTerminal, calls := s.sub.calls ++ [.returned] }
      s.sub.calls.length n s.sub.observers := by
    rcases Subject.begin_cases s.sub n with ⟨h, -⟩ | ⟨-, h, -⟩ | ⟨-, -, h⟩
    · rw [hd'] at h; cases h
    · rw [he'] at h; cases h
    · exact h
  rcases step_cases h with ⟨h, -⟩ | ⟨m, u, hm, -, hu, hx⟩
  · cases h
  cases hm
  simp only [Subject.step, Option.some.injEq] at hu
  subst hu
  rw [hb] at hx
  cases hos : s.sub.observers with
  | nil =>
    rw [hos, Subject.loop_log] at hx
    rcases hx with ⟨-, rfl⟩ | ⟨x, hx, rfl⟩
    · exact .inr (.inl ⟨by simp [Subject.loop_calls], hf, by simp [total]⟩)
    · simp at hx
  | cons o rest =>
    rw [hos, Subject.loop_log] at hx
    rcases hx with ⟨hx, -⟩ | ⟨x, hx, rfl⟩
    · simp at hx
    · simp at hx; subst hx
      refine .inl ⟨[], o, rest, rfl, by simp [State.note, Subject.loop_calls], ?_, ?_, ?_, ?_⟩
      · rw [heard_note]
        simp only [if_pos]
        show heard _ s ++ _ = _
        rw [hf]; rfl
      · simp [State.note, total]
      · simp [State.note, total]
      · simp [State.note]

private theorem track_run {a b : List (Label α)} {n : Notif α} {s : State α}
    (hr : LTS.run (step d guard) init (a ++ .act (.call n) :: b) = some s)
    (hd : ¬ Disposed (acts a)) (he : ¬ Ended (acts a)) (hp : Plain (acts a))
    (hq : ∀ e, Label.act (.raise (made (acts a)).length e) ∉ b) :
    (∃ pre o rest, subscribers a = pre ++ o :: rest ∧ s.sub.calls[(made (acts a)).length]? = some (.running n o rest) ∧
      heard (made (acts a)).length s = sched d n (clock a) (pre ++ [o]) ∧
      clock a + total d n pre ≤ s.now ∧ s.now ≤ clock a + total d n (pre ++ [o])) ∨
    (s.sub.calls[(made (acts a)).length]? = some .returned ∧
      heard (made (acts a)).length s = sched d n (clock a) (subscribers a) ∧ clock a + total d n (subscribers a) ≤ s.now) := by
  obtain ⟨s0, h0, hr⟩ := LTS.run_append.mp hr
  obtain ⟨s1, h1, hr⟩ := LTS.run_cons.mp hr
  have ht := track_begin h0 hd he hp h1
  have := LTS.inv_from (step := step d guard) (Track d (made (acts a)).length n (clock a) (subscribers a))
    (fun _ _ _ _ => track_step) ht hr
  rcases this with ⟨pre, o, rest, h1, h2, h3, h4, h5, h6⟩ | h | ⟨e, h⟩
  · exact .inl ⟨pre, o, rest, h1, h2, h3, h5, h4 ▸ h6⟩
  · exact .inr h
  · exact absurd (by simpa using h) (hq e)

/-! ### the claims -/

/-- When a call that does not raise tells the subscribers, exactly: one after the other, the next one when the one before is through with the
event. What is told is the beginning of that list (`sched`); what should have been told before now has been told, and nothing is
told before its time. The call returns when the last one is through, and not earlier. -/
theorem C164_exact {a b : List (Label α)} {n : Notif α} {s : State α}
    (hr : LTS.run (step d guard) init (a ++ .act (.call n) :: b) = some s)
    (hd : ¬ Disposed (acts a)) (he : ¬ Ended (acts a)) (hp : Plain (acts a))
    (hq : ∀ e, Label.act (.raise (made (acts a)).length e) ∉ b) :
    heard (made (acts a)).length s <+: sched d n (clock a) (subscribers a) ∧
    (∀ x ∈ sched d n (clock a) (subscribers a), x.2 < clock (a ++ .act (.call n) :: b) → x ∈ heard (made (acts a)).length s) ∧
    (∀ x ∈ heard (made (acts a)).length s, x.2 ≤ clock (a ++ .act (.call n) :: b)) ∧
    (s.sub.calls[(made (acts a)).length]? = some .returned →
      clock a + total d n (subscribers a) ≤ clock (a ++ .act (.call n) :: b)) ∧
    (clock a + total d n (subscribers a) < clock (a ++ .act (.call n) :: b) →
      s.sub.calls[(made (acts a)).length]? = some .returned) := by
  rw [← (refines hr).2.1]
  rcases track_run hr hd he hp hq with ⟨pre, o, rest, h1, h2, h3, h5, h6⟩ | ⟨h1, h2, h3⟩
  · have e1 : subscribers a = (pre ++ [o]) ++ rest := by simp [h1]
    refine ⟨?_, ?_, ?_, ?_, ?_⟩
    · rw [h3, e1, sched_append n (pre ++ [o])]; exact List.prefix_append _ _
    · intro x hx hlt
      rw [e1, sched_append] at hx
      rcases List.mem_append.mp hx with hx | hx
      · rw [h3]; exact hx
      · have := (sched_bounds n rest _ x hx).1; omega
    · intro x hx
      rw [h3, sched_append] at hx
      rcases List.mem_append.mp hx with hx | hx
      · have := (sched_bounds n pre _ x hx).2; omega
      · simp [sched] at hx; subst hx; exact h5
    · intro h; rw [h2] at h; simp at h
    · intro h
      rw [e1] at h
      simp only [total, List.map_append, List.sum_append] at h h6
      omega
  · refine ⟨by rw [h2]; exact List.prefix_refl _, fun x hx _ => by rw [h2]; exact hx, ?_, fun _ => h3, fun _ => h1⟩
    intro x hx
    rw [h2] at hx
    have := (sched_bounds n _ _ x hx).2; omega

private theorem sched_length (n : Notif α) (os : List Nat) (t : Nat) : (sched d n t os).length = os.length := by
  induction os generalizing t with
  | nil => rfl
  | cons o os ih => simp [sched, ih]

private theorem sched_getElem (n : Notif α) (pre post : List Nat) (o t : Nat) :
    (sched d n t (pre ++ o :: post))[pre.length]? = some (o, t + total d n pre) := by
  rw [sched_append, List.getElem?_append_right (by rw [sched_length]; exact Nat.le_refl _), sched_length]
  simp [sched]

/-- C164 is false, always: a subscriber hears of the event as much later as those who subscribed before it (`pre`) take over it. -/
theorem C164_violated {a b : List (Label α)} {n : Notif α} {s : State α} {pre post : List Nat} {o : Nat}
    (hr : LTS.run (step d guard) init (a ++ .act (.call n) :: b) = some s)
    (hd : ¬ Disposed (acts a)) (he : ¬ Ended (acts a)) (hp : Plain (acts a))
    (hq : ∀ e, Label.act (.raise (made (acts a)).length e) ∉ b)
    (ho : subscribers a = pre ++ o :: post) :
    (clock (a ++ .act (.call n) :: b) < clock a + total d n pre → (heard (made (acts a)).length s)[pre.length]? = none) ∧
    (clock a + total d n pre < clock (a ++ .act (.call n) :: b) →
      (heard (made (acts a)).length s)[pre.length]? = some (o, clock a + total d n pre)) := by
  obtain ⟨h1, -, h3, -⟩ := C164_exact hr hd he hp hq
  have hg := sched_getElem (d := d) n pre post o (clock a)
  rw [← ho] at hg
  obtain ⟨r, hr'⟩ := h1
  constructor
  · intro hlt
    cases hh : (heard (made (acts a)).length s)[pre.length]? with
    | none => rfl
    | some x =>
      exfalso
      rw [← hr', List.getElem?_append_left (List.getElem?_eq_some_iff.mp hh).1, hh] at hg
      have := h3 x (List.mem_of_getElem? hh)
      cases hg
      simp at this
      omega
  · intro hlt
    rw [← (refines hr).2.1] at hlt
    rcases track_run hr hd he hp hq with ⟨pre', o', rest, h1, h2, h3, h5, h6⟩ | ⟨h1, h2, h3⟩
    · have e1 : subscribers a = (pre' ++ [o']) ++ rest := by simp [h1]
      have hlen : pre.length ≤ pre'.length := by
        apply Nat.le_of_not_lt
        intro hlt'
        obtain ⟨q, hq⟩ : pre' ++ [o'] <+: pre := by
          refine List.prefix_of_prefix_length_le (l₃ := subscribers a) ⟨rest, e1.symm⟩ ⟨o :: post, ho.symm⟩ (by simp; omega)
        rw [← hq] at hlt
        simp only [total, List.map_append, List.sum_append] at hlt h6
        omega
      rw [h3, ← hg, e1, sched_append n (pre' ++ [o']), List.getElem?_append_left]
      rw [sched_length]; simp; omega
    · rw [h2]; exact hg

/-- C164, the part that holds: when those who subscribed before take no time over the event (their methods only post to a mailbox,
say), a subscriber hears of it in the moment of the call, however long it takes itself and the ones after it take. -/
theorem C164_partial {a b : List (Label α)} {n : Notif α} {s : State α} {pre post : List Nat} {o : Nat}
    (hr : LTS.run (step d guard) init (a ++ .act (.call n) :: b) = some s)
    (hd : ¬ Disposed (acts a)) (he : ¬ Ended (acts a)) (hp : Plain (acts a))
    (hq : ∀ e, Label.act (.raise (made (acts a)).length e) ∉ b)
    (ho : subscribers a = pre ++ o :: post) (hz : ∀ o' ∈ pre, d o' n = 0)
    (hlt : clock a < clock (a ++ .act (.call n) :: b)) :
    (heard (made (acts a)).length s)[pre.length]? = some (o, clock a) := by
  have ht : total d n pre = 0 := by
    rw [total, List.sum_eq_zero_iff_forall_eq_nat]
    intro x hx
    obtain ⟨y, hy, rfl⟩ := List.mem_map.mp hx
    exact hz y hy
  have := (C164_violated hr hd he hp hq ho).2
  rw [ht] at this
  exact this hlt

/-! ### the clock always goes on -/

private def left : Subject.Call α → Nat
  | .running _ _ rest => rest.length + 1
  | _ => 0

private theorem sum_set (cs : List (Subject.Call α)) (c : Nat) (x y : Subject.Call α) (h : cs[c]? = some x) (hlt : left y < left x) :
    ((cs.set c y).map left).sum < (cs.map left).sum := by
  induction cs generalizing c with
  | nil => simp at h
  | cons z cs ih =>
    cases c with
    | zero => simp at h; subst h; simp; omega
    | succ c => simp at h; have := ih c h; simp only [List.set_cons_succ, List.map_cons, List.sum_cons]; omega

/-- Subscribers that take their time do not stop the clock: in every state there is a way to the next moment, on which nothing happens but that
methods whose time is over return. -/
theorem C164_goes_on (s : State α) : ∃ (cs : List Nat) (s' : State α),
    LTS.run (step d guard) s (cs.map (fun c => .act (.ret c)) ++ [.tick]) = some s' ∧ s'.now = s.now + 1 := by
  generalize hm : (s.sub.calls.map left).sum = m
  induction m using Nat.strongRecOn generalizing s with
  | ind m ih =>
    by_cases ho : (List.range s.sub.calls.length).any s.over = true
    · obtain ⟨c, -, hc⟩ := List.any_eq_true.mp ho
      have hc' := hc
      rw [State.over] at hc'
      split at hc'
      · rename_i n o rest hr
        have hstep : ∃ s1, step d guard s (.act (.ret c)) = some s1 ∧ s1.now = s.now ∧ s1.sub = s.sub.loop c n rest := by
          have hu : Subject.step guard s.sub (.ret c) = some (s.sub.loop c n rest) := by simp [Subject.step, hr]
          simp only [step, State.allows, hc, if_true, hu, Option.map_some]
          refine ⟨_, rfl, ?_⟩
          rcases log_step hu with h0 | ⟨c', o', n', h0⟩
          · rw [h0]; exact ⟨rfl, rfl⟩
          · rw [h0]; exact ⟨rfl, rfl⟩
        obtain ⟨s1, h1, h2, h3⟩ := hstep
        obtain ⟨cs, s', h4, h5⟩ := ih _ (by
          rw [← hm, h3, Subject.loop_calls]
          refine sum_set _ _ _ _ hr ?_
          cases rest <;> simp [left]) s1 rfl
        exact ⟨c :: cs, s', LTS.run_cons.mpr ⟨s1, h1, h4⟩, by omega⟩
      · simp at hc'
    · refine ⟨[], { s with now := s.now + 1 }, LTS.run_cons.mpr ⟨_, ?_, rfl⟩, rfl⟩
      rw [step, if_neg ho]

/-! ### cases -/

/-- Observer 1 takes 5 over the value 10 and nothing over anything else, observer 2 takes 1. -/
def slowOne : Nat → Notif Nat → Nat
  | 1, .next 10 => 5
  | 2, _ => 1
  | _, _ => 0

/-- The slow subscriber holds up the quick one: 10 is sent at time 1 and observer 2 hears of it at time 6. -/
theorem C164_violated_witness (guard : Bool) : ∃ s,
    LTS.run (step slowOne guard) init ([.tick, .act (.subscribe 1), .act (.subscribe 2), .act (.call (.next 10))] ++
      List.replicate 5 .tick ++ [.act (.ret 0), .tick, .act (.ret 0)]) = some s ∧
      heard 0 s = [(1, 1), (2, 6)] ∧ s.sub.calls = [.returned] := by
  cases guard <;> exact ⟨_, rfl, rfl, rfl⟩

/-- The other way round nobody is held up: the same two subscribers in the other order, both hear of it by time 2. -/
example : ((LTS.run (step slowOne true) init ([.tick, .act (.subscribe 2), .act (.subscribe 1), .act (.call (.next 10)), .tick, .act (.ret 0)] ++
      List.replicate 5 .tick ++ [.act (.ret 0)])).map fun s => (heard 0 s, s.sub.calls)) = some ([(2, 1), (1, 2)], [.returned]) := by
  rfl

/-- A second producer that does not wait for the first one overtakes it: observer 2 hears 20 (call 1) at time 2, 10 (call 0) at time 6. -/
example : ((LTS.run (step slowOne true) init ([.tick, .act (.subscribe 1), .act (.subscribe 2), .act (.call (.next 10)), .tick, .act (.call (.next 20)),
      .act (.ret 1), .tick, .act (.ret 1)] ++ List.replicate 3 .tick ++ [.act (.ret 0)])).map fun s => (heard 0 s, heard 1 s)) =
    some ([(1, 1), (2, 6)], [(1, 2), (2, 2)]) := by
  rfl

/-- The hypotheses of C164 hold in the case above (`a` is the schedule before the call). -/
example : let a : List (Label Nat) := [.tick, .act (.subscribe 1), .act (.subscribe 2)]
    ¬ Disposed (acts a) ∧ ¬ Ended (acts a) ∧ Plain (acts a) ∧ subscribers a = [1] ++ 2 :: [] ∧ clock a = 1 ∧ total slowOne (.next 10) [1] = 5 := by
  refine ⟨by simp [acts, Disposed], ?_, .inl (by simp [Subject.passed, acts]), rfl, rfl, rfl⟩
  rintro ⟨p, n, q, h, -⟩
  have : Subject.Label.call n ∈ acts [Label.tick, .act (.subscribe 1), .act (.subscribe 2)] := by rw [h]; simp
  simp [acts] at this

/-- A subscriber in front that only posts to a mailbox holds nobody up (`C164_partial`): it takes no time over 30. -/
example : slowOne 1 (.next 30) = 0 := rfl

end Aio.SlowSubject
