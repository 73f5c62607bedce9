import Verif.Lemmas.Safe
/-!
# C01-C05: what an observer behind `safe_observer` experiences

The hypotheses of all theorems are only "this schedule is possible": producers may post any
notifications at any time (also after a terminal, also concurrently), the observer and the
disposable may suspend for arbitrarily long and raise whatever they like.
-/

namespace Aio.Safe
open Aio.Spec
variable {α : Type}

/-! ## specification -/

/-- Calls begun / calls ended so far. -/
def begun (es : List (Event α)) : Nat :=
  es.countP fun | .start _ => true | _ => false
def ended (es : List (Event α)) : Nat :=
  es.countP fun | .finish _ => true | .raised _ _ => true | _ => false

/-- Calls never overlap: at every moment at most one call is in progress. -/
def Serialised (log : List (Event α)) : Prop :=
  ∀ es, es <+: log → ended es ≤ begun es ∧ begun es ≤ ended es + 1

/-- a run used in the examples: two values, an error, then junk after the terminal; the observer is
slow and the posts overlap with its calls -/
def demo : List (Label Nat) :=
  [.post (.next 1), .receive, .post (.next 2), .post (.error (.user 7)), .ret, .receive,
   .post (.next 3), .ret, .receive, .post .completed, .ret, .ret]

/-- a run in which the observer raises on the second value -/
def demoRaise : List (Label Nat) :=
  [.post (.next 1), .post (.next 2), .post (.next 3), .receive, .ret, .receive,
   .raise (.user 9), .ret, .post .completed]

/-! ## C01 -/

/-- C01. The calls form `OnNext* (OnError | OnCompleted)?`, whatever was posted. -/
theorem C01_grammar (ls : List (Label α)) (s : State α) (h : run init ls = some s) :
    Grammar (calls s.log) := by
  obtain ⟨vs, c, t, -, hl, hsh⟩ := inv_run h
  obtain ⟨inbox, pc, log⟩ := s
  simp only at hl hsh ⊢
  rw [hl, calls_append, calls_blocks]
  cases hsh
  case sending v => exact ⟨⟨vs ++ [v], .running⟩, by simp [calls]⟩
  case rethrowing v e _ => exact ⟨⟨vs ++ [v], .failed e⟩, by simp [calls]⟩
  case cancelled v => exact ⟨⟨vs ++ [v], .running⟩, by simp [calls]⟩
  case rethrown v e _ => exact ⟨⟨vs ++ [v], .failed e⟩, by simp [calls]⟩
  case rethrownRaised v e _ _ => exact ⟨⟨vs ++ [v], .failed e⟩, by simp [calls]⟩
  case terminating n hn => cases n <;> simp [Notif.isTerminal] at hn
                           · rename_i e; exact ⟨⟨vs, .failed e⟩, by simp [calls]⟩
                           · exact ⟨⟨vs, .done⟩, by simp [calls]⟩
  case terminated n hn => cases n <;> simp [Notif.isTerminal] at hn
                          · rename_i e; exact ⟨⟨vs, .failed e⟩, by simp [calls]⟩
                          · exact ⟨⟨vs, .done⟩, by simp [calls]⟩
  case terminatedRaised n _ hn => cases n <;> simp [Notif.isTerminal] at hn
                                  · rename_i e; exact ⟨⟨vs, .failed e⟩, by simp [calls]⟩
                                  · exact ⟨⟨vs, .done⟩, by simp [calls]⟩
  all_goals exact ⟨⟨vs, .running⟩, by simp [calls]⟩

example : (run init demo).map (fun s => calls s.log) =
    some [.next 1, .next 2, .error (.user 7)] := by decide
example : (run init demoRaise).map (fun s => calls s.log) =
    some [.next 1, .next 2, .error (.user 9)] := by decide

/-! ## C02 -/

theorem begun_append (a b : List (Event α)) : begun (a ++ b) = begun a + begun b := by
  simp [begun]
theorem ended_append (a b : List (Event α)) : ended (a ++ b) = ended a + ended b := by
  simp [ended]

/-- C02. No call is made on the observer while another one is in progress. -/
theorem C02_serialised (ls : List (Label α)) (s : State α) (h : run init ls = some s) :
    Serialised s.log := by
  obtain ⟨vs, c, t, -, hl, hsh⟩ := inv_run h
  obtain ⟨inbox, pc, log⟩ := s
  simp only at hl hsh ⊢
  rw [hl]
  clear hl h
  -- generalise over the number of blocks already seen
  suffices H : ∀ (vs : List α) (t : List (Event α)),
      (∀ es, es <+: t → ended es ≤ begun es ∧ begun es ≤ ended es + 1) →
      Serialised (blocks vs ++ t) by
    apply H
    intro es hes
    obtain ⟨r, hr⟩ := hes
    cases hsh <;> (rcases es with _ | ⟨a, _ | ⟨b, _ | ⟨c, _ | ⟨d, es⟩⟩⟩⟩ <;>
      (simp at hr; try (obtain ⟨h1, h2⟩ := hr); subst_vars; simp_all [begun, ended]))
  intro vs t ht
  induction vs with
  | nil => simpa [Serialised] using ht
  | cons v vs ih =>
    intro es hes
    have hb : blocks (v :: vs) ++ t = .start (.next v) :: .finish (.next v) :: (blocks vs ++ t) := by
      simp [blocks]
    rw [hb] at hes
    rw [List.prefix_cons_iff] at hes
    rcases hes with rfl | ⟨es1, rfl, hes⟩
    · simp [begun, ended]
    rw [List.prefix_cons_iff] at hes
    rcases hes with rfl | ⟨es2, rfl, hes⟩
    · simp [begun, ended]
    have := ih es2 hes
    simp only [begun, ended, List.countP_cons] at this ⊢
    simpa using this

example : ∃ s, run init demo = some s ∧ begun s.log = 3 ∧ ended s.log = 3 := ⟨_, rfl, by decide⟩

/-! ## C03 -/

/-- C03. If no call raises, then at every moment the calls made so far are an initial piece of what
was posted (in the order of posting, each exactly once), cut at the first terminal notification, and
once the worker has nothing left to do they are exactly that. -/
theorem C03_fifo (ls : List (Label α)) (s : State α) (h : run init ls = some s) (hn : NoRaise ls) :
    calls s.log <+: cut (posted ls) ∧ (Drained s → calls s.log = cut (posted ls)) := by
  obtain ⟨vs, c, t, hp, hl, hsh⟩ := inv_run h
  have hq : Quiet s := quiet_run hn ⟨by simp [init], by simp [init]⟩ h
  obtain ⟨inbox, pc, log⟩ := s
  have hc : cut (posted ls) = vs.map .next ++ cut (c ++ inbox) := by
    rw [hp, List.append_assoc, cut, story_map_next_append]; simp [cut, Story.events]
  simp only at hl hsh ⊢
  rw [hc, hl, calls_append, calls_blocks, List.prefix_append_right_inj, List.append_right_inj]
  obtain ⟨hq1, hq2⟩ := hq
  simp only at hq1 hq2
  rw [hl] at hq1 hq2
  unfold Drained
  cases hsh
  case rethrowing v e _ => exact absurd (by simp) (hq1 (.next v) e)
  case cancelled v => exact absurd (by simp) (hq1 (.next v) .cancelled)
  case rethrown v e _ => exact absurd (by simp) (hq1 (.next v) e)
  case rethrownRaised v e _ _ => exact absurd (by simp) (hq1 (.next v) e)
  case disposeRaised n e _ => exact absurd (by simp) (hq2 e)
  case terminatedRaised n e _ => exact absurd (by simp) (hq1 n e)
  case waiting => simp [calls]; rintro rfl; rfl
  case sending v => simp [calls]
  case disposing n hn => simp [calls]
  case terminating n hn => cases n <;> simp_all [calls, Notif.isTerminal]
  case terminated n hn => cases n <;> simp_all [calls, Notif.isTerminal]

example : ∃ s, run init demo = some s ∧ NoRaise demo ∧ Drained s ∧
    posted demo = [.next 1, .next 2, .error (.user 7), .next 3, .completed] ∧
    calls s.log = [.next 1, .next 2, .error (.user 7)] :=
  ⟨_, rfl, by intro e; simp [demo], .inl rfl, by decide, by decide⟩

/-! ## C04 -/

theorem split_tail {vs : List α} {t l1 l2 : List (Event α)} {x : Event α} (hx : x ∉ blocks vs)
    (h : blocks vs ++ t = l1 ++ x :: l2) : ∃ t1, l1 = blocks vs ++ t1 ∧ t = t1 ++ x :: l2 := by
  rcases List.append_eq_append_iff.mp h with ⟨a, rfl, h2⟩ | ⟨a, h1, h2⟩
  · exact ⟨a, rfl, h2⟩
  · cases a with
    | nil => exact ⟨[], by simpa using h1.symm, by simpa using h2.symm⟩
    | cons y ys =>
      simp at h2
      exact absurd (by rw [h1, h2.1]; simp) hx

theorem mem_blocks {vs : List α} {x : Event α} (h : x ∈ blocks vs) :
    ∃ v, x = .start (.next v) ∨ x = .finish (.next v) := by
  simp [blocks] at h
  obtain ⟨v, -, h⟩ := h
  exact ⟨v, h⟩

/-- C04, order. When the observer is told that the stream is over, the subscription's disposable has
already been disposed completely - unless the "error" is the observer's own exception (C05). -/
theorem C04_dispose_before_terminal (ls : List (Label α)) (s : State α) (h : run init ls = some s)
    (l1 l2 : List (Event α)) (n : Notif α) (hn : n.isTerminal)
    (hl : s.log = l1 ++ .start n :: l2) :
    .disposeDone ∈ l1 ∨ ∃ v e, n = .error e ∧ .raised (.next v) e ∈ l1 := by
  obtain ⟨vs, c, t, -, hl', hsh⟩ := inv_run h
  obtain ⟨inbox, pc, log⟩ := s
  simp only at hl hl' hsh
  have hx : Event.start n ∉ blocks vs := by
    intro hm; obtain ⟨v, h | h⟩ := mem_blocks hm
    · simp at h; subst h; simp [Notif.isTerminal] at hn
    · simp at h
  obtain ⟨t1, rfl, rfl⟩ := split_tail hx (hl'.symm.trans hl)
  clear hl hl' h hx
  generalize ht : t1 ++ .start n :: l2 = t at hsh
  cases hsh <;> rcases t1 with _ | ⟨a, _ | ⟨b, _ | ⟨c, _ | ⟨d, t1⟩⟩⟩⟩ <;>
    simp_all [Notif.isTerminal]

/-- C04, at most once; and only because a terminal notification was posted: when the disposal
starts, the observer has had exactly the values posted before the first terminal one. -/
theorem C04_dispose_once (ls : List (Label α)) (s : State α) (h : run init ls = some s)
    (l1 l2 : List (Event α)) (hl : s.log = l1 ++ .disposeStart :: l2) :
    .disposeStart ∉ l1 ∧ .disposeStart ∉ l2 ∧ (story (posted ls)).fin ≠ .running ∧
      calls l1 = (values (posted ls)).map .next := by
  obtain ⟨vs, c, t, hp, hl', hsh⟩ := inv_run h
  obtain ⟨inbox, pc, log⟩ := s
  simp only at hl hl' hsh hp
  have hx : Event.disposeStart ∉ blocks vs := by
    intro hm; obtain ⟨v, h | h⟩ := mem_blocks hm <;> simp at h
  obtain ⟨t1, rfl, rfl⟩ := split_tail hx (hl'.symm.trans hl)
  have hst : story (posted ls) = ⟨vs ++ (story (c ++ inbox)).vals, (story (c ++ inbox)).fin⟩ := by
    rw [hp, List.append_assoc, story_map_next_append]
  simp only [values, hst, List.mem_append, hx, false_or, calls_append, calls_blocks, List.map_append, List.append_right_inj]
  clear hl hl' h hx hst hp
  generalize ht : t1 ++ .disposeStart :: l2 = t at hsh
  cases hsh
  case disposing n hn =>
    rcases t1 with _ | ⟨a, _ | ⟨b, t1⟩⟩ <;> cases n <;> simp_all [Notif.isTerminal, calls]
  case disposeRaised n e hn =>
    rcases t1 with _ | ⟨a, _ | ⟨b, t1⟩⟩ <;> cases n <;> simp_all [Notif.isTerminal, calls]
  case terminating n hn =>
    rcases t1 with _ | ⟨a, _ | ⟨b, _ | ⟨c, t1⟩⟩⟩ <;> cases n <;>
      simp_all [Notif.isTerminal, calls] <;> simp [← ht.2]
  case terminated n hn =>
    rcases t1 with _ | ⟨a, _ | ⟨b, _ | ⟨c, _ | ⟨d, t1⟩⟩⟩⟩ <;> cases n <;>
      simp_all [Notif.isTerminal, calls]
  case terminatedRaised n _ hn =>
    rcases t1 with _ | ⟨a, _ | ⟨b, _ | ⟨c, _ | ⟨d, t1⟩⟩⟩⟩ <;> cases n <;>
      simp_all [Notif.isTerminal, calls]
  all_goals
    rcases t1 with _ | ⟨a, _ | ⟨b, _ | ⟨c, _ | ⟨d, t1⟩⟩⟩⟩ <;> simp_all

/-- C04, exactly once. If nothing raises, then once the worker has nothing left to do the disposable
has been disposed if and only if a terminal notification was posted. -/
theorem C04_disposed_iff_terminal (ls : List (Label α)) (s : State α) (h : run init ls = some s)
    (hn : NoRaise ls) (hd : Drained s) :
    .disposeDone ∈ s.log ↔ (story (posted ls)).fin ≠ .running := by
  obtain ⟨vs, c, t, hp, hl, hsh⟩ := inv_run h
  have hq : Quiet s := quiet_run hn ⟨by simp [init], by simp [init]⟩ h
  obtain ⟨inbox, pc, log⟩ := s
  obtain ⟨hq1, hq2⟩ := hq
  simp only [Drained] at hl hsh hq1 hq2 hd hp ⊢
  have hst : (story (posted ls)).fin = (story (c ++ inbox)).fin := by
    rw [hp, List.append_assoc, story_map_next_append]
  have hx : Event.disposeDone ∉ blocks vs := by
    intro hm; obtain ⟨v, h | h⟩ := mem_blocks hm <;> simp at h
  rw [hst]
  rw [hl] at hq1 hq2 ⊢
  simp only [List.mem_append, hx, false_or]
  cases hsh
  case waiting => simp at hd; simp [hd]
  case terminated n hn => cases n <;> simp_all [Notif.isTerminal]
  case cancelled v => exact absurd (by simp) (hq1 (.next v) .cancelled)
  case rethrown v e _ => exact absurd (by simp) (hq1 (.next v) e)
  case rethrownRaised v e _ _ => exact absurd (by simp) (hq1 (.next v) e)
  case disposeRaised n e _ => exact absurd (by simp) (hq2 e)
  case terminatedRaised n e _ => exact absurd (by simp) (hq1 n e)
  all_goals simp at hd

example : ∃ s, run init demo = some s ∧ s.log =
    [.start (.next 1), .finish (.next 1), .start (.next 2), .finish (.next 2)] ++
      .disposeStart :: [.disposeDone, .start (.error (.user 7)), .finish (.error (.user 7))] :=
  ⟨_, rfl, by decide⟩

/-! ## C05 -/

/-- C05. If the observer's `asend` raises `e` (an `Exception`), the very next thing that happens to
it is `athrow(e)`, and it is never called again. -/
theorem C05_exception_returned (ls : List (Label α)) (s : State α) (h : run init ls = some s)
    (l1 l2 : List (Event α)) (v : α) (e : Err) (he : e ≠ .cancelled)
    (hl : s.log = l1 ++ .raised (.next v) e :: l2) :
    ∃ l3, l2 = .start (.error e) :: l3 ∧ calls l3 = [] := by
  obtain ⟨vs, c, t, hp, hl', hsh⟩ := inv_run h
  obtain ⟨inbox, pc, log⟩ := s
  simp only at hl hl' hsh hp
  have hx : Event.raised (.next v) e ∉ blocks vs := by
    intro hm; obtain ⟨v, h | h⟩ := mem_blocks hm <;> simp at h
  obtain ⟨t1, rfl, rfl⟩ := split_tail hx (hl'.symm.trans hl)
  clear hl hl' h hx hp
  generalize ht : t1 ++ .raised (.next v) e :: l2 = t at hsh
  cases hsh
  case terminatedRaised n e' hn =>
    cases n <;> rcases t1 with _ | ⟨a, _ | ⟨b, _ | ⟨c, _ | ⟨d, t1⟩⟩⟩⟩ <;>
      simp_all [Notif.isTerminal]
  all_goals
    rcases t1 with _ | ⟨a, _ | ⟨b, _ | ⟨c, _ | ⟨d, t1⟩⟩⟩⟩ <;> simp_all [calls]

/-- C05, for `asyncio.CancelledError` (not an `Exception`, so `except Exception` does not see it): the observer is told
nothing, and it is never called again. -/
theorem C05_cancelled (ls : List (Label α)) (s : State α) (h : run init ls = some s)
    (l1 l2 : List (Event α)) (v : α) (hl : s.log = l1 ++ .raised (.next v) .cancelled :: l2) : l2 = [] := by
  obtain ⟨vs, c, t, hp, hl', hsh⟩ := inv_run h
  obtain ⟨inbox, pc, log⟩ := s
  simp only at hl hl' hsh hp
  have hx : Event.raised (.next v) .cancelled ∉ blocks vs := by
    intro hm; obtain ⟨v, h | h⟩ := mem_blocks hm <;> simp at h
  obtain ⟨t1, rfl, rfl⟩ := split_tail hx (hl'.symm.trans hl)
  clear hl hl' h hx hp
  generalize ht : t1 ++ .raised (.next v) .cancelled :: l2 = t at hsh
  cases hsh
  case terminatedRaised n e' hn =>
    cases n <;> rcases t1 with _ | ⟨a, _ | ⟨b, _ | ⟨c, _ | ⟨d, t1⟩⟩⟩⟩ <;>
      simp_all [Notif.isTerminal]
  all_goals
    rcases t1 with _ | ⟨a, _ | ⟨b, _ | ⟨c, _ | ⟨d, t1⟩⟩⟩⟩ <;> simp_all

example : ∃ s, run init [.post (.next 1), .post (.next 2), .receive, .raise .cancelled, .post .completed] = some s ∧
    s.log = [.start (.next 1)] ++ .raised (.next 1) .cancelled :: [] := ⟨_, rfl, by decide⟩

/-- Finding: in that case the disposable given to `safe_observer` is *not* disposed by it, ever. -/
theorem C05_no_dispose_after_raise (ls : List (Label α)) (s : State α) (h : run init ls = some s)
    (v : α) (e : Err) (hl : .raised (.next v) e ∈ s.log) : .disposeStart ∉ s.log := by
  obtain ⟨vs, c, t, hp, hl', hsh⟩ := inv_run h
  obtain ⟨inbox, pc, log⟩ := s
  simp only at hl hl' hsh hp ⊢
  have hx : Event.raised (.next v) e ∉ blocks vs := by
    intro hm; obtain ⟨v, h | h⟩ := mem_blocks hm <;> simp at h
  have hy : Event.disposeStart ∉ blocks vs := by
    intro hm; obtain ⟨v, h | h⟩ := mem_blocks hm <;> simp at h
  rw [hl'] at hl ⊢
  simp only [List.mem_append, hx, hy, false_or] at hl ⊢
  clear hl' h hx hy hp
  cases hsh
  case terminatedRaised n e' hn => cases n <;> simp_all [Notif.isTerminal]
  all_goals simp_all

example : ∃ s, run init demoRaise = some s ∧ s.log =
    [.start (.next 1), .finish (.next 1), .start (.next 2)] ++
      .raised (.next 2) (.user 9) :: [.start (.error (.user 9)), .finish (.error (.user 9))] :=
  ⟨_, rfl, by decide⟩

end Aio.Safe
