import Verif.Props.C62_67_Hub
import Verif.Props.C83_BackPressure
/-!
# C161: silence after disposal
-/

namespace Aio.Hub
open Spec (Story Grammar story)
variable {α γ : Type} {c : Chain α γ} {guard : Bool}

/-! ### Without a mailbox -/

/-- Subscription `o` is gone, and no call has yet to tell it something. -/
structure Silent (o : Nat) (s : State c) : Prop where
  off : o ∉ s.sub.observers
  known : s.num o ≠ none
  running : ∀ n p rest, .running n p rest ∈ s.sub.calls → o ∉ rest

theorem silent_loop {o : Nat} {t : Subject.State α} {k : Nat} {n : Notif α} {rest : List Nat} (h : ∀ n p rest, .running n p rest ∈ t.calls → o ∉ rest)
    (ho : o ∉ rest) : (∀ n' p rest', .running n' p rest' ∈ (t.loop k n rest).calls → o ∉ rest') ∧ logOf o (t.loop k n rest) = logOf o t := by
  constructor
  · intro n' p rest' hm
    rw [Subject.loop_calls] at hm
    rcases List.mem_or_eq_of_mem_set hm with hm | hm
    · exact h _ _ _ hm
    · cases rest with
      | nil => cases hm
      | cons q qs => cases hm; exact fun hq => ho (List.mem_cons_of_mem _ hq)
  · cases rest with
    | nil => rfl
    | cons q qs =>
      have : q ≠ o := fun h => ho (by simp [h])
      simp [logOf, Subject.loop_log, this]

theorem silent_step {o : Nat} {s s' : State c} {l : Label c} (I : Silent o s) (h : step guard s l = some s') : Silent o s' ∧ logOf o s'.sub = logOf o s.sub := by
  rcases step_sub h with ⟨n, rfl, e, en⟩ | ⟨k, n, p, rest, rfl, hc, e, en⟩ | ⟨k, x, rfl, e, en⟩ | ⟨p, rfl, hn, hd, e, en⟩ |
    ⟨p, rfl, hn, hd, e, en⟩ | ⟨p, k, o', rfl, hk, hs, e, en⟩ | ⟨p, k, o', g, rfl, hk, hs, e, en⟩ | ⟨rfl, e, en⟩ | ⟨p, l', rfl, e, en⟩
  · have hnew : ∀ (y : Subject.Call α), (∀ a b d, y ≠ .running a b d) → ∀ n p rest, .running n p rest ∈ s.sub.calls ++ [y] → o ∉ rest := by
      intro y hy n p rest hm
      rcases List.mem_append.mp hm with hm | hm
      · exact I.running _ _ _ hm
      · exact absurd (List.mem_singleton.mp hm).symm (hy _ _ _)
    rcases Subject.begin_cases s.sub n with ⟨-, hb⟩ | ⟨-, -, hb⟩ | ⟨-, -, hb⟩ <;> rw [hb] at e
    · exact ⟨⟨by rw [e]; exact I.off, by rw [en]; exact I.known, by rw [e]; exact hnew _ nofun⟩, by rw [e]; rfl⟩
    · exact ⟨⟨by rw [e]; exact I.off, by rw [en]; exact I.known, by rw [e]; exact hnew _ nofun⟩, by rw [e]; rfl⟩
    · have := silent_loop (o := o) (t := { s.sub with isStopped := n.isTerminal, calls := s.sub.calls ++ [.returned] }) (k := s.sub.calls.length) (n := n)
        (hnew .returned nofun) I.off
      exact ⟨⟨by rw [e]; simpa using I.off, by rw [en]; exact I.known, by rw [e]; exact this.1⟩, by rw [e, this.2]; rfl⟩
  · have := silent_loop (o := o) (t := s.sub) (k := k) (n := n) I.running (I.running _ _ _ (List.mem_of_getElem? hc))
    exact ⟨⟨by rw [e]; simpa using I.off, by rw [en]; exact I.known, by rw [e]; exact this.1⟩, by rw [e, this.2]⟩
  · refine ⟨⟨by rw [e]; exact I.off, by rw [en]; exact I.known, ?_⟩, by rw [e]; rfl⟩
    rw [e]
    intro n' p' rest' hm
    rcases List.mem_or_eq_of_mem_set hm with hm | hm
    · exact I.running _ _ _ hm
    · cases hm
  · refine ⟨⟨by rw [e]; exact I.off, ?_, by rw [e]; exact I.running⟩, by rw [e]; rfl⟩
    rw [en]; dsimp only
    split
    · simp
    · exact I.known
  · refine ⟨⟨?_, ?_, by rw [e]; exact I.running⟩, by rw [e]; rfl⟩
    · rw [e]; dsimp only
      intro hm
      rcases List.mem_append.mp hm with hm | hm
      · exact I.off hm
      · rw [List.mem_singleton.mp hm] at I
        exact I.known hn
    · rw [en]; dsimp only
      split
      · simp
      · exact I.known
  · exact ⟨⟨by rw [e]; exact I.off, by rw [en]; exact I.known, by rw [e]; exact I.running⟩, by rw [e]⟩
  · exact ⟨⟨by rw [e]; exact fun hm => I.off (List.mem_of_mem_erase hm), by rw [en]; exact I.known, by rw [e]; exact I.running⟩, by rw [e]; rfl⟩
  · exact ⟨⟨by rw [e]; exact I.off, by rw [en]; exact I.known, by rw [e]; exact I.running⟩, by rw [e]; rfl⟩
  · exact ⟨⟨by rw [e]; exact I.off, by rw [en]; exact I.known, by rw [e]; exact I.running⟩, by rw [e]⟩

theorem silent_run {o : Nat} : ∀ {ls : List (Label c)} {s s' : State c}, Silent o s → LTS.run (step guard) s ls = some s' → Silent o s' ∧ logOf o s'.sub = logOf o s.sub := by
  intro ls
  induction ls with
  | nil => intro s s' I h; obtain rfl := Option.some.inj h; exact ⟨I, rfl⟩
  | cons l ls ih =>
    intro s s' I h
    obtain ⟨s1, h1, h2⟩ := LTS.run_cons.mp h
    have a := silent_step I h1
    have b := ih a.1 h2
    exact ⟨b.1, b.2.trans a.2⟩

theorem only_feeds {St Lab ι ο : Type} {p : Proc St Lab ι ο} (hq : ∀ s, p.Quiescent s) : ∀ {es : List (Proc.Ev ι Lab)} {s : St} {r}, p.exec s es = some r →
    r = p.feedAll s (Proc.inputs es) := by
  intro es
  induction es with
  | nil => intro s r h; exact (Option.some.inj h).symm
  | cons e es ih =>
    intro s r h
    cases e with
    | feed i =>
      simp only [Proc.exec] at h
      split at h
      · cases h
      · rename_i s'' o' h1
        have := ih h1
        simp only [Option.some.injEq] at h
        rw [← h, Proc.inputs, Proc.feedAll, ← this]
    | step l => simp only [Proc.exec, hq s l] at h; cases h

end Aio.Hub

namespace Aio
open Spec Hub
variable {α γ : Type} {guard : Bool}

/-- C161, the part that holds: for a chain without a mailbox (`map`, `filter`, `choose`, `scan`, ...) over an AsyncSubject, if no call of the subject is
under way that has yet to tell this subscription, the observer is not called any more once `dispose_async` has been called: whatever is sent, whatever
other subscriptions do, under all schedules. What is missing: chains with a mailbox, and calls under way. -/
theorem C161_direct_partial {c : Chain α γ} (hd : c.Direct) {a b : List (Hub.Label c)} {o : Nat} {s1 s : Hub.State c}
    (h1 : LTS.run (Hub.step guard) (Hub.init c) (a ++ [.unsubscribe o]) = some s1)
    (hidle : ∀ n p rest, .running n p rest ∈ s1.sub.calls → o ∉ rest)
    (h2 : LTS.run (Hub.step guard) s1 b = some s) : s.outs o = s1.outs o := by
  obtain ⟨s0, h3, h4⟩ := LTS.run_append.mp h1
  obtain ⟨t, h5, h6⟩ := LTS.run_cons.mp h4
  obtain rfl := Option.some.inj h6
  have hu := unsubscribed (base_run h3) h5
  have hl := (silent_run ⟨hu.1, hu.2, hidle⟩ h2).2
  obtain ⟨es1, e1, i1⟩ := own_run h1 o
  obtain ⟨es2, e2, i2⟩ := own_run (LTS.run_append.mpr ⟨_, h1, h2⟩) o
  have hq : ∀ x, c.proc.Quiescent x := Code.final_quiescent hd.code
  have r1 := only_feeds hq e1
  have r2 := only_feeds hq e2
  rw [i1] at r1
  rw [i2, hl] at r2
  exact congrArg Prod.snd (r2.trans r1.symm)

namespace Hub
variable {c : Chain α γ}

/-- `asend` of the values one after the other; each call returns before the next is made. -/
def sends : Nat → List α → List (Label c)
  | _, [] => []
  | k, v :: vs => .call (.next v) :: .ret k :: sends (k + 1) vs

theorem sends_run {o : Nat} : ∀ (vs : List α) {s : State c}, s.sub.observers = [o] → s.sub.isDisposed = false → s.sub.isStopped = false →
    ∃ s', LTS.run (step guard) s (sends s.sub.calls.length vs) = some s' ∧ s'.sub.observers = [o] ∧ s'.num = s.num ∧ s'.sub.subs = s.sub.subs ∧
      (∀ n p rest, .running n p rest ∈ s'.sub.calls → .running n p rest ∈ s.sub.calls) ∧
      s'.ps o = (c.proc.feedAll (s.ps o) (vs.map .next)).1 ∧ s'.outs o = s.outs o ++ (c.proc.feedAll (s.ps o) (vs.map .next)).2 := by
  intro vs
  induction vs with
  | nil => intro s ho _ _; exact ⟨s, rfl, ho, rfl, rfl, fun _ _ _ h => h, rfl, by simp [Proc.feedAll]⟩
  | cons v vs ih =>
    intro s ho hd hs
    obtain ⟨⟨obs, dis, stp, calls, subs, log⟩, num, ps, outs⟩ := s
    dsimp only at ho hd hs ih ⊢
    subst ho hd hs
    let t : State c := State.feed ⟨⟨[o], false, false, calls ++ [.returned], subs, log ++ [(calls.length, o, .next v)]⟩, num, ps, outs⟩ o (.next v)
    have h1 : LTS.run (step guard) (⟨⟨[o], false, false, calls, subs, log⟩, num, ps, outs⟩ : State c) [.call (.next v), .ret calls.length] = some t := by
      simp [LTS.run, step, State.subject, Subject.step, Subject.State.begin, Subject.State.loop, t, State.feed]
    obtain ⟨s', h2, h3, h4, h5, h6, h7, h8⟩ := ih (s := t) rfl rfl rfl
    refine ⟨s', ?_, h3, h4, h5, fun n p rest h => ?_, ?_, ?_⟩
    · rw [sends]
      have h2' : LTS.run (step guard) t (sends (calls.length + 1) vs) = some s' := by
        have : t.sub.calls.length = calls.length + 1 := by simp [t, State.feed]
        rw [← this]; exact h2
      exact LTS.run_append (a := [.call (.next v), .ret calls.length]).mpr ⟨t, h1, h2'⟩
    · rcases List.mem_append.mp (h6 n p rest h) with h | h
      · exact h
      · cases List.mem_singleton.mp h
    · rw [h7]; simp [t, State.feed, Proc.feedAll]
    · rw [h8]; simp [t, State.feed, Proc.feedAll]

/-- The workers of chain `o` run. -/
theorem workers_run {o : Nat} : ∀ {ws : List c.compile.Lab} {s : State c} {p out}, c.proc.exec (s.ps o) (ws.map .step) = some (p, out) →
    ∃ s', LTS.run (step guard) s (ws.map (.inner o)) = some s' ∧ s'.outs o = s.outs o ++ out ∧ s'.sub = s.sub := by
  intro ws
  induction ws with
  | nil => intro s p out h; obtain ⟨-, rfl⟩ := Prod.mk.inj (Option.some.inj h); exact ⟨s, rfl, by simp, rfl⟩
  | cons w ws ih =>
    intro s p out h
    simp only [List.map_cons, Proc.exec] at h
    split at h
    · cases h
    · rename_i p1 o1 h1
      split at h
      · cases h
      · rename_i p2 o2 h2
        simp only [Option.some.injEq, Prod.mk.injEq] at h
        obtain ⟨rfl, rfl⟩ := h
        obtain ⟨s', h3, h4, h5⟩ := ih (s := { s with
          ps := fun i => if i = o then p1 else s.ps i
          outs := fun i => if i = o then s.outs o ++ o1 else s.outs i }) (by simpa using h2)
        refine ⟨s', LTS.run_cons.mpr ⟨_, by simp only [step, h1], h3⟩, ?_, h5⟩
        rw [h4]; simp

end Hub

/-- C161 is false of every chain with a mailbox in it (`skip`, `take`, `take_last`, `distinct_until_changed`, `zip_seq`, ...), whatever is sent: it may be
that all calls of `asend` have returned and the subscription has been disposed before the observer has been called at all, and that everything that
follows from these values comes after that. -/
theorem C161_violated {op : Operator α γ} {G : Story α → Story γ} (hG : op.Computes G) (hm : ¬ op.direct.Direct) (vs : List α) :
    ∃ (ws : List op.direct.compile.Lab) (s1 s : Hub.State op.direct),
      LTS.run (Hub.step guard) (Hub.init op.direct) (.subscribe 0 :: Hub.sends 0 vs ++ [.unsubscribe 0]) = some s1 ∧
      (∀ n p rest, .running n p rest ∉ s1.sub.calls) ∧ s1.outs 0 = [] ∧
      LTS.run (Hub.step guard) s1 (ws.map (.inner 0)) = some s ∧ s.outs 0 = (G ⟨vs, .running⟩).events := by
  have h0 : Hub.step guard (Hub.init op.direct) (.subscribe 0) = some ⟨⟨[0], false, false, [], [some (0, false)], []⟩,
      fun i => if i = 0 then some 0 else none, fun _ => op.direct.proc.init, fun _ => []⟩ := rfl
  obtain ⟨t, h1, h2, h3, h4, h5, h6, h7⟩ := Hub.sends_run (guard := guard) (o := 0) vs
    (s := (⟨⟨[0], false, false, [], [some (0, false)], []⟩, fun i => if i = 0 then some 0 else none, fun _ => op.direct.proc.init, fun _ => []⟩ : Hub.State op.direct))
    rfl rfl rfl
  obtain ⟨x, hx⟩ := C83_violated hm (vs.map .next)
  rw [Proc.exec_map_feed] at hx
  have hx := Option.some.inj hx
  dsimp only at h5 h6 h7
  rw [hx] at h6 h7
  obtain ⟨ws, p, out, h8, h9⟩ := Proc.can_finish hG.direct.ends x
  have hu : ∃ s1, Hub.step guard t (.unsubscribe 0) = some s1 ∧ s1.ps = t.ps ∧ s1.outs = t.outs ∧ s1.sub.calls = t.sub.calls := by
    refine ⟨{ t with sub := { t.sub with observers := t.sub.observers.erase 0, subs := t.sub.subs.set 0 (some (0, true)) } }, ?_, rfl, rfl, rfl⟩
    simp [Hub.step, h3, h4, Hub.State.subject, Subject.step]
  obtain ⟨s1, u1, u2, u3, u4⟩ := hu
  obtain ⟨s, h10, h11, -⟩ := Hub.workers_run (guard := guard) (o := 0) (s := s1) (ws := ws) (p := p) (out := out) (by rw [u2, h6]; exact h8)
  refine ⟨ws, s1, s, ?_, ?_, ?_, h10, ?_⟩
  · exact LTS.run_cons.mpr ⟨_, h0, LTS.run_append.mpr ⟨t, h1, LTS.run_cons.mpr ⟨s1, u1, rfl⟩⟩⟩
  · intro n p rest h
    rw [u4] at h
    exact absurd (h5 n p rest h) (by simp)
  · rw [u3, h7]; rfl
  · have he := Proc.exec_append op.direct.proc (Proc.exec_map_feed op.direct.proc op.direct.proc.init (vs.map Notif.next)) (by rw [hx]; exact h8)
    have hin : Proc.inputs ((vs.map Notif.next).map (Proc.Ev.feed (Lab := op.direct.compile.Lab)) ++ ws.map .step) = vs.map .next := by
      rw [Proc.inputs_append, Proc.inputs_map_feed, Proc.inputs_map_step, List.append_nil]
    have hst : story (vs.map (Notif.next (α := α))) = ⟨vs, .running⟩ := by
      have : Story.events ⟨vs, .running⟩ = vs.map (Notif.next (α := α)) := by simp [Story.events, End.events]
      rw [← this, story_events]
    have := hG.direct.all _ _ _ he (by rw [hin]; exact ⟨⟨vs, .running⟩, by simp [Story.events, End.events]⟩) h9
    rw [hin, hst] at this
    rw [h11, u3, h7, ← this, hx]; rfl

/-- Nor does it hold without a mailbox while a call of the subject is under way: the subject goes through a copy of its list of observers. The second of two
subscriptions is disposed while the first handles the value, and is told nevertheless. -/
theorem C161_violated_underway {op : Operator α γ} {G : Story α → Story γ} (hG : op.Computes G) (hd : op.direct.Direct) (n : Notif α) :
    ∃ s1 s : Hub.State op.direct,
      LTS.run (Hub.step guard) (Hub.init op.direct) [.subscribe 0, .subscribe 1, .call n, .unsubscribe 1] = some s1 ∧ s1.outs 1 = [] ∧
      LTS.run (Hub.step guard) s1 [.ret 0] = some s ∧ s.outs 1 = (G (story [n])).events := by
  have he := Proc.exec_map_feed op.direct.proc op.direct.proc.init [n]
  have hall := hG.direct.all _ _ _ he (by cases n with
    | next v => exact ⟨⟨[v], .running⟩, rfl⟩
    | error e => exact ⟨⟨[], .failed e⟩, rfl⟩
    | completed => exact ⟨⟨[], .done⟩, rfl⟩) (Code.final_quiescent hd.code _)
  have hin : Proc.inputs ([n].map (Proc.Ev.feed (Lab := op.direct.compile.Lab))) = [n] := rfl
  rw [hin] at hall
  let s1 : Hub.State op.direct := Hub.State.feed ⟨⟨[0], false, n.isTerminal, [.running n 0 [1]], [some (0, false), some (1, true)], [(0, 0, n)]⟩,
    fun i => if i = 1 then some 1 else if i = 0 then some 0 else none, fun _ => op.direct.proc.init, fun _ => []⟩ 0 n
  let s : Hub.State op.direct := Hub.State.feed { s1 with sub := { s1.sub with calls := [.running n 1 []], log := [(0, 0, n), (0, 1, n)] } } 1 n
  refine ⟨s1, s, by cases n <;> cases guard <;> rfl, rfl, by cases n <;> cases guard <;> rfl, ?_⟩
  rw [← hall]
  simp [s, s1, Hub.State.feed, Proc.feedAll]

/-! ### Examples -/

/-- Nothing of this has happened to the observer when the subscription is disposed; then everything comes. -/
example : (LTS.run (Hub.step true) (Hub.init demoPipe) ([.subscribe 0] ++ Hub.sends 0 [1, 2, 3] ++ [.unsubscribe 0])).map (·.outs 0) = some [] := by decide
example : (LTS.run (Hub.step true) (Hub.init demoPipe) ([.subscribe 0] ++ Hub.sends 0 [1, 2, 3] ++ [.unsubscribe 0, .inner 0 w1, .inner 0 w1,
    .inner 0 w2, .inner 0 w2, .inner 0 w3, .inner 0 w3, .inner 0 w4, .inner 0 w4, .inner 0 w4])).map (·.outs 0) = some [.next 12, .next 13, .completed] := by decide
/-- A chain without a mailbox. -/
example : (LTS.run (Hub.step true) (Hub.init ((map fun x => .ok (x + 1)).direct : Chain Nat Nat)) ([.subscribe 0] ++ Hub.sends 0 [1, 2] ++
    [.unsubscribe 0, .call (.next 3)])).map (·.outs 0) = some [.next 2, .next 3] := by decide

end Aio
