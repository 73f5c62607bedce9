import Verif.Props.C152_153_Hot
import Verif.Props.C41_42_Switch
/-!
# C154: `switch_latest` over subjects
-/

namespace Aio
open Spec
variable {α γ : Type}

namespace Hot

theorem switch_grown {honour : Bool} {s s' : Switch.State Nat} {l : Merge.Label Nat α} {o : List (Notif α)}
    (h : Switch.step honour s l = some (s', o)) : s.started <+: s'.started ∧ s.disposed <+: s'.disposed := by
  by_cases hout : Switch.Outside l
  · obtain ⟨rfl, -⟩ := Switch.step_outside hout h; exact ⟨List.prefix_refl _, List.prefix_refl _⟩
  · cases l with
    | receive =>
      simp only [Switch.step] at h
      split at h
      next msg q hp hq =>
        have h2 := congrArg Prod.fst (Option.some.inj h)
        dsimp only at h2
        rw [← h2]
        cases msg with
        | inner xs =>
          simp only [Switch.update]; split
          · exact ⟨List.prefix_refl _, List.prefix_refl _⟩
          · exact ⟨List.prefix_append .., List.prefix_refl _⟩
        | innerCompleted k => simp only [Switch.update]; split <;> exact ⟨List.prefix_refl _, List.prefix_refl _⟩
        | completed => exact ⟨List.prefix_refl _, List.prefix_refl _⟩
        | dispose => simp only [Switch.update]; split <;> exact ⟨List.prefix_refl _, List.prefix_refl _⟩
      next => cases h
    | subscribed => simp only [Switch.step] at h; split at h <;> simp at h; rw [← h.1]; exact ⟨List.prefix_refl _, List.prefix_refl _⟩
    | subscribeFails => simp only [Switch.step] at h; split at h <;> simp at h; rw [← h.1]; exact ⟨List.prefix_refl _, List.prefix_refl _⟩
    | disposed =>
      simp only [Switch.step] at h; split at h <;> simp at h
      · rw [← h.1]; exact ⟨List.prefix_append .., List.prefix_append ..⟩
      · rw [← h.1]; exact ⟨List.prefix_refl _, List.prefix_append ..⟩
    | disposeFails =>
      simp only [Switch.step] at h; split at h <;> simp at h
      · rw [← h.1]; exact ⟨List.prefix_refl _, List.prefix_refl _⟩
      · rw [← h.1]; exact ⟨List.prefix_refl _, List.prefix_refl _⟩
    | _ => exact (hout trivial).elim

theorem switch_fits : Fits (switchLatest false : Producer _ (Merge.Label Nat α) α) Switch.State.started Switch.State.disposed 1 := by
  refine ⟨⟨rfl, rfl⟩, fun s n s' out h => ?_, fun s k n s' out h => ?_, fun s l s' out h => switch_grown h, fun s k n h1 h2 => ?_⟩
  · obtain ⟨rfl, -⟩ := Switch.step_outside (l := .outer n) trivial h; exact ⟨rfl, rfl⟩
  · obtain ⟨rfl, -⟩ := Switch.step_outside (l := .inner k n) trivial h; exact ⟨rfl, rfl⟩
  · have : 1 ≤ k ∧ k ≤ s.started.length := ⟨h1, by omega⟩
    cases n <;> simp [switchLatest, Switch.step, this]

/-- Without a disposal, the worker subscribes to the first, or replaces the latest. -/
theorem switch_moves {honour : Bool} {ls : List (Merge.Label Nat α)} {s s' : Switch.State Nat} {l : Merge.Label Nat α} {o : List (Notif α)}
    (hi : Switch.Inv ls s) (ht : Switch.Tidy s) (h : Switch.step honour s l = some (s', o)) :
    (s'.started = s.started ∧ s'.disposed = s.disposed) ∨ (s.started = [] ∧ (∃ i, s'.started = [i]) ∧ s'.disposed = s.disposed) ∨
    ∃ i, s'.started = s.started ++ [i] ∧ s'.disposed = s.disposed ++ [s.started.length] := by
  by_cases hout : Switch.Outside l
  · obtain ⟨rfl, -⟩ := Switch.step_outside hout h; exact .inl ⟨rfl, rfl⟩
  · cases l with
    | receive =>
      simp only [Switch.step] at h
      split at h
      next msg q hp hq =>
        have h2 := congrArg Prod.fst (Option.some.inj h)
        dsimp only at h2
        rw [← h2]
        cases msg with
        | inner xs =>
          simp only [Switch.update]; split
          · exact .inl ⟨rfl, rfl⟩
          next hc =>
            have := ht.fresh hp hc
            exact .inr (.inl ⟨this, ⟨xs, by simp [this]⟩, rfl⟩)
        | innerCompleted k => simp only [Switch.update]; split <;> exact .inl ⟨rfl, rfl⟩
        | completed => exact .inl ⟨rfl, rfl⟩
        | dispose => simp only [Switch.update]; split <;> exact .inl ⟨rfl, rfl⟩
      next => cases h
    | subscribed => simp only [Switch.step] at h; split at h <;> simp at h; rw [← h.1]; exact .inl ⟨rfl, rfl⟩
    | subscribeFails => simp only [Switch.step] at h; split at h <;> simp at h; rw [← h.1]; exact .inl ⟨rfl, rfl⟩
    | disposed =>
      simp only [Switch.step] at h
      split at h
      next old xs hp =>
        simp at h
        rw [← h.1]; exact .inr (.inr ⟨xs, rfl, by rw [(hi.old _ _ hp).1]⟩)
      next hp => exact absurd hp (ht.nodisp' _)
      next => cases h
    | disposeFails =>
      simp only [Switch.step] at h; split at h <;> simp at h
      · rw [← h.1]; exact .inl ⟨rfl, rfl⟩
      · rw [← h.1]; exact .inl ⟨rfl, rfl⟩
    | _ => exact (hout trivial).elim

theorem mark_append {t k : Nat} : ∀ {a b : List Sub} {j : Nat}, mark t k j (a ++ b) = mark t k j a ++ mark t k (j + a.length) b := by
  intro a
  induction a with
  | nil => intro b j; simp [mark]
  | cons x a ih => intro b j; simp [mark, ih, Nat.add_assoc, Nat.add_comm 1]

theorem mark_gt {t k : Nat} : ∀ {a : List Sub} {j : Nat}, j + a.length ≤ k → mark t k j a = a := by
  intro a
  induction a with
  | nil => intros; rfl
  | cons x a ih =>
    intro j h
    simp only [List.length_cons] at h
    rw [mark, ih (by omega), if_neg (by omega)]

theorem OneByOne.last {a : List Sub} {x : Sub} (h : OneByOne (a ++ [x])) : x.until_ = none := by
  have := h a.length x (by simp)
  rw [this]; simp

/-- The next subscription. -/
theorem OneByOne.next {subs : List Sub} (h : OneByOne subs) (i t : Nat) : OneByOne (mark t subs.length 1 subs ++ [⟨i, t, none⟩]) := by
  rcases List.eq_nil_or_concat subs with rfl | ⟨a, x, rfl⟩
  · intro j y hy
    simp only [mark, List.nil_append] at hy
    cases j with
    | zero => simp at hy; subst hy; rfl
    | succ j => simp at hy
  · rw [List.concat_eq_append] at h ⊢
    have hx := h.last
    rw [mark_append, mark_gt (by simp; omega)]
    simp only [mark, List.length_append, List.length_singleton, Nat.add_comm 1 a.length, hx, and_self, if_true, List.append_assoc, List.singleton_append]
    intro j y hy
    by_cases hj : j < a.length
    · rw [List.getElem?_append_left hj] at hy
      have h1 := h j y (by rw [List.getElem?_append_left hj]; exact hy)
      rw [h1]
      by_cases hj2 : j + 1 < a.length
      · rw [List.getElem?_append_left hj2, List.getElem?_append_left hj2]
      · rw [show j + 1 = a.length by omega]
        simp
    · rw [List.getElem?_append_right (by omega)] at hy
      rw [List.getElem?_append_right (by omega)]
      rcases hk : j - a.length with _ | _ | k
      · rw [hk] at hy
        simp at hy
        subst hy
        rw [show j + 1 - a.length = 1 by omega]; rfl
      · rw [hk] at hy
        simp at hy
        subst hy
        rw [show j + 1 - a.length = 2 by omega]; rfl
      · rw [hk] at hy; simp at hy

/-- Only the last one is listened to. -/
theorem OneByOne.listening {subs : List Sub} (h : OneByOne subs) (i : Nat) : Hot.listening i 1 subs = theLatest (subs.map Sub.subject) i := by
  have hnone : ∀ {a : List Sub} {j : Nat}, (∀ y ∈ a, y.until_ ≠ none) → Hot.listening i j a = [] := by
    intro a
    induction a with
    | nil => intros; rfl
    | cons y a ih =>
      intro j hy
      rw [Hot.listening, if_neg (fun h => hy y (by simp) h.2), ih fun z hz => hy z (by simp [hz])]
  rcases List.eq_nil_or_concat subs with rfl | ⟨a, x, rfl⟩
  · rfl
  · rw [List.concat_eq_append] at h ⊢
    have hx := h.last
    rw [listening_append, hnone, theLatest]
    · simp [Hot.listening, hx, Nat.add_comm]
    · intro y hy
      obtain ⟨j, hj⟩ := List.getElem?_of_mem hy
      have hlt : j < a.length := (List.getElem?_eq_some_iff.mp hj).1
      rw [h j y (by rw [List.getElem?_append_left hlt]; exact hj)]
      by_cases hj2 : j + 1 < a.length
      · rw [List.getElem?_append_left hj2, List.getElem?_eq_getElem hj2]; simp
      · rw [show j + 1 = a.length by omega]
        simp

theorem switch_turns {ls : List (Label α)} {s : State (Switch.State Nat) α} (hr : LTS.run switch.step switch.init ls = some s)
    (hc : .own .cancel ∉ ls) : OneByOne s.subs := by
  revert hc
  refine LTS.inv_reach (s0 := switch.init) (step := switch.step) (fun ls (s : State (Switch.State Nat) α) => .own .cancel ∉ ls → OneByOne s.subs)
    (fun _ j x h => by simp [switch, init] at h) ?_ hr
  intro ls s l s' hr ih h hc
  have hc0 : .own .cancel ∉ ls := fun h => hc (by simp [h])
  have ih := ih hc0
  have hi := inv_run switch_fits hr
  have hct : .cancel ∉ s.trace := fun h => hc0 ((trace_run switch_fits hr).2.2.2 h)
  have hsi := Switch.inv_run hi.run
  have hst := Switch.tidy_run hi.run hct
  have h : step (switchLatest false) Switch.State.started Switch.State.disposed 1 s l = some s' := h
  cases l with
  | outer n =>
    have h : s.act (switchLatest false) (.outer n) = some s' := h
    obtain ⟨out, h1, h2⟩ := act_some h
    rw [h2]; exact ih
  | call i n =>
    simp only [step] at h
    split at h
    · obtain rfl := (Option.some.inj h).symm; exact ih
    · have := (tell_some switch_fits h).2.2.1
      rw [this]; exact ih
  | own l =>
    have h : (s.act (switchLatest false) l).map (fun t => ((t.unsubscribe 1 (t.prod.disposed.drop s.prod.disposed.length)).subscribe 1
        (t.prod.started.drop s.prod.started.length))) = some s' := by
      cases l <;> first | (simp [step] at h; done) | exact h
    obtain ⟨t, h1, h2⟩ := Option.map_eq_some_iff.mp h
    obtain ⟨out, h3, h4⟩ := act_some h1
    have h5 : t.subs = s.subs := by rw [h4]
    have hlen : s.prod.started.length = s.subs.length := by rw [← hi.subs]; simp
    subst h2
    rcases switch_moves hsi hst h3 with ⟨e1, e2⟩ | ⟨e0, ⟨i, e1⟩, e2⟩ | ⟨i, e1, e2⟩
    · rw [e1, e2, List.drop_length, List.drop_length]
      show OneByOne t.subs
      rw [h5]; exact ih
    · rw [e1, e2, e0, List.drop_length]
      show OneByOne (t.subs ++ [_])
      rw [h5]
      have h6 : s.subs = [] := List.eq_nil_of_length_eq_zero (by rw [← hlen, e0]; rfl)
      have := ih.next i t.calls.length
      rw [h6] at this ⊢
      exact this
    · rw [e1, e2, List.drop_left, List.drop_left]
      show OneByOne ((t.subs.mapIdx _) ++ [_])
      rw [mark_eq, hlen, h5]
      exact ih.next i t.calls.length

/-- What is posted. -/
theorem switch_posts {ls : List (Label α)} {s : State (Switch.State Nat) α} (hr : LTS.run switch.step switch.init ls = some s)
    (hg : Grammar (outers ls)) (hu : Undisturbed ls) :
    (story s.posts).events <+: (switched (story (outers ls)).vals.length (story (outers ls)).fin (inners s.trace)).events ∧
    (Switch.Settled s.prod → story s.posts = switched (story (outers ls)).vals.length (story (outers ls)).fin (inners s.trace)) := by
  have hi := inv_run switch_fits hr
  have hw := lawful_run switch_fits hr hg
  obtain ⟨h1, h2, h3, -⟩ := trace_run switch_fits hr
  obtain ⟨hc, he, -⟩ := not_stopped switch_fits hr hu
  have hq := Switch.quiet_run hi.run hw hc
  have hoff := Switch.offered_eq_sent hw
  have hsent : Merge.sent s.trace = (story (outers ls)).vals := by rw [Merge.sent, h2]
  have harr := arrivals_eq he
  rw [switched]
  by_cases hd : (story (outers ls)).fin = .done ∧ (story (outers ls)).vals.length = 0
  · rw [if_pos hd]
    have h0 : Switch.offered s.trace = [] := by rw [hoff, hsent]; exact List.eq_nil_of_length_eq_zero hd.2
    have hstart : s.prod.started = [] := List.prefix_nil.mp (h0 ▸ (Switch.order_run hi.run).pre)
    have hin : inners s.trace = [] := by
      have hs : s.subs = [] := List.map_eq_nil_iff.mp (hi.subs.trans hstart)
      rw [hi.told, hs]
      exact List.eq_nil_iff_forall_not_mem.mpr fun c hc => told_ended (P := fun _ => False) (fun i q k n _ _ h => by simp [hearers] at h) c hc
    rw [hin] at harr
    have harr : Merge.arrivals s.trace = [] := harr
    have hsh := hq.shape
    rw [harr, List.nil_append] at hsh
    refine ⟨?_, fun hset => ?_⟩
    · rcases hsh with h | h <;> rw [h]
      · exact List.nil_prefix
      · exact List.prefix_refl _
    · have hb := Switch.bare_run hi.run h0
      have hcm : .outer .completed ∈ s.trace := by
        rw [Switch.mem_outerCalls, h2]; exact (done_iff hg).mp hd.1
      have hcp : .completed ∈ s.posts := by
        rcases hb.ans hcm with h | h
        · rcases hset with h4 | ⟨-, h4⟩
          · rw [hb.pc] at h4; cases h4
          · rw [h4] at h; cases h
        · exact h
      rcases hsh with h | h
      · rw [h] at hcp; cases hcp
      · rw [h]; rfl
  · rw [if_neg hd, ← harr]
    have hsh : s.posts = Merge.arrivals s.trace := by
      rcases hq.shape with h | h
      · exact h
      · exfalso
        obtain ⟨e1, e2, -⟩ := hq.posted (by rw [h]; simp)
        refine hd ⟨(done_iff hg).mpr ?_, ?_⟩
        · rw [← h2]; exact Switch.mem_outerCalls.mp e1
        · rw [← hsent, ← hoff, e2]; rfl
    rw [hsh]
    exact ⟨List.prefix_refl _, fun _ => rfl⟩

theorem switch_started {ls : List (Label α)} {s : State (Switch.State Nat) α} (hr : LTS.run switch.step switch.init ls = some s)
    (hg : Grammar (outers ls)) : s.subs.map Sub.subject <+: (story (outers ls)).vals ∧
    (Switch.Settled s.prod → s.subs.map Sub.subject = (story (outers ls)).vals) := by
  have hi := inv_run switch_fits hr
  have hw := lawful_run switch_fits hr hg
  obtain ⟨h1, h2, h3, -⟩ := trace_run switch_fits hr
  have ho := Switch.order_run hi.run
  rw [hi.subs, ← h2]
  rw [show (story (Merge.outerCalls s.trace)).vals = Switch.offered s.trace from (Switch.offered_eq_sent hw).symm]
  refine ⟨ho.pre, fun hq => ?_⟩
  rcases hq with h | ⟨h4, h5⟩
  · exact absurd h (Switch.not_halted_run hi.run h3)
  · have := ho.eq (by simp [h4])
    simpa [h4, h5, Switch.pend, Switch.inners] using this

end Hot

open Hot

/-- C154: in each state each method of each subject can be called. -/
theorem C154_any_call {ls : List (Hot.Label α)} {s : Hot.State (Switch.State Nat) α}
    (hr : LTS.run Hot.switch.step Hot.switch.init ls = some s) (i : Nat) (n : Notif α) : (Hot.switch.step s (.call i n)).isSome :=
  call_isSome switch_fits (inv_run switch_fits hr) i n

/-- C154, any schedule: what comes is exactly what is sent to each subject from the moment on at which the worker has subscribed to it until it
has subscribed to the next. The subjects are subscribed in the order in which the source sends them, all of them once the worker is at rest. -/
theorem C154_exact_partial {ls : List (Hot.Label α)} {s : Hot.State (Switch.State Nat) α}
    (hr : LTS.run Hot.switch.step Hot.switch.init ls = some s) (hg : Grammar (outers ls)) (hu : Undisturbed ls) :
    (story s.posts).events <+: (switched (story (outers ls)).vals.length (story (outers ls)).fin (told (fun i p => hearers i p 1 s.subs) [] (made ls))).events ∧
    (Switch.Settled s.prod → story s.posts = switched (story (outers ls)).vals.length (story (outers ls)).fin (told (fun i p => hearers i p 1 s.subs) [] (made ls))) ∧
    Hot.OneByOne s.subs ∧ (∀ x ∈ s.subs, x.since ≤ (made ls).length) ∧ s.subs.map Sub.subject <+: (story (outers ls)).vals ∧
    (Switch.Settled s.prod → s.subs.map Sub.subject = (story (outers ls)).vals) := by
  have hi := inv_run switch_fits hr
  have h1 := (trace_run switch_fits hr).1
  have h := switch_posts hr hg hu
  rw [hi.told, h1] at h
  exact ⟨h.1, h.2, switch_turns hr hu.1, fun x hx => h1 ▸ (hi.times x hx).1, switch_started hr hg⟩

/-- C154: whenever a method of a subject is called, the worker is at rest. Then what comes is what is sent to the subject that the source has sent last. -/
theorem C154_paced_partial {ls : List (Hot.Label α)} {s : Hot.State (Switch.State Nat) α}
    (hr : LTS.run Hot.switch.step Hot.switch.init ls = some s) (hg : Grammar (outers ls)) (hu : Undisturbed ls)
    (hp : Paced Hot.switch.step Hot.switch.init Switch.Settled ls) :
    (story s.posts).events <+: (switched (story (outers ls)).vals.length (story (outers ls)).fin (follow theLatest [] [] (timeline ls))).events ∧
    (Switch.Settled s.prod → story s.posts = switched (story (outers ls)).vals.length (story (outers ls)).fin (follow theLatest [] [] (timeline ls))) := by
  have hfo := follow_run switch_fits (rest := Switch.Settled) (who := theLatest) (fun ls s hr hg hu hq i _ => by
    rw [(inv_run switch_fits hr).obs i, (switch_turns hr hu.1).listening, (switch_started hr hg).2 hq]) hr hg hu hp
  rw [← hfo]
  exact switch_posts hr hg hu

/-- C154 for the final observer behind any operators. -/
theorem C154_observed_partial {op : Operator α γ} {G : Story α → Story γ} (hG : op.Computes G) :
    ((Hot.switch : Source _ (Hot.Label α) α).pipe op.protected).Sends
      (fun ls _ => Grammar (outers (Piped.sources ls)) ∧ Undisturbed (Piped.sources ls) ∧
        Paced Hot.switch.step Hot.switch.init Switch.Settled (Piped.sources ls))
      (fun _ s => Switch.Settled s.src.prod ∧ op.protected.slowProc.Quiescent s.ps)
      (fun ls => G (switched (story (outers (Piped.sources ls))).vals.length (story (outers (Piped.sources ls))).fin
        (follow theLatest [] [] (timeline (Piped.sources ls))))) :=
  C101_pipe switch_grows hG.guarded (fun _ _ => trivial)
    (ok := fun ls _ => Grammar (outers ls) ∧ Undisturbed ls ∧ Paced Hot.switch.step Hot.switch.init Switch.Settled ls)
    (quiet := fun _ s => Switch.Settled s.prod)
    ⟨fun _ _ hr hok => (C154_paced_partial hr hok.1 hok.2.1 hok.2.2).1, fun _ _ hr hok hq => (C154_paced_partial hr hok.1 hok.2.1 hok.2.2).2 hq⟩
    (fun _ _ _ _ => trivial)

/-! ## Too early

In full: after `await source.asend(new)`, what is sent to `new` comes, and what is sent to the old subject does not. That is false: `asend` only
puts the new subject into the mailbox (transform.py:319-323). -/

/-- The worker listens to subject 0; the source sends subject 1; then 7 is sent to subject 0 and 8 to subject 1, and only after that the worker goes on. -/
def Hot.tooEarly : List (Hot.Label Nat) :=
  [.outer (.next 0)] ++ takes ++ [.outer (.next 1), .call 0 (.next 7), .call 1 (.next 8), .own .receive, .own .disposed, .own .subscribed]

theorem C154_violated : ∃ s, LTS.run Hot.switch.step Hot.switch.init tooEarly = some s ∧
    Grammar (outers tooEarly) ∧ Undisturbed tooEarly ∧ Switch.Settled s.prod ∧
    s.posts = [.next 7] ∧ follow theLatest [] [] (timeline tooEarly) = [(2, .next 8)] := by
  refine ⟨_, rfl, ⟨⟨[0, 1], .running⟩, rfl⟩, by simp [Undisturbed, tooEarly, takes], .inr ⟨rfl, rfl⟩, rfl, by decide⟩

/-- Has the worker nothing to do? -/
def Hot.restful (s : Switch.State Nat) : Bool := match s.pc, s.inbox with | .halted, _ | .waiting, [] => true | _, _ => false

theorem Hot.settled_of_restful {s : Switch.State Nat} (h : restful s = true) : Switch.Settled s := by
  unfold restful at h
  split at h
  · rename_i h1; exact .inl h1
  · rename_i h1 h2; exact .inr ⟨h1, h2⟩
  · cases h

/-- The same program, waiting after it has sent the new subject; then the source sends subject 0 once more. -/
def Hot.inTime : List (Hot.Label Nat) :=
  [.outer (.next 0)] ++ takes ++ [.call 0 (.next 5), .outer (.next 1), .own .receive, .own .disposed, .own .subscribed, .call 0 (.next 7), .call 1 (.next 8),
    .outer (.next 0), .own .receive, .own .disposed, .own .subscribed, .call 0 (.next 9), .call 1 (.next 10)]

example : ∃ s, LTS.run Hot.switch.step Hot.switch.init inTime = some s ∧ s.posts = [.next 5, .next 8, .next 9] ∧
    s.subs = [⟨0, 0, some 1⟩, ⟨1, 1, some 3⟩, ⟨0, 3, none⟩] ∧ Grammar (outers inTime) ∧ Undisturbed inTime ∧ Switch.Settled s.prod ∧
    Paced Hot.switch.step Hot.switch.init Switch.Settled inTime :=
  ⟨_, rfl, rfl, rfl, ⟨⟨[0, 1, 0], .running⟩, rfl⟩, by simp [Undisturbed, inTime, takes], .inr ⟨rfl, rfl⟩,
    (paced_of (rest := restful) rfl).mono fun _ => settled_of_restful⟩

end Aio
