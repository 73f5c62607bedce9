import Verif.Lemmas.Cold
import Verif.Props.C154_HotSwitch
/-!
# C158–C160: `merge`, `concat` and `switch_latest` over `AsyncSingleSubject`s
-/

namespace Aio
open Spec
variable {α γ : Type}

namespace Cold
open Hot (inners heardBy)

theorem toldTo_eq (k : Nat) (heard : List (Nat × Notif α)) : toldTo k heard = heardBy k heard := rfl

/-- What the subscription number `k` has heard. -/
theorem heard_of {mx : Int} {ls : List (Label α)} {s : State (Merge.State Nat) α} (hi : Inv mx s) (hrec : Records ls s) {k i : Nat} (hk : s.subs[k]? = some i) :
    heardBy k (inners s.trace) <+: (story (callsOn i ls)).events ∧ (NoneWoken s i → heardBy k (inners s.trace) = (story (callsOn i ls)).events) := by
  obtain ⟨done, rest, h1, h2, h3⟩ := hi.taken k i hk
  rw [h3, ← hrec.calls i, h1]
  refine ⟨cut_mono (List.prefix_append ..), fun hw => ?_⟩
  have := hw (by rw [h2])
  rw [h2] at this
  dsimp only at this
  rw [this, List.append_nil]; rfl

end Cold

open Cold

/-- C158, any `max_concurrent`, any schedule: whatever is sent to a subject that the worker has subscribed to is posted, once and in that order, no
matter whether it was sent before or after the subscription; as soon as those who waited have gone on, that is everything. The event loop does not hang
and nobody gets an exception. -/
theorem C158_exact {mx : Int} (hm : 0 ≤ mx) {ls : List (Cold.Label α)} {s : Cold.State (Merge.State Nat) α}
    (hr : LTS.run (Cold.merge mx).step (Cold.merge mx).init ls = some s) (hg : Grammar (outers ls)) (hd : (story (outers ls)).vals.Nodup)
    (hu : Undisturbed ls) (ht : InTurn (Cold.merge mx).step (Cold.merge mx).init ls) :
    s.stuck = false ∧ s.refused = [] ∧ s.subs <+: (story (outers ls)).vals ∧
    ∃ heard : List (Nat × Notif α),
      (story s.posts).events <+: (Hot.result (story (outers ls)).vals.length (story (outers ls)).fin heard).events ∧
      (Merge.Settled s.prod → story s.posts = Hot.result (story (outers ls)).vals.length (story (outers ls)).fin heard) ∧
      (∀ c ∈ heard, c.1 < s.subs.length) ∧
      ∀ (k i : Nat), s.subs[k]? = some i → toldTo k heard <+: (story (callsOn i ls)).events ∧
        (NoneWoken s i → toldTo k heard = (story (callsOn i ls)).events) := by
  have hi := inv_run hr hg hd hu ht
  have hrec := records_run hr
  have hw : Merge.Lawful s.trace := lawful_of hi rfl (by rw [hrec.outer]; exact hg)
  have hM := Merge.merged_of hm hi.run hw
  have he : ∀ e, .outer (.error e) ∉ s.trace := fun e h => hi.nofail.2 (.inr ⟨e, h⟩)
  rw [Hot.merged_eq hw he, hrec.outer] at hM
  refine ⟨hi.calm.1, hi.calm.2.2, ?_, Hot.inners s.trace, hM.1, fun hq => hM.2 hi.nofail.1 hi.nofail.2 hq, hi.keys, fun k i hk => heard_of hi hrec hk⟩
  have := Merge.started_prefix hi.run hw
  rw [Merge.sent, hrec.outer] at this
  rw [hi.subs]; exact this

/-- C158, `merge` and `flat_map`: when everything is at rest, the stream is made of exactly what has been sent to the subjects, each in its own order:
nothing is lost, whenever it was sent. -/
theorem C158_merge {ls : List (Cold.Label α)} {s : Cold.State (Merge.State Nat) α}
    (hr : LTS.run (Cold.merge 0).step (Cold.merge 0).init ls = some s) (hg : Grammar (outers ls)) (hd : (story (outers ls)).vals.Nodup)
    (hu : Undisturbed ls) (ht : InTurn (Cold.merge 0).step (Cold.merge 0).init ls) (hq : Rest s) :
    ∃ heard : List (Nat × Notif α), story s.posts = Hot.result (story (outers ls)).vals.length (story (outers ls)).fin heard ∧
      (∀ c ∈ heard, c.1 < (story (outers ls)).vals.length) ∧
      ∀ (k i : Nat), (story (outers ls)).vals[k]? = some i → toldTo k heard = (story (callsOn i ls)).events := by
  obtain ⟨-, -, -, heard, -, h2, h3, h4⟩ := C158_exact (Int.le_refl 0) hr hg hd hu ht
  have hi := inv_run hr hg hd hu ht
  have hrec := records_run hr
  have hw : Merge.Lawful s.trace := lawful_of hi rfl (by rw [hrec.outer]; exact hg)
  have hst : s.subs = (story (outers ls)).vals := by
    rcases Merge.settled_started (Int.le_refl 0) hi.run hw hi.nofail.1 hi.nofail.2 hq.1 with h | h
    · rw [hi.subs, h, Merge.sent, hrec.outer]
    · exact absurd h.1 (by omega)
  rw [hst] at h3 h4
  exact ⟨heard, h2 hq.1, h3, fun k i hk => (h4 k i hk).2 (hq.2 i)⟩

/-- C159: `concat` over `AsyncSingleSubject`s delivers what has been sent to the first, then what has been sent to the second, and so on, whatever the
order in which the calls on different subjects are made. -/
theorem C159_concat {ls : List (Cold.Label α)} {s : Cold.State (Merge.State Nat) α}
    (hr : LTS.run (Cold.merge 1).step (Cold.merge 1).init ls = some s) (hg : Grammar (outers ls)) (hd : (story (outers ls)).vals.Nodup)
    (hu : Undisturbed ls) (ht : InTurn (Cold.merge 1).step (Cold.merge 1).init ls) :
    s.posts <+: (concat ((story (outers ls)).vals.map fun i => story (callsOn i ls)) (story (outers ls)).fin).events ∧
    (Rest s → s.posts = (concat ((story (outers ls)).vals.map fun i => story (callsOn i ls)) (story (outers ls)).fin).events) := by
  have hi := inv_run hr hg hd hu ht
  have hrec := records_run hr
  have hf : ∀ e, (story (outers ls)).fin ≠ .failed e := by
    intro e h
    have h1 : Notif.error e ∈ (story (outers ls)).events := by simp [Story.events, h]
    have h2 : Notif.error e ∈ outers ls := by rw [← cut_of_grammar hg]; exact h1
    simp only [outers, List.mem_filterMap] at h2
    obtain ⟨l, h3, h4⟩ := h2
    cases l <;> simp at h4
    exact hu.2 e (h4 ▸ h3)
  have hout : Merge.outerCalls s.trace = Story.events ⟨(story (outers ls)).vals, (story (outers ls)).fin⟩ := by
    rw [hrec.outer]; exact (cut_of_grammar hg).symm
  have h := Merge.concat_posts (src := fun i => story (callsOn i ls)) hf hi.run ⟨by rw [hout]; exact List.prefix_refl _, fun k o hk => by
    rw [Hot.innerCalls_eq]; exact (heard_of hi hrec (hi.subs ▸ hk)).1⟩
  refine ⟨h.1, fun hq => h.2 ⟨hout, fun k o hk => ?_⟩ hi.nofail.1 (fun hc => hi.nofail.2 (.inl hc)) hq.1⟩
  rw [Hot.innerCalls_eq]; exact (heard_of hi hrec (hi.subs ▸ hk)).2 (hq.2 o)

namespace Cold

theorem act_grows {S : Type} {p : Producer S (Merge.Label Nat α) α} {s s' : State S α} {l : Merge.Label Nat α} (h : s.act p l = some s') : s.posts <+: s'.posts := by
  obtain ⟨out, -, h2⟩ := act_some h
  rw [h2]; exact List.prefix_append ..

theorem attempt_grows {S : Type} {p : Producer S (Merge.Label Nat α) α} {s s' : State S α} {i : Nat} {n : Notif α} (h : s.attempt p i n = some s') :
    s.posts <+: s'.posts := by
  unfold State.attempt at h
  split at h
  · split at h <;> (obtain rfl := (Option.some.inj h).symm; exact List.prefix_refl _)
  · split at h
    · obtain rfl := (Option.some.inj h).symm; exact List.prefix_refl _
    · obtain ⟨t, h1, rfl⟩ := Option.map_eq_some_iff.mp h
      have := act_grows h1
      exact this

theorem step_grows {S : Type} {p : Producer S (Merge.Label Nat α) α} {started gone : S → List Nat} {base : Nat} {s s' : State S α} {l : Label α}
    (h : step p started gone base s l = some s') : s.posts <+: s'.posts := by
  unfold step at h
  split at h
  · cases h
  cases l with
  | outer n => exact act_grows h
  | call i n =>
    dsimp only at h
    split at h
    · obtain rfl := (Option.some.inj h).symm; exact List.prefix_refl _
    · exact attempt_grows (s := { s with calls := s.calls ++ [(i, n)] }) h
  | wake i =>
    dsimp only at h
    split at h
    · rename_i n rest _ _
      exact attempt_grows (s := s.set i { s.subjects i with waiting := rest }) h
    · cases h
  | own l =>
    dsimp only at h
    split at h
    · obtain ⟨t, h1, rfl⟩ := Option.map_eq_some_iff.mp h
      rw [subscribe_rest.2.1, unsubscribe_rest.2.1]
      exact act_grows h1
    · cases h

theorem merge_grows (mx : Int) : (merge mx : Source _ (Label α) α).Grows := ⟨rfl, fun _ _ _ h => step_grows h⟩

/-- Each subject is sent once, nobody disposes, nobody overtakes. -/
def Fair (mx : Int) (ls : List (Label α)) : Prop :=
  Grammar (outers ls) ∧ (story (outers ls)).vals.Nodup ∧ Undisturbed ls ∧ InTurn (merge mx).step (merge mx).init ls

end Cold

/-- C159 for the final observer behind any operators. -/
theorem C159_observed {op : Operator α γ} {G : Story α → Story γ} (hG : op.Computes G) :
    ((Cold.merge 1 : Source _ (Cold.Label α) α).pipe op.protected).Sends
      (fun ls _ => Fair 1 (Piped.sources ls))
      (fun _ s => Rest s.src ∧ op.protected.slowProc.Quiescent s.ps)
      (fun ls => G (concat ((story (outers (Piped.sources ls))).vals.map fun i => story (callsOn i (Piped.sources ls))) (story (outers (Piped.sources ls))).fin)) := by
  have key : ∀ {st : Story α} {ps : List (Notif α)}, ps <+: st.events → (story ps).events <+: st.events := by
    intro st ps h
    have := cut_mono h
    rwa [cut_of_grammar ⟨st, rfl⟩] at this
  exact C101_pipe (merge_grows 1) hG.guarded (fun _ _ => trivial)
    (ok := fun ls _ => Fair 1 ls) (quiet := fun _ s => Rest s)
    (T := fun ls => concat ((story (outers ls)).vals.map fun i => story (callsOn i ls)) (story (outers ls)).fin)
    ⟨fun _ _ hr hok => key (C159_concat hr hok.1 hok.2.1 hok.2.2.1 hok.2.2.2).1, fun _ _ hr hok hq => by
      have := (C159_concat hr hok.1 hok.2.1 hok.2.2.1 hok.2.2.2).2 hq
      rw [show (Cold.merge 1).out _ = _ from this, story_events]⟩
    (fun _ _ _ _ => trivial)

namespace Cold

/-! ### Everything comes to rest -/

theorem subscribe_waiting {S : Type} {base : Nat} : ∀ {is : List Nat} {s : State S α} (j : Nat),
    ((s.subscribe base is).subjects j).waiting = (s.subjects j).waiting := by
  intro is
  induction is with
  | nil => intro s j; rfl
  | cons i is ih =>
    intro s j
    rw [State.subscribe, ih]
    split
    · rfl
    · show (if j = i then _ else s.subjects j).waiting = _
      split
      · subst j; rfl
      · rfl

/-- The number of calls that wait, on subjects with numbers less than `b`. -/
def waits {S : Type} (s : State S α) : Nat → Nat
  | 0 => 0
  | b + 1 => waits s b + (s.subjects b).waiting.length

theorem waits_congr {S : Type} {s t : State S α} : ∀ {b : Nat}, (∀ j < b, (t.subjects j).waiting = (s.subjects j).waiting) → waits t b = waits s b := by
  intro b
  induction b with
  | zero => intros; rfl
  | succ b ih => intro h; rw [waits, waits, ih (fun j hj => h j (by omega)), h b (by omega)]

theorem waits_less {S : Type} {s t : State S α} {i : Nat} {n : Notif α} (hi : (s.subjects i).waiting = n :: (t.subjects i).waiting)
    (h : ∀ j, j ≠ i → (t.subjects j).waiting = (s.subjects j).waiting) : ∀ {b : Nat}, i < b → waits t b + 1 = waits s b := by
  intro b
  induction b with
  | zero => intro h; omega
  | succ b ih =>
    intro hb
    rw [waits, waits]
    rcases Nat.lt_or_ge i b with h1 | h1
    · rw [h b (by omega), ← ih h1]; omega
    · obtain rfl : i = b := by omega
      rw [hi, waits_congr (s := s) (fun j hj => h j (by omega))]; simp; omega

def work (s : Merge.State Nat) : Nat := 2 * s.inbox.length + match s.pc with | .subscribing _ => 1 | _ => 0

/-- How much there is to do. -/
def todo (b : Nat) (s : State (Merge.State Nat) α) : Nat := 3 * waits s b + work s.prod

/-- A segment of the worker or of somebody who was woken. -/
def Quietly : Label α → Prop
  | .wake _ | .own .receive | .own .subscribed => True
  | _ => False

theorem work_continue (s : Merge.State Nat) (m : Merge.Model Nat) : work (s.continue m) = 2 * s.inbox.length := by
  simp only [work, Merge.State.continue]
  by_cases h : m.stopped = true ∧ m.subs = [] <;> simp [h]

theorem todo_own {mx : Int} {s : State (Merge.State Nat) α} {l : Merge.Label Nat α} (hi : Inv mx s) (hl : allowed true l = true) {prod : Merge.State Nat} {out : List (Notif α)}
    (h : Merge.step mx s.prod l = some (prod, out)) {b : Nat} (hlt : work prod < work s.prod) (hno : prod.disposed = s.prod.disposed) :
    ∃ s', (merge mx).step s (.own l) = some s' ∧ todo b s' < todo b s ∧ s'.calls = s.calls := by
  have hact : s.act (mergeInner mx) l = some { s with prod := prod, posts := s.posts ++ out, trace := s.trace ++ [l] } := by
    simp only [State.act, mergeInner, h]
  refine ⟨State.subscribe 0 (prod.started.drop s.prod.started.length) { s with prod := prod, posts := s.posts ++ out, trace := s.trace ++ [l] }, ?_, ?_, ?_⟩
  · show step (mergeInner mx) Merge.State.started Merge.State.disposed 0 s (.own l) = _
    rw [step, if_neg (by simp [hi.calm.1]), if_pos (by rw [hi.calm.2.1]; exact hl), hact]
    simp only [Option.map_some, hno, List.drop_length]
    rfl
  · have h1 : waits (State.subscribe 0 (prod.started.drop s.prod.started.length) { s with prod := prod, posts := s.posts ++ out, trace := s.trace ++ [l] }) b = waits s b :=
      waits_congr (fun j _ => by rw [subscribe_waiting])
    rw [todo, subscribe_rest.1, h1, todo]
    show 3 * waits s b + work prod < _
    omega
  · rw [subscribe_rest.2.2.2.2.1]

theorem todo_receive {mx : Int} {s : Merge.State Nat} {msg : Merge.Msg Nat} {q : List (Merge.Msg Nat)} (hp : s.pc = .waiting) (hq : s.inbox = msg :: q)
    (hm : msg ≠ .dispose) : ∃ (prod : Merge.State Nat) (out : List (Notif α)), Merge.step mx s .receive = some (prod, out) ∧ work prod < work s ∧
      prod.disposed = s.disposed := by
  have hw : work s = 2 * q.length + 2 := by simp [work, hp, hq]; omega
  refine ⟨(Merge.update (α := α) mx { s with inbox := q } msg).1, (Merge.update mx { s with inbox := q } msg).2, by simp [Merge.step, hp, hq], ?_⟩
  rw [hw]
  cases msg with
  | inner xs =>
    simp only [Merge.update]
    split
    · exact ⟨by simp [work, Merge.State.subscribe], rfl⟩
    · rw [work_continue]; exact ⟨by simp, rfl⟩
  | innerCompleted k =>
    simp only [Merge.update]
    split
    · exact ⟨by simp [work, Merge.State.subscribe], rfl⟩
    · split
      · rw [work_continue]; exact ⟨by simp, rfl⟩
      · rw [work_continue]; exact ⟨by simp, rfl⟩
  | completed => simp only [Merge.update]; rw [work_continue]; exact ⟨by simp, rfl⟩
  | dispose => exact absurd rfl hm

theorem todo_wake {mx : Int} {s : State (Merge.State Nat) α} (hi : Inv mx s) {i b : Nat} (hw : ¬ NoneWoken s i) (hb : i < b) :
    ∃ s', (merge mx).step s (.wake i) = some s' ∧ todo b s' < todo b s ∧ s'.calls = s.calls := by
  have hm : i ∈ s.subs := by
    refine Classical.byContradiction fun h => hw fun h' => ?_
    rw [hi.fresh i h] at h'; cases h'
  obtain ⟨k, hk⟩ := List.getElem?_of_mem hm
  obtain ⟨done, rest, h1, h2, h3⟩ := hi.taken k i hk
  cases rest with
  | nil => exact absurd (fun _ => by rw [h2]) hw
  | cons n rest =>
    have hs : ∀ s', State.attempt (mergeInner mx) i n (s.set i ⟨some k, true, false, done.any Notif.isTerminal, rest⟩) = some s' →
        (merge mx).step s (.wake i) = some s' := by
      intro s' h
      show step (mergeInner mx) Merge.State.started Merge.State.disposed 0 s (.wake i) = _
      rw [step, if_neg (by simp [hi.calm.1])]
      dsimp only
      rw [h2]
      exact h
    have hx : (s.set i ⟨some k, true, false, done.any Notif.isTerminal, rest⟩).subjects i = ⟨some k, true, false, done.any Notif.isTerminal, rest⟩ := by simp
    have hwaits : ∀ {t : State (Merge.State Nat) α}, (t.subjects i).waiting = rest → (∀ j, j ≠ i → t.subjects j = s.subjects j) → waits t b + 1 = waits s b :=
      fun {t} h4 h5 => waits_less (n := n) (by rw [h2, h4]) (fun j hj => by rw [h5 j hj]) hb
    cases hst : done.any Notif.isTerminal with
    | true =>
      refine ⟨s.set i ⟨some k, true, false, done.any Notif.isTerminal, rest⟩, hs _ ?_, ?_, rfl⟩
      · unfold State.attempt; rw [hx]; simp [hst]
      · have := hwaits (t := s.set i ⟨some k, true, false, done.any Notif.isTerminal, rest⟩) (by simp) (fun j hj => by simp [hj])
        rw [todo, todo]
        show 3 * waits (s.set i _) b + work s.prod < _
        omega
    | false =>
      have hlt : k < s.prod.started.length := by rw [← hi.subs]; exact (List.getElem?_eq_some_iff.mp hk).1
      have hinner : ∃ prod out, Merge.step mx s.prod (.inner k n) = some (prod, out) ∧ work prod ≤ work s.prod + 2 := by
        simp only [Merge.step, hlt, if_true]
        cases n <;> simp [work]
        omega
      obtain ⟨prod, out, h4, h5⟩ := hinner
      have hact : State.act (mergeInner mx) (s.set i ⟨some k, true, false, done.any Notif.isTerminal, rest⟩) (.inner k n) =
          some { s.set i ⟨some k, true, false, done.any Notif.isTerminal, rest⟩ with prod := prod, posts := s.posts ++ out, trace := s.trace ++ [.inner k n] } := by
        unfold State.act
        rw [show (mergeInner mx).step (s.set i _).prod (.inner k n) = some (prod, out) from h4]
        rfl
      refine ⟨State.set { s.set i ⟨some k, true, false, done.any Notif.isTerminal, rest⟩ with prod := prod, posts := s.posts ++ out, trace := s.trace ++ [.inner k n] } i
        ⟨some k, true, false, n.isTerminal, rest⟩, hs _ ?_, ?_, rfl⟩
      · unfold State.attempt; rw [hx]; dsimp only
        rw [hst] at hact ⊢
        rw [if_neg (by simp), hact]; simp
      · have := hwaits (t := State.set { s.set i ⟨some k, true, false, done.any Notif.isTerminal, rest⟩ with prod := prod, posts := s.posts ++ out, trace := s.trace ++ [.inner k n] } i
          ⟨some k, true, false, n.isTerminal, rest⟩) (by simp) (fun j hj => by simp [hj])
        rw [todo, todo]
        show 3 * waits (State.set _ i _) b + work prod < _
        omega

theorem fair_quiet {mx : Int} {ls : List (Label α)} (h : Fair mx ls) {l : Label α} (hl : Quietly l) : Fair mx (ls ++ [l]) := by
  obtain ⟨h1, h2, h3, h4⟩ := h
  have ho : outers (ls ++ [l]) = outers ls := by
    rw [outers, List.filterMap_append]
    show outers ls ++ outers [l] = _
    cases l <;> simp_all [outers, Quietly]
  refine ⟨ho ▸ h1, ho ▸ h2, ⟨?_, fun e => ?_⟩, fun a i n b hab => ?_⟩
  · intro h
    rcases List.mem_append.mp h with h | h
    · exact h3.1 h
    · simp only [List.mem_singleton] at h; subst h; exact hl
  · intro h
    rcases List.mem_append.mp h with h | h
    · exact h3.2 e h
    · simp only [List.mem_singleton] at h; subst h; exact hl
  · rcases List.eq_nil_or_concat b with rfl | ⟨b', x, rfl⟩
    · have := List.append_inj_right' hab (by simp)
      simp only [List.cons.injEq, and_true] at this
      subst this; exact absurd hl (by simp [Quietly])
    · have h5 : ls ++ [l] = (a ++ .call i n :: b') ++ [x] := by rw [hab]; simp
      exact h4 a i n b' (List.append_inj_left' h5 (by simp))

theorem bounded (calls : List (Nat × Notif α)) : ∃ b, ∀ i, Hot.heardBy i calls ≠ [] → i < b := by
  induction calls with
  | nil => exact ⟨0, fun i h => absurd rfl h⟩
  | cons c calls ih =>
    obtain ⟨b, hb⟩ := ih
    refine ⟨max b (c.1 + 1), fun i h => ?_⟩
    by_cases hc : c.1 = i
    · omega
    · have : Hot.heardBy i (c :: calls) = Hot.heardBy i calls := by simp [Hot.heardBy, hc]
      rw [this] at h
      have := hb i h
      omega

/-- Unless everything is at rest there is a segment that leaves less to do. -/
theorem todo_next {mx : Int} {b : Nat} {s : State (Merge.State Nat) α} (hi : Inv mx s) (hb : ∀ i, Hot.heardBy i s.calls ≠ [] → i < b) :
    Rest s ∨ ∃ l s', Quietly l ∧ (merge mx).step s l = some s' ∧ todo b s' < todo b s ∧ s'.calls = s.calls := by
  obtain ⟨-, c2, c3⟩ := Hot.merge_calm hi.run hi.nofail.2
  by_cases hq : Merge.Settled s.prod
  · by_cases hw : ∀ i, NoneWoken s i
    · exact .inl ⟨hq, hw⟩
    · obtain ⟨i, hw⟩ := Classical.not_forall.mp hw
      refine .inr ?_
      have hib : i < b := by
        refine hb i fun h => hw fun _ => ?_
        by_cases hm : i ∈ s.subs
        · obtain ⟨k, hk⟩ := List.getElem?_of_mem hm
          obtain ⟨done, rest, h1, h2, -⟩ := hi.taken k i hk
          rw [h] at h1
          rw [h2]; exact (List.append_eq_nil_iff.mp h1.symm).2
        · rw [hi.fresh i hm]; exact h
      obtain ⟨s', h1, h2, h3⟩ := todo_wake hi hw hib
      exact ⟨.wake i, s', trivial, h1, h2, h3⟩
  · refine .inr ?_
    cases hp : s.prod.pc with
    | halted => exact absurd (.inl hp) hq
    | disposing ks => exact absurd hp (c3 ks)
    | subscribing m =>
      have h : Merge.step mx s.prod (.subscribed : Merge.Label Nat α) = some (s.prod.continue { m with subs := m.subs ++ [m.key], key := m.key + 1 }, []) := by
        simp [Merge.step, hp]
      obtain ⟨s', h1, h2, h3⟩ := todo_own hi (b := b) rfl h (by rw [work_continue]; simp [work, hp]) rfl
      exact ⟨.own .subscribed, s', trivial, h1, h2, h3⟩
    | waiting =>
      cases hin : s.prod.inbox with
      | nil => exact absurd (.inr ⟨hp, hin⟩) hq
      | cons msg q =>
        obtain ⟨prod, out, h, h4, h5⟩ := todo_receive (α := α) (mx := mx) hp hin (by rintro rfl; exact c2 (by simp [hin]))
        obtain ⟨s', h1, h2, h3⟩ := todo_own hi (b := b) rfl h h4 h5
        exact ⟨.own .receive, s', trivial, h1, h2, h3⟩

/-- And so does each segment of the worker or of somebody who was woken. -/
theorem todo_quiet {mx : Int} {b : Nat} {s s' : State (Merge.State Nat) α} (hi : Inv mx s) (hb : ∀ i, Hot.heardBy i s.calls ≠ [] → i < b) {l : Label α}
    (hl : Quietly l) (h : (merge mx).step s l = some s') : todo b s' < todo b s ∧ s'.calls = s.calls := by
  obtain ⟨-, c2, -⟩ := Hot.merge_calm hi.run hi.nofail.2
  have h0 : step (mergeInner mx) Merge.State.started Merge.State.disposed 0 s l = some s' := h
  rw [step.eq_def, if_neg (by simp [hi.calm.1])] at h0
  cases l with
  | outer n => exact hl.elim
  | call i n => exact hl.elim
  | wake i =>
    dsimp only at h0
    have hw : ¬ NoneWoken s i := by
      intro hw
      split at h0
      · rename_i n rest ho hq
        rw [hw ho] at hq; cases hq
      · cases h0
    have hib : i < b := by
      refine hb i fun h => hw fun _ => ?_
      by_cases hm : i ∈ s.subs
      · obtain ⟨k, hk⟩ := List.getElem?_of_mem hm
        obtain ⟨done, rest, h1, h2, -⟩ := hi.taken k i hk
        rw [h] at h1
        rw [h2]; exact (List.append_eq_nil_iff.mp h1.symm).2
      · rw [hi.fresh i hm]; exact h
    obtain ⟨t, h1, h2⟩ := todo_wake hi hw hib
    rw [h] at h1
    obtain rfl := Option.some.inj h1
    exact h2
  | own l =>
    dsimp only at h0
    split at h0
    case isFalse => cases h0
    obtain ⟨t, h1, -⟩ := Option.map_eq_some_iff.mp h0
    obtain ⟨out, h2, -⟩ := act_some h1
    have h2 : Merge.step mx s.prod l = some (t.prod, out) := h2
    have hfin : ∀ {prod : Merge.State Nat} {o : List (Notif α)}, allowed true l = true → Merge.step mx s.prod l = some (prod, o) → work prod < work s.prod →
        prod.disposed = s.prod.disposed → todo b s' < todo b s ∧ s'.calls = s.calls := by
      intro prod o a1 a2 a3 a4
      obtain ⟨t, h1, h2⟩ := todo_own hi (b := b) a1 a2 a3 a4
      rw [h] at h1
      obtain rfl := Option.some.inj h1
      exact h2
    cases l with
    | receive =>
      cases hp : s.prod.pc <;> simp only [Merge.step, hp] at h2 <;> try cases h2
      cases hin : s.prod.inbox with
      | nil => simp only [hin] at h2; cases h2
      | cons msg q =>
        obtain ⟨prod, o, h, h4, h5⟩ := todo_receive (α := α) (mx := mx) hp hin (by rintro rfl; exact c2 (by simp [hin]))
        exact hfin rfl h h4 h5
    | subscribed =>
      cases hp : s.prod.pc <;> simp only [Merge.step, hp] at h2 <;> try cases h2
      rename_i m
      have h : Merge.step mx s.prod (.subscribed : Merge.Label Nat α) = some (s.prod.continue { m with subs := m.subs ++ [m.key], key := m.key + 1 }, []) := by
        simp [Merge.step, hp]
      exact hfin rfl h (by rw [work_continue]; simp [work, hp]) rfl
    | _ => exact hl.elim

theorem rests {mx : Int} (b : Nat) : ∀ (m : Nat) {ls : List (Label α)} {s : State (Merge.State Nat) α}, LTS.run (merge mx).step (merge mx).init ls = some s → Fair mx ls →
    (∀ i, Hot.heardBy i s.calls ≠ [] → i < b) → todo b s ≤ m →
    ∃ (ms : List (Label α)) (s' : State (Merge.State Nat) α), (∀ l ∈ ms, Quietly l) ∧ Fair mx (ls ++ ms) ∧ LTS.run (merge mx).step s ms = some s' ∧ Rest s' := by
  intro m
  induction m with
  | zero =>
    intro ls s hr hf hb hm
    rcases todo_next (inv_run hr hf.1 hf.2.1 hf.2.2.1 hf.2.2.2) hb with h | ⟨l, s', -, -, h, -⟩
    · exact ⟨[], s, by simp, by simpa using hf, rfl, h⟩
    · omega
  | succ m ih =>
    intro ls s hr hf hb hm
    rcases todo_next (inv_run hr hf.1 hf.2.1 hf.2.2.1 hf.2.2.2) hb with h | ⟨l, s', h1, h2, h3, h4⟩
    · exact ⟨[], s, by simp, by simpa using hf, rfl, h⟩
    · obtain ⟨ms, t, h5, h8, h6, h7⟩ := ih (ls := ls ++ [l]) (s := s') (LTS.run_append.mpr ⟨s, hr, LTS.run_cons.mpr ⟨s', h2, rfl⟩⟩) (fair_quiet hf h1)
        (by rw [h4]; exact hb) (by omega)
      refine ⟨l :: ms, t, ?_, by simpa using h8, LTS.run_cons.mpr ⟨s', h2, h6⟩, h7⟩
      intro x hx
      rcases List.mem_cons.mp hx with rfl | hx
      · exact h1
      · exact h5 x hx

theorem quiet_bound {mx : Int} (b : Nat) : ∀ (ms : List (Label α)) {ls : List (Label α)} {s s' : State (Merge.State Nat) α},
    LTS.run (merge mx).step (merge mx).init ls = some s → Fair mx ls → (∀ i, Hot.heardBy i s.calls ≠ [] → i < b) → (∀ l ∈ ms, Quietly l) →
    LTS.run (merge mx).step s ms = some s' → ms.length ≤ todo b s := by
  intro ms
  induction ms with
  | nil => intros; simp
  | cons l ms ih =>
    intro ls s s' hr hf hb hl h
    obtain ⟨s1, h1, h2⟩ := LTS.run_cons.mp h
    obtain ⟨h3, h4⟩ := todo_quiet (inv_run hr hf.1 hf.2.1 hf.2.2.1 hf.2.2.2) hb (hl l (by simp)) h1
    have := ih (ls := ls ++ [l]) (LTS.run_append.mpr ⟨s, hr, LTS.run_cons.mpr ⟨s1, h1, rfl⟩⟩) (fair_quiet hf (hl l (by simp))) (by rw [h4]; exact hb)
      (fun x hx => hl x (by simp [hx])) h2
    simp only [List.length_cons]; omega

end Cold

/-- C158: it always comes to rest. Whatever has happened so far, the worker and those who were woken take only finitely many segments until somebody
else acts, in whatever order they take them, and they get to where everything is at rest. -/
theorem C158_rests {mx : Int} {ls : List (Cold.Label α)} {s : Cold.State (Merge.State Nat) α}
    (hr : LTS.run (Cold.merge mx).step (Cold.merge mx).init ls = some s) (hf : Fair mx ls) :
    (∃ N, ∀ ms s', (∀ l ∈ ms, Quietly l) → LTS.run (Cold.merge mx).step s ms = some s' → ms.length ≤ N) ∧
    ∃ (ms : List (Cold.Label α)) (s' : Cold.State (Merge.State Nat) α), (∀ l ∈ ms, Quietly l) ∧ Fair mx (ls ++ ms) ∧
      LTS.run (Cold.merge mx).step (Cold.merge mx).init (ls ++ ms) = some s' ∧ Rest s' := by
  obtain ⟨b, hb⟩ := bounded s.calls
  refine ⟨⟨_, fun ms s' h1 h2 => quiet_bound b ms hr hf hb h1 h2⟩, ?_⟩
  obtain ⟨ms, s', h1, h2, h3, h4⟩ := rests b _ hr hf hb (Nat.le_refl _)
  exact ⟨ms, s', h1, h2, LTS.run_append.mpr ⟨s, hr, h3⟩, h4⟩

namespace Cold

section Any
variable {S : Type} {p : Producer S (Merge.Label Nat α) α} {started gone : S → List Nat} {base : Nat}

/-- A subject that has had an observer and has none is disposed, and was disposed by the worker. -/
structure Ends (gone : List Nat) (base : Nat) (s : State S α) : Prop where
  lost : ∀ i, (s.subjects i).opened = true → (s.subjects i).observer = none → (s.subjects i).disposed = true
  bare : ∀ i, (s.subjects i).disposed = true → (s.subjects i).opened = true ∧ (s.subjects i).observer = none
  mine : ∀ i, i ∈ s.subs → (s.subjects i).opened = true
  why : ∀ i, (s.subjects i).disposed = true → ∃ k ∈ gone, s.subs[k - base]? = some i

theorem Ends.mono {g g' : List Nat} {s : State S α} (h : Ends g base s) (hg : ∀ k ∈ g, k ∈ g') : Ends g' base s :=
  ⟨h.lost, h.bare, h.mine, fun i hi => let ⟨k, h1, h2⟩ := h.why i hi; ⟨k, hg k h1, h2⟩⟩

/-- Only what matters to `Ends`. -/
theorem Ends.same {g : List Nat} {s t : State S α} (h : Ends g base s) (h1 : ∀ i, (t.subjects i).opened = (s.subjects i).opened)
    (h2 : ∀ i, (t.subjects i).observer = (s.subjects i).observer) (h3 : ∀ i, (t.subjects i).disposed = (s.subjects i).disposed) (h4 : t.subs = s.subs) :
    Ends g base t := by
  refine ⟨fun i => ?_, fun i => ?_, fun i => ?_, fun i => ?_⟩
  · rw [h1, h2, h3]; exact h.lost i
  · rw [h1, h2, h3]; exact h.bare i
  · rw [h1, h4]; exact h.mine i
  · rw [h3, h4]; exact h.why i

theorem ends_unsubscribe {g : List Nat} : ∀ {ks : List Nat} {s : State S α}, Ends g base s → (∀ k ∈ ks, k ∈ g) → Ends g base (s.unsubscribe base ks) := by
  intro ks
  induction ks with
  | nil => intro s h _; exact h
  | cons k ks ih =>
    intro s h hk
    rw [State.unsubscribe]
    refine ih ?_ (fun x hx => hk x (by simp [hx]))
    cases hs : s.subs[k - base]? with
    | none => exact h
    | some i =>
      dsimp only
      have hm := h.mine i (List.mem_of_getElem? hs)
      refine ⟨fun j => ?_, fun j => ?_, fun j hj => ?_, fun j hj => ?_⟩
      · by_cases e : j = i
        · subst e; simp
        · simp only [set_get, e, if_false]; exact h.lost j
      · by_cases e : j = i
        · subst e; simp [hm]
        · simp only [set_get, e, if_false]; exact h.bare j
      · by_cases e : j = i
        · subst e; simp [hm]
        · simp only [set_get, e, if_false]; exact h.mine j hj
      · by_cases e : j = i
        · subst e; exact ⟨k, hk k (by simp), hs⟩
        · simp only [set_get, e, if_false] at hj; exact h.why j hj

theorem ends_subscribe {g : List Nat} : ∀ {is : List Nat} {s : State S α}, Ends g base s → Ends g base (s.subscribe base is) := by
  intro is
  induction is with
  | nil => intro s h; exact h
  | cons i is ih =>
    intro s h
    rw [State.subscribe]
    refine ih ?_
    have hw : ∀ j, (s.subjects j).disposed = true → ∃ k ∈ g, (s.subs ++ [i])[k - base]? = some j := by
      intro j hj
      obtain ⟨k, h1, h2⟩ := h.why j hj
      exact ⟨k, h1, by rw [List.getElem?_append_left (List.getElem?_eq_some_iff.mp h2).1]; exact h2⟩
    split
    · rename_i hd
      refine ⟨h.lost, h.bare, fun j hj => ?_, hw⟩
      rcases List.mem_append.mp hj with hj | hj
      · exact h.mine j hj
      · simp only [List.mem_singleton] at hj; subst hj; exact (h.bare j hd).1
    · rename_i hd
      refine ⟨fun j => ?_, fun j => ?_, fun j hj => ?_, fun j hj => ?_⟩
      · by_cases e : j = i
        · subst e; simp [State.set]
        · simp only [State.set, e, if_false]; exact h.lost j
      · by_cases e : j = i
        · subst e; simp [State.set, hd]
        · simp only [State.set, e, if_false]; exact h.bare j
      · by_cases e : j = i
        · subst e; simp [State.set]
        · simp only [State.set, e, if_false]
          simp only [State.set, List.mem_append, List.mem_singleton, e, or_false] at hj
          exact h.mine j hj
      · refine hw j ?_
        by_cases e : j = i
        · subst e; simpa [State.set] using hj
        · simpa [State.set, e] using hj

theorem ends_act {s s' : State S α} {l : Merge.Label Nat α} (hf : Hot.Fits p started gone base) (hi : Ends (gone s.prod) base s) (h : s.act p l = some s') :
    Ends (gone s'.prod) base s' := by
  obtain ⟨out, h1, h2⟩ := act_some h
  have hg := (hf.grows _ _ _ _ h1).2
  refine Ends.same (hi.mono fun k hk => hg.subset hk) ?_ ?_ ?_ ?_ <;> (intros; rw [h2])

theorem ends_attempt {s s' : State S α} {i : Nat} {n : Notif α} (hf : Hot.Fits p started gone base) (hi : Ends (gone s.prod) base s)
    (h : s.attempt p i n = some s') : Ends (gone s'.prod) base s' := by
  unfold State.attempt at h
  split at h
  · split at h
    · obtain rfl := (Option.some.inj h).symm; exact hi.same (fun _ => rfl) (fun _ => rfl) (fun _ => rfl) rfl
    · obtain rfl := (Option.some.inj h).symm
      refine hi.same (fun j => ?_) (fun j => ?_) (fun j => ?_) rfl <;> (rw [set_get]; split <;> simp_all)
  · split at h
    · obtain rfl := (Option.some.inj h).symm; exact hi
    · obtain ⟨t, h1, rfl⟩ := Option.map_eq_some_iff.mp h
      refine (ends_act hf hi h1).same (fun j => ?_) (fun j => ?_) (fun j => ?_) rfl <;> (rw [set_get]; split <;> simp_all)

theorem ends_step {s s' : State S α} {l : Label α} (hf : Hot.Fits p started gone base) (hi : Ends (gone s.prod) base s)
    (h : step p started gone base s l = some s') : Ends (gone s'.prod) base s' := by
  rw [step.eq_def] at h
  split at h
  · cases h
  cases l with
  | outer n => exact ends_act hf hi h
  | call i n =>
    dsimp only at h
    split at h
    · obtain rfl := (Option.some.inj h).symm; exact hi.same (fun _ => rfl) (fun _ => rfl) (fun _ => rfl) rfl
    · exact ends_attempt hf (s := { s with calls := s.calls ++ [(i, n)] }) (hi.same (fun _ => rfl) (fun _ => rfl) (fun _ => rfl) rfl) h
  | wake i =>
    dsimp only at h
    split at h
    · rename_i n rest _ _
      refine ends_attempt hf (s := s.set i { s.subjects i with waiting := rest }) (hi.same (fun j => ?_) (fun j => ?_) (fun j => ?_) rfl) h <;>
        (rw [set_get]; split <;> simp_all)
    · cases h
  | own l =>
    dsimp only at h
    split at h
    · obtain ⟨t, h1, rfl⟩ := Option.map_eq_some_iff.mp h
      rw [subscribe_rest.1, unsubscribe_rest.1]
      exact ends_subscribe (ends_unsubscribe (ends_act hf hi h1) fun k hk => List.mem_of_mem_drop hk)
    · cases h

theorem ends_run {ls : List (Label α)} {s : State S α} (hf : Hot.Fits p started gone base) (hr : LTS.run (step p started gone base) (init p) ls = some s) :
    Ends (gone s.prod) base s :=
  LTS.inv_hist (step := step p started gone base) (s0 := init p) (fun _ s => Ends (gone s.prod) base s) ⟨by simp [init], by simp [init], by simp [init], by simp [init]⟩
    (fun _ _ _ _ hi h => ends_step hf hi h) hr

theorem attempt_stuck {s s' : State S α} {i : Nat} {n : Notif α} (h0 : s.stuck = false) (h : s.attempt p i n = some s') (hs : s'.stuck = true) :
    (s.subjects i).opened = true ∧ (s.subjects i).observer = none := by
  unfold State.attempt at h
  split at h
  · rename_i ho
    split at h
    · rename_i hop; exact ⟨hop, ho⟩
    · obtain rfl := (Option.some.inj h).symm
      rw [show (s.set i _).stuck = s.stuck from rfl, h0] at hs; cases hs
  · split at h
    · obtain rfl := (Option.some.inj h).symm; rw [h0] at hs; cases hs
    · obtain ⟨t, h1, rfl⟩ := Option.map_eq_some_iff.mp h
      obtain ⟨out, -, h2⟩ := act_some h1
      have : t.stuck = s.stuck := by rw [h2]
      rw [show (t.set i _).stuck = t.stuck from rfl, this, h0] at hs; cases hs

/-- Somebody calls `aclose()` or `athrow()` of a subject that is disposed, or goes on in a call of it. -/
def Forsaken (s : State S α) (l : Label α) : Prop :=
  ∃ i, (s.subjects i).disposed = true ∧ ((∃ n, l = .call i n ∧ n.isTerminal = true) ∨ l = .wake i)

theorem stuck_only {ls : List (Label α)} {s s' : State S α} {l : Label α} (hf : Hot.Fits p started gone base)
    (hr : LTS.run (step p started gone base) (init p) ls = some s) (h : step p started gone base s l = some s') (hs : s'.stuck = true) : Forsaken s l := by
  have hi := ends_run hf hr
  rw [step.eq_def] at h
  by_cases h0 : s.stuck = true
  · rw [if_pos h0] at h; cases h
  rw [if_neg h0] at h
  have h0 : s.stuck = false := by simpa using h0
  have hact : ∀ {l : Merge.Label Nat α} {t : State S α}, s.act p l = some t → t.stuck = false := by
    intro l t h
    obtain ⟨out, -, h2⟩ := act_some h
    rw [h2]; exact h0
  cases l with
  | outer n => have h : s.act p (.outer n) = some s' := h; rw [hact h] at hs; cases hs
  | call i n =>
    dsimp only at h
    split at h
    · obtain rfl := (Option.some.inj h).symm
      have : s.stuck = true := hs
      rw [h0] at this; cases this
    · rename_i hc
      have h1 := attempt_stuck (s := { s with calls := s.calls ++ [(i, n)] }) h0 h hs
      have hd := hi.lost i h1.1 h1.2
      refine ⟨i, hd, .inl ⟨n, rfl, ?_⟩⟩
      simpa [hd] using hc
  | wake i =>
    dsimp only at h
    split at h
    · rename_i n rest ho hq
      have h1 := attempt_stuck (s := s.set i { s.subjects i with waiting := rest }) h0 h hs
      simp only [set_get, if_true] at h1
      exact ⟨i, hi.lost i h1.1 h1.2, .inr rfl⟩
    · cases h
  | own l =>
    dsimp only at h
    split at h
    · obtain ⟨t, h1, rfl⟩ := Option.map_eq_some_iff.mp h
      rw [subscribe_rest.2.2.1, unsubscribe_rest.2.2.1, hact h1] at hs; cases hs
    · cases h

/-- Then nothing happens any more. -/
theorem stuck_for_ever {s : State S α} (hs : s.stuck = true) (l : Label α) : step p started gone base s l = none := by
  rw [step.eq_def, if_pos hs]

theorem hangs {ls : List (Label α)} {s : State S α} {l : Label α} (hf : Hot.Fits p started gone base)
    (hr : LTS.run (step p started gone base) (init p) ls = some s) (h0 : s.stuck = false) (hl : Forsaken s l) (hw : ∀ i, l = .wake i → (s.subjects i).waiting ≠ []) :
    ∃ s', step p started gone base s l = some s' ∧ s'.stuck = true := by
  have hi := ends_run hf hr
  obtain ⟨i, hd, hl⟩ := hl
  obtain ⟨h1, h2⟩ := hi.bare i hd
  rw [step.eq_def, if_neg (by simp [h0])]
  rcases hl with ⟨n, rfl, hn⟩ | rfl
  · dsimp only
    rw [if_neg (by simp [hn])]
    unfold State.attempt
    dsimp only
    rw [h2]
    dsimp only
    rw [if_pos h1]
    exact ⟨_, rfl, rfl⟩
  · dsimp only
    cases hq : (s.subjects i).waiting with
    | nil => exact absurd hq (hw i rfl)
    | cons n rest =>
      rw [h1]
      dsimp only
      unfold State.attempt
      simp only [set_get, if_true]
      rw [h2]
      exact ⟨_, rfl, rfl⟩

theorem asend_raises {s : State S α} (h0 : s.stuck = false) {i : Nat} (hd : (s.subjects i).disposed = true) (v : α) :
    step p started gone base s (.call i (.next v)) = some { s with calls := s.calls ++ [(i, .next v)], refused := s.refused ++ [(i, .next v)] } := by
  rw [step.eq_def, if_neg (by simp [h0])]
  dsimp only
  rw [if_pos (by simp [hd, Notif.isTerminal])]

end Any
end Cold

/-- C160 is false: once the worker of `merge_inner` has disposed its subscription of an AsyncSingleSubject, the next `aclose()` or `athrow()` of that
subject, or the next one who goes on from waiting for its observer, keeps the event loop busy for ever. -/
theorem C160_violated_merge {mx : Int} {ls : List (Cold.Label α)} {s : Cold.State (Merge.State Nat) α}
    (hr : LTS.run (Cold.merge mx).step (Cold.merge mx).init ls = some s) (h0 : s.stuck = false) {l : Cold.Label α} (hl : Forsaken s l)
    (hw : ∀ i, l = .wake i → (s.subjects i).waiting ≠ []) :
    ∃ s', (Cold.merge mx).step s l = some s' ∧ ∀ l', (Cold.merge mx).step s' l' = none := by
  obtain ⟨s', h1, h2⟩ := hangs (Hot.merge_fits mx) hr h0 hl hw
  exact ⟨s', h1, stuck_for_ever h2⟩

/-- The same for `switch_latest`, which disposes its subscription whenever the next observable comes. -/
theorem C160_violated_switch {ls : List (Cold.Label α)} {s : Cold.State (Switch.State Nat) α}
    (hr : LTS.run Cold.switch.step Cold.switch.init ls = some s) (h0 : s.stuck = false) {l : Cold.Label α} (hl : Forsaken s l)
    (hw : ∀ i, l = .wake i → (s.subjects i).waiting ≠ []) :
    ∃ s', Cold.switch.step s l = some s' ∧ ∀ l', Cold.switch.step s' l' = none := by
  obtain ⟨s', h1, h2⟩ := hangs Hot.switch_fits hr h0 hl hw
  exact ⟨s', h1, stuck_for_ever h2⟩

/-- C160, the part that holds: this is the only way in which the event loop hangs; a subject is disposed only if the worker has disposed a subscription of
it, and then `asend` raises ObjectDisposedException (and the event loop goes on). What is missing: `aclose`, `athrow` and those who wait. -/
theorem C160_partial {mx : Int} {ls : List (Cold.Label α)} {s : Cold.State (Merge.State Nat) α}
    (hr : LTS.run (Cold.merge mx).step (Cold.merge mx).init ls = some s) :
    (∀ l s', (Cold.merge mx).step s l = some s' → s'.stuck = true → Forsaken s l) ∧
    (∀ i, (s.subjects i).disposed = true → ∃ k ∈ s.prod.disposed, s.subs[k]? = some i) ∧
    ∀ i v, s.stuck = false → (s.subjects i).disposed = true →
      ∃ s', (Cold.merge mx).step s (.call i (.next v)) = some s' ∧ s'.stuck = false ∧ s'.refused = s.refused ++ [(i, .next v)] ∧ s'.posts = s.posts :=
  ⟨fun _ _ h hs => stuck_only (Hot.merge_fits mx) hr h hs, fun i hi => (ends_run (Hot.merge_fits mx) hr).why i hi,
    fun _ v h0 hd => ⟨_, asend_raises (started := Merge.State.started) (gone := Merge.State.disposed) (base := 0) h0 hd v, h0, rfl, rfl⟩⟩

theorem C160_switch_partial {ls : List (Cold.Label α)} {s : Cold.State (Switch.State Nat) α}
    (hr : LTS.run Cold.switch.step Cold.switch.init ls = some s) :
    (∀ l s', Cold.switch.step s l = some s' → s'.stuck = true → Forsaken s l) ∧
    (∀ i, (s.subjects i).disposed = true → ∃ k ∈ s.prod.disposed, s.subs[k - 1]? = some i) ∧
    ∀ i v, s.stuck = false → (s.subjects i).disposed = true →
      ∃ s', Cold.switch.step s (.call i (.next v)) = some s' ∧ s'.stuck = false ∧ s'.refused = s.refused ++ [(i, .next v)] ∧ s'.posts = s.posts :=
  ⟨fun _ _ h hs => stuck_only Hot.switch_fits hr h hs, fun i hi => (ends_run Hot.switch_fits hr).why i hi,
    fun _ v h0 hd => ⟨_, asend_raises (started := Switch.State.started) (gone := Switch.State.disposed) (base := 1) h0 hd v, h0, rfl, rfl⟩⟩

/-! ### Examples -/

/-- A test for `InTurn`. -/
def inTurnB {S : Type} (step : Cold.State S α → Cold.Label α → Option (Cold.State S α)) : Cold.State S α → List (Cold.Label α) → Bool
  | _, [] => true
  | s, l :: ls =>
    (match l with | .call i _ => !(s.subjects i).opened || (s.subjects i).waiting.isEmpty | _ => true) &&
    match step s l with | some s' => inTurnB step s' ls | none => true

theorem inTurn_of {S : Type} {step : Cold.State S α → Cold.Label α → Option (Cold.State S α)} : ∀ {ls : List (Cold.Label α)} {s0 : Cold.State S α},
    inTurnB step s0 ls = true → InTurn step s0 ls := by
  intro ls
  induction ls with
  | nil => intro s0 _ a i n b hab; simp at hab
  | cons l ls ih =>
    intro s0 h a i n b hab s hr
    simp only [inTurnB, Bool.and_eq_true] at h
    cases a with
    | nil =>
      obtain rfl := Option.some.inj hr
      simp only [List.nil_append, List.cons.injEq] at hab
      obtain ⟨rfl, -⟩ := hab
      intro ho
      simpa [ho] using h.1
    | cons l' a =>
      simp only [List.cons_append, List.cons.injEq] at hab
      obtain ⟨rfl, hab⟩ := hab
      obtain ⟨s1, h1, h2⟩ := LTS.run_cons.mp hr
      rw [h1] at h
      exact ih h.2 a i n b hab s h2

/-- Two values come before the subscription, one after it, and the subject completes. -/
def early : List (Cold.Label Nat) :=
  [.outer (.next 7), .call 7 (.next 1), .call 7 (.next 2), .outer .completed, .own .receive, .wake 7, .wake 7, .own .subscribed, .call 7 (.next 3),
   .call 7 .completed, .own .receive, .own .receive]

example : ((LTS.run (Cold.merge 0).step (Cold.merge 0).init early).map fun s => s.posts) = some [.next 1, .next 2, .next 3, .completed] := rfl

example : Fair 0 early :=
  ⟨⟨⟨[7], .done⟩, rfl⟩, by decide, ⟨by simp [early], by simp [early]⟩, inTurn_of rfl⟩

/-- `concat`: what is called on the second subject before the first has completed waits. -/
def crossed : List (Cold.Label Nat) :=
  [.outer (.next 0), .outer (.next 1), .outer .completed, .call 1 (.next 10), .call 0 (.next 1), .own .receive, .own .subscribed, .wake 0, .call 1 .completed,
   .call 0 (.next 2), .call 0 .completed, .own .receive, .own .receive, .own .receive, .own .subscribed, .wake 1, .wake 1, .own .receive]

example : ((LTS.run (Cold.merge 1).step (Cold.merge 1).init crossed).map fun s => s.posts) = some [.next 1, .next 2, .next 10, .completed] := rfl

example : Fair 1 crossed :=
  ⟨⟨⟨[0, 1], .done⟩, rfl⟩, by decide, ⟨by simp [crossed], by simp [crossed]⟩, inTurn_of rfl⟩

/-- `InTurn` is needed: who calls before those who were woken have gone on overtakes them. -/
example : ((LTS.run (Cold.merge 0 : Source _ (Cold.Label Nat) Nat).step (Cold.merge 0).init
    [.outer (.next 0), .call 0 (.next 1), .own .receive, .call 0 (.next 2), .wake 0]).map fun s => s.posts) = some [.next 2, .next 1] := rfl

/-- So is that no subject is sent twice: the second subscription takes the place of the first, which hears nothing any more. -/
example : ((LTS.run (Cold.merge 0 : Source _ (Cold.Label Nat) Nat).step (Cold.merge 0).init
    [.outer (.next 0), .outer (.next 0), .own .receive, .own .subscribed, .own .receive, .own .subscribed, .call 0 (.next 1)]).map fun s => Hot.inners s.trace) =
    some [(1, .next 1)] := rfl

/-- `switch_latest` goes on to another subject; whoever completes the first one hangs. -/
example : ((LTS.run (Cold.switch : Source _ (Cold.Label Nat) Nat).step Cold.switch.init
    [.outer (.next 0), .own .receive, .own .subscribed, .call 0 (.next 1), .outer (.next 1), .own .receive, .own .disposed, .own .subscribed,
     .call 0 (.next 2), .call 1 (.next 3), .call 0 .completed]).map fun s => (s.posts, s.refused, s.stuck)) =
    some ([.next 1, .next 3], [(0, .next 2)], true) := rfl

/-- A merged stream is disposed; whoever waited for the observer and was woken before that, hangs. -/
example : ((LTS.run (Cold.merge 0 : Source _ (Cold.Label Nat) Nat).step (Cold.merge 0).init
    [.outer (.next 0), .call 0 (.next 1), .own .cancel, .own .receive, .own .subscribed, .own .receive, .own .disposed, .wake 0]).map fun s => s.stuck) =
    some true := rfl

end Aio
