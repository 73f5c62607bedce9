import Verif.Model.Switch
import Verif.Lemmas.Merge
/-!
# Invariants of switch_latest
-/

namespace Aio.Switch
open Spec Producer
open Merge (Label Msg outerCalls innerCalls sent arrivals noDone NoFailure Lawful outerCalls_snoc)
variable {ω α : Type} {honour : Bool}

/-- was disposed, or has called `aclose` -/
def Gone (ls : List (Label ω α)) (s : State ω) (i : Nat) : Prop :=
  i ∈ s.disposed ∨ .inner i .completed ∈ ls

structure Inv (ls : List (Label ω α)) (s : State ω) : Prop where
  older : ∀ i, 1 ≤ i → i < s.started.length → Gone ls s i
  none : s.pc = .waiting → s.current = none → ∀ i, 1 ≤ i → i ≤ s.started.length → Gone ls s i
  wait : s.pc = .waiting → s.currentId = s.started.length ∧ ∀ i, s.current = some i → i = s.started.length
  sub : s.pc = .subscribing → s.currentId + 1 = s.started.length
  old : ∀ i xs, s.pc = .replacing i xs → i = s.started.length ∧ s.currentId = s.started.length
  old' : ∀ i, s.pc = .disposing i → i = s.started.length ∧ s.currentId = s.started.length
  done : ∀ i, .innerCompleted i ∈ s.inbox → .inner i .completed ∈ ls

theorem Gone.mono {ls ls' : List (Label ω α)} {s s' : State ω} {i : Nat} (h : Gone ls s i)
    (h1 : ∀ i ∈ s.disposed, i ∈ s'.disposed) : Gone (ls ++ ls') s' i :=
  h.elim (fun h => .inl (h1 i h)) fun h => .inr (List.mem_append_left _ h)

theorem Inv.env {ls : List (Label ω α)} {s : State ω} (hi : Inv ls s) (l : Label ω α) (m : List (Msg ω))
    (hm : ∀ i, .innerCompleted i ∈ m → l = .inner i .completed) :
    Inv (ls ++ [l]) { s with inbox := s.inbox ++ m } where
  older i h1 h2 := (hi.older i h1 h2).mono fun _ h => h
  none h1 h2 i h3 h4 := (hi.none h1 h2 i h3 h4).mono fun _ h => h
  wait := hi.wait
  sub := hi.sub
  old := hi.old
  old' := hi.old'
  done i h := by
    rcases List.mem_append.mp h with h | h
    · exact List.mem_append_left _ (hi.done i h)
    · rw [hm i h]; simp

theorem inv_step {ls : List (Label ω α)} {s s' : State ω} {l : Label ω α} {o : List (Notif α)}
    (hi : Inv ls s) (hs : step honour s l = some (s', o)) : Inv (ls ++ [l]) s' := by
  cases l with
  | outer n =>
    cases n with
    | next xs => simp only [step, Option.some.injEq, Prod.mk.injEq] at hs; obtain ⟨rfl, -⟩ := hs; exact hi.env _ _ (by simp)
    | error e => simp only [step, Option.some.injEq, Prod.mk.injEq] at hs; obtain ⟨rfl, -⟩ := hs; simpa using hi.env _ [] (by simp)
    | completed => simp only [step, Option.some.injEq, Prod.mk.injEq] at hs; obtain ⟨rfl, -⟩ := hs; exact hi.env _ _ (by simp)
  | inner id n =>
    simp only [step] at hs
    split at hs
    · cases n with
      | next xs => simp only [Option.some.injEq, Prod.mk.injEq] at hs; obtain ⟨rfl, -⟩ := hs; simpa using hi.env _ [] (by simp)
      | error e => simp only [Option.some.injEq, Prod.mk.injEq] at hs; obtain ⟨rfl, -⟩ := hs; simpa using hi.env _ [] (by simp)
      | completed => simp only [Option.some.injEq, Prod.mk.injEq] at hs; obtain ⟨rfl, -⟩ := hs; exact hi.env _ _ (by simp +contextual)
    · cases hs
  | cancel => simp only [step, Option.some.injEq, Prod.mk.injEq] at hs; obtain ⟨rfl, -⟩ := hs; exact hi.env _ _ (by simp)
  | receive =>
    simp only [step] at hs
    split at hs
    next msg q hp hq =>
      have hi' : Inv (ls ++ [.receive]) { s with inbox := q } := by
        refine ⟨fun i h1 h2 => (hi.older i h1 h2).mono fun _ h => h,
          fun h1 h2 i h3 h4 => (hi.none h1 h2 i h3 h4).mono fun _ h => h, hi.wait, hi.sub, hi.old, hi.old', ?_⟩
        intro i h
        exact List.mem_append_left _ (hi.done i (by rw [hq]; exact List.mem_cons_of_mem _ h))
      have hd : ∀ i, msg = .innerCompleted i → .inner i .completed ∈ ls := by
        rintro i rfl; exact hi.done i (by rw [hq]; simp)
      have hs := congrArg Prod.fst (Option.some.inj hs)
      dsimp only at hs
      rw [← hs]
      clear hs hi
      generalize ht : ({ s with inbox := q } : State ω) = t at hi' ⊢
      have hpt : t.pc = .waiting := by rw [← ht]; exact hp
      obtain ⟨hw1, hw2⟩ := hi'.wait hpt
      cases msg with
      | inner xs =>
        simp only [update]
        split
        next i hc =>
          exact ⟨hi'.older, by simp, by simp, by simp, fun j ys h => by cases h; exact ⟨hw2 i hc, hw1⟩, by simp, hi'.done⟩
        next hc =>
          refine ⟨fun i h1 h2 => ?_, by simp, by simp, fun _ => by simp [hw1], by simp, by simp, hi'.done⟩
          simp only [List.length_append, List.length_singleton] at h2
          exact hi'.none hpt hc i h1 (by omega)
      | innerCompleted k =>
        simp only [update]
        split
        next hc =>
          refine ⟨hi'.older, fun _ _ i h1 h2 => ?_, fun _ => ⟨hw1, by simp⟩, ?_, ?_, ?_, hi'.done⟩
          · by_cases h3 : i < t.started.length
            · exact hi'.older i h1 h3
            · refine .inr (List.mem_append_left _ (hd i ?_))
              dsimp only at h2
              rw [hc.2, hw1, show i = t.started.length by omega]
          · simp [hpt]
          · simp [hpt]
          · simp [hpt]
        next => exact hi'
      | completed => exact hi'
      | dispose =>
        simp only [update]
        split
        next i hc =>
          exact ⟨hi'.older, by simp, by simp, by simp, by simp, fun j h => by cases h; exact ⟨hw2 i hc, hw1⟩, hi'.done⟩
        next hc =>
          exact ⟨hi'.older, hi'.none, hi'.wait, hi'.sub, hi'.old, hi'.old', hi'.done⟩
    next => cases hs
  | subscribed =>
    simp only [step] at hs
    split at hs
    next hp =>
      simp only [Option.some.injEq, Prod.mk.injEq] at hs
      obtain ⟨rfl, -⟩ := hs
      have h := hi.sub hp
      exact ⟨fun i h1 h2 => (hi.older i h1 h2).mono fun _ h => h, by simp,
        fun _ => ⟨h, fun i h' => by cases h'; exact h⟩, by simp, by simp, by simp,
        fun i h => List.mem_append_left _ (hi.done i h)⟩
    next => cases hs
  | subscribeFails =>
    simp only [step] at hs
    split at hs
    next hp =>
      simp only [Option.some.injEq, Prod.mk.injEq] at hs
      obtain ⟨rfl, -⟩ := hs
      exact ⟨fun i h1 h2 => (hi.older i h1 h2).mono fun _ h => h, by simp, by simp, by simp, by simp, by simp,
        fun i h => List.mem_append_left _ (hi.done i h)⟩
    next => cases hs
  | disposed =>
    simp only [step] at hs
    split at hs
    next old xs hp =>
      simp only [Option.some.injEq, Prod.mk.injEq] at hs
      obtain ⟨rfl, -⟩ := hs
      obtain ⟨h1, h2⟩ := hi.old _ _ hp
      refine ⟨fun i h3 h4 => ?_, by simp, by simp, by simp [h2], by simp, by simp,
        fun i h => List.mem_append_left _ (hi.done i h)⟩
      simp only [List.length_append, List.length_singleton] at h4
      by_cases h5 : i < s.started.length
      · exact (hi.older i h3 h5).mono fun _ h => List.mem_append_left _ h
      · left; simp [h1, show i = s.started.length by omega]
    next old hp =>
      simp only [Option.some.injEq, Prod.mk.injEq] at hs
      obtain ⟨rfl, -⟩ := hs
      obtain ⟨h1, h2⟩ := hi.old' _ hp
      refine ⟨fun i h3 h4 => (hi.older i h3 h4).mono fun _ h => List.mem_append_left _ h,
        fun _ _ i h3 h4 => ?_, fun _ => ⟨h2, by simp⟩, by simp, by simp, by simp,
        fun i h => List.mem_append_left _ (hi.done i h)⟩
      by_cases h5 : i < s.started.length
      · exact (hi.older i h3 h5).mono fun _ h => List.mem_append_left _ h
      · dsimp only at h4
        left; simp [h1, show i = s.started.length by omega]
    next => cases hs
  | disposeFails =>
    have key : s' = { s with pc := .halted } := by
      simp only [step] at hs
      split at hs
      · simp only [Option.some.injEq, Prod.mk.injEq] at hs; exact hs.1.symm
      · simp only [Option.some.injEq, Prod.mk.injEq] at hs; exact hs.1.symm
      · cases hs
    subst key
    exact ⟨fun i h1 h2 => (hi.older i h1 h2).mono fun _ h => h, by simp, by simp, by simp, by simp, by simp,
      fun i h => List.mem_append_left _ (hi.done i h)⟩

theorem inv_init : Inv ([] : List (Label ω α)) State.initial := by
  refine ⟨?_, ?_, ?_, ?_, ?_, ?_, ?_⟩ <;> simp [State.initial]
  omega

theorem inv_run {ls : List (Label ω α)} {s : State ω} {posts : List (Notif α)}
    (hr : LTS.run (switchLatest honour).solo (State.initial, []) ls = some (s, posts)) : Inv ls s := by
  refine LTS.inv_hist (fun ls (c : State ω × List (Notif α)) => Inv ls c.1) inv_init ?_ hr
  rintro ls ⟨s, posts⟩ l ⟨s', posts'⟩ ih hs
  simp only [Producer.solo, switchLatest, Option.map_eq_some_iff, Prod.mk.injEq] at hs
  obtain ⟨⟨t, o⟩, h1, rfl, rfl⟩ := hs
  exact inv_step ih h1

/-! ## what the source offered -/

/-- the inner observables among the messages -/
def inners (ms : List (Msg ω)) : List ω := ms.filterMap fun | .inner xs => some xs | _ => none

/-- the inner observables the source sent -/
def offered (ls : List (Label ω α)) : List ω := ls.filterMap fun | .outer (.next xs) => some xs | _ => none

/-- the one that will be subscribed next -/
def pend : PC ω → List ω
  | .replacing _ xs => [xs]
  | _ => []

theorem inners_append (a b : List (Msg ω)) : inners (a ++ b) = inners a ++ inners b := List.filterMap_append ..
theorem offered_snoc (ls : List (Label ω α)) (l : Label ω α) : offered (ls ++ [l]) = offered ls ++ offered [l] :=
  List.filterMap_append ..

structure Order (ls : List (Label ω α)) (s : State ω) : Prop where
  pre : s.started <+: offered ls
  eq : s.pc ≠ .halted → s.started ++ pend s.pc ++ inners s.inbox = offered ls

/-- the sending side of a step: what is put into the mailbox -/
def mail : Label ω α → List (Msg ω)
  | .outer (.next xs) => [.inner xs]
  | .outer .completed => [.completed]
  | .inner id .completed => [.innerCompleted id]
  | .cancel => [.dispose]
  | _ => []

/-- calls from outside -/
def Outside : Label ω α → Prop
  | .outer _ | .inner _ _ | .cancel => True
  | _ => False

/-- from the outside, one can only put something into the mailbox and post -/
theorem step_outside {s s' : State ω} {l : Label ω α} {o : List (Notif α)} (ho : Outside l)
    (h : step honour s l = some (s', o)) :
    s' = { s with inbox := s.inbox ++ mail l } ∧ o = arrivals [l] := by
  cases l with
  | outer n =>
    cases n <;> (simp only [step, Option.some.injEq, Prod.mk.injEq] at h; obtain ⟨rfl, rfl⟩ := h; simp [mail, arrivals])
  | inner k n =>
    simp only [step] at h
    split at h
    · cases n <;> (simp only [Option.some.injEq, Prod.mk.injEq] at h; obtain ⟨rfl, rfl⟩ := h; simp [mail, arrivals])
    · cases h
  | cancel => simp only [step, Option.some.injEq, Prod.mk.injEq] at h; obtain ⟨rfl, rfl⟩ := h; simp [mail, arrivals]
  | _ => exact ho.elim

theorem inners_mail (l : Label ω α) : inners (mail l) = offered [l] := by
  cases l with
  | outer n => cases n <;> rfl
  | inner k n => cases n <;> rfl
  | _ => rfl

theorem order_step {ls : List (Label ω α)} {s s' : State ω} {l : Label ω α} {o : List (Notif α)}
    (hi : Order ls s) (hs : step honour s l = some (s', o)) : Order (ls ++ [l]) s' := by
  by_cases hout : Outside l
  · obtain ⟨rfl, -⟩ := step_outside hout hs
    refine ⟨hi.pre.trans (by rw [offered_snoc]; exact List.prefix_append ..), fun hp => ?_⟩
    dsimp only at hp ⊢
    rw [inners_append, offered_snoc, ← hi.eq hp, inners_mail]; simp
  · have hoff : offered (ls ++ [l]) = offered ls := by
      rw [offered_snoc]
      cases l with
      | outer n => exact (hout trivial).elim
      | _ => simp [offered]
    have key : s'.pc ≠ .halted → s'.started ++ pend s'.pc ++ inners s'.inbox = offered ls := by
      cases l with
      | receive =>
        simp only [step] at hs
        split at hs
        next msg q hp hq =>
          have he := hi.eq (by simp [hp])
          rw [hp, hq] at he
          have hs := congrArg Prod.fst (Option.some.inj hs)
          dsimp only at hs
          rw [← hs]
          intro _
          cases msg with
          | inner xs =>
            simp only [update]
            split <;> simpa [pend, inners] using he
          | innerCompleted k => simp only [update]; split <;> simpa [pend, inners, hp] using he
          | completed => simpa [update, pend, inners, hp] using he
          | dispose => simp only [update]; split <;> simpa [pend, inners, hp] using he
        next => cases hs
      | subscribed =>
        simp only [step] at hs
        split at hs
        next hp =>
          simp only [Option.some.injEq, Prod.mk.injEq] at hs
          obtain ⟨rfl, -⟩ := hs
          intro _
          simpa [hp, pend] using hi.eq (by simp [hp])
        next => cases hs
      | subscribeFails =>
        simp only [step] at hs
        split at hs
        · simp only [Option.some.injEq, Prod.mk.injEq] at hs; obtain ⟨rfl, -⟩ := hs; simp
        · cases hs
      | disposed =>
        simp only [step] at hs
        split at hs
        next hp =>
          simp only [Option.some.injEq, Prod.mk.injEq] at hs
          obtain ⟨rfl, -⟩ := hs
          intro _
          simpa [hp, pend] using hi.eq (by simp [hp])
        next hp =>
          simp only [Option.some.injEq, Prod.mk.injEq] at hs
          obtain ⟨rfl, -⟩ := hs
          intro _
          simpa [hp, pend] using hi.eq (by simp [hp])
        next => cases hs
      | disposeFails =>
        simp only [step] at hs
        split at hs
        · simp only [Option.some.injEq, Prod.mk.injEq] at hs; obtain ⟨rfl, -⟩ := hs; simp
        · simp only [Option.some.injEq, Prod.mk.injEq] at hs; obtain ⟨rfl, -⟩ := hs; simp
        · cases hs
      | _ => exact (hout trivial).elim
    refine ⟨?_, fun hp => by rw [hoff]; exact key hp⟩
    by_cases hp : s'.pc = .halted
    · rw [hoff]
      have : s'.started = s.started := by
        cases l with
        | receive =>
          simp only [step] at hs
          split at hs
          next msg q hp' hq =>
            have hs := congrArg Prod.fst (Option.some.inj hs)
            dsimp only at hs
            rw [← hs] at hp
            cases msg with
            | inner xs => simp only [update] at hp; split at hp <;> cases hp
            | innerCompleted k => simp only [update] at hp; split at hp <;> simp [hp'] at hp
            | completed => simp [update, hp'] at hp
            | dispose => simp only [update] at hp; split at hp <;> simp [hp'] at hp
          next => cases hs
        | subscribed =>
          simp only [step] at hs
          split at hs
          · simp only [Option.some.injEq, Prod.mk.injEq] at hs; obtain ⟨rfl, -⟩ := hs; rfl
          · cases hs
        | subscribeFails =>
          simp only [step] at hs
          split at hs
          · simp only [Option.some.injEq, Prod.mk.injEq] at hs; obtain ⟨rfl, -⟩ := hs; rfl
          · cases hs
        | disposed =>
          simp only [step] at hs
          split at hs
          · simp only [Option.some.injEq, Prod.mk.injEq] at hs; obtain ⟨rfl, -⟩ := hs; cases hp
          · simp only [Option.some.injEq, Prod.mk.injEq] at hs; obtain ⟨rfl, -⟩ := hs; cases hp
          · cases hs
        | disposeFails =>
          simp only [step] at hs
          split at hs
          · simp only [Option.some.injEq, Prod.mk.injEq] at hs; obtain ⟨rfl, -⟩ := hs; rfl
          · simp only [Option.some.injEq, Prod.mk.injEq] at hs; obtain ⟨rfl, -⟩ := hs; rfl
          · cases hs
        | _ => exact (hout trivial).elim
      rw [this]; exact hi.pre
    · rw [hoff, ← key hp, List.append_assoc]; exact List.prefix_append ..

theorem order_run {ls : List (Label ω α)} {s : State ω} {posts : List (Notif α)}
    (hr : LTS.run (switchLatest honour).solo (State.initial, []) ls = some (s, posts)) : Order ls s := by
  refine LTS.inv_hist (fun ls (c : State ω × List (Notif α)) => Order ls c.1)
    ⟨List.nil_prefix, fun _ => rfl⟩ ?_ hr
  rintro ls ⟨s, posts⟩ l ⟨s', posts'⟩ ih hs
  simp only [Producer.solo, switchLatest, Option.map_eq_some_iff, Prod.mk.injEq] at hs
  obtain ⟨⟨t, o⟩, h1, rfl, rfl⟩ := hs
  exact order_step ih h1

theorem mem_outerCalls {ls : List (Label ω α)} {n : Notif ω} : .outer n ∈ ls ↔ n ∈ outerCalls ls := by
  simp only [outerCalls, List.mem_filterMap]
  constructor
  · intro h; exact ⟨_, h, rfl⟩
  · rintro ⟨l, hl, h⟩
    split at h
    · cases h; exact hl
    · cases h

theorem fin_of_mem_completed {ns : List (Notif α)} (hg : Grammar ns) (h : .completed ∈ ns) :
    (story ns).fin = .done := by
  obtain ⟨⟨vs, f⟩, rfl⟩ := hg
  rw [story_events]
  cases f <;> simp [Story.events] at h ⊢

/-- nothing comes after the completion of the source -/
theorem Lawful.ended {ls : List (Label ω α)} {l : Label ω α} (hw : Lawful (ls ++ [l]))
    (h : .outer .completed ∈ ls) (n : Notif ω) : l ≠ .outer n := by
  rintro rfl
  have h1 := hw.outer
  rw [outerCalls_snoc] at h1
  have h2 := grammar_snoc h1
  rw [fin_of_mem_completed hw.of_append.outer (mem_outerCalls.mp h)] at h2
  cases h2

theorem offered_eq_sent {ls : List (Label ω α)} (hw : Lawful ls) : offered ls = sent ls := by
  have : ∀ ls : List (Label ω α), offered ls = (outerCalls ls).filterMap fun | .next xs => some xs | _ => none := by
    intro ls
    rw [offered, outerCalls, List.filterMap_filterMap]
    congr 1; funext l
    cases l with
    | outer n => cases n <;> rfl
    | _ => rfl
  rw [this, sent]
  obtain ⟨⟨vs, f⟩, h⟩ := hw.outer
  rw [h, story_events]
  have h1 : (vs.map (Notif.next : ω → Notif ω)).filterMap (fun | .next xs => some xs | _ => none) = vs := by
    rw [List.filterMap_map]; exact (List.filterMap_some (l := vs))
  have h2 : (f.events : List (Notif ω)).filterMap (fun | .next xs => some xs | _ => none) = [] := by
    cases f <;> rfl
  rw [Story.events, List.filterMap_append, h1, h2, List.append_nil]

/-! ## completion, without disposal -/

structure Quiet (ls : List (Label ω α)) (s : State ω) (posts : List (Notif α)) : Prop where
  nostop : s.isStopped = false
  nodisp : .dispose ∉ s.inbox
  nodisp' : ∀ i, s.pc ≠ .disposing i
  fresh : s.pc = .waiting → s.current = none → s.started = []
  compIn : .completed ∈ s.inbox → .outer .completed ∈ ls
  after : ∀ p q, s.inbox = p ++ .completed :: q → inners q = [] ∧ .completed ∉ q
  posted : .completed ∈ posts → .outer .completed ∈ ls ∧ offered ls = [] ∧ .completed ∉ s.inbox
  shape : posts = arrivals ls ∨ posts = arrivals ls ++ [.completed]

theorem after_snoc {inbox m : List (Msg ω)}
    (h : ∀ p q, inbox = p ++ .completed :: q → inners q = [] ∧ .completed ∉ q)
    (hm : m = [] ∨ ∃ x, m = [x] ∧ (.completed ∈ inbox → inners m = [] ∧ .completed ∉ m)) :
    ∀ p q, inbox ++ m = p ++ .completed :: q → inners q = [] ∧ .completed ∉ q := by
  intro p q he
  rcases hm with rfl | ⟨x, rfl, hx⟩
  · exact h p q (by simpa using he)
  · rcases List.eq_nil_or_concat q with rfl | ⟨q', y, rfl⟩
    · simp [inners]
    · rw [List.concat_eq_append] at he ⊢
      have he' : inbox ++ [x] = (p ++ .completed :: q') ++ [y] := by simpa using he
      obtain ⟨h1, h2⟩ := List.append_inj' he' rfl
      obtain ⟨h3, h4⟩ := h p q' h1
      obtain ⟨h5, h6⟩ := hx (by rw [h1]; simp)
      cases h2
      rw [inners_append, h3, h5]
      exact ⟨rfl, fun h => (List.mem_append.mp h).elim h4 h6⟩

theorem quiet_step {ls : List (Label ω α)} {s s' : State ω} {posts : List (Notif α)} {l : Label ω α}
    {o : List (Notif α)} (ho : Order ls s) (hi : Quiet ls s posts)
    (hs : step honour s l = some (s', o)) (hw : Lawful (ls ++ [l])) (hc : l ≠ .cancel) :
    Quiet (ls ++ [l]) s' (posts ++ o) := by
  obtain ⟨nostop, nodisp, nodisp', fresh, compIn, after, posted, shape⟩ := hi
  have harr : arrivals (ls ++ [l]) = arrivals ls ++ arrivals [l] := Merge.arrivals_snoc ls l
  -- no inner observable runs once completion was posted
  have hnone : .completed ∈ posts → offered [l] = [] ∧ .completed ∉ mail l ∧ arrivals [l] = [] := by
    intro h
    obtain ⟨h1, h2, h3⟩ := posted h
    have hst : s.started = [] := List.prefix_nil.mp (h2 ▸ ho.pre)
    have hne := Lawful.ended hw h1
    cases l with
    | outer n => exact absurd rfl (hne n)
    | inner k n =>
      simp only [step, hst, List.length_nil] at hs
      split at hs
      · omega
      · cases hs
    | _ => simp [offered, mail, arrivals]
  by_cases hout : Outside l
  · obtain ⟨rfl, rfl⟩ := step_outside hout hs
    have hna : .completed ∉ arrivals [l] := Merge.arrivals_noDone [l]
    refine ⟨nostop, ?_, nodisp', fresh, ?_, ?_, ?_, ?_⟩
    · intro h
      rcases List.mem_append.mp h with h | h
      · exact nodisp h
      · cases l with
        | outer n => cases n <;> simp [mail] at h
        | inner k n => cases n <;> simp [mail] at h
        | cancel => exact hc rfl
        | _ => simp [mail] at h
    · intro h
      rcases List.mem_append.mp h with h | h
      · exact List.mem_append_left _ (compIn h)
      · cases l with
        | outer n => cases n <;> simp [mail] at h ⊢
        | inner k n => cases n <;> simp [mail] at h
        | cancel => simp [mail] at h
        | _ => simp [mail] at h
    · refine after_snoc after ?_
      cases l with
      | outer n =>
        cases n with
        | error e => exact .inl rfl
        | next xs => exact .inr ⟨_, rfl, fun h => absurd rfl (Lawful.ended hw (compIn h) _)⟩
        | completed => exact .inr ⟨_, rfl, fun h => absurd rfl (Lawful.ended hw (compIn h) _)⟩
      | inner k n =>
        cases n with
        | error e => exact .inl rfl
        | next xs => exact .inl rfl
        | completed => exact .inr ⟨_, rfl, fun _ => by simp [inners, mail]⟩
      | cancel => exact absurd rfl hc
      | _ => exact .inl rfl
    · intro h
      have h : .completed ∈ posts := (List.mem_append.mp h).elim (fun h => h) fun h => absurd h hna
      obtain ⟨h1, h2, h3⟩ := posted h
      obtain ⟨h4, h5, h6⟩ := hnone h
      refine ⟨List.mem_append_left _ h1, by rw [offered_snoc, h2, h4]; rfl, fun h => ?_⟩
      exact (List.mem_append.mp h).elim h3 h5
    · rw [harr]
      rcases shape with h | h
      · left; rw [h]
      · right
        rw [(hnone (by rw [h]; simp)).2.2, h]; simp
  · have hoff : offered (ls ++ [l]) = offered ls := by
      rw [offered_snoc]
      cases l with
      | outer n => exact (hout trivial).elim
      | _ => simp [offered]
    have hal : arrivals (ls ++ [l]) = arrivals ls := by
      rw [harr]
      cases l with
      | outer n => exact (hout trivial).elim
      | inner k n => exact (hout trivial).elim
      | _ => simp [arrivals]
    have hmono : .outer .completed ∈ ls → .outer .completed ∈ ls ++ [l] := List.mem_append_left _
    cases l with
    | receive =>
      simp only [step] at hs
      split at hs
      next msg q hp hq =>
        have hs := Option.some.inj hs
        have h1 : .dispose ∉ q := fun h => nodisp (by rw [hq]; simp [h])
        have h2 : .completed ∈ q → .outer .completed ∈ ls := fun h => compIn (by rw [hq]; simp [h])
        have h3 : ∀ p r, q = p ++ .completed :: r → inners r = [] ∧ .completed ∉ r :=
          fun p r h => after (msg :: p) r (by rw [hq, h]; rfl)
        have h4 : .completed ∈ posts → .outer .completed ∈ ls ++ [.receive] ∧
            offered (ls ++ [.receive]) = [] ∧ .completed ∉ q := fun h => by
          obtain ⟨a, b, c⟩ := posted h
          exact ⟨hmono a, by rw [hoff, b], fun h => c (by rw [hq]; simp [h])⟩
        have base : Quiet (ls ++ [.receive]) { s with inbox := q } posts :=
          ⟨nostop, h1, nodisp', fresh, fun h => hmono (h2 h), h3, h4, by rw [hal]; exact shape⟩
        cases msg with
        | inner xs =>
          have hoff' : offered ls ≠ [] := by
            have := ho.eq (by simp [hp])
            rw [hq] at this
            rw [← this]; simp [inners]
          simp only [update] at hs
          split at hs
          · simp only [Prod.mk.injEq] at hs
            obtain ⟨rfl, rfl⟩ := hs
            rw [List.append_nil]
            exact ⟨nostop, h1, by simp, by simp, fun h => hmono (h2 h), h3, h4, base.shape⟩
          · simp only [Prod.mk.injEq] at hs
            obtain ⟨rfl, rfl⟩ := hs
            rw [List.append_nil]
            exact ⟨nostop, h1, by simp, by simp, fun h => hmono (h2 h), h3, h4, base.shape⟩
        | innerCompleted k =>
          simp only [update, nostop, Bool.false_eq_true, false_and, if_false, Prod.mk.injEq] at hs
          obtain ⟨rfl, rfl⟩ := hs
          rw [List.append_nil]
          rw [nostop] at base
          exact base
        | completed =>
          simp only [update, Prod.mk.injEq] at hs
          obtain ⟨rfl, rfl⟩ := hs
          split
          next hcur =>
            have hst := fresh hp hcur
            have hcl := compIn (by rw [hq]; simp)
            obtain ⟨ha, hb⟩ := after [] q hq
            have hoff' : offered ls = [] := by
              have := ho.eq (by simp [hp])
              rw [hq, hst, hp] at this
              rw [← this]
              simpa [pend, inners] using ha
            have hpn : .completed ∉ posts := fun h => (posted h).2.2 (by rw [hq]; simp)
            refine ⟨nostop, h1, nodisp', fresh, fun h => hmono (h2 h), h3, fun _ => ⟨hmono hcl, by rw [hoff, hoff'], hb⟩, .inr ?_⟩
            rw [hal]
            rcases shape with h | h
            · rw [h]
            · exact absurd (by rw [h]; simp) hpn
          next => rw [List.append_nil]; exact base
        | dispose => exact absurd (by rw [hq]; simp) nodisp
      next => cases hs
    | subscribed =>
      simp only [step] at hs
      split at hs
      next hp =>
        simp only [Option.some.injEq, Prod.mk.injEq] at hs
        obtain ⟨rfl, rfl⟩ := hs
        rw [List.append_nil]
        exact ⟨nostop, nodisp, by simp, by simp, fun h => hmono (compIn h), after, fun h => by
          rw [hoff]; exact ⟨hmono (posted h).1, (posted h).2⟩, by rw [hal]; exact shape⟩
      next => cases hs
    | subscribeFails =>
      simp only [step] at hs
      split at hs
      · simp only [Option.some.injEq, Prod.mk.injEq] at hs
        obtain ⟨rfl, rfl⟩ := hs
        rw [List.append_nil]
        exact ⟨nostop, nodisp, by simp, by simp, fun h => hmono (compIn h), after, fun h => by
          rw [hoff]; exact ⟨hmono (posted h).1, (posted h).2⟩, by rw [hal]; exact shape⟩
      · cases hs
    | disposed =>
      simp only [step] at hs
      split at hs
      · simp only [Option.some.injEq, Prod.mk.injEq] at hs
        obtain ⟨rfl, rfl⟩ := hs
        rw [List.append_nil]
        exact ⟨nostop, nodisp, by simp, by simp, fun h => hmono (compIn h), after, fun h => by
          rw [hoff]; exact ⟨hmono (posted h).1, (posted h).2⟩, by rw [hal]; exact shape⟩
      next hp => exact absurd hp (nodisp' _)
      · cases hs
    | disposeFails =>
      simp only [step] at hs
      split at hs
      · simp only [Option.some.injEq, Prod.mk.injEq] at hs
        obtain ⟨rfl, rfl⟩ := hs
        rw [List.append_nil]
        exact ⟨nostop, nodisp, by simp, by simp, fun h => hmono (compIn h), after, fun h => by
          rw [hoff]; exact ⟨hmono (posted h).1, (posted h).2⟩, by rw [hal]; exact shape⟩
      next hp => exact absurd hp (nodisp' _)
      · cases hs
    | _ => exact (hout trivial).elim

theorem quiet_run {ls : List (Label ω α)} {s : State ω} {posts : List (Notif α)}
    (hr : LTS.run (switchLatest honour).solo (State.initial, []) ls = some (s, posts))
    (hw : Lawful ls) (hc : .cancel ∉ ls) : Quiet ls s posts := by
  refine LTS.inv_reach (fun ls (c : State ω × List (Notif α)) => Lawful ls → .cancel ∉ ls →
    Quiet ls c.1 c.2) ?_ ?_ hr hw hc
  · intro _ _
    refine ⟨rfl, by simp [State.initial], by simp [State.initial], fun _ _ => rfl, by simp [State.initial],
      ?_, by simp, .inl rfl⟩
    intro p q h; simp [State.initial] at h
  · rintro ls ⟨s, posts⟩ l ⟨s', posts'⟩ hr ih hs hw hc
    simp only [Producer.solo, switchLatest, Option.map_eq_some_iff, Prod.mk.injEq] at hs
    obtain ⟨⟨t, o⟩, h1, rfl, rfl⟩ := hs
    simp only [List.mem_append, List.mem_singleton, not_or] at hc
    exact quiet_step (order_run hr) (ih hw.of_append hc.1) h1 hw (fun h => hc.2 h.symm)

/-- if the source offers nothing, the worker answers its completion -/
structure Bare (ls : List (Label ω α)) (s : State ω) (posts : List (Notif α)) : Prop where
  pc : s.pc = .waiting
  cur : s.current = none
  ans : .outer .completed ∈ ls → .completed ∈ s.inbox ∨ .completed ∈ posts

theorem bare_run {ls : List (Label ω α)} {s : State ω} {posts : List (Notif α)}
    (hr : LTS.run (switchLatest honour).solo (State.initial, []) ls = some (s, posts))
    (h0 : offered ls = []) : Bare ls s posts := by
  refine LTS.inv_reach (fun ls (c : State ω × List (Notif α)) => offered ls = [] →
    Bare ls c.1 c.2) (fun _ => ⟨rfl, rfl, by simp⟩) ?_ hr h0
  rintro ls ⟨s, posts⟩ l ⟨s', posts'⟩ hr ih hs h0
  simp only [Producer.solo, switchLatest, Option.map_eq_some_iff, Prod.mk.injEq] at hs
  obtain ⟨⟨t, o⟩, h1, rfl, rfl⟩ := hs
  rw [offered_snoc, List.append_eq_nil_iff] at h0
  obtain ⟨hpc, hcur, hans⟩ := ih h0.1
  have hord := order_run hr
  dsimp only at *
  by_cases hout : Outside l
  · obtain ⟨rfl, -⟩ := step_outside hout h1
    refine ⟨hpc, hcur, fun h => ?_⟩
    rcases List.mem_append.mp h with h | h
    · exact (hans h).imp (List.mem_append_left _) (List.mem_append_left _)
    · rw [List.mem_singleton] at h; subst h; left; simp [mail]
  · cases l with
    | receive =>
      simp only [step, hpc] at h1
      split at h1
      next msg q _ hq =>
        have h1 := Option.some.inj h1
        have hans' : .outer .completed ∈ ls ++ [Merge.Label.receive] → .completed ∈ msg :: q ∨ .completed ∈ posts := by
          intro h; rw [← hq]; exact hans (by simpa using h)
        cases msg with
        | inner xs =>
          exfalso
          have := hord.eq (by simp [hpc])
          rw [hq, h0.1] at this; simp [inners] at this
        | innerCompleted k =>
          simp only [update] at h1
          split at h1
          · simp only [Prod.mk.injEq] at h1; obtain ⟨rfl, rfl⟩ := h1
            exact ⟨rfl, rfl, fun h => by simp⟩
          · simp only [Prod.mk.injEq] at h1; obtain ⟨rfl, rfl⟩ := h1
            exact ⟨rfl, hcur, fun h => by have := hans' h; simpa using this⟩
        | completed =>
          simp only [update, hcur, if_true, Prod.mk.injEq] at h1; obtain ⟨rfl, rfl⟩ := h1
          exact ⟨rfl, rfl, fun h => by simp⟩
        | dispose =>
          simp only [update, hcur, Prod.mk.injEq] at h1; obtain ⟨rfl, rfl⟩ := h1
          exact ⟨rfl, rfl, fun h => by have := hans' h; simpa using this⟩
      next => cases h1
    | subscribed => simp [step, hpc] at h1
    | subscribeFails => simp [step, hpc] at h1
    | disposed => simp [step, hpc] at h1
    | disposeFails => simp [step, hpc] at h1
    | _ => exact (hout trivial).elim

/-! ## disposal -/

/-- the disposal is on its way, or done -/
def Ending (s : State ω) : Prop :=
  (∃ p q, s.inbox = p ++ .dispose :: q ∧ inners q = []) ∨
  (inners s.inbox = [] ∧ ((s.pc = .waiting ∧ s.current = none) ∨ ∃ i, s.pc = .disposing i))

theorem ending_step {s s' : State ω} {l : Label ω α} {o : List (Notif α)}
    (hi : Ending s) (hs : step honour s l = some (s', o)) (hl : ∀ xs, l ≠ .outer (.next xs))
    (hf : l ≠ .subscribeFails ∧ l ≠ .disposeFails) : Ending s' := by
  have hml : offered [l] = [] := by
    cases l with
    | outer n => cases n with
      | next xs => exact absurd rfl (hl xs)
      | _ => rfl
    | _ => rfl
  by_cases hout : Outside l
  · obtain ⟨rfl, -⟩ := step_outside hout hs
    rcases hi with ⟨p, q, h1, h2⟩ | ⟨h1, h2⟩
    · refine .inl ⟨p, q ++ mail l, ?_, ?_⟩
      · dsimp only; rw [h1]; simp
      · rw [inners_append, h2, inners_mail, hml]; rfl
    · refine .inr ⟨?_, h2⟩
      dsimp only; rw [inners_append, h1, inners_mail, hml]; rfl
  · cases l with
    | receive =>
      simp only [step] at hs
      split at hs
      next msg q hp hq =>
        have hs := congrArg Prod.fst (Option.some.inj hs)
        dsimp only at hs
        have hib : s'.inbox = q := by
          rw [← hs]
          cases msg with
          | inner xs => simp only [update]; split <;> rfl
          | innerCompleted k => simp only [update]; split <;> rfl
          | completed => rfl
          | dispose => simp only [update]; split <;> rfl
        have fin : inners q = [] → ((s'.pc = .waiting ∧ s'.current = none) ∨ ∃ i, s'.pc = .disposing i) → Ending s' :=
          fun h1 h2 => .inr ⟨by rw [hib]; exact h1, h2⟩
        rcases hi with ⟨p, r, h1, h2⟩ | ⟨h1, h2⟩
        · rw [hq] at h1
          cases p with
          | nil =>
            simp only [List.nil_append, List.cons.injEq] at h1
            obtain ⟨rfl, rfl⟩ := h1
            refine fin h2 ?_
            rw [← hs]
            simp only [update]
            split
            next i hc => exact .inr ⟨i, rfl⟩
            next hc => exact .inl ⟨hp, hc⟩
          | cons x p =>
            simp only [List.cons_append, List.cons.injEq] at h1
            obtain ⟨rfl, rfl⟩ := h1
            exact .inl ⟨p, r, hib, h2⟩
        · obtain ⟨-, hc⟩ : s.pc = .waiting ∧ s.current = none := by
            rcases h2 with h2 | ⟨i, h2⟩
            · exact h2
            · rw [hp] at h2; cases h2
          rw [hq] at h1
          have h1q : inners q = [] := by
            rw [show msg :: q = [msg] ++ q from rfl, inners_append, List.append_eq_nil_iff] at h1
            exact h1.2
          refine fin h1q ?_
          rw [← hs]
          cases msg with
          | inner xs => simp [inners] at h1
          | innerCompleted k => simp only [update]; split <;> exact .inl ⟨hp, by first | rfl | exact hc⟩
          | completed => exact .inl ⟨hp, hc⟩
          | dispose => simp only [update, hc]; exact .inl ⟨hp, by trivial⟩
      next => cases hs
    | subscribed =>
      simp only [step] at hs
      split at hs
      next hp =>
        simp only [Option.some.injEq, Prod.mk.injEq] at hs
        obtain ⟨rfl, -⟩ := hs
        rcases hi with h | ⟨h1, h2⟩
        · exact .inl h
        · rw [hp] at h2; simp at h2
      next => cases hs
    | disposed =>
      simp only [step] at hs
      split at hs
      next hp =>
        simp only [Option.some.injEq, Prod.mk.injEq] at hs
        obtain ⟨rfl, -⟩ := hs
        rcases hi with h | ⟨h1, h2⟩
        · exact .inl h
        · rw [hp] at h2; simp at h2
      next hp =>
        simp only [Option.some.injEq, Prod.mk.injEq] at hs
        obtain ⟨rfl, -⟩ := hs
        rcases hi with h | ⟨h1, h2⟩
        · exact .inl h
        · exact .inr ⟨h1, .inl ⟨rfl, rfl⟩⟩
      next => cases hs
    | subscribeFails => exact absurd rfl hf.1
    | disposeFails => exact absurd rfl hf.2
    | _ => exact (hout trivial).elim

theorem not_halted_run {ls : List (Label ω α)} {s : State ω} {posts : List (Notif α)}
    (hr : LTS.run (switchLatest honour).solo (State.initial, []) ls = some (s, posts))
    (hf : NoFailure ls) : s.pc ≠ .halted := by
  refine LTS.inv_hist (fun ls (c : State ω × List (Notif α)) => NoFailure ls → c.1.pc ≠ .halted) ?_ ?_ hr hf
  · simp [State.initial]
  · rintro ls ⟨s, posts⟩ l ⟨s', posts'⟩ ih hs hf
    rw [Merge.noFailure_snoc] at hf
    have ih := ih hf.1
    simp only [Producer.solo, switchLatest, Option.map_eq_some_iff, Prod.mk.injEq] at hs
    obtain ⟨⟨t, o⟩, h1, rfl, rfl⟩ := hs
    dsimp only at *
    by_cases hout : Outside l
    · obtain ⟨rfl, -⟩ := step_outside hout h1; exact ih
    · cases l with
      | receive =>
        simp only [step] at h1
        split at h1
        next msg q hp hq =>
          have h1 := congrArg Prod.fst (Option.some.inj h1)
          dsimp only at h1
          rw [← h1]
          cases msg with
          | inner xs => simp only [update]; split <;> simp
          | innerCompleted k => simp only [update]; split <;> simp [hp]
          | completed => simp [update, hp]
          | dispose => simp only [update]; split <;> simp [hp]
        next => cases h1
      | subscribed =>
        simp only [step] at h1; split at h1
        · simp only [Option.some.injEq, Prod.mk.injEq] at h1; rw [← h1.1]; simp
        · cases h1
      | disposed =>
        simp only [step] at h1; split at h1
        · simp only [Option.some.injEq, Prod.mk.injEq] at h1; rw [← h1.1]; simp
        · simp only [Option.some.injEq, Prod.mk.injEq] at h1; rw [← h1.1]; simp
        · cases h1
      | subscribeFails => exact absurd rfl hf.2.1
      | disposeFails => exact absurd rfl hf.2.2
      | _ => exact (hout trivial).elim

theorem started_mono {s s' : State ω} {l : Label ω α} {o : List (Notif α)}
    (h1 : step honour s l = some (s', o)) : s.started <+: s'.started := by
  by_cases hout : Outside l
  · obtain ⟨rfl, -⟩ := step_outside hout h1; exact List.prefix_rfl
  · cases l with
    | receive =>
      simp only [step] at h1
      split at h1
      next msg q hp hq =>
        have h1 := congrArg Prod.fst (Option.some.inj h1)
        dsimp only at h1
        rw [← h1]
        cases msg with
        | inner xs => simp only [update]; split <;> simp
        | innerCompleted k => simp only [update]; split <;> simp
        | completed => simp [update]
        | dispose => simp only [update]; split <;> simp
      next => cases h1
    | subscribed =>
      simp only [step] at h1; split at h1
      · simp only [Option.some.injEq, Prod.mk.injEq] at h1; rw [← h1.1]; simp
      · cases h1
    | disposed =>
      simp only [step] at h1; split at h1
      · simp only [Option.some.injEq, Prod.mk.injEq] at h1; rw [← h1.1]; simp
      · simp only [Option.some.injEq, Prod.mk.injEq] at h1; rw [← h1.1]; simp
      · cases h1
    | subscribeFails =>
      simp only [step] at h1; split at h1
      · simp only [Option.some.injEq, Prod.mk.injEq] at h1; rw [← h1.1]; simp
      · cases h1
    | disposeFails =>
      simp only [step] at h1; split at h1
      · simp only [Option.some.injEq, Prod.mk.injEq] at h1; rw [← h1.1]; simp
      · simp only [Option.some.injEq, Prod.mk.injEq] at h1; rw [← h1.1]; simp
      · cases h1
    | _ => exact (hout trivial).elim

/-! ## without disposal, all older ones are disposed -/

structure Tidy (s : State ω) : Prop where
  nostop : s.isStopped = false
  nodisp : .dispose ∉ s.inbox
  nodisp' : ∀ i, s.pc ≠ .disposing i
  fresh : s.pc = .waiting → s.current = none → s.started = []
  older : ∀ i, 1 ≤ i → i < s.started.length → i ∈ s.disposed

theorem tidy_step {ls : List (Label ω α)} {s s' : State ω} {l : Label ω α} {o : List (Notif α)}
    (hinv : Inv ls s) (hi : Tidy s) (hs : step honour s l = some (s', o)) (hc : l ≠ .cancel) : Tidy s' := by
  obtain ⟨nostop, nodisp, nodisp', fresh, older⟩ := hi
  by_cases hout : Outside l
  · obtain ⟨rfl, -⟩ := step_outside hout hs
    refine ⟨nostop, fun h => ?_, nodisp', fresh, older⟩
    rcases List.mem_append.mp h with h | h
    · exact nodisp h
    · cases l with
      | outer n => cases n <;> simp [mail] at h
      | inner k n => cases n <;> simp [mail] at h
      | cancel => exact hc rfl
      | _ => simp [mail] at h
  · cases l with
    | receive =>
      simp only [step] at hs
      split at hs
      next msg q hp hq =>
        have hs := congrArg Prod.fst (Option.some.inj hs)
        dsimp only at hs
        have h1 : .dispose ∉ q := fun h => nodisp (by rw [hq]; simp [h])
        have base : Tidy { s with inbox := q } := ⟨nostop, h1, nodisp', fresh, older⟩
        rw [← hs]
        cases msg with
        | inner xs =>
          simp only [update]
          split
          · exact ⟨nostop, h1, by simp, by simp, older⟩
          next hc =>
            have := fresh hp hc
            refine ⟨nostop, h1, by simp, by simp, ?_⟩
            simp only [this, List.nil_append, List.length_singleton]
            intro i h1 h2; omega
        | innerCompleted k => simp only [update, nostop, Bool.false_eq_true, false_and, if_false]; rw [nostop] at base; exact base
        | completed => exact base
        | dispose => exact absurd (by rw [hq]; simp) nodisp
      next => cases hs
    | subscribed =>
      simp only [step] at hs
      split at hs
      · simp only [Option.some.injEq, Prod.mk.injEq] at hs; obtain ⟨rfl, -⟩ := hs
        exact ⟨nostop, nodisp, by simp, by simp, older⟩
      · cases hs
    | subscribeFails =>
      simp only [step] at hs
      split at hs
      · simp only [Option.some.injEq, Prod.mk.injEq] at hs; obtain ⟨rfl, -⟩ := hs
        exact ⟨nostop, nodisp, by simp, by simp, older⟩
      · cases hs
    | disposed =>
      simp only [step] at hs
      split at hs
      next old xs hp =>
        simp only [Option.some.injEq, Prod.mk.injEq] at hs; obtain ⟨rfl, -⟩ := hs
        refine ⟨nostop, nodisp, by simp, by simp, fun i h1 h2 => ?_⟩
        simp only [List.length_append, List.length_singleton] at h2
        by_cases h3 : i < s.started.length
        · exact List.mem_append_left _ (older i h1 h3)
        · simp [(hinv.old _ _ hp).1, show i = s.started.length by omega]
      next hp => exact absurd hp (nodisp' _)
      · cases hs
    | disposeFails =>
      simp only [step] at hs
      split at hs
      · simp only [Option.some.injEq, Prod.mk.injEq] at hs; obtain ⟨rfl, -⟩ := hs
        exact ⟨nostop, nodisp, by simp, by simp, older⟩
      next hp => exact absurd hp (nodisp' _)
      · cases hs
    | _ => exact (hout trivial).elim

theorem tidy_run {ls : List (Label ω α)} {s : State ω} {posts : List (Notif α)}
    (hr : LTS.run (switchLatest honour).solo (State.initial, []) ls = some (s, posts))
    (hc : .cancel ∉ ls) : Tidy s := by
  refine LTS.inv_reach (fun ls (c : State ω × List (Notif α)) => .cancel ∉ ls → Tidy c.1) ?_ ?_ hr hc
  · intro _
    exact ⟨rfl, by simp [State.initial], by simp [State.initial], fun _ _ => rfl, by simp [State.initial]⟩
  · rintro ls ⟨s, posts⟩ l ⟨s', posts'⟩ hr ih hs hc
    simp only [Producer.solo, switchLatest, Option.map_eq_some_iff, Prod.mk.injEq] at hs
    obtain ⟨⟨t, o⟩, h1, rfl, rfl⟩ := hs
    simp only [List.mem_append, List.mem_singleton, not_or] at hc
    exact tidy_step (inv_run hr) (ih hc.1) h1 (fun h => hc.2 h.symm)

end Aio.Switch
