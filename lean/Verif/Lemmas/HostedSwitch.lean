import Verif.Model.HostedSwitch
import Verif.Lemmas.HostedNested
/-!
# `switch_latest` on the `VirtualTimeEventLoop`
-/

namespace Aio
variable {SO LO TO SI LI TI ω α : Type}

theorem snoc_split {X : Type} {a b xs : List X} {x y : X} (h : xs ++ [x] = a ++ y :: b) : (∃ b', xs = a ++ y :: b') ∨ (xs = a ∧ x = y ∧ b = []) := by
  rcases List.append_eq_append_iff.mp h with ⟨c, h1, h2⟩ | ⟨c, h1, h2⟩
  · cases c with
    | nil => simp at h1 h2; exact .inr ⟨h1.symm, h2.1, h2.2⟩
    | cons z c => simp at h2
  · cases c with
    | nil => simp at h1 h2; exact .inr ⟨h1, h2.1.symm, h2.2⟩
    | cons z c =>
      simp only [List.cons_append, List.cons.injEq] at h2
      exact .inl ⟨c, by rw [h1, h2.1]⟩

namespace Switch
open Merge (Label)

/-- The ids of inner observables start with 1. -/
structure Pos (s : State ω) : Prop where
  current : ∀ i, s.current = some i → 1 ≤ i
  replacing : ∀ i xs, s.pc = .replacing i xs → 1 ≤ i
  disposing : ∀ i, s.pc = .disposing i → 1 ≤ i
  disposed : ∀ i ∈ s.disposed, 1 ≤ i

theorem pos_step {honour : Bool} {s s' : State ω} {l : Label ω α} {out : List (Notif α)} (h : Pos s) (hs : step honour s l = some (s', out)) : Pos s' := by
  have mail : ∀ q, Pos { s with inbox := q } := fun q => ⟨h.current, h.replacing, h.disposing, h.disposed⟩
  cases l with
  | outer n => cases n <;> (simp only [step, Option.some.injEq, Prod.mk.injEq] at hs; obtain ⟨rfl, -⟩ := hs; first | exact h | exact mail _)
  | inner k n =>
    simp only [step] at hs
    split at hs
    · cases n <;> (simp only [Option.some.injEq, Prod.mk.injEq] at hs; obtain ⟨rfl, -⟩ := hs; first | exact h | exact mail _)
    · cases hs
  | cancel => simp only [step, Option.some.injEq, Prod.mk.injEq] at hs; obtain ⟨rfl, -⟩ := hs; exact mail _
  | receive =>
    simp only [step] at hs
    split at hs
    next msg q hp hq =>
      simp only [Option.some.injEq] at hs
      cases msg with
      | inner xs =>
        simp only [update] at hs
        split at hs <;> (obtain ⟨rfl, -⟩ := Prod.mk.inj hs)
        next i hi => exact ⟨h.current, fun j ys hj => by cases hj; exact h.current _ hi, by simp, h.disposed⟩
        next => exact ⟨h.current, by simp, by simp, h.disposed⟩
      | innerCompleted k =>
        simp only [update] at hs
        split at hs <;> (obtain ⟨rfl, -⟩ := Prod.mk.inj hs)
        · exact ⟨by simp, h.replacing, h.disposing, h.disposed⟩
        · exact mail _
      | completed => simp only [update] at hs; obtain ⟨rfl, -⟩ := Prod.mk.inj hs; exact mail _
      | dispose =>
        simp only [update] at hs
        split at hs <;> (obtain ⟨rfl, -⟩ := Prod.mk.inj hs)
        next i hi => exact ⟨h.current, by simp, fun j hj => by cases hj; exact h.current _ hi, h.disposed⟩
        next => exact ⟨h.current, h.replacing, h.disposing, h.disposed⟩
    next => cases hs
  | subscribed =>
    simp only [step] at hs; split at hs <;> simp at hs
    obtain ⟨rfl, -⟩ := hs
    exact ⟨fun i hi => by cases hi; omega, by simp, by simp, h.disposed⟩
  | subscribeFails =>
    simp only [step] at hs; split at hs <;> simp at hs
    obtain ⟨rfl, -⟩ := hs
    exact ⟨h.current, by simp, by simp, h.disposed⟩
  | disposed =>
    simp only [step] at hs; split at hs <;> simp at hs <;> (obtain ⟨rfl, -⟩ := hs)
    next old xs hp =>
      refine ⟨h.current, by simp, by simp, fun i hi => ?_⟩
      rcases List.mem_append.mp hi with hi | hi
      · exact h.disposed i hi
      · rw [List.mem_singleton.mp hi]; exact h.replacing _ _ hp
    next old hp =>
      refine ⟨by simp, by simp, by simp, fun i hi => ?_⟩
      rcases List.mem_append.mp hi with hi | hi
      · exact h.disposed i hi
      · rw [List.mem_singleton.mp hi]; exact h.disposing _ hp
  | disposeFails =>
    simp only [step] at hs; split at hs <;> simp at hs <;> (obtain ⟨rfl, -⟩ := hs; exact ⟨h.current, by simp, by simp, h.disposed⟩)

theorem pos_run {honour : Bool} {h : List (Label ω α)} {s : State ω} {posts : List (Notif α)} (hr : LTS.run (switchLatest honour).solo (State.initial, []) h = some (s, posts)) :
    Pos s := by
  refine LTS.inv (fun x : State ω × List (Notif α) => Pos x.1) (s0 := (State.initial, [])) ?_ ?_ hr
  · constructor <;> simp [State.initial]
  · rintro ⟨s, posts⟩ l ⟨s', posts'⟩ ih hs
    simp only [Producer.solo, switchLatest, Option.map_eq_some_iff, Prod.mk.injEq] at hs
    obtain ⟨⟨t, o⟩, h1, rfl, rfl⟩ := hs
    exact pos_step ih h1

/-- Disposed inner observables were subscribed before. -/
theorem disposed_run {honour : Bool} {h : List (Label ω α)} {s : State ω} {posts : List (Notif α)} (hr : LTS.run (switchLatest honour).solo (State.initial, []) h = some (s, posts)) :
    ∀ i ∈ s.disposed, i ≤ s.started.length := by
  refine LTS.inv_reach (step := (switchLatest (ω := ω) (α := α) honour).solo) (s0 := (State.initial, [])) (fun _ x => ∀ i ∈ x.1.disposed, i ≤ x.1.started.length) (by simp [State.initial]) ?_ hr
  rintro ls ⟨s, posts⟩ l ⟨s', posts'⟩ hr ih hs
  simp only [Producer.solo, switchLatest, Option.map_eq_some_iff, Prod.mk.injEq] at hs
  obtain ⟨⟨t, o⟩, h1, rfl, rfl⟩ := hs
  have hi := inv_run hr
  dsimp only at ih ⊢
  cases l with
  | outer n => cases n <;> (simp only [step, Option.some.injEq, Prod.mk.injEq] at h1; obtain ⟨rfl, -⟩ := h1; exact ih)
  | inner k n =>
    simp only [step] at h1
    split at h1
    · cases n <;> (simp only [Option.some.injEq, Prod.mk.injEq] at h1; obtain ⟨rfl, -⟩ := h1; exact ih)
    · cases h1
  | cancel => simp only [step, Option.some.injEq, Prod.mk.injEq] at h1; obtain ⟨rfl, -⟩ := h1; exact ih
  | receive =>
    simp only [step] at h1
    split at h1
    next msg q hp hq =>
      simp only [Option.some.injEq] at h1
      cases msg with
      | inner xs =>
        simp only [update] at h1
        split at h1 <;> (obtain ⟨rfl, -⟩ := Prod.mk.inj h1)
        · exact ih
        · intro i hi; have := ih i hi; simp; omega
      | innerCompleted k => simp only [update] at h1; split at h1 <;> (obtain ⟨rfl, -⟩ := Prod.mk.inj h1; exact ih)
      | completed => simp only [update] at h1; obtain ⟨rfl, -⟩ := Prod.mk.inj h1; exact ih
      | dispose => simp only [update] at h1; split at h1 <;> (obtain ⟨rfl, -⟩ := Prod.mk.inj h1; exact ih)
    next => cases h1
  | subscribed => simp only [step] at h1; split at h1 <;> simp at h1; obtain ⟨rfl, -⟩ := h1; exact ih
  | subscribeFails => simp only [step] at h1; split at h1 <;> simp at h1; obtain ⟨rfl, -⟩ := h1; exact ih
  | disposed =>
    simp only [step] at h1; split at h1 <;> simp at h1 <;> (obtain ⟨rfl, -⟩ := h1)
    next old xs hp =>
      intro i hj
      have := (hi.old _ _ hp).1
      rcases List.mem_append.mp hj with hj | hj
      · have := ih i hj; simp; omega
      · rw [List.mem_singleton.mp hj]; simp; omega
    next old hp =>
      intro i hj
      have := (hi.old' _ hp).1
      rcases List.mem_append.mp hj with hj | hj
      · exact ih i hj
      · rw [List.mem_singleton.mp hj]; simp; omega
  | disposeFails => simp only [step] at h1; split at h1 <;> simp at h1 <;> (obtain ⟨rfl, -⟩ := h1; exact ih)

theorem turn_some {honour : Bool} {s : State ω} :
    (turn (α := α) s = [] ∧ Settled s) ∨ ∃ l s' out, turn (α := α) s = [l] ∧ Nested.own l = true ∧ step honour s l = some (s', out) ∧ (l = .disposed ↔ replaced s ≠ none) := by
  obtain ⟨inbox, current, st, id, pc, started, disposed⟩ := s
  cases pc with
  | waiting =>
    cases inbox with
    | nil => exact .inl ⟨rfl, .inr ⟨rfl, rfl⟩⟩
    | cons m q => exact .inr ⟨.receive, _, _, rfl, rfl, rfl, by simp [replaced]⟩
  | replacing i xs => exact .inr ⟨.disposed, _, _, rfl, rfl, rfl, by simp [replaced]⟩
  | subscribing => exact .inr ⟨.subscribed, _, _, rfl, rfl, rfl, by simp [replaced]⟩
  | disposing i => exact .inr ⟨.disposed, _, _, rfl, rfl, rfl, by simp [replaced]⟩
  | halted => exact .inl ⟨rfl, .inl rfl⟩

end Switch

namespace Host
open Nested
variable {o : Clocked SO LO ω} {fam : ω → Nat → Clocked SI LI α} {disp : LI} {H : Host SO LO TO} {I : Host SI LI TI} {gone : SI → Prop} {honour : Bool}

/-- The segments that a step consists of. -/
def expand (disp : LI) (s : Nested SO (Switch.State ω) SI ω α) : Time (Nested.Label LO LI ω α) → List (Time (Nested.Label LO LI ω α))
  | .pass d => [.pass d]
  | .act l => (disposing disp s l).map .act

theorem latest_expand {s s' : Nested SO (Switch.State ω) SI ω α} {l} (h : (o.latest fam disp honour).step s l = some s') :
    LTS.run (o.switched fam honour).step s (expand disp s l) = some s' := by
  cases l with
  | pass d => exact LTS.run_cons.mpr ⟨s', h, rfl⟩
  | act l =>
    have h : LTS.run (o.switched fam honour).act s (disposing disp s l) = some s' := h
    have key : ∀ (as : List (Nested.Label LO LI ω α)) s, LTS.run (o.switched fam honour).step s (as.map .act) = LTS.run (o.switched fam honour).act s as := by
      intro as
      induction as with
      | nil => intro s; rfl
      | cons a as ih =>
        intro s
        simp only [List.map_cons, LTS.run, Clocked.step]
        cases (o.switched fam honour).act s a with
        | none => rfl
        | some x => exact ih x
    rw [expand, key]; exact h

theorem expand_cases (disp : LI) (s : Nested SO (Switch.State ω) SI ω α) (l : Time (Nested.Label LO LI ω α)) :
    expand disp s l = [l] ∨ ∃ k, Switch.replaced s.prod = some k ∧ l = .act (.own .disposed) ∧ expand disp s l = [.act (.inner k disp), .act (.own .disposed)] := by
  cases l with
  | pass d => exact .inl rfl
  | act l =>
    match l with
    | .own .disposed =>
      cases hk : Switch.replaced s.prod with
      | none => left; simp [expand, disposing, hk]
      | some k => right; exact ⟨k, rfl, rfl, by simp [expand, disposing, hk]⟩
    | .outer _ | .inner _ _ | .own (.outer _) | .own (.inner _ _) | .own .cancel | .own .receive | .own .subscribed | .own .subscribeFails | .own .disposeFails => exact .inl rfl

/-- `ls'` is the schedule `ls` with the segments that the worker causes in the inner observables. -/
structure Sim (o : Clocked SO LO ω) (fam : ω → Nat → Clocked SI LI α) (disp : LI) (honour : Bool) (ls : List (Time (Nested.Label LO LI ω α))) (s : Nested SO (Switch.State ω) SI ω α)
    (ls' : List (Time (Nested.Label LO LI ω α))) : Prop where
  run : LTS.run (o.switched fam honour).step (o.switched fam honour).init ls' = some s
  labels : ∀ l, Time.act l ∈ ls' → Time.act l ∈ ls ∨ ∃ k, l = .inner k disp
  passes : ∀ a d b x, ls' = a ++ .pass d :: b → LTS.run (o.switched fam honour).step (o.switched fam honour).init a = some x →
    ∃ a' b', ls = a' ++ .pass d :: b' ∧ LTS.run (o.latest fam disp honour).step (o.latest fam disp honour).init a' = some x
  disps : ∀ a k b x, ls' = a ++ .act (.inner k disp) :: b → LTS.run (o.switched fam honour).step (o.switched fam honour).init a = some x →
    Switch.replaced x.prod = some k ∨ .act (.inner k disp) ∈ ls

theorem Sim.snoc {ls s ls' l s'} (h : Sim o fam disp honour ls s ls') (hr : LTS.run (o.latest fam disp honour).step (o.latest fam disp honour).init ls = some s)
    (hs : (o.latest fam disp honour).step s l = some s') : Sim o fam disp honour (ls ++ [l]) s' (ls' ++ expand disp s l) := by
  have he := latest_expand hs
  refine ⟨LTS.run_append.mpr ⟨s, h.run, he⟩, ?_, ?_, ?_⟩
  · intro x hx
    rcases List.mem_append.mp hx with hx | hx
    · exact (h.labels x hx).imp (fun h => List.mem_append_left _ h) id
    · rcases expand_cases disp s l with h1 | ⟨k, -, rfl, h1⟩
      · rw [h1] at hx; exact .inl (List.mem_append_right _ hx)
      · rw [h1] at hx
        simp only [List.mem_cons, Time.act.injEq, List.not_mem_nil, or_false] at hx
        rcases hx with rfl | rfl
        · exact .inr ⟨k, rfl⟩
        · left; simp
  · intro a d b x hx ha
    have old : (∃ b', ls' = a ++ .pass d :: b') → ∃ a' b', ls ++ [l] = a' ++ .pass d :: b' ∧ LTS.run (o.latest fam disp honour).step (o.latest fam disp honour).init a' = some x := by
      rintro ⟨b', hb⟩
      obtain ⟨a', b', h1, h2⟩ := h.passes a d b' x hb ha
      exact ⟨a', b' ++ [l], by rw [h1]; simp, h2⟩
    rcases expand_cases disp s l with h1 | ⟨k, -, rfl, h1⟩
    · rw [h1] at hx
      rcases snoc_split hx with hx | ⟨rfl, rfl, -⟩
      · exact old hx
      · rw [h.run] at ha; cases ha
        exact ⟨ls, [], rfl, hr⟩
    · rw [h1, List.append_cons] at hx
      rcases snoc_split hx with ⟨b', hx⟩ | ⟨-, hx, -⟩
      · rcases snoc_split hx with hx | ⟨-, hx, -⟩
        · exact old hx
        · cases hx
      · cases hx
  · intro a k b x hx ha
    have old : (∃ b', ls' = a ++ .act (.inner k disp) :: b') → Switch.replaced x.prod = some k ∨ .act (.inner k disp) ∈ ls ++ [l] := by
      rintro ⟨b', hb⟩
      exact (h.disps a k b' x hb ha).imp id fun h => List.mem_append_left _ h
    rcases expand_cases disp s l with h1 | ⟨j, hj, rfl, h1⟩
    · rw [h1] at hx
      rcases snoc_split hx with hx | ⟨rfl, rfl, -⟩
      · exact old hx
      · right; simp
    · rw [h1, List.append_cons] at hx
      rcases snoc_split hx with ⟨b', hx⟩ | ⟨-, hx, -⟩
      · rcases snoc_split hx with hx | ⟨rfl, hx, -⟩
        · exact old hx
        · rw [h.run] at ha; cases ha
          cases hx
          exact .inl hj
      · cases hx

theorem latest_run {ls s} (hr : LTS.run (o.latest fam disp honour).step (o.latest fam disp honour).init ls = some s) : ∃ ls', Sim o fam disp honour ls s ls' := by
  refine LTS.inv_reach (step := (o.latest fam disp honour).step) (s0 := (o.latest fam disp honour).init) (fun ls s => ∃ ls', Sim o fam disp honour ls s ls') ?_ ?_ hr
  · exact ⟨[], rfl, by simp, by simp, by simp⟩
  · rintro ls s l s' hr ⟨ls', h⟩ hs
    exact ⟨_, h.snoc hr hs⟩

theorem latest_clock (ho : o.Lawful) (hf : Fam fam) : (o.latest fam disp honour).Lawful where
  init := rfl
  act := by
    intro ls s l t hr h
    obtain ⟨ls', h'⟩ := latest_run hr
    have hl : (o.switched fam honour).Lawful := nested_lawful ho hf (switch_starts (α := α) honour) 1
    rcases expand_cases disp s (.act l) with h1 | ⟨k, -, -, h1⟩
    all_goals
      have he := latest_expand (l := .act l) (h : (o.latest fam disp honour).step s (.act l) = some t)
      rw [h1] at he
    · obtain ⟨t', h2, h3⟩ := LTS.run_cons.mp he
      cases h3
      exact hl.act h'.run h2
    · obtain ⟨t1, h2, h3⟩ := LTS.run_cons.mp he
      obtain ⟨t2, h4, h5⟩ := LTS.run_cons.mp h3
      cases h5
      obtain ⟨e1, ns, e2⟩ := hl.act h'.run h2
      obtain ⟨e3, ns', e4⟩ := hl.act (ls := ls' ++ [.act (.inner k disp)]) (LTS.run_append.mpr ⟨s, h'.run, LTS.run_cons.mpr ⟨t1, h2, rfl⟩⟩) h4
      exact ⟨e3.trans e1, ns ++ ns', by
        show (o.switched fam honour).calls t = (o.switched fam honour).calls s ++ _
        rw [e4, e2, e1, List.append_assoc, List.map_append]; rfl⟩
  pass := by
    intro ls s d t hr h
    obtain ⟨ls', h'⟩ := latest_run hr
    exact (nested_lawful ho hf (switch_starts (α := α) honour) 1).pass h'.run h

/-- What inner observables of `switch_latest` have to satisfy: `disp` can take place at any time, makes no call, and after it the tasks
make no calls but `aclose` if `honour`. -/
structure Disposable (I : Host SI LI TI) (fam : ω → Nat → Clocked SI LI α) (disp : LI) (honour : Bool) (gone : SI → Prop) : Prop where
  outside : I.outside disp = true
  stop : ∀ {xs t si}, I.Reach (fam xs t) si → ∃ si', (fam xs t).act si disp = some si' ∧ gone si' ∧ (fam xs t).calls si' = (fam xs t).calls si
  keeps : ∀ {xs t si l si'}, gone si → (∃ s n, l ∈ I.turn s n) → (fam xs t).act si l = some si' → gone si'
  pass : ∀ {xs t si d si'}, gone si → (fam xs t).pass si d = some si' → gone si'
  quiet : honour = true → ∀ {xs t si n as l bs u v}, gone si → I.turn si n = as ++ l :: bs → LTS.run (fam xs t).act si as = some u → (fam xs t).act u l = some v →
    ∀ c ∈ ((fam xs t).calls v).drop ((fam xs t).calls u).length, c.1 = .completed

theorem latest_own {ls : List (Time (Nested.Label LO LI ω α))} (ho : ∀ l, Time.act l ∈ ls → (H.latest (ω := ω) (α := α) I).Own l) :
    (∀ l, Time.act (.outer l) ∈ ls → H.Own l) ∧ (∀ k l, Time.act (.inner k l) ∈ ls → ∃ s n, l ∈ I.turn s n) ∧
    ∀ l, Time.act (.own l) ∈ ls → l = .receive ∨ l = .subscribed ∨ l = .disposed := by
  refine ⟨fun l hl => ?_, fun k l hl => ?_, fun l hl => ?_⟩
  · rcases ho _ hl with h | ⟨s, t, h⟩
    · exact .inl h
    · match t with
      | .inl t => simp only [latest, List.mem_map] at h; obtain ⟨x, hx, he⟩ := h; cases he; exact .inr ⟨_, t, hx⟩
      | .inr (.inl (k, t)) => simp only [latest] at h; split at h <;> simp at h
      | .inr (.inr ()) => simp [latest] at h
  · rcases ho _ hl with h | ⟨s, t, h⟩
    · cases h
    · match t with
      | .inl t => simp [latest] at h
      | .inr (.inl (k', t)) =>
        simp only [latest] at h
        split at h
        next i hi => simp only [List.mem_map] at h; obtain ⟨x, hx, he⟩ := h; cases he; exact ⟨_, t, hx⟩
        next => cases h
      | .inr (.inr ()) => simp [latest] at h
  · rcases ho _ hl with h | ⟨s, t, h⟩
    · cases h
    · match t with
      | .inl t => simp [latest] at h
      | .inr (.inl (k', t)) => simp only [latest] at h; split at h <;> simp at h
      | .inr (.inr ()) =>
        simp only [latest, List.mem_map] at h
        obtain ⟨x, hx, he⟩ := h
        cases he
        simp only [Switch.turn] at hx
        split at hx
        · split at hx <;> simp at hx; simp [hx]
        · simp at hx; simp [hx]
        · simp at hx; simp [hx]
        · simp at hx; simp [hx]
        · cases hx

structure Kept (o : Clocked SO LO ω) (fam : ω → Nat → Clocked SI LI α) (H : Host SO LO TO) (I : Host SI LI TI) (s : Nested SO (Switch.State ω) SI ω α) : Prop where
  outer : H.Reach o s.outer
  inner : ∀ (k : Nat) xs t si, s.inners[k]? = some (xs, t, si) → I.Reach (fam xs t) si ∧ (fam xs t).now si = o.now s.outer
  started : s.inners.length = s.prod.started.length
  replaced : ∀ k, Switch.replaced s.prod = some k → k < s.inners.length ∧ ((∃ xs, s.prod.pc = .replacing (k + 1) xs) ∨ s.prod.pc = .disposing (k + 1))
  bound : ∀ i ∈ s.prod.disposed, 1 ≤ i ∧ i ≤ s.inners.length

theorem Sim.kept (hH : H.Lawful o) (hI : Family I fam) (hd : I.outside disp = true) {ls s ls'} (h : Sim o fam disp honour ls s ls')
    (ho : ∀ l, Time.act l ∈ ls → (H.latest (ω := ω) (α := α) I).Own l) : Kept o fam H I s := by
  obtain ⟨o1, o2, -⟩ := latest_own ho
  obtain ⟨hh, hp⟩ := past hH.clock hI.clocks (switch_starts honour) h.run
  have hsolo := Producer.soloAt_run hp.run
  have hpos := Switch.pos_run hsolo
  have hinv := Switch.inv_run hsolo
  have hlen : s.inners.length = s.prod.started.length := by rw [← hp.started, List.length_map]
  refine ⟨?_, fun k xs t si hk => ?_, hlen, fun k hk => ?_, fun i hi => ⟨hpos.disposed i hi, by rw [hlen]; exact Switch.disposed_run hsolo i hi⟩⟩
  · obtain ⟨lo, h1, h2⟩ := hp.source
    refine ⟨lo, h1, fun l hl => ?_⟩
    rcases h.labels _ (h2 l hl) with h3 | ⟨k, h3⟩
    · exact o1 l h3
    · cases h3
  · obtain ⟨⟨li, h1, h2⟩, h3⟩ := hp.sources k xs t si hk
    refine ⟨⟨li, h1, fun l hl => ?_⟩, h3⟩
    rcases h.labels _ (h2 l hl) with h4 | ⟨k', h4⟩
    · exact .inr (o2 k l h4)
    · cases h4; exact .inl hd
  · rw [hlen]
    simp only [Switch.replaced] at hk
    split at hk
    next old xs hpc =>
      have h1 : 1 ≤ old := hpos.replacing _ _ hpc
      have h2 : old = s.prod.started.length := (hinv.old _ _ hpc).1
      have hk : old - 1 = k := Option.some.inj hk
      rw [show k + 1 = old by omega]
      exact ⟨by omega, .inl ⟨xs, hpc⟩⟩
    next old hpc =>
      have h1 : 1 ≤ old := hpos.disposing _ hpc
      have h2 : old = s.prod.started.length := (hinv.old' _ hpc).1
      have hk : old - 1 = k := Option.some.inj hk
      rw [show k + 1 = old by omega]
      exact ⟨by omega, .inr hpc⟩
    next => cases hk

/-- Calls of the source and of inner observables that are not disposed are always taken, and so are completions. -/
theorem switch_calls {t : Nat} : ∀ {ls : List (Merge.Label ω α)} (s : Nested SO (Switch.State ω) SI ω α),
    (∀ l ∈ ls, (∃ n, l = .outer n) ∨ ∃ k n, l = .inner (k + 1) n ∧ k < s.prod.started.length ∧ (honour = true → k + 1 ∈ s.prod.disposed → n = .completed)) →
    ∃ prod posts, work (switchLatest honour) t s ls = some { s with prod, posts } ∧ prod.started = s.prod.started ∧ prod.disposed = s.prod.disposed ∧ prod.pc = s.prod.pc
  | [], s, _ => ⟨s.prod, s.posts, rfl, rfl, rfl, rfl⟩
  | l :: ls, s, h => by
    have : ∃ prod out, Switch.step honour s.prod l = some (prod, out) ∧ prod.started = s.prod.started ∧ prod.disposed = s.prod.disposed ∧ prod.pc = s.prod.pc := by
      rcases h l (by simp) with ⟨n, rfl⟩ | ⟨k, n, rfl, hk, hd⟩
      · cases n <;> exact ⟨_, _, rfl, rfl, rfl, rfl⟩
      · have hk' : (1 ≤ k + 1 ∧ k + 1 ≤ s.prod.started.length) ∧ ¬ (honour = true ∧ k + 1 ∈ s.prod.disposed ∧ n.kind ≠ .onCompleted) :=
          ⟨⟨by omega, by omega⟩, fun h => h.2.2 (by rw [hd h.1 h.2.1]; rfl)⟩
        cases n <;> exact ⟨_, _, if_pos hk', rfl, rfl, rfl⟩
    obtain ⟨prod, out, h1, h2, h2', h2''⟩ := this
    obtain ⟨prod', posts, h3, h4, h5, h6⟩ := switch_calls (t := t) (ls := ls) { s with prod := prod, posts := s.posts ++ out.map fun n => (n, t) } (fun l hl => by
      have := h l (by simp [hl])
      rw [← h2, ← h2'] at this
      exact this)
    refine ⟨prod', posts, ?_, h4.trans h2, h5.trans h2', h6.trans h2''⟩
    simp only [work, switchLatest, h1]
    exact h3

/-- Calls change neither. -/
theorem work_same {t : Nat} : ∀ {ls : List (Merge.Label ω α)} {s s' : Nested SO (Switch.State ω) SI ω α}, (∀ l ∈ ls, (∃ n, l = .outer n) ∨ ∃ k n, l = .inner k n) →
    work (switchLatest honour) t s ls = some s' → s'.inners = s.inners ∧ s'.prod.disposed = s.prod.disposed
  | [], s, s', _, h => by cases h; exact ⟨rfl, rfl⟩
  | l :: ls, s, s', hl, h => by
    simp only [work] at h
    split at h
    · cases h
    next prod out hst =>
      obtain ⟨h1, h2⟩ := work_same (fun l h => hl l (by simp [h])) h
      refine ⟨h1, h2.trans ?_⟩
      dsimp only
      rcases hl l (by simp) with ⟨n, rfl⟩ | ⟨k, n, rfl⟩
      · cases n <;> (simp only [switchLatest, Switch.step, Option.some.injEq, Prod.mk.injEq] at hst; obtain ⟨rfl, -⟩ := hst; rfl)
      · simp only [switchLatest, Switch.step] at hst
        split at hst
        · cases n <;> (simp only [Option.some.injEq, Prod.mk.injEq] at hst; obtain ⟨rfl, -⟩ := hst; rfl)
        · cases hst

/-- The worker's segment after which an inner observable is disposed. -/
theorem latest_disposed (hD : Disposable I fam disp honour gone) {s : Nested SO (Switch.State ω) SI ω α} (K : Kept o fam H I s) {k : Nat} (hk : Switch.replaced s.prod = some k) :
    ∃ xs t0 si si' prod, s.inners[k]? = some (xs, t0, si) ∧ (fam xs t0).act si disp = some si' ∧ gone si' ∧ prod.disposed = s.prod.disposed ++ [k + 1] ∧
      (o.latest fam disp honour).act s (.own .disposed) = some { s with
        prod := prod
        inners := s.inners.set k (xs, t0, si') ++ (prod.started.drop s.inners.length).map fun xs => (xs, o.now s.outer, (fam xs (o.now s.outer)).init) } := by
  obtain ⟨hlt, hpc⟩ := K.replaced k hk
  obtain ⟨i, hi⟩ : ∃ i, s.inners[k]? = some i := ⟨_, List.getElem?_eq_getElem hlt⟩
  obtain ⟨xs, t0, si⟩ := i
  obtain ⟨si', h1, h2, h3⟩ := hD.stop (K.inner k xs t0 si hi).1
  have : ∃ prod, Switch.step (α := α) honour s.prod .disposed = some (prod, []) ∧ prod.disposed = s.prod.disposed ++ [k + 1] := by
    rcases hpc with ⟨ys, hpc⟩ | hpc
    · exact ⟨_, by simp only [Switch.step, hpc]; rfl, rfl⟩
    · exact ⟨_, by simp only [Switch.step, hpc]; rfl, rfl⟩
  obtain ⟨prod, h4, h5⟩ := this
  refine ⟨xs, t0, si, si', prod, hi, h1, h2, h5, ?_⟩
  show LTS.run (o.switched fam honour).act s (disposing disp s (.own .disposed)) = _
  simp only [disposing, hk]
  refine LTS.run_cons.mpr ⟨{ s with inners := s.inners.set k (xs, t0, si') }, ?_, LTS.run_cons.mpr ⟨_, ?_, rfl⟩⟩
  · simp only [Clocked.switched, Clocked.nested, hi, h1, h3, List.drop_length, List.map_nil, work]
  · simp only [Clocked.switched, Clocked.nested, Nested.own, if_true, work, switchLatest, h4, Option.map_some, subscribed, List.map_nil, List.append_nil, List.length_set]

theorem latest_gone (hH : H.Lawful o) (hI : Family I fam) (hD : Disposable I fam disp honour gone) {ls s} (hr : LTS.run (o.latest fam disp honour).step (o.latest fam disp honour).init ls = some s)
    (ho : ∀ l, Time.act l ∈ ls → (H.latest (ω := ω) (α := α) I).Own l) :
    ∀ (k : Nat) xs t si, s.inners[k]? = some (xs, t, si) → k + 1 ∈ s.prod.disposed → gone si := by
  refine LTS.inv_reach (step := (o.latest fam disp honour).step) (s0 := (o.latest fam disp honour).init)
    (fun ls s => (∀ l, Time.act l ∈ ls → (H.latest (ω := ω) (α := α) I).Own l) → ∀ (k : Nat) xs t si, s.inners[k]? = some (xs, t, si) → k + 1 ∈ s.prod.disposed → gone si)
    (fun _ k xs t si h => by cases h) ?_ hr ho
  intro ls s l s' hr ih hs ho
  have ho' : ∀ l, Time.act l ∈ ls → (H.latest (ω := ω) (α := α) I).Own l := fun l hl => ho l (List.mem_append_left _ hl)
  have ih := ih ho'
  obtain ⟨ls', hsim⟩ := latest_run hr
  have K := hsim.kept hH hI hD.outside ho'
  have keep : ∀ (is new : List (ω × Nat × SI)) {k : Nat} {i}, s.inners.length = is.length → (is ++ new)[k]? = some i → k + 1 ∈ s.prod.disposed → is[k]? = some i := by
    intro is new k i hl hk hd
    rw [List.getElem?_append_left (by have := K.bound _ hd; omega)] at hk
    exact hk
  obtain ⟨-, o2, o3⟩ := latest_own ho
  rcases expand_cases disp s l with h1 | ⟨k, hk, rfl, -⟩
  · have he := latest_expand hs
    rw [h1] at he
    obtain ⟨x, he, hx⟩ := LTS.run_cons.mp he
    cases hx
    match l with
    | .pass d =>
      simp only [Clocked.step, Clocked.switched, Clocked.nested] at he
      split at he
      · next t is h2 h3 =>
        cases he
        intro k xs t si hk hd
        obtain ⟨si0, h4, h5⟩ := (passAll_get h3).2 k xs t si hk
        exact hD.pass (ih k xs t si0 h4 hd) h5
      · cases he
    | .act (.outer l) =>
      simp only [Clocked.step, Clocked.switched, Clocked.nested] at he
      split at he
      · cases he
      · obtain ⟨h2, h3⟩ := work_same (fun l hl => by obtain ⟨c, -, rfl⟩ := List.mem_map.mp hl; exact .inl ⟨_, rfl⟩) he
        rw [h2, h3]; exact ih
    | .act (.inner j l) =>
      simp only [Clocked.step, Clocked.switched, Clocked.nested] at he
      split at he
      · cases he
      next xs t0 si hj =>
        split at he
        · cases he
        next u hu =>
          obtain ⟨h2, h3⟩ := work_same (fun l hl => by obtain ⟨c, -, rfl⟩ := List.mem_map.mp hl; exact .inr ⟨_, _, rfl⟩) he
          rw [h2, h3]
          intro k ys t si' hk hd
          dsimp only at hk
          by_cases hjk : j = k
          · subst hjk
            rw [List.getElem?_set_self ((List.getElem?_eq_some_iff.mp hj).1)] at hk
            cases hk
            exact hD.keeps (ih j _ _ _ hj hd) (o2 j l (by simp)) hu
          · rw [List.getElem?_set_ne hjk] at hk
            exact ih k ys t si' hk hd
    | .act (.own l) =>
      have hl : l = .receive ∨ l = .subscribed ∨ l = .disposed := o3 l (by simp)
      simp only [Clocked.step, Clocked.switched, Clocked.nested] at he
      split at he
      · obtain ⟨y, hy, hy'⟩ := Option.map_eq_some_iff.mp he
        simp only [work] at hy
        split at hy
        · cases hy
        next prod out hst =>
          cases hy
          subst hy'
          have : prod.disposed = s.prod.disposed := by
            rcases hl with rfl | rfl | rfl
            · simp only [switchLatest, Switch.step] at hst
              split at hst
              next msg q hp hq =>
                simp only [Option.some.injEq] at hst
                cases msg <;> simp only [Switch.update] at hst <;> first | (obtain ⟨rfl, -⟩ := Prod.mk.inj hst; rfl) | (split at hst <;> (obtain ⟨rfl, -⟩ := Prod.mk.inj hst; rfl))
              next => cases hst
            · simp only [switchLatest, Switch.step] at hst
              split at hst <;> simp at hst
              obtain ⟨rfl, -⟩ := hst; rfl
            · exfalso
              simp only [switchLatest, Switch.step] at hst
              simp only [expand, disposing] at h1
              split at hst
              next hp => simp [Switch.replaced, hp] at h1
              next hp => simp [Switch.replaced, hp] at h1
              next => cases hst
          intro k xs t si hk hd
          simp only [subscribed] at hk hd
          rw [this] at hd
          exact ih k xs t si (keep _ _ rfl hk hd) hd
      · cases he
  · obtain ⟨xs, t0, si, si', prod, g1, g2, g3, g4, g5⟩ := latest_disposed (o := o) hD K hk
    have hs : (o.latest fam disp honour).act s (.own .disposed) = some s' := hs
    rw [g5] at hs
    cases hs
    obtain ⟨hlt, -⟩ := K.replaced k hk
    intro j ys t sj hj hd
    dsimp only at hj hd
    rw [g4, List.mem_append, List.mem_singleton] at hd
    by_cases hjk : k = j
    · subst hjk
      rw [List.getElem?_append_left (by simpa using hlt), List.getElem?_set_self hlt] at hj
      cases hj; exact g3
    · have hd := hd.resolve_right (by omega)
      have := keep (s.inners.set k (xs, t0, si')) _ (by simp) hj hd
      rw [List.getElem?_set_ne hjk] at this
      exact ih j ys t sj this hd

theorem latest_act {s : Nested SO (Switch.State ω) SI ω α} {l : Nested.Label LO LI ω α} (hl : l ≠ .own .disposed) :
    (o.latest fam disp honour).act s l = (o.switched fam honour).act s l := by
  have : disposing disp s l = [l] := by
    match l with
    | .own .disposed => exact absurd rfl hl
    | .outer _ | .inner _ _ | .own (.outer _) | .own (.inner _ _) | .own .cancel | .own .receive | .own .subscribed | .own .subscribeFails | .own .disposeFails => rfl
  show LTS.run (o.switched fam honour).act s (disposing disp s l) = _
  rw [this]
  simp only [LTS.run]
  cases (o.switched fam honour).act s l <;> rfl

theorem latest_outer : ∀ {as : List LO} (s : Nested SO (Switch.State ω) SI ω α) {u : SO}, LTS.run o.act s.outer as = some u →
    ∃ prod posts, LTS.run (o.latest fam disp honour).act s (as.map .outer) = some { s with outer := u, prod, posts }
  | [], s, u, h => by cases h; exact ⟨s.prod, s.posts, rfl⟩
  | a :: as, s, u, h => by
    obtain ⟨u1, h1, h2⟩ := LTS.run_cons.mp h
    obtain ⟨prod, posts, h3, -⟩ := switch_calls (t := o.now s.outer) (ls := ((o.calls u1).drop (o.calls s.outer).length).map fun c => .outer c.1)
      { s with outer := u1 } (by
        intro l hl
        obtain ⟨c, -, rfl⟩ := List.mem_map.mp hl
        exact .inl ⟨_, rfl⟩)
    obtain ⟨prod', posts', h5⟩ := latest_outer { s with outer := u1, prod, posts } h2
    refine ⟨prod', posts', LTS.run_cons.mpr ⟨_, ?_, h5⟩⟩
    rw [latest_act (by simp)]
    simp only [Clocked.switched, Clocked.nested, h1]
    exact h3

theorem latest_inner {k : Nat} {xs : ω} {t0 : Nat} : ∀ {as : List LI} (s : Nested SO (Switch.State ω) SI ω α) {si si' : SI}, s.inners[k]? = some (xs, t0, si) →
    k < s.prod.started.length → LTS.run (fam xs t0).act si as = some si' →
    (honour = true → k + 1 ∈ s.prod.disposed → ∀ as₁ l as₂ u v, as = as₁ ++ l :: as₂ → LTS.run (fam xs t0).act si as₁ = some u → (fam xs t0).act u l = some v →
      ∀ c ∈ ((fam xs t0).calls v).drop ((fam xs t0).calls u).length, c.1 = .completed) →
    ∃ prod posts, LTS.run (o.latest fam disp honour).act s (as.map (.inner k)) = some { s with inners := s.inners.set k (xs, t0, si'), prod, posts }
  | [], s, si, si', hk, _, h, _ => by
    cases h
    refine ⟨s.prod, s.posts, ?_⟩
    have : s.inners.set k (xs, t0, si) = s.inners := by
      apply List.ext_getElem?
      intro j
      by_cases hj : k = j
      · subst hj; rw [hk, List.getElem?_set_self ((List.getElem?_eq_some_iff.mp hk).1)]
      · rw [List.getElem?_set_ne hj]
    rw [this]; rfl
  | a :: as, s, si, si', hk, hs, h, hq => by
    obtain ⟨u1, h1, h2⟩ := LTS.run_cons.mp h
    have hlt := (List.getElem?_eq_some_iff.mp hk).1
    obtain ⟨prod, posts, h3, h4, h4', -⟩ := switch_calls (t := o.now s.outer)
      (ls := (((fam xs t0).calls u1).drop ((fam xs t0).calls si).length).map fun c => .inner (k + 1) c.1)
      { s with inners := s.inners.set k (xs, t0, u1) } (by
        intro l hl
        obtain ⟨c, hc, rfl⟩ := List.mem_map.mp hl
        exact .inr ⟨_, _, rfl, hs, fun hh hd => hq hh hd [] a as si u1 rfl rfl h1 c hc⟩)
    obtain ⟨prod', posts', h5⟩ := latest_inner (k := k) { s with inners := s.inners.set k (xs, t0, u1), prod, posts }
      (by simp [hlt]) (by rw [h4]; exact hs) h2 (fun hh hd as₁ l as₂ u v he hu => by
        have hd : k + 1 ∈ s.prod.disposed := by rw [← h4']; exact hd
        exact hq hh hd (a :: as₁) l as₂ u v (by rw [he]; rfl) (LTS.run_cons.mpr ⟨u1, h1, hu⟩))
    refine ⟨prod', posts', LTS.run_cons.mpr ⟨{ s with inners := s.inners.set k (xs, t0, u1), prod, posts }, ?_, ?_⟩⟩
    · rw [latest_act (by simp)]
      simp only [Clocked.switched, Clocked.nested, hk, h1]
      exact h3
    · rw [h5]; simp

theorem latest_kept (hH : H.Lawful o) (hI : Family I fam) (hD : Disposable I fam disp honour gone) {s} (hr : (H.latest I).Reach (o.latest fam disp honour) s) : Kept o fam H I s := by
  obtain ⟨ls, hr, ho⟩ := hr
  obtain ⟨ls', h⟩ := latest_run hr
  exact h.kept hH hI hD.outside ho

theorem latest_lawful (hH : H.Lawful o) (hI : Family I fam) (hD : Disposable I fam disp honour gone) : (H.latest I).Lawful (o.latest fam disp honour) where
  clock := latest_clock hH.clock hI.clocks
  names := by
    intro s t hr hn
    have P := latest_kept hH hI hD hr
    simp only [latest, List.mem_append, List.mem_map, List.mem_flatMap, List.mem_singleton, List.mem_range]
    match t with
    | .inl t => exact .inl ⟨t, hH.names P.outer hn, rfl⟩
    | .inr (.inr ()) => exact .inr (.inr rfl)
    | .inr (.inl (k, t)) =>
      simp only [latest] at hn
      cases hk : s.inners[k]? with
      | none => rw [hk] at hn; exact absurd rfl hn
      | some i =>
        obtain ⟨xs, t0, si⟩ := i
        rw [hk] at hn
        refine .inr (.inl ⟨k, (List.getElem?_eq_some_iff.mp hk).1, ?_⟩)
        rw [hk]
        exact List.mem_map.mpr ⟨t, (hI.lawful xs t0).names (P.inner k xs t0 si hk).1 hn, rfl⟩
  turn := by
    intro s t hr hd
    have P := latest_kept hH hI hD hr
    have worker : ∀ (s s' : Nested SO (Switch.State ω) SI ω α) w, (H.latest I).need s' (.inr (.inr ())) = .until w → (H.latest I).need s (.inr (.inr ())) = .until w := by
      intro s s' w; simp only [latest]; split <;> split <;> simp
    have fresh : ∀ (is : List (ω × Nat × SI)) (xs : List ω) (j : Nat) t' w, (match (is ++ xs.map fun xs => (xs, o.now s.outer, (fam xs (o.now s.outer)).init))[j]? with
        | some i => I.need i.2.2 t'
        | none => .nothing) = .until w → (match is[j]? with
        | some i => I.need i.2.2 t'
        | none => .nothing) = .until w := by
      intro is xs j t' w
      by_cases hj : j < is.length
      · rw [List.getElem?_append_left hj]; exact id
      · rw [List.getElem?_append_right (by omega), List.getElem?_eq_none (l := is) (by omega)]
        cases hc : (List.map (fun xs => (xs, o.now s.outer, (fam xs (o.now s.outer)).init)) xs)[j - is.length]? with
        | none => exact id
        | some i =>
          rw [List.getElem?_map] at hc
          obtain ⟨xs, -, rfl⟩ := Option.map_eq_some_iff.mp hc
          exact fun h => absurd h (hI.fresh _ _ _ _)
    match t with
    | .inl t =>
      obtain ⟨u, h1, h2⟩ := hH.turn (t := t) P.outer hd
      obtain ⟨prod, posts, h3⟩ := latest_outer (fam := fam) (disp := disp) s h1
      refine ⟨_, h3, fun t' w hne => ?_⟩
      match t' with
      | .inl t' => exact h2 t' w fun h => hne (by rw [h])
      | .inr (.inl (k, t')) => exact id
      | .inr (.inr ()) => exact worker _ _ w
    | .inr (.inl (k, t)) =>
      cases hk : s.inners[k]? with
      | none => exact ⟨s, by simp [latest, hk, LTS.run], fun _ _ _ h => h⟩
      | some i =>
        obtain ⟨xs, t0, si⟩ := i
        obtain ⟨g1, g2⟩ := P.inner k xs t0 si hk
        obtain ⟨si', h1, h2⟩ := (hI.lawful xs t0).turn (t := t) g1 (fun w hw => by
          rw [g2]; exact hd w (by simp only [latest, hk]; exact hw))
        have hlt := (List.getElem?_eq_some_iff.mp hk).1
        obtain ⟨ls, hr, ho⟩ := hr
        obtain ⟨prod, posts, h3⟩ := latest_inner (o := o) (disp := disp) s hk (by rw [← P.started]; exact hlt) h1
          (fun hh hd' as₁ l as₂ u v he hu => hD.quiet hh (latest_gone hH hI hD hr ho k xs t0 si hk hd') he hu)
        refine ⟨_, (by simp only [latest, hk]; exact h3), fun t' w hne => ?_⟩
        match t' with
        | .inl t' => exact id
        | .inr (.inl (j, t')) =>
          simp only [latest]
          by_cases hj : k = j
          · subst hj
            rw [List.getElem?_set_self hlt, hk]
            exact h2 t' w fun h => hne (by rw [h])
          · rw [List.getElem?_set_ne hj]; exact id
        | .inr (.inr ()) => exact worker _ _ w
    | .inr (.inr ()) =>
      rcases Switch.turn_some (α := α) (honour := honour) (s := s.prod) with ⟨h1, -⟩ | ⟨l, prod, out, h1, h2, h3, h4⟩
      · exact ⟨s, by simp [latest, h1, LTS.run], fun _ _ _ h => h⟩
      · by_cases hl : l = .disposed
        · subst hl
          obtain ⟨k, hk⟩ := Option.ne_none_iff_exists'.mp (h4.mp rfl)
          obtain ⟨xs, t0, si, si', prod, g1, g2, g3, g4, g5⟩ := latest_disposed (o := o) hD P hk
          have hlt := (List.getElem?_eq_some_iff.mp g1).1
          refine ⟨_, by simp only [latest, h1, List.map_cons, List.map_nil]; exact LTS.run_cons.mpr ⟨_, g5, rfl⟩, fun t' w hne => ?_⟩
          match t' with
          | .inl t' => exact id
          | .inr (.inl (j, t')) =>
            intro hn
            have := fresh _ _ j t' w hn
            simp only [latest]
            by_cases hj : k = j
            · subst hj
              rw [List.getElem?_set_self hlt] at this
              rw [g1]
              exact (hI.lawful xs t0).outside (P.inner k xs t0 si g1).1 hD.outside g2 t' w this
            · rw [List.getElem?_set_ne hj] at this; exact this
          | .inr (.inr ()) => exact absurd rfl hne
        · refine ⟨subscribed fam Switch.State.started (o.now s.outer) { s with prod := prod, posts := s.posts ++ out.map fun n => (n, o.now s.outer) }, ?_, fun t' w hne => ?_⟩
          · simp only [latest, h1, List.map_cons, List.map_nil]
            refine LTS.run_cons.mpr ⟨_, ?_, rfl⟩
            rw [latest_act (by simpa using hl)]
            simp only [Clocked.switched, Clocked.nested, h2, if_true, work, switchLatest, h3, Option.map_some]
          · match t' with
            | .inl t' => exact id
            | .inr (.inl (j, t')) => exact fresh _ _ j t' w
            | .inr (.inr ()) => exact absurd rfl hne
  outside := by
    intro s l s' hr hl ha t w
    have P := latest_kept hH hI hD hr
    have worker : (H.latest I).need s' (.inr (.inr ())) = .until w → (H.latest I).need s (.inr (.inr ())) = .until w := by
      simp only [latest]; split <;> split <;> simp
    match l with
    | .own l => cases hl
    | .inner k l => cases hl
    | .outer l =>
      cases hs : o.act s.outer l with
      | none => rw [latest_act (by simp)] at ha; simp [Clocked.switched, Clocked.nested, hs] at ha
      | some u =>
        obtain ⟨prod, posts, h3⟩ := latest_outer (fam := fam) (disp := disp) s (LTS.run_cons.mpr ⟨u, hs, rfl⟩ : LTS.run o.act s.outer [l] = some u)
        obtain ⟨x, h4, h5⟩ := LTS.run_cons.mp h3
        cases h5
        rw [h4] at ha; cases ha
        match t with
        | .inl t => exact hH.outside P.outer hl hs t w
        | .inr (.inl (k, t)) => exact id
        | .inr (.inr ()) => exact worker
  pass := by
    intro s d hr hc
    have P := latest_kept hH hI hD hr
    obtain ⟨u, h1, h2⟩ := hH.pass (d := d) P.outer (fun t => hc (.inl t))
    obtain ⟨is, h3, h4, h5⟩ := passAll_some (I := I) (fam := fam) (d := d) s.inners (fun i hi => by
      obtain ⟨k, hk⟩ := List.getElem?_of_mem hi
      obtain ⟨xs, t0, si⟩ := i
      obtain ⟨g1, g2⟩ := P.inner k xs t0 si hk
      refine (hI.lawful xs t0).pass g1 (fun t => ?_)
      have := hc (.inr (.inl (k, t)))
      simp only [latest, hk] at this
      rw [g2]; exact this)
    refine ⟨{ s with outer := u, inners := is }, by simp only [Clocked.latest, Clocked.switched, Clocked.nested, h1, h3], fun t => ?_⟩
    match t with
    | .inl t => exact h2 t
    | .inr (.inr ()) => rfl
    | .inr (.inl (k, t)) =>
      simp only [latest]
      cases hk : s.inners[k]? with
      | none => rw [List.getElem?_eq_none (by rw [h4]; exact List.getElem?_eq_none_iff.mp hk)]
      | some i =>
        have hlt := (List.getElem?_eq_some_iff.mp hk).1
        rw [List.getElem?_eq_getElem (by rw [h4]; exact hlt)]
        exact h5 k i _ hk (List.getElem?_eq_getElem (by rw [h4]; exact hlt)) t

/-- When no task can go on, the worker has nothing to do. -/
theorem latest_settled {s : Nested SO (Switch.State ω) SI ω α} (hn : (H.latest I).need s (.inr (.inr ())) ≠ .soon) : Switch.Settled s.prod := by
  rcases Switch.turn_some (α := α) (honour := true) (s := s.prod) with ⟨-, h⟩ | ⟨l, _, _, h, -, -⟩
  · exact h
  · simp [latest, h] at hn

end Host

/-! ## intervals -/

namespace Interval
variable {t0 : Nat} {seconds period : Int}

theorem cancellable_turn {l : Label} {s n} (h : l ∈ cancellable.turn s n) : l = .start ∨ l = .wake ∨ l = .ret ∨ l = .thrown := by
  simp only [cancellable] at h
  split at h
  · simp at h; simp [h]
  · split at h <;> (simp at h; simp [h])
  · split at h <;> (simp at h; simp [h])
  · split at h <;> (simp at h; simp [h])
  · cases h

theorem ticks {d : Nat} : ∀ {s : State}, (∀ w n, s.pc = .sleeping w n → s.cancelling = false ∧ s.now + d ≤ w) → (∀ n, s.pc ≠ .sending n) → s.pc ≠ .closing → s.pc ≠ .fresh →
    LTS.run (promptStep seconds period) s (List.replicate d .tick) = some { s with now := s.now + d } := by
  induction d with
  | zero => intro s _ _ _ _; rfl
  | succ d ih =>
    intro s h1 h2 h3 h4
    rw [List.replicate_succ]
    refine LTS.run_cons.mpr ⟨{ s with now := s.now + 1 }, ?_, ?_⟩
    · have : busy s = false := by
        simp only [busy]
        split
        next h => exact absurd h h4
        next w n h =>
          obtain ⟨a, b⟩ := h1 w n h
          simp [a]; omega
        next n h => exact absurd h (h2 n)
        next h => exact absurd h h3
        next => rfl
      simp [promptStep, this, step]
    · rw [ih (s := { s with now := s.now + 1 }) (fun w n h => by
        obtain ⟨a, b⟩ := h1 w n h
        exact ⟨a, by dsimp only; omega⟩) h2 h3 h4]
      simp only [Option.some.injEq, State.mk.injEq, and_true, true_and]
      omega

theorem cancellable_lawful : cancellable.Lawful (clocked true t0 seconds period) where
  clock := clocked_lawful true t0 seconds period
  names := by intro s t _ _; simp [cancellable]
  turn := by
    intro s t _ hd
    obtain ⟨now, pc, c, calls⟩ := s
    suffices h : ∃ s', LTS.run (clocked true t0 seconds period).act ⟨now, pc, c, calls⟩ (cancellable.turn ⟨now, pc, c, calls⟩ t) = some s' by
      obtain ⟨s', h⟩ := h
      exact ⟨s', h, fun t' w hne => absurd rfl hne⟩
    cases pc with
    | fresh => cases c <;> exact ⟨_, rfl⟩
    | sleeping w n =>
      cases c with
      | true => exact ⟨_, rfl⟩
      | false =>
        have : w ≤ now := hd w rfl
        exact ⟨_, by simp [cancellable, LTS.run, clocked, step, this]; rfl⟩
    | sending n => cases c <;> exact ⟨_, rfl⟩
    | closing => cases c <;> exact ⟨_, rfl⟩
    | dead => exact ⟨_, rfl⟩
  outside := by
    intro s l s' _ hl ha t w
    have hl : l = .dispose := by simpa [cancellable] using hl
    subst hl
    simp only [clocked, step, reduceCtorEq, if_false, Option.some.injEq] at ha
    subst ha
    simp only [cancellable]
    split <;> simp
  pass := by
    intro s d _ hc
    have h0 := hc ()
    simp only [cancellable] at h0
    refine ⟨{ s with now := s.now + d }, ?_, fun t => rfl⟩
    show LTS.run (promptStep seconds period) s (List.replicate d .tick) = _
    refine ticks (fun w n h => ?_) (fun n h => ?_) (fun h => ?_) (fun h => ?_) <;> rw [h] at h0
    · cases hc : s.cancelling with
      | true => simp [hc] at h0
      | false =>
        simp only [hc, Bool.false_eq_true, if_false] at h0
        exact ⟨rfl, h0⟩
    all_goals exact h0

end Interval

namespace Nested

theorem cancellable_family (f : ω → Int × Int) : Host.Family Interval.cancellable (intervals f) where
  lawful _ _ := Interval.cancellable_lawful
  start _ _ := rfl
  fresh x t n w h := by cases h

theorem cancellable_disposable (f : ω → Int × Int) : Host.Disposable Interval.cancellable (intervals f) .dispose true (fun s => s.cancelling = true ∨ s.pc = .dead) where
  outside := rfl
  stop {xs t si} _ := ⟨{ si with cancelling := true }, rfl, .inl rfl, rfl⟩
  keeps := by
    intro xs t si l si' hg ⟨s, n, hl⟩ ha
    obtain ⟨now, pc, c, calls⟩ := si
    dsimp only at hg
    rcases Interval.cancellable_turn hl with rfl | rfl | rfl | rfl <;> cases pc <;> simp [intervals, Interval.clocked, Interval.step] at ha hg
    · subst hg; simp at ha; subst ha; exact .inr rfl
    · simp [hg] at ha
    · subst ha; simp only [Interval.afterSend]; split <;> exact .inl hg
    · subst ha; exact .inr rfl
    all_goals obtain ⟨-, rfl⟩ := ha; exact .inr rfl
  pass := by
    intro xs t si d si' hg h
    have h : LTS.run (Interval.promptStep (f xs).1 (f xs).2) si (List.replicate d .tick) = some si' := h
    have : ∀ d (s : Interval.State), (s.cancelling = true ∨ s.pc = .dead) → ∀ s', LTS.run (Interval.promptStep (f xs).1 (f xs).2) s (List.replicate d .tick) = some s' → s'.cancelling = true ∨ s'.pc = .dead := by
      intro d
      induction d with
      | zero => intro s hs s' h; cases h; exact hs
      | succ d ih =>
        intro s hs s' h
        rw [List.replicate_succ] at h
        obtain ⟨s1, h1, h2⟩ := LTS.run_cons.mp h
        simp only [Interval.promptStep] at h1
        split at h1
        · cases h1
        · cases h1; exact ih { s with now := s.now + 1 } hs _ h2
    exact this d si hg si' h
  quiet := by
    intro _ xs t si n as l bs u v hg he hr ha
    obtain ⟨now, pc, c, calls⟩ := si
    dsimp only at hg
    have : ∀ l', Interval.cancellable.turn ⟨now, pc, c, calls⟩ n = [l'] → as = [] ∧ l = l' := by
      intro l' hl
      rw [hl] at he
      match as with
      | [] => simp at he; exact ⟨rfl, he.1.symm⟩
      | a :: as => simp at he
    have none : ∀ calls : List (Nat × Notif Nat), ∀ c ∈ (calls.map fun c => (c.2, c.1)).drop (calls.map fun c => (c.2, c.1)).length, c.1 = .completed := by
      intro calls c hc
      rw [List.drop_length] at hc
      cases hc
    cases pc <;> simp at hg
    · obtain ⟨rfl, rfl⟩ := this .start rfl
      subst hg; cases hr; cases ha; exact none calls
    · subst hg
      obtain ⟨rfl, rfl⟩ := this .thrown rfl
      cases hr; cases ha; exact none calls
    · subst hg
      obtain ⟨rfl, rfl⟩ := this .thrown rfl
      cases hr; cases ha; exact none calls
    · subst hg
      obtain ⟨rfl, rfl⟩ := this .thrown rfl
      cases hr; cases ha; exact none calls
    · simp [Interval.cancellable] at he

end Nested
end Aio
