import Verif.Model.AsyncFor
import Verif.Spec.Delivery
import Verif.Lemmas.Slow
import Verif.Lemmas.Stream
import Verif.Lemmas.Proc
import Verif.Props.C17_19_Iterator
/-!
# Lemmas about async iteration over pipelines
-/

namespace Aio
open Spec
variable {α γ : Type}

/-! ### pipelines with suspending workers -/

/-- A pipeline with suspending workers delivers the same as one without. -/
theorem Delivers.slow {c : Chain α γ} {dom : List (Notif α) → Prop} {G : Story α → Story γ} (h : Delivers c.proc dom G) :
    Delivers c.slowProc dom G := by
  obtain ⟨f, h1, h2, h3⟩ := c.same.procs
  have heq : ∀ ns, dom ns → f ns = (G (story ns)).events := by
    intro ns hd
    have hx := Proc.exec_map_feed c.proc c.proc.init ns
    obtain ⟨ls, t, o, hw, hq⟩ := Proc.can_finish h.ends (c.proc.feedAll c.proc.init ns).1
    have := Proc.exec_append _ hx hw
    have hi : Proc.inputs (ns.map .feed ++ ls.map (.step : _ → Proc.Ev (Notif α) c.compile.Lab)) = ns := by simp
    have e1 := (h1 _ _ _ this).2 hq
    have e2 := h.all _ _ _ this (by rw [hi]; exact hd) hq
    rw [hi] at e1 e2
    exact e1.symm.trans e2
  exact ⟨fun es s out hx hd => heq _ hd ▸ (h2 es s out hx).1, fun es s out hx hd hq => heq _ hd ▸ (h2 es s out hx).2 hq, h3⟩

namespace Proc
variable {St Lab St' Lab' ι μ ο : Type}

/-- Inputs are only stored, and every step puts out one thing at most. -/
structure OneAtATime (p : Proc St Lab ι ο) : Prop where
  feed : ∀ s i, (p.feed s i).2 = []
  step : ∀ s l t o, p.step s l = some (t, o) → o.length ≤ 1

theorem slow_oneAtATime {S : Type} (a : Agent S ι ο) : (slow a).OneAtATime := by
  refine ⟨fun _ _ => rfl, ?_⟩
  rintro ⟨q, p, t⟩ l s' o h
  cases p with
  | cons x p => simp [slow] at h; simp [← h.2]
  | nil =>
    cases q with
    | nil => simp [slow] at h
    | cons i q => simp [slow] at h; simp [h.2]

theorem OneAtATime.feedAll {p : Proc St Lab ι ο} (h : p.OneAtATime) : ∀ (is : List ι) s, (p.feedAll s is).2 = [] := by
  intro is
  induction is with
  | nil => intro s; rfl
  | cons i is ih => intro s; simp [Proc.feedAll, h.feed, ih]

theorem seq_oneAtATime {p : Proc St Lab ι μ} {q : Proc St' Lab' μ ο} (hq : q.OneAtATime) : (seq p q).OneAtATime := by
  refine ⟨fun s i => hq.feedAll _ _, ?_⟩
  intro s l t o h
  cases l with
  | inl l =>
    simp only [seq] at h
    split at h
    · cases h
    · cases h; rw [hq.feedAll]; simp
  | inr l =>
    simp only [seq] at h
    split at h
    · cases h
    · next hs => cases h; exact hq.step _ _ _ _ hs

end Proc

/-- The processes behind the first mailbox. -/
def Code.Single : Code α γ → Prop
  | .final _ _ => True
  | .more _ _ p => p.OneAtATime

theorem Chain.single (c : Chain α γ) : c.compileSlow.Single := by
  induction c with
  | done => trivial
  | wrap w c ih =>
    rw [Chain.compileSlow]
    generalize c.compileSlow = b at ih
    cases b with
    | final obs s0 => trivial
    | more obs s0 p => exact ih
  | safe c ih =>
    rw [Chain.compileSlow]
    generalize c.compileSlow = b at ih
    cases b with
    | final obs s0 => exact Proc.slow_oneAtATime _
    | more obs s0 p => exact Proc.seq_oneAtATime ih
  | loop c ih =>
    rw [Chain.compileSlow]
    generalize c.compileSlow = b at ih
    cases b with
    | final obs s0 => exact Proc.slow_oneAtATime _
    | more obs s0 p => exact Proc.seq_oneAtATime ih

theorem Chain.oneAtATime (c : Chain α γ) : c.slowProc.OneAtATime := by
  have h := c.single
  show (Code.slowProc c.compileSlow).OneAtATime
  generalize c.compileSlow = b at h
  cases b with
  | final obs s0 => exact Proc.slow_oneAtATime _
  | more obs s0 p => exact Proc.seq_oneAtATime h

namespace Iterator

/-! ### the iterator -/

theorem sequential_snoc {ls : List (Label γ)} {s : State γ} {l : Label γ} (hr : LTS.run step init ls = some s) (h : Sequential ls)
    (hl : ∀ n, l = .call n → ∀ x ∈ s.calls, x = .returned) : Sequential (ls ++ [l]) := by
  intro p n q s' he hr'
  rcases List.eq_nil_or_concat q with rfl | ⟨q, x, rfl⟩
  · have : ls = p ∧ l = .call n := by
      have := List.append_inj' he rfl
      simpa using this
    obtain ⟨rfl, rfl⟩ := this
    rw [hr] at hr'; cases hr'
    exact hl n rfl
  · have : ls = p ++ .call n :: q := by
      have : ls ++ [l] = (p ++ .call n :: q) ++ [x] := by rw [he]; simp
      exact (List.append_inj' this rfl).1
    exact h p n q s' this hr'

/-- Is the consumer inside `__anext__`? -/
def inside : Consumer → Nat
  | .subscribing => 1
  | .waiting => 1
  | _ => 0

/-- Is this a call of `__anext__`? -/
def isAnext : Label γ → Bool
  | .anext => true
  | _ => false

/-- Every call of `__anext__` has a result, or is under way. -/
theorem anexts_inv {ls : List (Label γ)} {s : State γ} (hr : LTS.run step init ls = some s) :
    (ls.filter isAnext).length = s.taken.length + inside s.consumer := by
  have acc : ∀ (s : State γ) c n, (s.access c n).taken = s.taken ∧ (s.access c n).consumer = s.consumer := by
    intro s c n
    unfold State.access State.handOver
    split
    · exact ⟨rfl, rfl⟩
    · split
      · exact ⟨rfl, rfl⟩
      · dsimp only; split <;> exact ⟨rfl, rfl⟩
  have take : ∀ (s : State γ) n, (s.take n).taken.length = s.taken.length + 1 ∧ (s.take n).consumer = .idle := by
    intro s n
    unfold State.take
    split
    · exact ⟨by simp, rfl⟩
    · exact ⟨by simp, rfl⟩
    · split
      · exact ⟨by simp, rfl⟩
      · dsimp only; split <;> exact ⟨by simp, rfl⟩
  have recv : ∀ (s : State γ), s.receive.taken.length + inside s.receive.consumer = s.taken.length + 1 := by
    intro s
    unfold State.receive
    split
    · rw [(take _ _).1, (take _ _).2]; rfl
    · rfl
  refine LTS.inv_reach (fun ls s => (ls.filter isAnext).length = s.taken.length + inside s.consumer) (s0 := init) rfl ?_ hr
  intro ls s l s' hrun ih hs
  rw [List.filter_append, List.length_append, ih]
  cases l with
  | call n =>
    simp only [step, Option.some.injEq] at hs
    subst hs
    rw [(acc _ _ _).1, (acc _ _ _).2]; simp [isAnext]
  | anext =>
    simp only [step] at hs
    split at hs
    · cases hs
    · split at hs
      · next hk => cases hs; simp [hk, inside]; rfl
      · next hk => cases hs; rw [recv]; simp [hk, inside]; rfl
      · cases hs
  | subscribed =>
    simp only [step] at hs
    split at hs
    · cases hs
    · split at hs
      · next hk => cases hs; rw [recv]; simp [hk, inside, isAnext]
      · cases hs
  | run =>
    obtain ⟨m, t, rest, vs, k, h⟩ := inv_run hrun
    simp only [step] at hs
    split at hs
    · cases hs
    · next hrd =>
      split at hs
      · cases hs
        have hw : s.consumer = .waiting := by
          have := h.ready
          rw [hrd] at this
          cases m with
          | free => cases t <;> simp [Mode.pulls, Mode.wake] at this
          | taken c n => cases t <;> simp [Mode.pulls] at this
          | full c n =>
            cases hk : s.consumer <;> rw [hk] at this <;> first | rfl | (cases t <;> simp [Mode.pulls, Mode.wake] at this)
        rw [(take _ _).1, (take _ _).2]; simp [hw, inside, isAnext]
      · cases hs
    · cases hs; simp [isAnext]
    · split at hs
      · cases hs; rw [(acc _ _ _).1, (acc _ _ _).2]; simp [isAnext]
      · cases hs

/-- How much the tasks in the iterator have to do. -/
def todo (s : State γ) : Nat :=
  (match s.consumer with | .subscribing => 2 | .waiting => 1 | _ => 0) + (s.calls.filter fun | .sending _ => true | _ => false).length

private theorem take_todo (s : State γ) (n : Notif γ) : (s.take n).calls = s.calls ∧ (s.take n).consumer = .idle := by
  unfold State.take
  split
  · exact ⟨rfl, rfl⟩
  · exact ⟨rfl, rfl⟩
  · split
    · exact ⟨rfl, rfl⟩
    · dsimp only; split <;> exact ⟨rfl, rfl⟩

private theorem filter_set {β : Type} (p : β → Bool) : ∀ (l : List β) (c : Nat) (x y : β), l[c]? = some x → p x = true → p y = false →
    (l.set c y |>.filter p).length < (l.filter p).length := by
  intro l
  induction l with
  | nil => intro c x y h; simp at h
  | cons a l ih =>
    intro c x y h hx hy
    cases c with
    | zero => simp at h; subst h; simp [hx, hy]
    | succ c =>
      have := ih c x y (by simpa using h) hx hy
      by_cases ha : p a = true
      · simpa [ha] using this
      · simpa [ha] using this

/-- When calls do not overlap: what is scheduled, and that scheduled tasks cannot go on for ever. -/
theorem sequential_steps {ls : List (Label γ)} {s : State γ} (hr : LTS.run step init ls = some s) (hseq : Sequential ls) :
    (∀ c, Waiter.turn c ∉ s.ready) ∧ isTurn s.ready = false ∧ (step s .run = none → s.ready = []) ∧
    (∀ s', step s .run = some s' ∨ step s .subscribed = some s' → todo s' < todo s) := by
  obtain ⟨m, t, rest, vs, k, h⟩ := inv_run hr
  obtain ⟨ha, -⟩ := sequential_inv hr hseq
  have hq := h.queue_nil ha
  have ht : t = none := by cases t with | none => rfl | some t => simp at hq
  subst ht
  have hready := h.ready
  simp only [Option.toList_none, List.map_nil, List.append_nil] at hready
  have hnt : ∀ c, Waiter.turn c ∉ s.ready := by
    intro c hc
    rw [hready] at hc
    cases m <;> cases hk : s.consumer <;> simp [Mode.pulls, Mode.wake, hk] at hc
  have hit : isTurn s.ready = false := by
    cases hrd : s.ready with
    | nil => rfl
    | cons w r =>
      cases w with
      | turn c => exact absurd (by rw [hrd]; simp) (hnt c)
      | _ => rfl
  refine ⟨hnt, hit, fun hrun => ?_, fun s' hs => ?_⟩
  · cases m with
    | free => rw [hready]; cases s.consumer <;> rfl
    | taken c n => simp [step, hready, Mode.pulls] at hrun
    | full c n =>
      cases hk : s.consumer <;> rw [hk] at hready <;> try exact hready
      simp [step, hready, Mode.pulls, Mode.wake, h.push, Mode.push] at hrun
  · rcases hs with hs | hs
    · cases m with
      | free => rw [step, hready] at hs; cases hk : s.consumer <;> simp [Mode.pulls, Mode.wake, hk] at hs
      | taken c n =>
        have hsend : s.calls[c]? = some (.sending n) := by
          obtain ⟨p, hp⟩ := h.cur (c, n) rfl
          have hb := h.bound c (by rw [hp]; simp)
          have hx := List.getElem?_eq_getElem hb
          have := h.fits c _ hx
          rw [hx]
          cases hc : s.calls[c] with
          | blocked n' =>
            rw [hc] at this
            have hmem := this.1
            rw [Option.toList_none, List.nil_append] at hmem
            have : rest = [] := by simpa using hq
            rw [this] at hmem; simp at hmem
          | sending n' => rw [hc] at this; cases this; rfl
          | returned => rw [hc] at this; exact absurd rfl (this.2 n)
          | raised e => rw [hc] at this; exact this.elim
        simp only [step, hready, Mode.pulls, Mode.wake, List.append_nil, Option.some.injEq] at hs
        subst hs
        simp only [todo]
        have := filter_set (fun | Call.sending (_ : Notif γ) => true | _ => false) s.calls c _ .returned hsend rfl rfl
        omega
      | full c n =>
        cases hk : s.consumer <;> rw [hk] at hready <;>
          simp only [step, hready, Mode.pulls, Mode.wake, h.push, Mode.push, List.append_nil, List.nil_append, Option.some.injEq, reduceCtorEq] at hs
        subst hs
        simp only [todo, (take_todo _ _).1, (take_todo _ _).2, hk]
        omega
    · simp only [step, hit, Bool.false_eq_true, if_false] at hs
      cases hk : s.consumer <;> rw [hk] at hs <;> simp only [Option.some.injEq, reduceCtorEq] at hs
      subst hs
      cases hp : s.push with
      | none => simp only [todo, hk, State.receive, hp]; omega
      | some n => simp only [todo, hk, State.receive, hp, (take_todo _ _).1, (take_todo _ _).2]; omega

end Iterator
end Aio
