import Verif.Model.SeqSource
import Verif.Model.AsyncSource
import Verif.Spec.Stream
/-!
# C94: every subscription gets the whole sequence; C95: an endless iterable can be cut off
-/

namespace Aio.Spec
variable {α : Type}

/-- The stream of a finite sequence: its items, then the completion. -/
def whole (xs : List α) : List (Notif α) := xs.map .next ++ [.completed]

end Aio.Spec

namespace Aio.SeqSource
variable {α : Type}

theorem put_same {β : Type} (f : Nat → β) (k : Nat) (x : β) : put f k x k = x := by simp [put]
theorem put_ne {β : Type} (f : Nat → β) {k j : Nat} (x : β) (h : j ≠ k) : put f k x j = f j := by simp [put, h]

/-- A finite sequence: a container (`fresh`) or an iterator. -/
def ofList (xs : List α) (fresh : Bool) : Seq α := ⟨fun p => xs[p]?, fresh⟩

/-- The subscriptions in the order in which their workers began. -/
def starts : List Label → List Nat
  | [] => []
  | .start k :: ls => k :: starts ls
  | _ :: ls => starts ls

theorem starts_append (a b : List Label) : starts (a ++ b) = starts a ++ starts b := by
  induction a with
  | nil => rfl
  | cons l a ih => cases l <;> simp [starts, ih]

/-- The items that subscription `k` is going to get: of a container all, of an iterator all if it came first, else none. -/
def share (xs : List α) (fresh : Bool) (started : List Nat) (k : Nat) : List α :=
  if fresh = true ∨ started.head? = some k then xs else []

private structure Inv (xs : List α) (fresh : Bool) (ls : List Label) (s : State α) : Prop where
  busy : ∀ k, s.pc k = .loop ↔ s.busy = some k
  began : ∀ k, s.pc k = .fresh ↔ k ∉ starts ls
  subs : ∀ k, s.pc k ≠ .fresh → k < s.subs
  none_ : ∀ k, s.pc k = .fresh → s.posts k = [] ∧ s.own k = 0
  first : starts ls = [] → s.shared = 0
  own : ∀ k, s.own k ≤ xs.length
  shared : s.shared ≤ xs.length
  after : ∀ k, (starts ls).head? = some k → s.pc k = .ended → fresh = false → s.shared = xs.length
  loop : ∀ k, s.pc k = .loop → s.posts k = ((share xs fresh (starts ls) k).take (s.position (ofList xs fresh) k)).map .next
  ended : ∀ k, s.pc k = .ended → s.posts k = Spec.whole (share xs fresh (starts ls) k)

private theorem inv_init (xs : List α) (fresh : Bool) : Inv xs fresh [] (init : State α) := by
  constructor <;> simp [init, starts]

private theorem inv_step {xs : List α} {fresh : Bool} {ls : List Label} {s s' : State α} {l : Label}
    (h : Inv xs fresh ls s) (hs : step (ofList xs fresh) s l = some s') : Inv xs fresh (ls ++ [l]) s' := by
  cases l with
  | subscribe =>
    simp only [step] at hs
    split at hs
    · cases hs
      have e : starts (ls ++ [.subscribe]) = starts ls := by simp [starts_append, starts]
      exact ⟨h.busy, by rw [e]; exact h.began, fun k hk => Nat.lt_succ_of_lt (h.subs k hk), h.none_, by rw [e]; exact h.first, h.own, h.shared,
        by rw [e]; exact h.after, by rw [e]; exact h.loop, by rw [e]; exact h.ended⟩
    · cases hs
  | handle k =>
    simp only [step] at hs
    split at hs
    · cases hs
      have e : starts (ls ++ [.handle k]) = starts ls := by simp [starts_append, starts]
      exact ⟨h.busy, by rw [e]; exact h.began, h.subs, h.none_, by rw [e]; exact h.first, h.own, h.shared, by rw [e]; exact h.after,
        by rw [e]; exact h.loop, by rw [e]; exact h.ended⟩
    · cases hs
  | start k =>
    simp only [step] at hs
    split at hs
    · next hc =>
      obtain ⟨hb, hk, hf⟩ := hc
      cases hs
      have e : starts (ls ++ [.start k]) = starts ls ++ [k] := by simp [starts_append, starts]
      have hnl : ∀ j, s.pc j ≠ .loop := fun j hj => by have := (h.busy j).mp hj; rw [hb] at this; cases this
      have hks : k ∉ starts ls := (h.began k).mp hf
      have hsh : ∀ j, j ∈ starts ls → share xs fresh (starts ls ++ [k]) j = share xs fresh (starts ls) j := by
        intro j hj
        unfold share
        cases hst : starts ls with
        | nil => rw [hst] at hj; cases hj
        | cons a as => simp
      refine ⟨fun j => ?_, fun j => ?_, fun j hj => ?_, fun j hj => ?_, ?_, h.own, h.shared, fun j hj hp hfr => ?_, fun j hj => ?_, fun j hj => ?_⟩
      all_goals try dsimp only at *
      · by_cases hjk : j = k
        · subst hjk; simp [put_same]
        · rw [put_ne _ _ hjk]
          constructor
          · intro hl; exact absurd hl (hnl j)
          · intro hl; injection hl with hl; exact absurd hl.symm hjk
      · rw [e]
        by_cases hjk : j = k
        · subst hjk; simp [put_same]
        · rw [put_ne _ _ hjk, h.began j]; simp [hjk]
      · by_cases hjk : j = k
        · subst hjk; exact hk
        · exact h.subs j (by rw [put_ne _ _ hjk] at hj; exact hj)
      · by_cases hjk : j = k
        · subst hjk; rw [put_same] at hj; cases hj
        · rw [put_ne _ _ hjk] at hj; exact h.none_ j hj
      · rw [e]; intro h0; simp at h0
      · by_cases hjk : j = k
        · subst hjk; rw [put_same] at hp; cases hp
        · rw [put_ne _ _ hjk] at hp
          rw [e] at hj
          refine h.after j ?_ hp hfr
          cases hst : starts ls with
          | nil => rw [hst] at hj; simp at hj; exact absurd hj.symm hjk
          | cons a as => rw [hst] at hj; simpa using hj
      · by_cases hjk : j = k
        · subst hjk
          rw [(h.none_ j hf).1, e]
          unfold share State.position ofList
          cases fresh with
          | true => simp [(h.none_ j hf).2]
          | false =>
            cases hst : starts ls with
            | nil => simp [h.first hst]
            | cons a as =>
              have : a ≠ j := by rintro rfl; rw [hst] at hks; simp at hks
              simp [this]
        · rw [put_ne _ _ hjk] at hj; exact absurd hj (hnl j)
      · by_cases hjk : j = k
        · subst hjk; rw [put_same] at hj; cases hj
        · rw [put_ne _ _ hjk] at hj
          have hm : j ∈ starts ls := by
            by_cases hm : j ∈ starts ls
            · exact hm
            · have := (h.began j).mpr hm; rw [hj] at this; cases this
          rw [e, hsh j hm]; exact h.ended j hj
    · cases hs
  | turn k =>
    simp only [step] at hs
    split at hs
    · next hb =>
      have e : starts (ls ++ [.turn k]) = starts ls := by simp [starts_append, starts]
      have hl : s.pc k = .loop := (h.busy k).mpr hb
      have only : ∀ j, s.pc j = .loop → j = k := fun j hj => by
        have := (h.busy j).mp hj; rw [hb] at this; injection this with this; exact this.symm
      -- an iterator: the items that are left belong to the first
      have hleft : fresh = false → (starts ls).head? ≠ some k → s.shared = xs.length := by
        intro hfr hne
        cases hst : starts ls with
        | nil =>
          have : s.pc k = .fresh := (h.began k).mpr (by rw [hst]; simp)
          rw [hl] at this; cases this
        | cons a as =>
          have hak : a ≠ k := by rintro rfl; rw [hst] at hne; exact hne rfl
          refine h.after a (by rw [hst]; rfl) ?_ hfr
          cases hpa : s.pc a with
          | fresh => have := (h.began a).mp hpa; rw [hst] at this; simp at this
          | loop => exact absurd (only a hpa) hak
          | ended => rfl
      split at hs
      · next x hx =>
        cases hs
        have hlt : s.position (ofList xs fresh) k < xs.length := (List.getElem?_eq_some_iff.mp hx).1
        have hmine : share xs fresh (starts ls) k = xs := by
          unfold share
          cases fresh with
          | true => simp
          | false =>
            by_cases hh : (starts ls).head? = some k
            · simp [hh]
            · have := hleft rfl hh
              simp only [State.position, ofList] at hlt
              simp at hlt; omega
        have hpost := h.loop k hl
        rw [hmine] at hpost
        have htake : xs.take (s.position (ofList xs fresh) k + 1) = xs.take (s.position (ofList xs fresh) k) ++ [x] := by
          obtain ⟨hlt', hget⟩ := List.getElem?_eq_some_iff.mp hx
          rw [List.take_add_one, show xs[s.position (ofList xs fresh) k]? = some x from hx]; rfl
        have hpos' : (s.advance (ofList xs fresh) k).position (ofList xs fresh) k = s.position (ofList xs fresh) k + 1 := by
          cases fresh <;> simp [State.advance, State.position, ofList, put]
        cases fresh with
        | true =>
          simp only [State.advance, ofList, if_true, State.position] at *
          refine ⟨h.busy, by rw [e]; exact h.began, h.subs, fun j hj => ?_, by rw [e]; exact h.first, fun j => ?_, h.shared, by rw [e]; exact h.after, fun j hj => ?_, fun j hj => ?_⟩
          all_goals try dsimp only at *
          · have hjk : j ≠ k := by rintro rfl; rw [hl] at hj; cases hj
            exact ⟨by rw [put_ne _ _ hjk]; exact (h.none_ j hj).1, by rw [put_ne _ _ hjk]; exact (h.none_ j hj).2⟩
          · by_cases hjk : j = k
            · subst hjk; rw [put_same]; omega
            · rw [put_ne _ _ hjk]; exact h.own j
          · have := only j hj; subst this
            rw [e, hmine, State.position, if_pos (by rfl)]
            dsimp only
            rw [put_same, put_same, htake, hpost, List.map_append]; rfl
          · have hjk : j ≠ k := by rintro rfl; rw [hl] at hj; cases hj
            rw [e, put_ne _ _ hjk]; exact h.ended j hj
        | false =>
          simp only [State.advance, ofList, State.position] at *
          simp only [Bool.false_eq_true, if_false] at *
          refine ⟨h.busy, by rw [e]; exact h.began, h.subs, fun j hj => ?_, ?_, h.own, by show s.shared + 1 ≤ _; omega, ?_, fun j hj => ?_, fun j hj => ?_⟩
          all_goals try dsimp only at *
          · have hjk : j ≠ k := by rintro rfl; rw [hl] at hj; cases hj
            exact ⟨by rw [put_ne _ _ hjk]; exact (h.none_ j hj).1, (h.none_ j hj).2⟩
          · rw [e]; intro h0
            have : s.pc k = .fresh := (h.began k).mpr (by rw [h0]; simp)
            rw [hl] at this; cases this
          · rw [e]; intro j hj hp _
            have := h.after j hj hp rfl
            omega
          · have := only j hj; subst this
            rw [e, hmine, State.position]
            rw [put_same, hpost, show (if (ofList xs false).fresh = true then s.own j else s.shared + 1) = s.shared + 1 from rfl, htake, List.map_append]; rfl
          · have hjk : j ≠ k := by rintro rfl; rw [hl] at hj; cases hj
            rw [e, put_ne _ _ hjk]; exact h.ended j hj
      · next hx =>
        cases hs
        have hge : xs.length ≤ s.position (ofList xs fresh) k := List.getElem?_eq_none_iff.mp hx
        refine ⟨fun j => ?_, fun j => ?_, fun j hj => ?_, fun j hj => ?_, by rw [e]; exact h.first, h.own, h.shared, fun j hj hp hfr => ?_, fun j hj => ?_, fun j hj => ?_⟩
        all_goals try dsimp only at *
        · by_cases hjk : j = k
          · subst hjk; simp [put_same]
          · rw [put_ne _ _ hjk]
            constructor
            · intro hj; exact absurd (only j hj) hjk
            · intro hj; cases hj
        · rw [e]
          by_cases hjk : j = k
          · subst hjk
            rw [put_same, ← h.began j, hl]; simp
          · rw [put_ne _ _ hjk]; exact h.began j
        · by_cases hjk : j = k
          · subst hjk; exact h.subs j (by rw [hl]; simp)
          · rw [put_ne _ _ hjk] at hj; exact h.subs j hj
        · by_cases hjk : j = k
          · subst hjk; rw [put_same] at hj; cases hj
          · rw [put_ne _ _ hjk] at hj; rw [put_ne _ _ hjk]; exact h.none_ j hj
        · rw [e] at hj
          by_cases hjk : j = k
          · subst hjk
            have := h.shared
            simp only [State.position, ofList, hfr] at hge
            simp at hge; omega
          · rw [put_ne _ _ hjk] at hp; exact h.after j hj hp hfr
        · by_cases hjk : j = k
          · subst hjk; rw [put_same] at hj; cases hj
          · rw [put_ne _ _ hjk] at hj; exact absurd (only j hj) hjk
        · by_cases hjk : j = k
          · subst hjk
            rw [e, put_same, h.loop j hl, List.take_of_length_le]
            · rfl
            · refine Nat.le_trans ?_ hge
              unfold share; split <;> simp
          · rw [put_ne _ _ hjk] at hj
            rw [e, put_ne _ _ hjk]; exact h.ended j hj
    · cases hs

private theorem reach {xs : List α} {fresh : Bool} {ls : List Label} {s : State α}
    (hr : LTS.run (step (ofList xs fresh)) init ls = some s) : Inv xs fresh ls s :=
  LTS.inv_hist (step := step (ofList xs fresh)) (Inv xs fresh) (inv_init xs fresh) (fun _ _ _ _ => inv_step) hr

private theorem posts_prefix {xs : List α} {fresh : Bool} {ls : List Label} {s : State α} (h : Inv xs fresh ls s) (k : Nat) :
    s.posts k <+: Spec.whole (share xs fresh (starts ls) k) := by
  cases hp : s.pc k with
  | fresh => rw [(h.none_ k hp).1]; exact List.nil_prefix
  | loop =>
    rw [h.loop k hp]
    exact ((List.take_prefix _ _).map _).trans (List.prefix_append _ _)
  | ended => rw [h.ended k hp]; exact List.prefix_refl _

/-- C94 for `from_iterable`, exactly: with a container every subscription gets the whole sequence; with an iterator only the
one whose worker ran first does, and every other one gets an empty stream. At any time an observer has an initial part
of that, and all of it once its worker has ended and the messages are handled. -/
theorem C94_from_iterable_law {xs : List α} {fresh : Bool} {ls : List Label} {s : State α}
    (hr : LTS.run (step (ofList xs fresh)) init ls = some s) (k : Nat) :
    s.received k <+: Spec.whole (if fresh = true ∨ (starts ls).head? = some k then xs else []) ∧
    (s.pc k = .ended → s.handled k = (s.posts k).length →
      s.received k = Spec.whole (if fresh = true ∨ (starts ls).head? = some k then xs else [])) := by
  have h := reach hr
  refine ⟨(List.take_prefix _ _).trans (posts_prefix h k), fun hp hh => ?_⟩
  rw [State.received, hh, List.take_length, h.ended k hp]; rfl

/-- C94 for `from_iterable` with a container. Missing: iterators (`C94_from_iterable_violated`). -/
theorem C94_from_iterable_partial {xs : List α} {ls : List Label} {s : State α}
    (hr : LTS.run (step (ofList xs true)) init ls = some s) (k : Nat) :
    s.received k <+: Spec.whole xs ∧
    (s.pc k = .ended → s.handled k = (s.posts k).length → s.received k = Spec.whole xs) := by
  simpa using C94_from_iterable_law hr k

/-- C94 is false of `from_iterable` with an iterator, always: of two subscriptions at most one is given any item. -/
theorem C94_from_iterable_violated {xs : List α} {ls : List Label} {s : State α}
    (hr : LTS.run (step (ofList xs false)) init ls = some s) {i j : Nat} (hij : i ≠ j) :
    s.received i <+: [.completed] ∨ s.received j <+: [.completed] := by
  have hi := (C94_from_iterable_law hr i).1
  have hj := (C94_from_iterable_law hr j).1
  by_cases h : (starts ls).head? = some i
  · right
    have hne : (starts ls).head? ≠ some j := by rw [h]; intro e; injection e with e; exact hij e
    simpa [hne, Spec.whole] using hj
  · left
    simpa [h, Spec.whole] using hi

-- two subscriptions to from_iterable([1, 2]) and to from_iterable(iter([1, 2]))
example : (LTS.run (step (ofList [1, 2] true)) init [.subscribe, .subscribe, .start 0, .turn 0, .turn 0, .turn 0, .start 1, .turn 1, .turn 1,
    .turn 1, .handle 0, .handle 1, .handle 0, .handle 0, .handle 1, .handle 1]).map (fun s : State Nat => (s.received 0, s.received 1)) =
      some ([.next 1, .next 2, .completed], [.next 1, .next 2, .completed]) := by decide
example : (LTS.run (step (ofList [1, 2] false)) init [.subscribe, .subscribe, .start 0, .turn 0, .turn 0, .turn 0, .start 1, .turn 1,
    .handle 0, .handle 1, .handle 0, .handle 0]).map (fun s : State Nat => (s.received 0, s.received 1)) =
      some ([.next 1, .next 2, .completed], [.completed]) := by decide

/-- A worker that is inside its loop gets out of it within as many turns as there are items, plus one. -/
private theorem turns (xs : List α) (fresh : Bool) (k : Nat) : ∀ (n : Nat) (s : State α), s.busy = some k →
    xs.length - s.position (ofList xs fresh) k ≤ n →
    ∃ m s', m ≤ n + 1 ∧ LTS.run (step (ofList xs fresh)) s (List.replicate m (.turn k)) = some s' ∧ s'.busy = none ∧ s'.pc k = .ended ∧
      s'.handled = s.handled ∧ s'.subs = s.subs := by
  intro n
  induction n with
  | zero =>
    intro s hb hn
    have hx : (ofList xs fresh).get (s.position (ofList xs fresh) k) = none := List.getElem?_eq_none_iff.mpr (by omega)
    refine ⟨1, { s with busy := none, pc := put s.pc k .ended, posts := put s.posts k (s.posts k ++ [.completed]) }, by omega, by simp only [List.replicate, LTS.run, step, hb, hx, if_true, Option.bind], rfl, put_same _ _ _, rfl, rfl⟩
  | succ n ih =>
    intro s hb hn
    cases hx : (ofList xs fresh).get (s.position (ofList xs fresh) k) with
    | none =>
      exact ⟨1, { s with busy := none, pc := put s.pc k .ended, posts := put s.posts k (s.posts k ++ [.completed]) }, by omega, by simp only [List.replicate, LTS.run, step, hb, hx, if_true, Option.bind], rfl, put_same _ _ _, rfl, rfl⟩
    | some x =>
      have hpos' : ({ s.advance (ofList xs fresh) k with posts := put s.posts k (s.posts k ++ [.next x]) } : State α).position (ofList xs fresh) k
          = s.position (ofList xs fresh) k + 1 := by
        cases fresh <;> simp [State.advance, State.position, ofList, put]
      obtain ⟨m, s', hm, hrun, h1, h2, h3, h4⟩ := ih { s.advance (ofList xs fresh) k with posts := put s.posts k (s.posts k ++ [.next x]) }
        (by cases fresh <;> exact hb) (by rw [hpos']; omega)
      refine ⟨m + 1, s', by omega, ?_, h1, h2, ?_, ?_⟩
      · rw [List.replicate_succ]
        exact LTS.run_cons.mpr ⟨_, by simp only [step, hb, hx, if_true], hrun⟩
      · rw [h3]; cases fresh <;> rfl
      · rw [h4]; cases fresh <;> rfl

/-- C95 for finite sequences: whatever the state, the worker that has control gives it back after at most one turn per
item and one more. Missing: endless sequences (`C95_violated`). -/
theorem C95_partial {xs : List α} {fresh : Bool} {s : State α} {k : Nat} (hb : s.busy = some k) :
    ∃ n s', n ≤ xs.length + 1 ∧ LTS.run (step (ofList xs fresh)) s (List.replicate n (.turn k)) = some s' ∧ s'.busy = none := by
  obtain ⟨m, s', hm, hrun, h1, -⟩ := turns xs fresh k xs.length s hb (by omega)
  exact ⟨m, s', hm, hrun, h1⟩

private theorem handles (q : Seq α) (k : Nat) : ∀ (n : Nat) (s : State α), s.busy = none → (s.posts k).length = s.handled k + n →
    ∃ s', LTS.run (step q) s (List.replicate n (.handle k)) = some s' ∧ s'.handled k = (s'.posts k).length ∧ s'.pc = s.pc := by
  intro n
  induction n with
  | zero => intro s _ hn; exact ⟨s, rfl, by omega, rfl⟩
  | succ n ih =>
    intro s hb hn
    obtain ⟨s', hrun, h1, h2⟩ := ih { s with handled := put s.handled k (s.handled k + 1) } hb (by dsimp only; rw [put_same]; omega)
    refine ⟨s', ?_, h1, h2⟩
    rw [List.replicate_succ]
    refine LTS.run_cons.mpr ⟨_, ?_, hrun⟩
    have : s.handled k < (s.posts k).length := by omega
    simp [step, hb, this]

private theorem handled_le {q : Seq α} {ls : List Label} {s : State α} (hr : LTS.run (step q) init ls = some s) (k : Nat) :
    s.handled k ≤ (s.posts k).length := by
  revert k
  refine LTS.inv (step := step q) (fun s : State α => ∀ k, s.handled k ≤ (s.posts k).length) (by intro k; simp [init]) ?_ hr
  intro s l s' h hs j
  cases l with
  | subscribe => simp only [step] at hs; split at hs <;> cases hs; exact h j
  | start k => simp only [step] at hs; split at hs <;> cases hs; exact h j
  | turn k =>
    simp only [step] at hs
    split at hs
    · split at hs
      · cases hs
        have e : ∀ s : State α, (s.advance q k).handled = s.handled := by intro s; unfold State.advance; split <;> rfl
        show (s.advance q k).handled j ≤ _
        rw [e]; dsimp only
        have := h j
        by_cases hjk : j = k
        · subst hjk; rw [put_same]; simp; omega
        · rw [put_ne _ _ hjk]; exact this
      · cases hs
        dsimp only
        have := h j
        by_cases hjk : j = k
        · subst hjk; rw [put_same]; simp; omega
        · rw [put_ne _ _ hjk]; exact this
    · cases hs
  | handle k =>
    simp only [step] at hs
    split at hs
    · next hc =>
      cases hs
      dsimp only
      by_cases hjk : j = k
      · subst hjk; rw [put_same]; omega
      · rw [put_ne _ _ hjk]; exact h j
    · cases hs

/-- C94 for `from_iterable` with a container, progress: whatever has happened, any subscription can still get the whole
sequence. -/
theorem C94_from_iterable_progress {xs : List α} {ls : List Label} {s : State α}
    (hr : LTS.run (step (ofList xs true)) init ls = some s) {k : Nat} (hk : k < s.subs) :
    ∃ ls' s', LTS.run (step (ofList xs true)) s ls' = some s' ∧ s'.received k = Spec.whole xs := by
  -- first the worker that has control gets out of its loop
  obtain ⟨l1, s1, hr1, hb1, hk1⟩ : ∃ l1 s1, LTS.run (step (ofList xs true)) s l1 = some s1 ∧ s1.busy = none ∧ k < s1.subs := by
    cases hb : s.busy with
    | none => exact ⟨[], s, rfl, hb, hk⟩
    | some j =>
      obtain ⟨m, s', -, hrun, h1, -, -, h4⟩ := turns xs true j xs.length s hb (by omega)
      exact ⟨_, s', hrun, h1, by rw [h4]; exact hk⟩
  have hr1' := LTS.run_append.mpr ⟨s, hr, hr1⟩
  -- then the worker of `k` runs, if it did not yet
  obtain ⟨l2, s2, hr2, hb2, hp2⟩ : ∃ l2 s2, LTS.run (step (ofList xs true)) s1 l2 = some s2 ∧ s2.busy = none ∧ s2.pc k = .ended := by
    cases hp : s1.pc k with
    | ended => exact ⟨[], s1, rfl, hb1, hp⟩
    | loop => have := ((reach hr1').busy k).mp hp; rw [hb1] at this; cases this
    | fresh =>
      obtain ⟨m, s', -, hrun, h1, h2, -⟩ := turns xs true k xs.length { s1 with busy := some k, pc := put s1.pc k .loop } rfl (by omega)
      exact ⟨.start k :: List.replicate m (.turn k), s', LTS.run_cons.mpr ⟨_, by simp [step, hb1, hk1, hp], hrun⟩, h1, h2⟩
  have hr2' := LTS.run_append.mpr ⟨s1, hr1', hr2⟩
  have hle := handled_le hr2' k
  obtain ⟨s3, hr3, hh3, hp3⟩ := handles (ofList xs true) k ((s2.posts k).length - s2.handled k) s2 hb2 (by omega)
  refine ⟨l1 ++ l2 ++ List.replicate ((s2.posts k).length - s2.handled k) (.handle k), s3,
    LTS.run_append.mpr ⟨s2, LTS.run_append.mpr ⟨s1, hr1, hr2⟩, hr3⟩, ?_⟩
  exact (C94_from_iterable_partial (LTS.run_append.mpr ⟨s2, hr2', hr3⟩) k).2 (by rw [hp3]; exact hp2) hh3

/-- C95 is false: once the worker of an endless sequence has begun, nothing else ever happens in the event loop: every
further step is a turn of its loop, no observer is given anything any more, whatever operator (such as `take(n)`) it
belongs to, and the mailbox of its safe observer grows with every turn. -/
theorem C95_violated {q : Seq α} (hq : ∀ p, q.get p ≠ none) {s : State α} {k : Nat} (hb : s.busy = some k)
    {ls : List Label} {s' : State α} (hr : LTS.run (step q) s ls = some s') :
    (∀ l ∈ ls, l = .turn k) ∧ s'.busy = some k ∧ (∀ j, s'.received j = (s'.posts j).take (s.handled j)) ∧
    (s'.posts k).length = (s.posts k).length + ls.length := by
  have key := LTS.inv_hist (step := step q) (s0 := s) (fun ls s' => (∀ l ∈ ls, l = .turn k) ∧ s'.busy = some k ∧ s'.handled = s.handled ∧
      (s'.posts k).length = (s.posts k).length + ls.length) ⟨by simp, hb, rfl, rfl⟩ (by
    rintro ls s1 l s2 ⟨h1, h2, h3, h4⟩ hs
    cases l with
    | subscribe => simp [step, h2] at hs
    | start j => simp [step, h2] at hs
    | handle j => simp [step, h2] at hs
    | turn j =>
      simp only [step, h2] at hs
      split at hs
      · next hj =>
        injection hj with hj; subst hj
        split at hs
        · cases hs
          have e : (s1.advance q k).handled = s1.handled ∧ (s1.advance q k).busy = s1.busy := by
            unfold State.advance; split <;> exact ⟨rfl, rfl⟩
          refine ⟨?_, by show (s1.advance q k).busy = _; rw [e.2]; exact h2, by show (s1.advance q k).handled = _; rw [e.1]; exact h3, ?_⟩
          · intro l hl
            rcases List.mem_append.mp hl with hl | hl
            · exact h1 l hl
            · simpa using hl
          · dsimp only; rw [put_same]; simp; omega
        · next hx => exact absurd hx (hq _)
      · cases hs) hr
  exact ⟨key.1, key.2.1, fun j => by rw [State.received, key.2.2.1], key.2.2.2⟩

-- from_iterable(itertools.count()), with one observer that could be `take(1)`'s
example : (LTS.run (step ⟨some, false⟩) init [.subscribe, .start 0, .turn 0, .turn 0, .turn 0]).map
    (fun s : State Nat => (s.received 0, (s.posts 0).length, s.busy)) = some ([], 3, some 0) := by decide
example : ∀ p, (⟨some, false⟩ : Seq Nat).get p ≠ none := by intro p; simp

end Aio.SeqSource

namespace Aio.AsyncSource
variable {α : Type}

theorem put_same {β : Type} (f : Nat → β) (k : Nat) (x : β) : put f k x k = x := by simp [put]
theorem put_ne {β : Type} (f : Nat → β) {k j : Nat} (x : β) (h : j ≠ k) : put f k x j = f j := by simp [put, h]

/-- What holds of one subscription to a container. -/
private structure Own (items : List α) (ls : List Label) (s : State α) (k : Nat) : Prop where
  le : s.own k ≤ items.length
  fresh : s.pc k = .fresh → s.own k = 0
  calls : s.pc k ≠ .ended → s.calls k = (items.take (s.own k)).map .next
  ended : s.pc k = .ended → s.calls k = Spec.whole items
  dead : s.pc k = .dead → .dispose k ∈ ls

private theorem own_step {items : List α} {ls : List Label} {s s' : State α} {l : Label} {k : Nat} (h : Own items ls s k)
    (hs : step .container items s l = some s') : Own items (ls ++ [l]) s' k := by
  have keep : ∀ t : State α, t.own k = s.own k → t.pc k = s.pc k → t.calls k = s.calls k → Own items (ls ++ [l]) t k := by
    intro t h1 h2 h3
    exact ⟨by rw [h1]; exact h.le, by rw [h1, h2]; exact h.fresh, by rw [h1, h2, h3]; exact h.calls, by rw [h2, h3]; exact h.ended,
      by rw [h2]; intro hd; exact List.mem_append_left _ (h.dead hd)⟩
  cases l with
  | subscribe => cases hs; exact keep _ rfl rfl rfl
  | start j =>
    simp only [step] at hs
    split at hs
    · next hc =>
      cases hs
      by_cases hjk : k = j
      · subst hjk
        simp only [State.pull]
        exact ⟨h.le, fun hp => by simp [put_same] at hp, fun _ => h.calls (by rw [hc.2]; simp), fun hp => by simp [put_same] at hp,
          fun hp => by simp [put_same] at hp⟩
      · exact keep _ rfl (put_ne _ _ hjk) rfl
    · cases hs
  | sent j =>
    simp only [step] at hs
    split at hs
    · next hc =>
      cases hs
      by_cases hjk : k = j
      · subst hjk
        simp only [State.pull]
        exact ⟨h.le, fun hp => by simp [put_same] at hp, fun _ => h.calls (by rw [hc]; simp), fun hp => by simp [put_same] at hp,
          fun hp => by simp [put_same] at hp⟩
      · exact keep _ rfl (put_ne _ _ hjk) rfl
    · cases hs
  | answer j =>
    simp only [step] at hs
    split at hs
    · next hc =>
      cases hs
      simp only [State.answer]
      by_cases hjk : k = j
      · subst hjk
        have hcalls := h.calls (by rw [hc]; simp)
        split
        · next x hx =>
          have hlt := (List.getElem?_eq_some_iff.mp hx).1
          refine ⟨?_, fun hp => by simp [put_same] at hp, fun _ => ?_, fun hp => by simp [put_same] at hp, fun hp => by simp [put_same] at hp⟩
          · dsimp only; rw [put_same]; omega
          · dsimp only
            rw [put_same, put_same, hcalls, List.take_add_one, hx]; simp
        · next hx =>
          have hge : items.length ≤ s.own k := List.getElem?_eq_none_iff.mp hx
          refine ⟨h.le, fun hp => by simp [State.close, put_same] at hp, fun hp => by simp [State.close, put_same] at hp, fun _ => ?_,
            fun hp => by simp [State.close, put_same] at hp⟩
          simp only [State.close]
          rw [put_same, hcalls, List.take_of_length_le hge]; rfl
      · split
        · exact keep _ (put_ne _ _ hjk) (put_ne _ _ hjk) (put_ne _ _ hjk)
        · exact keep _ rfl (put_ne _ _ hjk) (put_ne _ _ hjk)
    · cases hs
  | dispose j =>
    simp only [step] at hs
    split at hs
    · next hc =>
      cases hs
      by_cases hjk : k = j
      · subst hjk
        by_cases he : s.pc k = .ended
        · have : s.cancel .container k = s := by unfold State.cancel; split <;> simp_all
          rw [this]; exact keep _ rfl rfl rfl
        · have : s.cancel .container k = { s with pc := put s.pc k .dead } := by unfold State.cancel; split <;> simp_all
          rw [this]
          exact ⟨h.le, fun hp => by simp [put_same] at hp, fun _ => h.calls he, fun hp => by simp [put_same] at hp, fun _ => by simp⟩
      · have h1 : (s.cancel .container j).own = s.own ∧ (s.cancel .container j).pc k = s.pc k ∧ (s.cancel .container j).calls = s.calls := by
          unfold State.cancel; split <;> simp [put, hjk]
        exact keep _ (by rw [h1.1]) h1.2.1 (by rw [h1.2.2])
    · cases hs

/-- C94 for `from_async_iterable` with a container: every subscription has an initial part of the whole sequence, all of it
once its worker has ended, and its worker ends in no other way unless that very subscription is disposed. Missing: async
generators (`C94_generator_violated`). -/
theorem C94_async_partial {items : List α} {ls : List Label} {s : State α}
    (hr : LTS.run (step .container items) init ls = some s) (k : Nat) :
    s.calls k <+: Spec.whole items ∧ (s.pc k = .ended → s.calls k = Spec.whole items) ∧ (s.pc k = .dead → .dispose k ∈ ls) := by
  have h : Own items ls s k := LTS.inv_hist (step := step .container items) (fun ls s => Own items ls s k)
    ⟨by simp [init], fun _ => rfl, fun _ => by simp [init], fun hp => by simp [init] at hp, fun hp => by simp [init] at hp⟩
    (fun _ _ _ _ => own_step) hr
  refine ⟨?_, h.ended, h.dead⟩
  by_cases he : s.pc k = .ended
  · rw [h.ended he]; exact List.prefix_refl _
  · rw [h.calls he]; exact ((List.take_prefix _ _).map _).trans (List.prefix_append _ _)

/-- The subscriptions in the order in which the iterator answered them. -/
def answered : List Label → List Nat
  | [] => []
  | .answer k :: ls => k :: answered ls
  | _ :: ls => answered ls

theorem answered_append (a b : List Label) : answered (a ++ b) = answered a ++ answered b := by
  induction a with
  | nil => rfl
  | cons l a ih => cases l <;> simp [answered, ih]

/-- The items whose turn belonged to subscription `k`. -/
def dealt (items : List α) (turns : List Nat) (k : Nat) : List α :=
  ((items.zip turns).filter fun p => p.2 == k).map (·.1)

theorem dealt_snoc_some {items : List α} {turns : List Nat} {x : α} (hx : items[turns.length]? = some x) (j k : Nat) :
    dealt items (turns ++ [j]) k = dealt items turns k ++ if j = k then [x] else [] := by
  unfold dealt
  induction items generalizing turns with
  | nil => simp at hx
  | cons y ys ih =>
    cases turns with
    | nil =>
      simp at hx; subst hx
      by_cases h : j = k <;> simp [h]
    | cons t ts =>
      simp only [List.length_cons, List.getElem?_cons_succ] at hx
      have := ih hx
      simp only [List.cons_append, List.zip_cons_cons, List.filter_cons]
      split <;> simp [this]

theorem dealt_snoc_none {items : List α} {turns : List Nat} (hx : items[turns.length]? = none) (j k : Nat) :
    dealt items (turns ++ [j]) k = dealt items turns k := by
  unfold dealt
  induction items generalizing turns with
  | nil => simp
  | cons y ys ih =>
    cases turns with
    | nil => simp at hx
    | cons t ts =>
      have := ih (turns := ts) (by simpa using hx)
      simp only [List.cons_append, List.zip_cons_cons, List.filter_cons]
      split <;> simp [this]

/-- How the calls of a worker end. -/
def closing : PC → List (Notif α)
  | .ended => [.completed]
  | _ => []

theorem closing_ne {p : PC} (h : p ≠ .ended) : (closing p : List (Notif α)) = [] := by
  cases p <;> first | rfl | exact absurd rfl h

theorem closing_or (p : PC) : (closing p : List (Notif α)) = [] ∨ (closing p : List (Notif α)) = [.completed] := by
  cases p <;> simp [closing]

private structure Gen (items : List α) (ls : List Label) (s : State α) : Prop where
  pulls : ∀ k, s.pc k = .pulling ↔ s.running = some k
  open_ : ∀ k, s.running = some k → s.finished = false
  pos : s.finished = false → s.pos = (answered ls).length
  calls : ∀ k, s.calls k = (dealt items (answered ls) k).map .next ++ closing (s.pc k)
  fresh : ∀ k, s.pc k = .fresh → s.calls k = []

private theorem gen_pull {items : List α} {ls : List Label} {s : State α} (l : Label) (e : answered (ls ++ [l]) = answered ls)
    (h : Gen items ls s) (k : Nat) (hk : s.pc k = .fresh ∨ s.pc k = .sending) :
    Gen items (ls ++ [l]) (s.pull .generator k) := by
  have hne : s.pc k ≠ .ended := by rcases hk with hk | hk <;> rw [hk] <;> simp
  have hnp : s.pc k ≠ .pulling := by rcases hk with hk | hk <;> rw [hk] <;> simp
  have hck := h.calls k
  rw [closing_ne hne, List.append_nil] at hck
  unfold State.pull
  dsimp only
  split
  · next hrun =>
    refine ⟨fun j => ?_, h.open_, by rw [e]; exact h.pos, fun j => ?_, fun j hj => ?_⟩
    · dsimp only
      by_cases hjk : j = k
      · subst hjk
        rw [put_same]
        constructor
        · intro hp; cases hp
        · intro hp; exact absurd ((h.pulls j).mpr hp) hnp
      · rw [put_ne _ _ hjk]; exact h.pulls j
    · rw [e]; dsimp only
      by_cases hjk : j = k
      · subst hjk; rw [put_same]; simpa [closing] using hck
      · rw [put_ne _ _ hjk]; exact h.calls j
    · dsimp only at hj ⊢
      by_cases hjk : j = k
      · subst hjk; rw [put_same] at hj; cases hj
      · rw [put_ne _ _ hjk] at hj; exact h.fresh j hj
  · next hrun =>
    have hrun : s.running = none := by simpa using hrun
    split
    · next hfin =>
      unfold State.close
      refine ⟨fun j => ?_, h.open_, by rw [e]; exact h.pos, fun j => ?_, fun j hj => ?_⟩
      · dsimp only
        by_cases hjk : j = k
        · subst hjk; rw [put_same, hrun]; simp
        · rw [put_ne _ _ hjk]; exact h.pulls j
      · rw [e]; dsimp only
        by_cases hjk : j = k
        · subst hjk; rw [put_same, put_same, hck]; simp [closing]
        · rw [put_ne _ _ hjk, put_ne _ _ hjk]; exact h.calls j
      · dsimp only at hj ⊢
        by_cases hjk : j = k
        · subst hjk; rw [put_same] at hj; cases hj
        · rw [put_ne _ _ hjk] at hj; rw [put_ne _ _ hjk]; exact h.fresh j hj
    · next hfin =>
      have hfin : s.finished = false := by simpa using hfin
      refine ⟨fun j => ?_, fun _ _ => hfin, by rw [e]; exact h.pos, fun j => ?_, fun j hj => ?_⟩
      · dsimp only
        by_cases hjk : j = k
        · subst hjk; rw [put_same]; simp
        · rw [put_ne _ _ hjk]
          constructor
          · intro hp; have := (h.pulls j).mp hp; rw [hrun] at this; cases this
          · intro hp; injection hp with hp; exact absurd hp.symm hjk
      · rw [e]; dsimp only
        by_cases hjk : j = k
        · subst hjk; rw [put_same]; simpa [closing] using hck
        · rw [put_ne _ _ hjk]; exact h.calls j
      · dsimp only at hj ⊢
        by_cases hjk : j = k
        · subst hjk; rw [put_same] at hj; cases hj
        · rw [put_ne _ _ hjk] at hj; exact h.fresh j hj

private theorem gen_dead {items : List α} {ls : List Label} {s : State α} (l : Label) (e : answered (ls ++ [l]) = answered ls)
    (h : Gen items ls s) (k : Nat) (hne : s.pc k ≠ .ended) (hnp : s.pc k ≠ .pulling) :
    Gen items (ls ++ [l]) { s with pc := put s.pc k .dead } := by
  refine ⟨fun j => ?_, h.open_, by rw [e]; exact h.pos, fun j => ?_, fun j hj => ?_⟩
  · dsimp only
    by_cases hjk : j = k
    · subst hjk
      rw [put_same]
      constructor
      · intro hp; cases hp
      · intro hp; exact absurd ((h.pulls j).mpr hp) hnp
    · rw [put_ne _ _ hjk]; exact h.pulls j
  · rw [e]; dsimp only
    by_cases hjk : j = k
    · subst hjk
      have := h.calls j
      rw [closing_ne hne] at this
      rw [put_same, this]; simp [closing]
    · rw [put_ne _ _ hjk]; exact h.calls j
  · dsimp only at hj ⊢
    by_cases hjk : j = k
    · subst hjk; rw [put_same] at hj; cases hj
    · rw [put_ne _ _ hjk] at hj; exact h.fresh j hj

private theorem gen_step {items : List α} {ls : List Label} {s s' : State α} {l : Label} (h : Gen items ls s)
    (hs : step .generator items s l = some s') : Gen items (ls ++ [l]) s' := by
  cases l with
  | subscribe =>
    cases hs
    have e : answered (ls ++ [.subscribe]) = answered ls := by simp [answered_append, answered]
    exact ⟨h.pulls, h.open_, by rw [e]; exact h.pos, by rw [e]; exact h.calls, h.fresh⟩
  | start k =>
    simp only [step] at hs
    split at hs
    · next hc => cases hs; exact gen_pull _ (by simp [answered_append, answered]) h k (.inl hc.2)
    · cases hs
  | sent k =>
    simp only [step] at hs
    split at hs
    · next hc => cases hs; exact gen_pull _ (by simp [answered_append, answered]) h k (.inr hc)
    · cases hs
  | answer k =>
    simp only [step] at hs
    split at hs
    · next hc =>
      cases hs
      have e : answered (ls ++ [.answer k]) = answered ls ++ [k] := by simp [answered_append, answered]
      have hrun := (h.pulls k).mp hc
      have hfin := h.open_ k hrun
      have hpos := h.pos hfin
      have hck := h.calls k
      rw [closing_ne (by rw [hc]; simp), List.append_nil] at hck
      have only : ∀ j, s.pc j = .pulling → j = k := fun j hj => by
        have := (h.pulls j).mp hj; rw [hrun] at this; injection this with this; exact this.symm
      unfold State.answer
      dsimp only
      split
      · next x hx =>
        rw [hpos] at hx
        refine ⟨fun j => ?_, nofun, fun _ => ?_, fun j => ?_, fun j hj => ?_⟩
        · dsimp only
          by_cases hjk : j = k
          · subst hjk; rw [put_same]; simp
          · rw [put_ne _ _ hjk]
            constructor
            · intro hp; exact absurd (only j hp) hjk
            · intro hp; cases hp
        · rw [e]; simp [hpos]
        · rw [e, dealt_snoc_some hx]; dsimp only
          by_cases hjk : j = k
          · subst hjk; rw [put_same, put_same, hck]; simp [closing]
          · rw [put_ne _ _ hjk, put_ne _ _ hjk, if_neg (fun h => hjk h.symm), List.append_nil]; exact h.calls j
        · dsimp only at hj ⊢
          by_cases hjk : j = k
          · subst hjk; rw [put_same] at hj; cases hj
          · rw [put_ne _ _ hjk] at hj; rw [put_ne _ _ hjk]; exact h.fresh j hj
      · next hx =>
        rw [hpos] at hx
        unfold State.close
        refine ⟨fun j => ?_, nofun, nofun, fun j => ?_, fun j hj => ?_⟩
        · dsimp only
          by_cases hjk : j = k
          · subst hjk; rw [put_same]; simp
          · rw [put_ne _ _ hjk]
            constructor
            · intro hp; exact absurd (only j hp) hjk
            · intro hp; cases hp
        · rw [e, dealt_snoc_none hx]; dsimp only
          by_cases hjk : j = k
          · subst hjk; rw [put_same, put_same, hck]; simp [closing]
          · rw [put_ne _ _ hjk, put_ne _ _ hjk]; exact h.calls j
        · dsimp only at hj ⊢
          by_cases hjk : j = k
          · subst hjk; rw [put_same] at hj; cases hj
          · rw [put_ne _ _ hjk] at hj; rw [put_ne _ _ hjk]; exact h.fresh j hj
    · cases hs
  | dispose k =>
    have e : answered (ls ++ [.dispose k]) = answered ls := by simp [answered_append, answered]
    simp only [step] at hs
    split at hs
    · cases hs
      unfold State.cancel
      split
      · next hp =>
        have hrun := (h.pulls k).mp hp
        have hck := h.calls k
        rw [closing_ne (by rw [hp]; simp), List.append_nil] at hck
        refine ⟨fun j => ?_, nofun, nofun, fun j => ?_, fun j hj => ?_⟩
        · dsimp only
          by_cases hjk : j = k
          · subst hjk; rw [put_same]; simp
          · rw [put_ne _ _ hjk]
            constructor
            · intro hj; have := (h.pulls j).mp hj; rw [hrun] at this; injection this with this; exact absurd this.symm hjk
            · intro hj; cases hj
        · rw [e]; dsimp only
          by_cases hjk : j = k
          · subst hjk; rw [put_same, hck]; simp [closing]
          · rw [put_ne _ _ hjk]; exact h.calls j
        · dsimp only at hj ⊢
          by_cases hjk : j = k
          · subst hjk; rw [put_same] at hj; cases hj
          · rw [put_ne _ _ hjk] at hj; exact h.fresh j hj
      · exact ⟨h.pulls, h.open_, by rw [e]; exact h.pos, by rw [e]; exact h.calls, h.fresh⟩
      · next hp2 hp1 => exact gen_dead _ e h k hp2 (hp1 rfl)
    · cases hs

private theorem gen_reach {items : List α} {ls : List Label} {s : State α}
    (hr : LTS.run (step .generator items) init ls = some s) : Gen items ls s :=
  LTS.inv_hist (step := step .generator items) (Gen items)
    ⟨fun k => by simp [init], fun _ h => by simp [init] at h, fun _ => rfl, fun k => by simp [init, answered, dealt, closing], fun _ _ => rfl⟩
    (fun _ _ _ _ => gen_step) hr

/-- What happens with an async generator, exactly: its items are dealt out among the subscriptions, each one to the
subscription whose `__anext__` it answers, and to no other. -/
theorem C94_generator_law {items : List α} {ls : List Label} {s : State α}
    (hr : LTS.run (step .generator items) init ls = some s) (k : Nat) :
    s.calls k = (dealt items (answered ls) k).map .next ++ closing (s.pc k) :=
  (gen_reach hr).calls k

theorem dealt_length (items : List α) (turns : List Nat) {i j : Nat} (hij : i ≠ j) :
    (dealt items turns i).length + (dealt items turns j).length ≤ items.length := by
  unfold dealt
  induction items generalizing turns with
  | nil => simp
  | cons y ys ih =>
    cases turns with
    | nil => simp
    | cons t ts =>
      have := ih ts
      simp only [List.zip_cons_cons, List.filter_cons]
      by_cases h1 : t = i
      · subst h1
        simp [hij]
        simp at this
        omega
      · by_cases h2 : t = j
        · subst h2; simp [h1]; simp at this; omega
        · simp [h1, h2]; simp at this; omega

theorem whole_length {items : List α} {vs : List α} {b : List (Notif α)} (h : vs.map .next ++ b = Spec.whole items)
    (hb : b = [] ∨ b = [.completed]) : vs.length = items.length := by
  rcases hb with rfl | rfl
  · exfalso
    have h' := congrArg List.getLast? h
    simp only [Spec.whole, List.append_nil, List.getLast?_append, List.getLast?_singleton, Option.some_or] at h'
    have hm : Notif.completed ∈ vs.map Notif.next := List.mem_of_getLast? h'
    simp at hm
  · have h' := congrArg List.length h
    simpa [Spec.whole] using h'

/-- C94 is false of `from_async_iterable` with an async generator, always: no two subscriptions get the whole sequence. -/
theorem C94_generator_violated {items : List α} (hne : items ≠ []) {ls : List Label} {s : State α}
    (hr : LTS.run (step .generator items) init ls = some s) {i j : Nat} (hij : i ≠ j) :
    ¬ (s.calls i = Spec.whole items ∧ s.calls j = Spec.whole items) := by
  rintro ⟨hi, hj⟩
  rw [C94_generator_law hr] at hi hj
  have h1 := whole_length hi (closing_or _)
  have h2 := whole_length hj (closing_or _)
  have h3 := dealt_length items (answered ls) hij
  have h4 : items.length ≠ 0 := by simpa using hne
  omega

/-- C94 is false, and the observer is not told: a subscription that asks the generator for an item while another waits for
one gets nothing any more, neither a value nor an error nor the completion. -/
theorem C94_generator_violated_silent {items : List α} {s s1 : State α} {i j : Nat} (hij : s.running = some j)
    {l : Label} (hl : l = .start i ∨ l = .sent i) (h : step .generator items s l = some s1)
    {ls : List Label} {s2 : State α} (hr : LTS.run (step .generator items) s1 ls = some s2) : s2.calls i = s.calls i := by
  have h0 : s1 = { s with pc := put s.pc i .dead } := by
    rcases hl with rfl | rfl
    · simp only [step] at h
      split at h
      · cases h; simp [State.pull, hij]
      · cases h
    · simp only [step] at h
      split at h
      · cases h; simp [State.pull, hij]
      · cases h
  have key := LTS.inv (step := step .generator items) (s0 := s1) (fun t : State α => t.pc i = .dead ∧ t.calls i = s.calls i)
    (by rw [h0]; exact ⟨put_same _ _ _, rfl⟩) (by
      rintro t l t' ⟨h1, h2⟩ hs
      have pull_ : ∀ k, k ≠ i → (t.pull .generator k).pc i = .dead ∧ (t.pull .generator k).calls i = s.calls i := by
        intro k hk
        have hik : i ≠ k := fun h => hk h.symm
        unfold State.pull State.close
        dsimp only
        split
        · exact ⟨(put_ne _ _ hik).trans h1, h2⟩
        · split
          · exact ⟨(put_ne _ _ hik).trans h1, (put_ne _ _ hik).trans h2⟩
          · exact ⟨(put_ne _ _ hik).trans h1, h2⟩
      cases l with
      | subscribe => cases hs; exact ⟨h1, h2⟩
      | start k =>
        simp only [step] at hs
        split at hs
        · next hc => cases hs; exact pull_ k (by rintro rfl; rw [h1] at hc; cases hc.2)
        · cases hs
      | sent k =>
        simp only [step] at hs
        split at hs
        · next hc => cases hs; exact pull_ k (by rintro rfl; rw [h1] at hc; cases hc)
        · cases hs
      | answer k =>
        simp only [step] at hs
        split at hs
        · next hc =>
          cases hs
          have hik : i ≠ k := by rintro rfl; rw [h1] at hc; cases hc
          unfold State.answer State.close
          dsimp only
          split
          · exact ⟨(put_ne _ _ hik).trans h1, (put_ne _ _ hik).trans h2⟩
          · exact ⟨(put_ne _ _ hik).trans h1, (put_ne _ _ hik).trans h2⟩
        · cases hs
      | dispose k =>
        simp only [step] at hs
        split at hs
        · cases hs
          by_cases hik : i = k
          · subst hik
            unfold State.cancel
            rw [h1]
            exact ⟨put_same _ _ _, h2⟩
          · unfold State.cancel
            split
            · exact ⟨(put_ne _ _ hik).trans h1, h2⟩
            · exact ⟨h1, h2⟩
            · exact ⟨(put_ne _ _ hik).trans h1, h2⟩
        · cases hs) hr
  exact key.2

/-- C94 is false after a disposal: if one subscription is disposed while it waits for the generator, no other one gets a
further value; they are told "completed". -/
theorem C94_generator_violated_dispose {items : List α} {ls : List Label} {s s1 s2 : State α} {j : Nat}
    (hr : LTS.run (step .generator items) init ls = some s) (hj : s.pc j = .pulling) (h : step .generator items s (.dispose j) = some s1)
    {ls' : List Label} (hr' : LTS.run (step .generator items) s1 ls' = some s2) (k : Nat) :
    s2.calls k = s.calls k ∨ s2.calls k = s.calls k ++ [.completed] := by
  have hg := gen_reach hr
  have h0 : s1 = { s with running := none, finished := true, pc := put s.pc j .dead } := by
    simp only [step] at h
    split at h
    · cases h; simp [State.cancel, hj]
    · cases h
  have key := LTS.inv (step := step .generator items) (s0 := s1) (fun t : State α => t.running = none ∧ t.finished = true ∧
      (∀ i, t.pc i ≠ .pulling) ∧ (t.calls k = s.calls k ∨ (t.pc k = .ended ∧ t.calls k = s.calls k ++ [.completed]))) (by
        rw [h0]
        refine ⟨rfl, rfl, fun i => ?_, .inl rfl⟩
        dsimp only
        by_cases hij : i = j
        · subst hij; rw [put_same]; simp
        · rw [put_ne _ _ hij]
          intro hi
          have h1 := (hg.pulls i).mp hi
          have h2 := (hg.pulls j).mp hj
          rw [h1] at h2; injection h2 with h2; exact hij h2) (by
      rintro t l t' ⟨h1, h2, h3, h4⟩ hs
      have pull_ : ∀ i, (t.pc i = .fresh ∨ t.pc i = .sending) → t'  = t.pull .generator i → t'.running = none ∧ t'.finished = true ∧
          (∀ i, t'.pc i ≠ .pulling) ∧ (t'.calls k = s.calls k ∨ (t'.pc k = .ended ∧ t'.calls k = s.calls k ++ [.completed])) := by
        rintro i hi rfl
        have : t.pull .generator i = t.close i := by simp [State.pull, h1, h2]
        rw [this]
        unfold State.close
        refine ⟨h1, h2, fun i' => ?_, ?_⟩
        · dsimp only
          by_cases h : i' = i
          · subst h; rw [put_same]; simp
          · rw [put_ne _ _ h]; exact h3 i'
        · dsimp only
          by_cases h : k = i
          · subst h
            rw [put_same, put_same]
            rcases h4 with h4 | ⟨h4, -⟩
            · right; rw [h4]; exact ⟨rfl, rfl⟩
            · rw [h4] at hi; rcases hi with hi | hi <;> cases hi
          · rw [put_ne _ _ h, put_ne _ _ h]; exact h4
      cases l with
      | subscribe => cases hs; exact ⟨h1, h2, h3, h4⟩
      | start i =>
        simp only [step] at hs
        split at hs
        · next hc => cases hs; exact pull_ i (.inl hc.2) rfl
        · cases hs
      | sent i =>
        simp only [step] at hs
        split at hs
        · next hc => cases hs; exact pull_ i (.inr hc) rfl
        · cases hs
      | answer i =>
        simp only [step] at hs
        split at hs
        · next hc => exact absurd hc (h3 i)
        · cases hs
      | dispose i =>
        simp only [step] at hs
        split at hs
        · cases hs
          unfold State.cancel
          split
          · next hp => exact absurd hp (h3 i)
          · exact ⟨h1, h2, h3, h4⟩
          · next hp _ =>
            refine ⟨h1, h2, fun i' => ?_, ?_⟩
            · dsimp only
              by_cases h : i' = i
              · subst h; rw [put_same]; simp
              · rw [put_ne _ _ h]; exact h3 i'
            · dsimp only
              by_cases h : k = i
              · subst h
                rcases h4 with h4 | ⟨h4, -⟩
                · exact .inl h4
                · exact absurd h4 hp
              · rw [put_ne _ _ h]; exact h4
        · cases hs) hr'
  rcases key.2.2.2 with h | ⟨-, h⟩
  · exact .inl h
  · exact .inr h

-- a container, and an async generator, with two subscriptions that take turns
example : (LTS.run (step .container [1, 2]) init [.subscribe, .subscribe, .start 0, .start 1, .answer 0, .answer 1, .sent 0, .sent 1,
    .answer 0, .answer 1, .sent 0, .sent 1, .answer 0, .answer 1]).map (fun s : State Nat => (s.calls 0, s.calls 1)) =
      some ([.next 1, .next 2, .completed], [.next 1, .next 2, .completed]) := by decide
example : (LTS.run (step .generator [1, 2]) init [.subscribe, .subscribe, .start 0, .answer 0, .start 1, .answer 1, .sent 0, .answer 0,
    .sent 1]).map (fun s : State Nat => (s.calls 0, s.calls 1)) = some ([.next 1, .completed], [.next 2, .completed]) := by decide
-- the second asks while the first waits: it never hears anything
example : (LTS.run (step .generator [1, 2]) init [.subscribe, .subscribe, .start 0, .start 1, .answer 0, .sent 0, .answer 0, .sent 0,
    .answer 0]).map (fun s : State Nat => (s.calls 0, s.calls 1)) = some ([.next 1, .next 2, .completed], []) := by decide
-- the first is disposed while it waits: the second is told that the stream has completed
example : (LTS.run (step .generator [1, 2]) init [.subscribe, .subscribe, .start 1, .answer 1, .start 0, .dispose 0, .sent 1]).map
    (fun s : State Nat => (s.calls 0, s.calls 1)) = some ([], [.next 1, .completed]) := by decide

end Aio.AsyncSource
