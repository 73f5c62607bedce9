import Verif.Lemmas.Create
/-!
# C20-C22, C24, C26: from_iterable, single, empty, never, fail, of_async, defer
-/

namespace Aio
open Spec Producer
variable {α : Type}

/-! ## of_seq: what the worker posts -/

theorem ofSeqWorker_posts (xs : List α) (last : Option Err) :
    (ofSeqWorker xs last false).out =
      xs.map .next ++ (match last with | none => [.completed] | some _ => []) := by
  have key : ∀ xs : List α, Py.forEach xs (fun x => (do
      throwIfCancelled
      Py.tryExcept (poster.asend x) fun ex => poster.athrow ex : Py Bool (Notif α) Unit)) false =
      ⟨.ok (), false, xs.map .next⟩ := by
    intro xs
    induction xs with
    | nil => rfl
    | cons x xs ih =>
      rw [Py.forEach]
      rw [Py.andThen_ok (a := ()) (s' := false) (o := [.next x])]
      · rw [ih]; rfl
      · rfl
  rw [ofSeqWorker, Py.bind_eq, Py.andThen_ok (key xs)]
  cases last <;> rfl

/-- If the token was cancelled the worker posts nothing (except for an empty iterable). -/
theorem ofSeqWorker_cancelled (x : α) (xs : List α) (last : Option Err) :
    (ofSeqWorker (x :: xs) last true).out = [] := rfl

theorem oneShot_measured (kill : Bool) (w : Py Bool (Notif α) Unit) :
    Measured (oneShot kill w) fun s => if s.fresh then 1 else 0 where
  step s l s' o h := by
    simp only [oneShot] at h
    split at h
    · rename_i hf
      split at h <;> (simp at h; obtain ⟨rfl, -⟩ := h; simp [hf])
    · simp at h
  dispose s := by simp [oneShot]

/-- posts of a one-shot source that nobody disposes before it ran: all or nothing -/
theorem oneShot_posts (kill : Bool) (w : Py Bool (Notif α) Unit) {ls s}
    (hr : LTS.run (oneShot kill w).next (oneShot kill w).start ls = some s) (hk : Kept ls) :
    (s.src.fresh = true ∧ s.src.cancelled = false ∧ s.posts = [] ∧ s.safe.inbox = [] ∧
        s.safe.pc = .waiting) ∨
      (s.src.fresh = false ∧ s.posts = (w false).out) := by
  refine LTS.inv_of (fun l => l ≠ .dispose) (fun s : State OneShot α =>
    (s.src.fresh = true ∧ s.src.cancelled = false ∧ s.posts = [] ∧ s.safe.inbox = [] ∧
        s.safe.pc = .waiting) ∨
      (s.src.fresh = false ∧ s.posts = (w false).out)) ?_ ?_ ?_ hr
  · exact .inl ⟨rfl, rfl, rfl, rfl, rfl⟩
  · rintro s l s' hl (⟨h1, h2, h3, h4, h5⟩ | ⟨h1, h2⟩) hs
    · cases l with
      | own l =>
        simp only [next, oneShot, h1, h2, Bool.and_false] at hs
        simp at hs; subst hs
        exact .inr ⟨rfl, by simp [h3]⟩
      | dispose => exact absurd rfl hl
      | receive => simp [next, Safe.step, h4, h5] at hs
      | ret => simp [next, Safe.step, h5] at hs
      | raise e => simp [next, Safe.step, h5] at hs
    · right
      cases l with
      | own l => simp [next, oneShot, h1] at hs
      | dispose => exact absurd rfl hl
      | receive =>
        simp only [next] at hs
        split at hs
        · simp at hs
        · simp at hs; subst hs
          simp only
          refine ⟨?_, h2⟩
          split
          · simpa [oneShot] using h1
          · exact h1
      | ret => simp only [next, Option.map_eq_some_iff] at hs; obtain ⟨t, ht, rfl⟩ := hs; exact ⟨h1, h2⟩
      | raise e =>
        simp only [next, Option.map_eq_some_iff] at hs; obtain ⟨t, ht, rfl⟩ := hs; exact ⟨h1, h2⟩
  · rintro l hl rfl; exact hk hl

theorem oneShot_delivers (kill : Bool) (w : Py Bool (Notif α) Unit) {out : List (Notif α)}
    (ho : cut (w false).out = out) : (oneShot kill w).Delivers Kept out := by
  refine delivers_of (oneShot_measured kill w) fun ls s hr hk => ?_
  rcases oneShot_posts kill w hr hk with ⟨h1, -, h3, -, -⟩ | ⟨-, h2⟩
  · rw [h3]
    refine ⟨by simp [cut, story, Story.events, End.events], fun h => ?_⟩
    have := h ()
    simp [oneShot, h1] at this
    split at this <;> simp at this
  · rw [h2, ho]
    exact ⟨List.prefix_refl _, fun _ => rfl⟩

/-! ## C20 -/

/-- C20 is false for an iterable that raises: the error is not delivered, the stream just stops. -/
theorem C20_violated_raising : ∃ (ls : _) (s : _),
    LTS.run (ofSeq true [1, 2] (some (.user 5))).next (ofSeq true [1, 2] (some (.user 5))).start ls =
      some s ∧ NoRaise ls ∧ Kept ls ∧ (ofSeq true [1, 2] (some (.user 5))).Idle s ∧
    s.received = [.next 1, .next 2] :=
  ⟨[.own (), .receive, .ret, .receive, .ret], _, rfl, by simp [NoRaise], by simp [Kept],
    ⟨fun _ => rfl, .inr ⟨rfl, rfl⟩⟩, by decide⟩

/-- C20, the part that holds: iterables that end normally. Missing: iterables that raise
(`C20_violated_raising`). -/
theorem C20_from_iterable_partial (kill : Bool) (xs : List α) :
    (ofSeq kill xs none).Delivers Kept (xs.map .next ++ [.completed]) := by
  refine oneShot_delivers kill _ ?_
  rw [ofSeqWorker_posts]
  simp [cut, story_map_next_append, Story.events, story, End.events]

/-- C20. The exact behaviour for a raising iterable: the elements before, and then nothing. -/
theorem C20_raising_exact (kill : Bool) (xs : List α) (e : Err) :
    (ofSeq kill xs (some e)).Delivers Kept (xs.map .next) := by
  refine oneShot_delivers kill _ ?_
  rw [ofSeqWorker_posts]
  have := story_map_next_append xs []
  simp only [List.append_nil] at this
  simp [cut, this, Story.events, story, End.events]

example : ∃ ls s, LTS.run (ofSeq true [1, 2] none).next (ofSeq true [1, 2] none).start ls = some s ∧
    NoRaise ls ∧ Kept ls ∧ (ofSeq true [1, 2] none).Idle s ∧
    s.received = [.next 1, .next 2, .completed] :=
  ⟨[.own (), .receive, .ret, .receive, .ret, .receive, .ret, .ret], _, rfl, by simp [NoRaise],
    by simp [Kept], ⟨fun _ => rfl, .inl rfl⟩, by decide⟩

/-! ## C21 -/

/-- C21. `fail(e)` delivers exactly the error. -/
theorem C21_fail (kill : Bool) (e : Err) :
    (failing kill e : Producer OneShot Unit α).Delivers Kept [.error e] :=
  oneShot_delivers kill _ rfl

/-- C21. `single(v)` delivers exactly the value and completion (disposing has no effect). -/
theorem C21_single (v : α) : (single v).Delivers (fun _ => True) [.next v, .completed] := by
  refine delivers_of (μ := fun s => if s.fresh then 1 else 0) ⟨?_, fun s => Nat.le_refl _⟩ ?_
  · intro s l s' o h
    simp only [single] at h
    split at h
    · rename_i hf
      simp at h; obtain ⟨rfl, -⟩ := h; simp [hf]
    · simp at h
  · intro ls s hr _
    have := (single v).src_inv (fun s ps => (s.fresh = true ∧ ps = []) ∨
      (s.fresh = false ∧ ps = [.next v, .completed])) (.inl ⟨rfl, rfl⟩) ?_ ?_ hr
    · rcases this with ⟨h1, h2⟩ | ⟨h1, h2⟩
      · rw [h2]
        refine ⟨by simp [cut, story, Story.events, End.events], fun h => ?_⟩
        have := h ()
        simp [single, h1] at this
      · rw [h2]; exact ⟨List.prefix_refl _, fun _ => rfl⟩
    · rintro s ps l s' o (⟨h1, h2⟩ | ⟨h1, h2⟩) hs
      · simp only [single, h1, if_true] at hs
        simp at hs; obtain ⟨rfl, rfl⟩ := hs
        exact .inr ⟨rfl, by subst h2; rfl⟩
      · simp [single, h1] at hs
    · rintro s ps h; exact h

/-- C21. `never()` delivers nothing. -/
theorem C21_never : (never : Producer Unit Unit α).Delivers (fun _ => True) [] := by
  refine delivers_of (μ := fun _ => 0) ⟨?_, fun s => Nat.le_refl _⟩ ?_
  · intro s l s' o h; simp [never] at h
  · intro ls s hr _
    have := never.src_inv (fun _ ps => ps = []) rfl ?_ ?_ hr
    · rw [this]; exact ⟨List.prefix_refl _, fun _ => rfl⟩
    · intro s ps l s' o _ h; simp [never] at h
    · intro s ps h; exact h

/-- C21. `empty()` calls `aclose` on the observer, once, and nothing else, during the subscribe call.
(Whatever the observer does: its outputs, state changes and exceptions are exactly those of the one
`aclose` call.) -/
theorem C21_empty {σ ο : Type} (aobv : Observer σ ο α) : emptySubscribe aobv = aobv.aclose := rfl

/-- C21, the same with a recording observer. -/
theorem C21_empty_recorded : (emptySubscribe (recorder : Observer Unit (Notif α) α) ()).out =
    [.completed] := rfl

/-! ## C22 -/

section
open OfAsync

/-- The outcomes of the workflow in a schedule (at most one is possible). -/
def outcomes : List (Producer.Label (OfAsync.Lab α)) → List (Except Err α)
  | [] => []
  | .own (.outcome r) :: ls => r :: outcomes ls
  | _ :: ls => outcomes ls

/-- What `of_async` is expected to deliver for an outcome; a cancelled workflow just ends. -/
def asyncResult : Except Err α → List (Notif α)
  | .ok v => [.next v, .completed]
  | .error .cancelled => [.completed]
  | .error e => [.error e]

theorem after_cut (r : Except Err α) (c : Bool) : cut (after r c).out = asyncResult r := by
  cases r with
  | ok v => rfl
  | error e => cases e <;> rfl

theorem outcomes_append (a b : List (Producer.Label (OfAsync.Lab α))) :
    outcomes (a ++ b) = outcomes a ++ outcomes b := by
  induction a with
  | nil => rfl
  | cons l a ih =>
    cases l with
    | own l => cases l <;> simp [outcomes, ih]
    | _ => simp [outcomes, ih]

theorem ofAsync_posts (kill : Bool) {ls s}
    (hr : LTS.run (ofAsync kill : Producer _ _ α).next (ofAsync kill).start ls = some s) :
    (s.src.pc ≠ .finished ∧ s.posts = [] ∧ outcomes ls = []) ∨
    (s.src.pc = .finished ∧ ((s.posts = [] ∧ outcomes ls = []) ∨
      ∃ r c, outcomes ls = [r] ∧ s.posts = (after r c).out)) := by
  refine LTS.inv_hist (fun ls s => (s.src.pc ≠ .finished ∧ s.posts = [] ∧ outcomes ls = []) ∨
    (s.src.pc = .finished ∧ ((s.posts = [] ∧ outcomes ls = []) ∨
      ∃ r c, outcomes ls = [r] ∧ s.posts = (after r c).out))) ?_ ?_ hr
  · exact .inl ⟨by simp [start, ofAsync], rfl, rfl⟩
  · rintro ls ⟨⟨pc, c⟩, posts, safe⟩ l s' hi hs
    simp only at hi
    cases l with
    | own l =>
      cases l with
      | start =>
        cases pc <;> simp only [next, ofAsync] at hs <;> try (simp at hs; done)
        split at hs
        · simp at hs
        · rename_i t o ht
          simp at hs; subst hs
          simp only [outcomes_append, outcomes, List.append_nil]
          split at ht <;> (simp at ht; obtain ⟨rfl, rfl⟩ := ht; simp at hi; simp [hi])
      | outcome r =>
        cases pc <;> simp only [next, ofAsync] at hs <;> try (simp at hs; done)
        simp at hs; subst hs
        rw [outcomes_append]
        simp at hi
        exact .inr ⟨rfl, .inr ⟨r, c, by simp [hi, outcomes], by simp [hi]⟩⟩
    | dispose =>
      simp [next] at hs; subst hs
      simpa [outcomes_append, outcomes, ofAsync] using hi
    | receive =>
      simp only [next] at hs
      split at hs
      · simp at hs
      · simp at hs; subst hs
        simp only [outcomes_append, outcomes, List.append_nil]
        split <;> simpa [ofAsync] using hi
    | ret =>
      simp only [next, Option.map_eq_some_iff] at hs; obtain ⟨t, ht, rfl⟩ := hs
      simpa [outcomes_append, outcomes] using hi
    | raise e =>
      simp only [next, Option.map_eq_some_iff] at hs; obtain ⟨t, ht, rfl⟩ := hs
      simpa [outcomes_append, outcomes] using hi

/-- C22 is false after a disposal: the cancelled workflow's subscriber is told "completed". -/
theorem C22_violated_dispose : ∃ (pre : _) (s : _) (post : _) (s' : _),
    LTS.run (ofAsync true : Producer _ _ Nat).next (ofAsync true).start pre = some s ∧
    Label.dispose ∈ pre ∧ s.received = [] ∧
    LTS.run (ofAsync true).next s post = some s' ∧ s'.received = [.completed] :=
  ⟨[.own .start, .dispose], _, [.own (.outcome (.error .cancelled)), .receive, .ret], _, rfl, by simp,
    rfl, rfl, by decide⟩

/-- C22, the part that holds: the observer gets the value and completion, or exactly the exception,
never both. Missing: silence after a disposal (`C22_violated_dispose`). -/
theorem C22_of_async_partial (kill : Bool) {ls s}
    (hr : LTS.run (ofAsync kill : Producer _ _ α).next (ofAsync kill).start ls = some s)
    (hn : NoRaise ls) (r : Except Err α) (ho : r ∈ outcomes ls) :
    s.received <+: asyncResult r ∧ (Safe.Drained s.safe → s.received = asyncResult r) := by
  have h := (ofAsync kill).received_cut hr hn
  rcases ofAsync_posts kill hr with ⟨-, -, h1⟩ | ⟨-, ⟨-, h1⟩ | ⟨r', c, h1, h2⟩⟩
  · simp [h1] at ho
  · simp [h1] at ho
  · rw [h1] at ho
    simp at ho; subst ho
    rwa [h2, after_cut] at h

/-- C22. As long as the workflow has not ended nothing is delivered. -/
theorem C22_not_before (kill : Bool) {ls s}
    (hr : LTS.run (ofAsync kill : Producer _ _ α).next (ofAsync kill).start ls = some s)
    (ho : outcomes ls = []) : s.received = [] := by
  have hp : s.posts = [] := by
    rcases ofAsync_posts kill hr with ⟨-, h, -⟩ | ⟨-, ⟨h, -⟩ | ⟨r', c, h1, -⟩⟩
    · exact h
    · exact h
    · rw [h1] at ho; simp at ho
  obtain ⟨ls', h1, h2, -⟩ := (ofAsync kill).safe_run hr
  obtain ⟨vs, c, t, hp', hl, hsh⟩ := Safe.inv_run h1
  rw [h2, hp] at hp'
  have : vs.map Notif.next ++ c = [] := by
    have := hp'.symm
    simp at this ⊢
    exact ⟨this.1, this.2.1⟩
  simp at this
  obtain ⟨rfl, rfl⟩ := this
  rw [State.received, hl]
  generalize s.safe.pc = pc at hsh
  cases hsh
  rfl

/-- C22. Disposing before the worker task began prevents everything (for a token that kills). -/
theorem C22_dispose_early {ls s}
    (hr : LTS.run (ofAsync true : Producer _ _ α).next (ofAsync true).start (.dispose :: ls) = some s) :
    s.received = [] := by
  refine C22_not_before true hr ?_
  obtain ⟨s1, h1, h2⟩ := LTS.run_cons.mp hr
  have hnil : ∀ (ls : List (Producer.Label (Lab α))) (s1 s2 : State St α),
      s1.src.cancelled = true → s1.src.pc ≠ .awaiting →
      LTS.run (ofAsync true).next s1 ls = some s2 → outcomes ls = [] := by
    intro ls
    induction ls with
    | nil => intros; rfl
    | cons l ls ih =>
      rintro ⟨⟨pc, c⟩, posts, safe⟩ s2 hc hp hr
      simp only at hc hp
      subst hc
      obtain ⟨s3, h3, h4⟩ := LTS.run_cons.mp hr
      cases l with
      | own l =>
        cases l with
        | start =>
          cases pc <;> simp [next, ofAsync] at h3
          subst h3
          exact ih _ _ (by simp) (by simp) h4
        | outcome r =>
          cases pc <;> simp [next, ofAsync] at h3 <;> simp at hp
      | dispose => simp [next] at h3; subst h3; exact ih _ _ rfl hp h4
      | receive =>
        simp only [next] at h3
        split at h3
        · simp at h3
        · simp at h3; subst h3
          refine ih _ _ ?_ ?_ h4 <;> (simp only; split) <;> simp [ofAsync, hp]
      | ret =>
        simp only [next, Option.map_eq_some_iff] at h3; obtain ⟨t, ht, rfl⟩ := h3
        exact ih _ _ rfl hp h4
      | raise e =>
        simp only [next, Option.map_eq_some_iff] at h3; obtain ⟨t, ht, rfl⟩ := h3
        exact ih _ _ rfl hp h4
  simp [next] at h1
  subst h1
  exact hnil ls _ _ rfl (by simp [start, ofAsync]) h2

/-- C22. The worker task takes at most two steps of its own (it begins, the workflow ends), whatever happens. -/
theorem C22_ends (kill : Bool) : Measured (ofAsync kill : Producer _ _ α) fun s => match s.pc with
    | .fresh => 2
    | .awaiting => 1
    | .finished => 0 where
  step s l s' o h := by
    obtain ⟨pc, c⟩ := s
    cases l with
    | start =>
      cases pc <;> simp only [ofAsync] at h <;> try (simp at h; done)
      split at h <;> (simp at h; obtain ⟨rfl, -⟩ := h; simp)
    | outcome r =>
      cases pc <;> simp only [ofAsync] at h <;> try (simp at h; done)
      simp at h; obtain ⟨rfl, -⟩ := h; simp
  dispose s := by simp [ofAsync]

example : ∃ ls s, LTS.run (ofAsync true : Producer _ _ Nat).next (ofAsync true).start ls = some s ∧
    NoRaise ls ∧ outcomes ls = [.ok 4] ∧ Safe.Drained s.safe ∧ s.received = [.next 4, .completed] :=
  ⟨[.own .start, .own (.outcome (.ok 4)), .receive, .ret, .receive, .ret, .ret], _, rfl,
    by simp [NoRaise], rfl, .inl rfl, by decide⟩

end

/-! ## C26 -/

/-- C26 is false: the worker posts all elements in one go; disposing after that does not take them
back. -/
theorem C26_violated : ∃ (pre : _) (s : _) (post : _) (s' : _),
    LTS.run (ofSeq true [1, 2, 3] none).next (ofSeq true [1, 2, 3] none).start pre = some s ∧
    s.received = [.next 1] ∧
    LTS.run (ofSeq true [1, 2, 3] none).next s (.dispose :: post) = some s' ∧
    s'.received = [.next 1, .next 2, .next 3, .completed] :=
  ⟨[.own (), .receive, .ret], _, [.receive, .ret, .receive, .ret, .receive, .ret], _, rfl, by decide,
    rfl, by decide⟩

/-- C26, the part that holds: if the subscription is disposed before the worker task first runs,
nothing is delivered, ever. Missing: any later disposal (`C26_violated`). `kill = false` is included
for non-empty iterables. -/
theorem C26_dispose_early_partial (kill : Bool) (xs : List α) (last : Option Err)
    (hk : kill = true ∨ xs ≠ []) {ls s}
    (hr : LTS.run (ofSeq kill xs last).next (ofSeq kill xs last).start (.dispose :: ls) = some s) :
    s.received = [] := by
  obtain ⟨s1, h1, h2⟩ := LTS.run_cons.mp hr
  simp [next] at h1
  subst h1
  have := LTS.inv (step := (ofSeq kill xs last).next) (fun s : State OneShot α =>
      s.src.cancelled = true ∧ s.safe = Safe.init) (s := s) ⟨rfl, rfl⟩ ?_ h2
  · simp [State.received, this.2, Safe.init, Safe.calls]
  · rintro ⟨⟨f, c⟩, posts, safe⟩ l s' ⟨h1, h2⟩ hs
    simp only at h1 h2
    subst h1 h2
    cases l with
    | own l =>
      have : (if (kill && true) = true then some (({ fresh := false, cancelled := true } : OneShot), [])
          else some ({ fresh := false, cancelled := true }, (ofSeqWorker xs last true).out)) =
          some ({ fresh := false, cancelled := true }, []) := by
        rcases hk with rfl | hk
        · rfl
        · obtain ⟨x, xs, rfl⟩ := List.exists_cons_of_ne_nil hk
          rw [ofSeqWorker_cancelled]; split <;> rfl
      cases f
      · simp [next, ofSeq, oneShot] at hs
      · simp only [next, ofSeq, oneShot, if_true, this] at hs
        simp at hs; subst hs
        simp [Safe.init]
    | dispose => simp [next] at hs; subst hs; simp [ofSeq, oneShot]
    | receive => simp [next, Safe.step, Safe.init] at hs
    | ret => simp [next, Safe.step, Safe.init] at hs
    | raise e => simp [next, Safe.step, Safe.init] at hs

example : ∃ s, LTS.run (ofSeq true [1, 2] none).next (ofSeq true [1, 2] none).start
    [.dispose, .own ()] = some s ∧ (ofSeq true [1, 2] none).Idle s :=
  ⟨_, rfl, fun _ => rfl, .inr ⟨rfl, rfl⟩⟩

end Aio
