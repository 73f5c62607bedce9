import Verif.Lemmas.Catch
/-!
# C43, C44, C70, C88: catch, retry

`LTS.run (next h honour) (start c x, []) ls = some (s, out)`: `catch(h)` applied to the source `x` was
subscribed and run under the schedule `ls`; the observer got the calls `out`. `s.started` are the sources
that were subscribed, `x` first; `s.disposed` the numbers of the subscriptions that were disposed.
-/

namespace Aio.Catch
open Spec
variable {C ω α : Type} {h : Handler C ω} {honour : Bool} {c : C} {x : ω}

/-! ## C43

In full: the values of the source are forwarded; on an error `e` the stream continues with `h(e)`
(repeatedly); no error of a source reaches the observer; completion ends the stream. The failed source is
disposed before the handler's observable is subscribed. -/

theorem noErr_of_grammar {ns : List (Notif α)} (hg : Grammar ns) :
    noErr ns = (story ns).vals.map .next ++ (if (story ns).fin = .done then [.completed] else []) := by
  obtain ⟨⟨vs, f⟩, rfl⟩ := hg
  rw [story_events, Story.events, noErr_append]
  have : noErr (vs.map (Notif.next : α → Notif α)) = vs.map .next := by
    rw [noErr, List.filter_eq_self]; simp
  rw [this]
  cases f <;> simp [noErr]

theorem streams_succ (n : Nat) (ls : List (Label α)) :
    streams (n + 1) ls = streams n ls ++ [story (calls n ls)] := by
  simp [streams, List.range_succ]

theorem total_eq {n : Nat} {ls : List (Label α)} (hw : Lawful ls)
    (hf : ∀ k, k + 1 < n + 1 → ∃ e, fin k ls = .failed e) :
    total (n + 1) ls = (recover (streams (n + 1) ls)).events := by
  have hv : ∀ m, m ≤ n → total m ls = ((streams m ls).flatMap (·.vals)).map .next := by
    intro m
    induction m with
    | zero => intro _; rfl
    | succ m ih =>
      intro hm
      obtain ⟨e, he⟩ := hf m (by omega)
      rw [total_succ, ih (by omega), streams_succ, noErr_of_grammar (hw m)]
      rw [fin] at he
      simp [he]
  rw [total_succ, hv n (Nat.le_refl _), streams_succ, recover, Story.events, noErr_of_grammar (hw n)]
  simp only [List.flatMap_append, List.flatMap_cons, List.flatMap_nil, List.append_nil, List.map_append,
    List.getLast?_append, List.getLast?_singleton, Option.some_or, Option.map_some, Option.some.injEq,
    List.append_assoc]
  congr 2
  split <;> rfl

/-- C43. The observer gets the values of the source, then those of the handler's observable, and so on,
and the completion if the last of them has completed. -/
theorem C43_stream {ls : List (Label α)} {s : State C ω} {out : List (Notif α)}
    (hr : LTS.run (next h honour) (start c x, []) ls = some (s, out)) (hw : Lawful ls) :
    out = (recover (streams s.started.length ls)).events := by
  have hi := inv_run hr hw
  obtain ⟨n, hn⟩ : ∃ n, s.started.length = n + 1 := ⟨s.started.length - 1, by have := hi.pos; omega⟩
  rw [hi.out, hn]
  refine total_eq hw fun k hk => ?_
  obtain ⟨e, he, -⟩ := hi.chain k _ (List.getElem?_eq_getElem (by omega))
  exact ⟨e, he⟩

/-- C43. No error reaches the observer, whatever the sources do. -/
theorem C43_no_error {ls : List (Label α)} {s : State C ω} {out : List (Notif α)}
    (hr : LTS.run (next h honour) (start c x, []) ls = some (s, out)) (e : Err) : .error e ∉ out := by
  refine LTS.inv (fun (c : State C ω × List (Notif α)) => .error e ∉ c.2) (by simp) ?_ hr
  rintro ⟨s, out⟩ l ⟨s', out'⟩ ih hs
  simp only [next, Option.map_eq_some_iff, Prod.mk.injEq] at hs
  obtain ⟨⟨t, o⟩, h1, rfl, rfl⟩ := hs
  simp only [List.mem_append, not_or]
  refine ⟨ih, ?_⟩
  cases l with
  | call k n =>
    simp only [step] at h1
    split at h1
    · cases n with
      | error e' => dsimp only at h1; split at h1 <;> (simp only [Option.some.injEq, Prod.mk.injEq] at h1; rw [← h1.2]; simp)
      | _ => simp only [Option.some.injEq, Prod.mk.injEq] at h1; rw [← h1.2]; simp
    · cases h1
  | disposed j => simp only [step] at h1; split at h1 <;> cases h1; simp
  | subscribed j => simp only [step] at h1; split at h1 <;> cases h1; simp
  | fails j => simp only [step] at h1; split at h1 <;> cases h1; simp
  | cancel => simp only [step] at h1; split at h1 <;> cases h1; simp

theorem started_zero {ls : List (Label α)} {s : State C ω} {out : List (Notif α)}
    (hr : LTS.run (next h honour) (start c x, []) ls = some (s, out)) : s.started[0]? = some x := by
  refine LTS.inv (fun (c : State C ω × List (Notif α)) => c.1.started[0]? = some x) rfl ?_ hr
  rintro ⟨s, out⟩ l ⟨s', out'⟩ ih hs
  simp only [next, Option.map_eq_some_iff, Prod.mk.injEq] at hs
  obtain ⟨⟨t, o⟩, h1, rfl, rfl⟩ := hs
  dsimp only at *
  have happ : ∀ ys, (s.started ++ ys)[0]? = some x := fun ys => by
    rw [List.getElem?_append_left (List.getElem?_eq_some_iff.mp ih).1]; exact ih
  cases l with
  | call k n =>
    simp only [step] at h1
    split at h1
    · cases n with
      | error e' =>
        dsimp only at h1
        split at h1
        · simp only [Option.some.injEq, Prod.mk.injEq] at h1
          rw [← h1.1]; simp only [action]
          split
          · exact happ _
          · exact ih
        · simp only [Option.some.injEq, Prod.mk.injEq] at h1; rw [← h1.1]; exact ih
      | _ => simp only [Option.some.injEq, Prod.mk.injEq] at h1; rw [← h1.1]; exact ih
    · cases h1
  | disposed j => simp only [step] at h1; split at h1 <;> simp only [Option.some.injEq, Prod.mk.injEq, reduceCtorEq] at h1; rw [← h1.1]; exact happ _
  | subscribed j => simp only [step] at h1; split at h1 <;> simp only [Option.some.injEq, Prod.mk.injEq, reduceCtorEq] at h1; rw [← h1.1]; exact ih
  | fails j => simp only [step] at h1; split at h1 <;> simp only [Option.some.injEq, Prod.mk.injEq, reduceCtorEq] at h1; rw [← h1.1]; exact ih
  | cancel => simp only [step] at h1; split at h1 <;> simp only [Option.some.injEq, Prod.mk.injEq, reduceCtorEq] at h1; rw [← h1.1]; exact ih

/-- C43. The sources are: the source itself, and then each time what the handler returned for the error
with which the one before has failed. -/
theorem C43_sources {g : Err → Except Err ω} {ls : List (Label α)} {s : State Unit ω} {out : List (Notif α)}
    (hr : LTS.run (next (pure g) honour) (start () x, []) ls = some (s, out)) (hw : Lawful ls) :
    s.started[0]? = some x ∧ ∀ k xs, s.started[k + 1]? = some xs →
      ∃ e, (story (calls k ls)).fin = .failed e ∧ g e = .ok xs := by
  refine ⟨started_zero hr, fun k xs hk => ?_⟩
  obtain ⟨e, he, u, hm⟩ := (inv_run hr hw).chain k xs hk
  exact ⟨e, he, hm⟩

theorem continues {ls : List (Label α)} {s : State C ω} {out : List (Notif α)}
    (hr : LTS.run (next h honour) (start c x, []) ls = some (s, out)) (hw : Lawful ls)
    (hn : NoFailure ls) (hp : ∀ xs d, .disposing xs d ∉ s.frames) {k : Nat} {e : Err}
    (hf : (story (calls k ls)).fin = .failed e) :
    k + 1 < s.started.length ∨ ∃ u e', (h u e).2 = .error e' := by
  have key : ∀ k e, fin k ls = .failed e → k + 1 < s.started.length ∨ (∃ u e', (h u e).2 = .error e') ∨
      pending s.frames ≠ [] := by
    refine LTS.inv_reach (fun ls (cc : State C ω × List (Notif α)) => Lawful ls → NoFailure ls →
      ∀ k e, fin k ls = .failed e → k + 1 < cc.1.started.length ∨ (∃ u e', (h u e).2 = .error e') ∨
      pending cc.1.frames ≠ []) ?_ ?_ hr hw hn
    · intro _ _ k e hf; simp [fin, calls] at hf
    · rintro ls ⟨s, out⟩ l ⟨s', out'⟩ hr ih hs hw hn k e hf
      have hwl : Lawful ls := fun k => grammar_prefix (by rw [calls_snoc]; exact List.prefix_append ..) (hw k)
      have hi := inv_run hr hwl
      have ih := ih hwl (fun j h => hn j (by simp [h]))
      simp only [next, Option.map_eq_some_iff, Prod.mk.injEq] at hs
      obtain ⟨⟨t, o⟩, h1, rfl, rfl⟩ := hs
      dsimp only at *
      have hi' := inv_step hi h1 hw
      have old : (∀ j n, l ≠ .call j n) → fin k ls = .failed e := fun hl => by
        rw [← hf, fin, fin, calls_snoc]
        cases l with
        | call j n => exact absurd rfl (hl j n)
        | _ => simp
      cases l with
      | call j n =>
        by_cases hjk : j = k
        · subst hjk
          have hrun : (story (calls j ls)).fin = .running := by
            have := hw j; rw [calls_snoc] at this; simp only [if_true] at this; exact grammar_snoc this
          rw [fin, calls_snoc] at hf
          simp only [if_true] at hf
          rw [story_snoc n hrun] at hf
          cases n with
          | next v => simp at hf
          | completed => simp at hf
          | error e' =>
            simp only [story_error, End.failed.injEq] at hf
            subst hf
            simp only [step] at h1
            split at h1
            next hlt =>
              split at h1
              next u xs he =>
                simp only [Option.some.injEq, Prod.mk.injEq] at h1
                rw [← h1.1]
                simp only [action]
                split
                · left; simp; omega
                · right; right; dsimp only; rw [pending_append]; simp [pending]
              next u e'' he => right; left; exact ⟨_, e'', congrArg Prod.snd he⟩
            next => cases h1
        · have hold : fin k ls = .failed e := by
            rw [← hf, fin, fin, calls_snoc]; simp [hjk]
          have hge : s.started.length ≤ t.started.length ∧ (pending s.frames ≠ [] → pending t.frames ≠ []) := by
            simp only [step] at h1
            split at h1
            · cases n with
              | error e' =>
                dsimp only at h1
                split at h1
                · simp only [Option.some.injEq, Prod.mk.injEq] at h1
                  rw [← h1.1]
                  simp only [action]
                  split
                  · refine ⟨by simp, fun h => ?_⟩
                    dsimp only; rw [pending_append]; simp [h]
                  · refine ⟨by simp, fun h => ?_⟩
                    dsimp only; rw [pending_append]; simp [h]
                · simp only [Option.some.injEq, Prod.mk.injEq] at h1
                  rw [← h1.1]; exact ⟨Nat.le_refl _, fun h => h⟩
              | _ =>
                simp only [Option.some.injEq, Prod.mk.injEq] at h1
                rw [← h1.1]; exact ⟨Nat.le_refl _, fun h => h⟩
            · cases h1
          rcases ih k e hold with h | h | h
          · left; omega
          · exact .inr (.inl h)
          · exact .inr (.inr (hge.2 h))
      | disposed j =>
        have hold := old (by simp)
        have hkl : k < s.started.length := by
          rcases Nat.lt_or_ge k s.started.length with hlt | hge
          · exact hlt
          · rw [fin, hi.fresh k hge] at hold; cases hold
        simp only [step] at h1
        split at h1
        · simp only [Option.some.injEq, Prod.mk.injEq] at h1
          rw [← h1.1]
          left; simp; omega
        · cases h1
      | subscribed j =>
        have hold := old (by simp)
        simp only [step] at h1
        split at h1
        next k' hj =>
          simp only [Option.some.injEq, Prod.mk.injEq] at h1
          rw [← h1.1]
          obtain ⟨a, b, h2, -, h3⟩ := split_at hj
          have : pending (s.frames.eraseIdx j) = pending s.frames := by
            rw [h3, h2, pending_append, pending_append]; rfl
          dsimp only
          rw [this]
          exact ih k e hold
        next => cases h1
      | fails j => exact absurd (by simp) (hn j)
      | cancel =>
        simp only [step] at h1
        split at h1
        · simp only [Option.some.injEq, Prod.mk.injEq] at h1
          rw [← h1.1]; exact ih k e (old (by simp))
        · cases h1
  rcases key k e hf with h1 | h1 | h1
  · exact .inl h1
  · exact .inr h1
  · exfalso; apply h1
    rw [pending, List.filterMap_eq_nil_iff]
    intro f hfm
    cases f with
    | disposing xs d => exact absurd hfm (hp xs d)
    | subscribing k => rfl

/-- C43. A failed source always has a successor: when no disposal is in progress and the latest source has
failed with `e`, the handler raised an exception for `e`. -/
theorem C43_continues {g : Err → Except Err ω} {ls : List (Label α)} {s : State Unit ω} {out : List (Notif α)}
    (hr : LTS.run (next (pure g) honour) (start () x, []) ls = some (s, out)) (hw : Lawful ls)
    (hn : NoFailure ls) (hp : ∀ xs d, .disposing xs d ∉ s.frames) {k : Nat} {e : Err}
    (hf : (story (calls k ls)).fin = .failed e) :
    k + 1 < s.started.length ∨ ∃ e', g e = .error e' := by
  rcases continues hr hw hn hp hf with h1 | ⟨_, e', h1⟩
  · exact .inl h1
  · exact .inr ⟨e', h1⟩

/-- No source fails before its `subscribe_async` has returned. -/
def Prompt (h : Handler C ω) (honour : Bool) (s0 : State C ω × List (Notif α)) (ls : List (Label α)) : Prop :=
  ∀ pre k e post s, ls = pre ++ .call k (.error e) :: post → LTS.run (next h honour) s0 pre = some s →
    .subscribing k ∉ s.1.frames

/-- the variable `disposable` is always the subscription of the latest source -/
structure Tidy (s : State C ω) : Prop where
  cur : s.frames = [.subscribing (s.started.length - 1)] ∨
    (s.disposable = some (s.started.length - 1) ∧
      (s.frames = [] ∨ ∃ xs, s.frames = [.disposing xs (s.started.length - 1)]))
  older : ∀ k, k + 1 < s.started.length → k ∈ s.disposed

theorem tidy_run {ls : List (Label α)} {s : State C ω} {out : List (Notif α)}
    (hr : LTS.run (next h honour) (start c x, []) ls = some (s, out)) (hw : Lawful ls)
    (hn : NoFailure ls) (hp : Prompt h honour (start c x, []) ls) : Tidy s := by
  refine LTS.inv_reach (fun ls (cc : State C ω × List (Notif α)) => Lawful ls → NoFailure ls →
    Prompt h honour (start c x, []) ls → Tidy cc.1) ?_ ?_ hr hw hn hp
  · intro _ _ _; exact ⟨.inl rfl, by simp [start]⟩
  · rintro ls ⟨s, out⟩ l ⟨s', out'⟩ hr ih hs hw hn hp
    have hwl : Lawful ls := fun k => grammar_prefix (by rw [calls_snoc]; exact List.prefix_append ..) (hw k)
    have hi := inv_run hr hwl
    have hpr : ∀ k e, l = .call k (.error e) → .subscribing k ∉ s.frames := fun k e hl =>
      hp ls k e [] (s, out) (by rw [hl]) hr
    obtain ⟨cur, older⟩ := ih hwl (fun j h => hn j (by simp [h])) (fun pre k e post s h1 h2 =>
      hp pre k e (post ++ [l]) s (by rw [h1]; simp) h2)
    simp only [next, Option.map_eq_some_iff, Prod.mk.injEq] at hs
    obtain ⟨⟨t, o⟩, h1, rfl, rfl⟩ := hs
    have hpos := hi.pos
    dsimp only at *
    cases l with
    | call k n =>
      simp only [step] at h1
      split at h1
      next hk =>
        have hrun : fin k ls = .running := by
          have := hw k
          rw [calls_snoc] at this
          simp only [if_true] at this
          exact grammar_snoc this
        have hlast : k + 1 = s.started.length := by
          rcases Nat.lt_or_ge (k + 1) s.started.length with hlt | hge
          · obtain ⟨e, he, -⟩ := hi.chain k _ (List.getElem?_eq_getElem hlt)
            rw [hrun] at he; cases he
          · omega
        have hpend : pending s.frames = [] := by
          rcases hi.pend with hp | ⟨xs, -, e, he, -⟩
          · exact hp
          · rw [← hlast, Nat.add_sub_cancel, hrun] at he; cases he
        cases n with
        | error e =>
          dsimp only at h1
          split at h1
          next c' xs he =>
            simp only [Option.some.injEq, Prod.mk.injEq] at h1
            rw [← h1.1]
            obtain ⟨hd, hfr⟩ : s.disposable = some (s.started.length - 1) ∧ s.frames = [] := by
              rcases cur with h2 | ⟨h2, h3 | ⟨ys, h3⟩⟩
              · exfalso; apply hpr k e rfl; rw [h2, ← hlast]; simp
              · exact ⟨h2, h3⟩
              · rw [h3] at hpend; simp [pending] at hpend
            simp only [action, hd]
            exact ⟨.inr ⟨rfl, .inr ⟨xs, by simp [hfr]⟩⟩, older⟩
          · simp only [Option.some.injEq, Prod.mk.injEq] at h1
            rw [← h1.1]; exact ⟨cur, older⟩
        | next v => simp only [Option.some.injEq, Prod.mk.injEq] at h1; rw [← h1.1]; exact ⟨cur, older⟩
        | completed => simp only [Option.some.injEq, Prod.mk.injEq] at h1; rw [← h1.1]; exact ⟨cur, older⟩
      next => cases h1
    | disposed j =>
      simp only [step] at h1
      split at h1
      next xs d hj =>
        simp only [Option.some.injEq, Prod.mk.injEq] at h1
        rw [← h1.1]
        obtain ⟨h0, rfl, hfr⟩ : j = 0 ∧ d = s.started.length - 1 ∧ s.frames.length = 1 := by
          rcases cur with h2 | ⟨h2, h3 | ⟨ys, h3⟩⟩
          · rw [h2] at hj; cases j <;> simp at hj
          · rw [h3] at hj; simp at hj
          · rw [h3] at hj
            cases j with
            | zero => simp at hj; exact ⟨rfl, hj.2.symm, by rw [h3]; rfl⟩
            | succ j => simp at hj
        subst h0
        refine ⟨.inl ?_, fun k hk => ?_⟩
        · obtain ⟨f, hf⟩ := List.length_eq_one_iff.mp hfr
          simp [hf]
        · simp only [List.length_append, List.length_singleton] at hk
          by_cases h2 : k + 1 < s.started.length
          · exact List.mem_append_left _ (older k h2)
          · exact List.mem_append_right _ (by simp; omega)
      next => cases h1
    | subscribed j =>
      simp only [step] at h1
      split at h1
      next k hj =>
        simp only [Option.some.injEq, Prod.mk.injEq] at h1
        rw [← h1.1]
        obtain ⟨h0, rfl, hfr⟩ : j = 0 ∧ k = s.started.length - 1 ∧ s.frames.length = 1 := by
          rcases cur with h2 | ⟨h2, h3 | ⟨ys, h3⟩⟩
          · rw [h2] at hj
            cases j with
            | zero => simp at hj; exact ⟨rfl, hj.symm, by rw [h2]; rfl⟩
            | succ j => simp at hj
          · rw [h3] at hj; simp at hj
          · rw [h3] at hj; cases j <;> simp at hj
        subst h0
        obtain ⟨f, hf⟩ := List.length_eq_one_iff.mp hfr
        exact ⟨.inr ⟨rfl, .inl (by simp [hf])⟩, older⟩
      next => cases h1
    | fails j => exact absurd (by simp) (hn j)
    | cancel =>
      simp only [step] at h1
      split at h1
      · simp only [Option.some.injEq, Prod.mk.injEq] at h1
        rw [← h1.1]; exact ⟨cur, fun k hk => List.mem_append_left _ (older k hk)⟩
      · cases h1

/-- C43, disposal. If no source fails before its `subscribe_async` has returned: whenever the next source is
subscribed, the failed one was disposed first. -/
theorem C43_disposed_first_partial {ls : List (Label α)} {s : State C ω} {out : List (Notif α)}
    (hr : LTS.run (next h honour) (start c x, []) ls = some (s, out)) (hw : Lawful ls)
    (hn : NoFailure ls) (hp : Prompt h honour (start c x, []) ls) {k : Nat}
    (hk : k + 1 < s.started.length) : k ∈ s.disposed :=
  (tidy_run hr hw hn hp).older k hk

/-- The handler maps the error `user n` to the observable number `n + 1`. -/
def following : Err → Except Err Nat
  | .user n => .ok (n + 1)
  | e => .error e

/-- Source 0 fails inside its own `subscribe_async`; source 1 fails later. -/
def early : List (Label Nat) :=
  [.call 0 (.next 1), .call 0 (.error (.user 0)), .subscribed 1, .subscribed 0, .call 1 (.next 2),
   .call 1 (.error (.user 1)), .disposed 0, .subscribed 0, .call 2 (.next 3)]

/-- C43, disposal, is false in general: if a source fails before its `subscribe_async` has returned, the
variable `disposable` is overwritten with the old subscription afterwards (transform.py:420-421). Here
source 1 has failed and source 2 was subscribed, but source 1 was not disposed. -/
theorem C43_violated : ∃ s out, LTS.run (next (pure following) true) (start () 0, []) early = some (s, out) ∧
    out = [.next 1, .next 2, .next 3] ∧ s.started = [0, 1, 2] ∧ s.frames = [] ∧ s.disposed = [0] :=
  ⟨_, _, rfl, rfl, rfl, rfl, rfl⟩

/-- Two failures, then completion. -/
def recovering : List (Label Nat) :=
  [.subscribed 0, .call 0 (.next 1), .call 0 (.error (.user 0)), .disposed 0, .call 1 (.next 2), .subscribed 0,
   .call 1 (.error (.user 1)), .disposed 0, .subscribed 0, .call 2 (.next 3), .call 2 .completed]

theorem lawful_of {n : Nat} {ls : List (Label α)} (h1 : ∀ k < n, Grammar (calls k ls))
    (h2 : ∀ k m, .call k m ∈ ls → k < n) : Lawful ls := by
  intro k
  rcases Nat.lt_or_ge k n with hlt | hge
  · exact h1 k hlt
  · have : calls k ls = [] := by
      rw [calls, List.filterMap_eq_nil_iff]
      intro l hl
      split
      next j m =>
        have := h2 j m hl
        rw [if_neg (by omega)]
      · rfl
    rw [this]; exact ⟨⟨[], .running⟩, rfl⟩

theorem recovering_lawful : Lawful recovering := by
  refine lawful_of (n := 3) (fun k hk => ?_) (fun k m hm => ?_)
  · match k, hk with
    | 0, _ => exact ⟨⟨[1], .failed (.user 0)⟩, rfl⟩
    | 1, _ => exact ⟨⟨[2], .failed (.user 1)⟩, rfl⟩
    | 2, _ => exact ⟨⟨[3], .done⟩, rfl⟩
  · simp [recovering] at hm; omega

example : ∃ s out, LTS.run (next (pure following) true) (start () 0, []) recovering = some (s, out) ∧
    out = [.next 1, .next 2, .next 3, .completed] ∧ s.started = [0, 1, 2] ∧ s.disposed = [0, 1] :=
  ⟨_, _, rfl, rfl, rfl, rfl⟩

/-- `Prompt`, computably -/
def promptly [DecidableEq ω] (h : Handler C ω) (honour : Bool) (s : State C ω × List (Notif α)) : List (Label α) → Bool
  | [] => true
  | l :: ls =>
    (match l with
     | .call k (.error _) => decide (Frame.subscribing k ∉ s.1.frames)
     | _ => true) &&
    (match next h honour s l with
     | some s' => promptly h honour s' ls
     | none => true)

theorem prompt_of [DecidableEq ω] {ls : List (Label α)} : ∀ {s0 : State C ω × List (Notif α)},
    promptly h honour s0 ls = true → Prompt h honour s0 ls := by
  induction ls with
  | nil => intro s0 _ pre k e post s h1; simp at h1
  | cons l ls ih =>
    intro s0 hp pre k e post s h1 h2
    simp only [promptly, Bool.and_eq_true] at hp
    cases pre with
    | nil =>
      simp only [List.nil_append, List.cons.injEq] at h1
      obtain ⟨rfl, -⟩ := h1
      simp only [LTS.run, Option.some.injEq] at h2
      subst h2
      simpa using hp.1
    | cons l' pre =>
      simp only [List.cons_append, List.cons.injEq] at h1
      obtain ⟨rfl, rfl⟩ := h1
      obtain ⟨s1, h3, h4⟩ := LTS.run_cons.mp h2
      rw [h3] at hp
      exact ih hp.2 pre k e post s rfl h4

/-- the hypotheses of `C43_disposed_first_partial` are met by this execution -/
example : Lawful recovering ∧ NoFailure recovering ∧
    Prompt (pure following) true (start () 0, []) recovering :=
  ⟨recovering_lawful, fun j h => by simp [recovering] at h, prompt_of (by decide)⟩

/-! ## C88

In full: if `handler(e)` raises, that exception is delivered to the observer as the error of the stream. It is not
(transform.py:410-412): it goes to whoever called `athrow`, and the observer is left without an end. -/

/-- C88 is false. If the handler raises for the error with which a source has failed, then from then on, and whatever
happens, the observer has got the values sent so far and no end of the stream, and no other source is subscribed. -/
theorem C88_violated {g : Err → Except Err ω} {ls : List (Label α)} {s : State Unit ω} {out : List (Notif α)}
    (hr : LTS.run (next (pure g) honour) (start () x, []) ls = some (s, out)) (hw : Lawful ls) {k : Nat} {e e' : Err}
    (hf : (story (calls k ls)).fin = .failed e) (hg : g e = .error e') :
    s.started.length = k + 1 ∧ out = ((streams (k + 1) ls).flatMap (·.vals)).map .next := by
  have hi := inv_run hr hw
  have h1 : ¬ k + 1 < s.started.length := fun hlt => by
    obtain ⟨e1, he1, u, hm⟩ := hi.chain k _ (List.getElem?_eq_getElem hlt)
    rw [fin] at he1
    rw [hf] at he1
    cases he1
    simp [pure, hg] at hm
  have h2 : k < s.started.length := by
    rcases Nat.lt_or_ge k s.started.length with hlt | hge
    · exact hlt
    · rw [hi.fresh k hge] at hf; cases hf
  have h3 : s.started.length = k + 1 := by omega
  refine ⟨h3, ?_⟩
  rw [C43_stream hr hw, h3, recover, Story.events, streams_succ]
  simp [hf, End.events]

/-- C88, the part that holds: as long as the handler raises for none of the errors of the sources, every failed source
has a successor, so the stream goes on. -/
theorem C88_partial {g : Err → Except Err ω} {ls : List (Label α)} {s : State Unit ω} {out : List (Notif α)}
    (hr : LTS.run (next (pure g) honour) (start () x, []) ls = some (s, out)) (hw : Lawful ls)
    (hn : NoFailure ls) (hp : ∀ xs d, .disposing xs d ∉ s.frames)
    (hg : ∀ k e e', (story (calls k ls)).fin = .failed e → g e ≠ .error e') :
    ∀ k e, (story (calls k ls)).fin = .failed e → ∃ y, g e = .ok y ∧ s.started[k + 1]? = some y := by
  intro k e hf
  rcases C43_continues hr hw hn hp hf with h1 | ⟨e', h1⟩
  · obtain ⟨e1, he1, hm⟩ := (C43_sources hr hw).2 k _ (List.getElem?_eq_getElem h1)
    rw [hf] at he1
    cases he1
    exact ⟨_, hm, List.getElem?_eq_getElem h1⟩
  · exact absurd h1 (hg k e e' hf)

/-- `following` raises for everything but `user n`. -/
def stuck : List (Label Nat) :=
  [.subscribed 0, .call 0 (.next 1), .call 0 (.error (.user 0)), .disposed 0, .call 1 (.next 2), .subscribed 0,
   .call 1 (.error .valueError)]

example : ∃ s, LTS.run (next (pure following) true) (start () 0, []) stuck = some (s, [.next 1, .next 2]) ∧
    (story (calls 1 stuck)).fin = .failed .valueError ∧ following .valueError = .error .valueError ∧
    s.started.length = 2 ∧ s.disposed = [0] := ⟨_, rfl, rfl, rfl, rfl, rfl⟩

example : Lawful stuck := by
  refine lawful_of (n := 2) (fun k hk => ?_) (fun k m hm => ?_)
  · match k, hk with
    | 0, _ => exact ⟨⟨[1], .failed (.user 0)⟩, rfl⟩
    | 1, _ => exact ⟨⟨[2], .failed .valueError⟩, rfl⟩
  · simp [stuck] at hm; omega

/-! ## C70

In full: disposing the subscription disposes the source that is currently subscribed. -/

/-- The source fails; the handler's observable is subscribed; then the subscription is disposed. -/
def disposing : List (Label Nat) :=
  [.subscribed 0, .call 0 (.error (.user 0)), .disposed 0, .subscribed 0, .cancel, .call 1 (.next 7)]

/-- C70 is false: the returned disposable is bound to the first subscription (transform.py:425). Here the
handler's observable stays subscribed, and the observer gets a value after the disposal. -/
theorem C70_violated : ∃ s out, LTS.run (next (pure following) true) (start () 0, []) disposing = some (s, out) ∧
    s.started = [0, 1] ∧ s.disposed = [0, 0] ∧ s.frames = [] ∧ out = [.next 7] :=
  ⟨_, _, rfl, rfl, rfl, rfl, rfl⟩

/-- C70, as long as no source has failed: after the disposal, the (only) source is disposed. -/
theorem C70_partial {a b : List (Label α)} {s : State C ω} {out : List (Notif α)}
    (hr : LTS.run (next h honour) (start c x, []) (a ++ .cancel :: b) = some (s, out))
    (he : ∀ k e, .call k (.error e) ∉ a ++ .cancel :: b) {k : Nat} (hk : k < s.started.length) :
    k ∈ s.disposed := by
  have hlen : s.started.length = 1 ∧ (.cancel ∈ a ++ .cancel :: b → 0 ∈ s.disposed) := by
    refine (LTS.inv_hist (fun ls (cc : State C ω × List (Notif α)) => (∀ k e, .call k (.error e) ∉ ls) →
      (cc.1.started.length = 1 ∧ pending cc.1.frames = []) ∧ (.cancel ∈ ls → 0 ∈ cc.1.disposed)) ?_ ?_ hr he).imp
      And.left fun h => h
    · intro _; simp [start, pending]
    · rintro ls ⟨s, out⟩ l ⟨s', out'⟩ ih hs he
      obtain ⟨⟨i1, i2⟩, i3⟩ := ih fun k e hm => he k e (by simp [hm])
      simp only [next, Option.map_eq_some_iff, Prod.mk.injEq] at hs
      obtain ⟨⟨t, o⟩, h1, rfl, rfl⟩ := hs
      dsimp only at *
      cases l with
      | call k n =>
        simp only [step] at h1
        split at h1
        · cases n with
          | error e => exact absurd (by simp) (he k e)
          | _ =>
            simp only [Option.some.injEq, Prod.mk.injEq] at h1
            rw [← h1.1]; exact ⟨⟨i1, i2⟩, fun hm => i3 (by simpa using hm)⟩
        · cases h1
      | disposed j =>
        simp only [step] at h1
        split at h1
        next xs d hj =>
          exfalso
          have : xs ∈ pending s.frames := by
            rw [pending, List.mem_filterMap]
            exact ⟨_, List.mem_of_getElem? hj, rfl⟩
          rw [i2] at this; cases this
        next => cases h1
      | subscribed j =>
        simp only [step] at h1
        split at h1
        next k hj =>
          simp only [Option.some.injEq, Prod.mk.injEq] at h1
          rw [← h1.1]
          obtain ⟨a, b, h2, -, h3⟩ := split_at hj
          refine ⟨⟨i1, ?_⟩, fun hm => i3 (by simpa using hm)⟩
          dsimp only
          rw [h3, ← i2, h2, pending_append, pending_append]; rfl
        next => cases h1
      | fails j =>
        simp only [step] at h1
        split at h1
        next hj =>
          simp only [Option.some.injEq, Prod.mk.injEq] at h1
          rw [← h1.1]
          refine ⟨⟨i1, ?_⟩, fun hm => i3 (by simpa using hm)⟩
          rw [pending, List.filterMap_eq_nil_iff] at i2 ⊢
          exact fun f hf => i2 f ((List.eraseIdx_sublist ..).subset hf)
        next => cases h1
      | cancel =>
        simp only [step] at h1
        split at h1
        · simp only [Option.some.injEq, Prod.mk.injEq] at h1
          rw [← h1.1]; exact ⟨⟨i1, i2⟩, fun _ => by simp⟩
        · cases h1
  have : k = 0 := by omega
  subst this
  exact hlen.2 (by simp)

example : ∃ s out, LTS.run (next (pure following) true) (start () 0, [])
    ([.subscribed 0, .call 0 (.next 1), .cancel] : List (Label Nat)) = some (s, out) ∧
    out = [.next 1] ∧ s.started = [0] ∧ s.disposed = [0] := ⟨_, _, rfl, rfl, rfl, rfl⟩

/-! ## C44

In full: `retry(n)` subscribes to a source that always fails `n` more times, then delivers the last error;
each subscription of the retried observable has its own count. All three parts are false:
`count -= count` (transform.py:444) leaves no second retry, the error of `fail(exn)` is caught by the same
`catch` and answered with a new `fail(exn)`, and `count` (436) is shared by all subscriptions. -/

/-- how often the source itself was, or is about to be, subscribed -/
def tries (s : State Int Attempt) : Nat := (s.started ++ pending s.frames).count .source

theorem tries_run {n : Int} {ls : List (Label α)} {s : State Int Attempt} {out : List (Notif α)}
    (hr : LTS.run (next factory honour) (start n .source, []) ls = some (s, out)) :
    tries s + (if s.c = 0 then 0 else 1) ≤ 1 + (if n = 0 then 0 else 1) := by
  refine LTS.inv (fun (cc : State Int Attempt × List (Notif α)) =>
    tries cc.1 + (if cc.1.c = 0 then 0 else 1) ≤ 1 + (if n = 0 then 0 else 1)) ?_ ?_ hr
  · show 1 + (if n = 0 then 0 else 1) ≤ _; exact Nat.le_refl _
  · rintro ⟨s, out⟩ l ⟨s', out'⟩ ih hs
    simp only [next, Option.map_eq_some_iff, Prod.mk.injEq] at hs
    obtain ⟨⟨t, o⟩, h1, rfl, rfl⟩ := hs
    dsimp only at *
    refine Nat.le_trans ?_ ih
    have hsub : ∀ {fs : List (Frame Attempt)}, fs.Sublist s.frames →
        (s.started ++ pending fs).count Attempt.source ≤ (s.started ++ pending s.frames).count .source :=
      fun hs => (((List.Sublist.refl _).append (hs.filterMap _)).count_le _)
    cases l with
    | call k m =>
      simp only [step] at h1
      split at h1
      · cases m with
        | error e =>
          simp only [factory] at h1
          have hact : ∀ c xs, tries (action { s with c := c } xs) = tries s + [xs].count .source := by
            intro c xs
            simp only [action]
            split
            · simp only [tries, pending_append, List.count_append]
              simp only [pending, List.filterMap_cons, List.filterMap_nil, List.count_nil]
              omega
            · simp only [tries, pending_append, List.count_append]
              simp only [pending, List.filterMap_cons, List.filterMap_nil]
              omega
          have hac : ∀ (c : Int) xs, (action { s with c := c } xs).c = c := by
            intro c xs; simp only [action]; split <;> rfl
          by_cases hc : s.c = 0
          · simp only [hc, if_true, Option.some.injEq, Prod.mk.injEq] at h1
            rw [← h1.1, hact, hac]
            simp [hc]
          · simp only [hc, if_false, Option.some.injEq, Prod.mk.injEq] at h1
            rw [← h1.1, hact, hac]
            simp [hc]
        | _ => simp only [Option.some.injEq, Prod.mk.injEq] at h1; rw [← h1.1]; exact Nat.le_refl _
      · cases h1
    | disposed j =>
      simp only [step] at h1
      split at h1
      next xs d hj =>
        simp only [Option.some.injEq, Prod.mk.injEq] at h1
        rw [← h1.1]
        obtain ⟨a, b, h2, h3, -⟩ := split_at hj
        have hx : pending s.frames = pending a ++ xs :: pending b := by rw [h2, pending_append]; rfl
        have hy : pending (s.frames.set j (.subscribing s.started.length)) = pending a ++ pending b := by
          rw [h3, pending_append]; rfl
        simp only [tries, hx, hy, List.count_append, List.count_cons, List.count_nil]
        omega
      next => cases h1
    | subscribed j =>
      simp only [step] at h1
      split at h1
      · simp only [Option.some.injEq, Prod.mk.injEq] at h1
        rw [← h1.1]
        have := hsub (List.eraseIdx_sublist s.frames j)
        simp only [tries] at this ⊢; omega
      · cases h1
    | fails j =>
      simp only [step] at h1
      split at h1
      · simp only [Option.some.injEq, Prod.mk.injEq] at h1
        rw [← h1.1]
        have := hsub (List.eraseIdx_sublist s.frames j)
        simp only [tries] at this ⊢; omega
      · cases h1
    | cancel =>
      simp only [step] at h1
      split at h1
      · simp only [Option.some.injEq, Prod.mk.injEq] at h1; rw [← h1.1]; exact Nat.le_refl _
      · cases h1

/-- C44 is false: however large `n`, the source is subscribed at most once more (for `n = 0` not at all). -/
theorem C44_violated_count {n : Int} {ls : List (Label α)} {s : State Int Attempt} {out : List (Notif α)}
    (hr : LTS.run (next factory honour) (start n .source, []) ls = some (s, out)) :
    s.started.count .source ≤ 1 + (if n = 0 then 0 else 1) := by
  have h1 := tries_run hr
  have h2 : s.started.count .source ≤ tries s := by rw [tries, List.count_append]; omega
  omega

/-- C44 is false: no error is ever delivered. -/
theorem C44_violated_error {n : Int} {ls : List (Label α)} {s : State Int Attempt} {out : List (Notif α)}
    (hr : LTS.run (next factory honour) (start n .source, []) ls = some (s, out)) (e : Err) :
    .error e ∉ out := C43_no_error hr e

/-- The schedule of `retry(0)` where every source fails at once, `m` times. -/
def spin : Nat → List (Label α)
  | 0 => [.subscribed 0]
  | m + 1 => spin m ++ [.call m (.error (.user 0)), .disposed 0, .subscribed 0]

/-- C44: instead, `fail(exn)` is subscribed again and again, without end. -/
theorem C44_spins (m : Nat) : ∃ s, LTS.run (next factory true) (start 0 .source, []) (spin m : List (Label α)) = some (s, []) ∧
    s.started = .source :: List.replicate m (.fail (.user 0)) := by
  suffices h : LTS.run (next factory true) (start 0 .source, []) (spin m : List (Label α)) =
      some (⟨0, some m, [], true, .source :: List.replicate m (.fail (.user 0)), List.range m⟩, []) from
    ⟨_, h, rfl⟩
  induction m with
  | zero => rfl
  | succ m ih =>
    rw [spin, LTS.run_append]
    refine ⟨_, ih, ?_⟩
    simp [LTS.run, next, step, factory, action, List.replicate_succ', List.range_succ]

/-- C44 is false: the count is not per subscription. After one subscription has used up the retry, another
one never retries. -/
theorem C44_violated_shared {n : Int} {ls ls' : List (Label α)} {s s' : State Int Attempt}
    {out out' : List (Notif α)}
    (hr : LTS.run (next factory honour) (start n .source, []) ls = some (s, out))
    (h2 : s.started.count .source = 2)
    (hr' : LTS.run (next factory honour) (start s.c .source, []) ls' = some (s', out')) :
    s'.started.count .source ≤ 1 := by
  have h1 := tries_run hr
  have h3 : s.started.count .source ≤ tries s := by rw [tries, List.count_append]; omega
  have hc : s.c = 0 := by
    by_cases hc : s.c = 0
    · exact hc
    · simp only [hc, if_false] at h1
      split at h1 <;> omega
  simpa [hc] using C44_violated_count hr'

/-- A source that fails twice, with `retry(3)`. -/
def twice : List (Label Nat) :=
  [.subscribed 0, .call 0 (.next 1), .call 0 (.error (.user 0)), .disposed 0, .subscribed 0, .call 1 (.next 2),
   .call 1 (.error (.user 1)), .disposed 0, .subscribed 0]

/-- after its second failure it is not subscribed again although `n = 3` -/
example : ∃ s out, LTS.run (next factory true) (start 3 .source, []) twice = some (s, out) ∧
    s.started = [.source, .source, .fail (.user 1)] ∧ s.c = 0 ∧ out = [.next 1, .next 2] :=
  ⟨_, _, rfl, rfl, rfl, rfl⟩

/-- how far `retry` has got with a source that fails -/
inductive Stage (n : Int) (ls : List (Label α)) (s : State Int Attempt) : Prop where
  | first (h1 : s.started.length = 1) (h2 : s.c = n) (h3 : pending s.frames = [])
      (h4 : ∀ e, fin 0 ls ≠ .failed e)
  | between (h1 : s.started.length = 1) (e : Err) (h2 : fin 0 ls = .failed e)
      (h3 : ∀ xs ∈ pending s.frames, xs = .source)
  | second (h1 : s.started[1]? = some .source)

theorem stage_run {n : Int} (hn : n ≠ 0) {ls : List (Label α)} {s : State Int Attempt} {out : List (Notif α)}
    (hr : LTS.run (next factory honour) (start n .source, []) ls = some (s, out)) (hw : Lawful ls) :
    Stage n ls s := by
  refine LTS.inv_hist (fun ls (cc : State Int Attempt × List (Notif α)) => Lawful ls → Stage n ls cc.1)
    ?_ ?_ hr hw
  · intro _; exact .first rfl rfl rfl (by simp [fin, calls])
  · rintro ls ⟨s, out⟩ l ⟨s', out'⟩ ih hs hw
    have ih := ih fun k => grammar_prefix (by rw [calls_snoc]; exact List.prefix_append ..) (hw k)
    simp only [next, Option.map_eq_some_iff, Prod.mk.injEq] at hs
    obtain ⟨⟨t, o⟩, h1, rfl, rfl⟩ := hs
    dsimp only at *
    -- everything except an error of the source
    have quiet : fin 0 (ls ++ [l]) = fin 0 ls → t.started = s.started → t.c = s.c →
        (∀ xs ∈ pending t.frames, xs ∈ pending s.frames) → Stage n (ls ++ [l]) t := by
      intro q1 q2 q3 q4
      cases ih with
      | first i1 i2 i3 i4 =>
        refine .first (q2 ▸ i1) (q3 ▸ i2) ?_ (fun e => q1 ▸ i4 e)
        rw [i3] at q4
        exact List.eq_nil_iff_forall_not_mem.mpr fun x hx => by simpa using q4 x hx
      | between i1 e i2 i3 => exact .between (q2 ▸ i1) e (q1 ▸ i2) fun xs hx => i3 xs (q4 xs hx)
      | second i1 => exact .second (q2 ▸ i1)
    have hfin : (∀ k m, l ≠ .call k m) → fin 0 (ls ++ [l]) = fin 0 ls := fun hl => by
      rw [fin, fin, calls_snoc]
      cases l with
      | call k m => exact absurd rfl (hl k m)
      | _ => simp
    have hcnt : ∀ {y}, s.started[1]? = some y → ∀ xs, (s.started ++ xs)[1]? = some y := fun h xs => by
      rw [List.getElem?_append_left (List.getElem?_eq_some_iff.mp h).1]; exact h
    cases l with
    | call k m =>
      simp only [step] at h1
      split at h1
      next hk =>
        by_cases h2 : s.started[1]? = some .source
        · refine .second ?_
          cases m with
          | error e =>
            dsimp only at h1
            split at h1
            · simp only [Option.some.injEq, Prod.mk.injEq] at h1
              rw [← h1.1]; simp only [action]
              split
              · exact hcnt h2 _
              · exact h2
            · simp only [Option.some.injEq, Prod.mk.injEq] at h1; rw [← h1.1]; exact h2
          | _ => simp only [Option.some.injEq, Prod.mk.injEq] at h1; rw [← h1.1]; exact h2
        · obtain ⟨hlen⟩ : s.started.length = 1 ∧ True := by
            cases ih with
            | first i1 => exact ⟨i1, trivial⟩
            | between i1 => exact ⟨i1, trivial⟩
            | second i1 => exact absurd i1 h2
          have hk0 : k = 0 := by omega
          subst hk0
          have hrun : fin 0 ls = .running := by
            have := hw 0
            rw [calls_snoc] at this
            simp only [if_true] at this
            exact grammar_snoc this
          have hfk : fin 0 (ls ++ [.call 0 m]) = (story [m]).fin := by
            rw [fin, calls_snoc]
            simp only [if_true]
            rw [story_snoc m hrun]
          cases ih with
          | between i1 e i2 i3 => rw [hrun] at i2; cases i2
          | second i1 => exact absurd i1 h2
          | first i1 i2 i3 i4 =>
            cases m with
            | error e =>
              simp only [factory, i2, hn, if_false, Option.some.injEq, Prod.mk.injEq] at h1
              rw [← h1.1]; simp only [action]
              split
              · refine .second ?_
                dsimp only
                rw [List.getElem?_append_right (by omega), hlen]; rfl
              · refine .between hlen e hfk ?_
                dsimp only
                rw [pending_append, i3]; simp [pending]
            | next v =>
              simp only [Option.some.injEq, Prod.mk.injEq] at h1
              rw [← h1.1]; exact .first i1 i2 i3 (by rw [hfk]; simp)
            | completed =>
              simp only [Option.some.injEq, Prod.mk.injEq] at h1
              rw [← h1.1]; exact .first i1 i2 i3 (by rw [hfk]; simp)
      next => cases h1
    | disposed j =>
      simp only [step] at h1
      split at h1
      next xs d hj =>
        simp only [Option.some.injEq, Prod.mk.injEq] at h1
        have hm : xs ∈ pending s.frames := by
          rw [pending, List.mem_filterMap]; exact ⟨_, List.mem_of_getElem? hj, rfl⟩
        rw [← h1.1]
        refine .second ?_
        cases ih with
        | first i1 i2 i3 i4 => rw [i3] at hm; cases hm
        | between i1 e i2 i3 =>
          dsimp only
          rw [List.getElem?_append_right (by omega), i1, i3 xs hm]; rfl
        | second i1 => exact hcnt i1 _
      next => cases h1
    | subscribed j =>
      have hf := hfin (by simp)
      simp only [step] at h1
      split at h1
      · simp only [Option.some.injEq, Prod.mk.injEq] at h1
        obtain ⟨rfl, -⟩ := h1
        exact quiet hf rfl rfl fun xs hx => ((List.eraseIdx_sublist ..).filterMap _).subset hx
      · cases h1
    | fails j =>
      have hf := hfin (by simp)
      simp only [step] at h1
      split at h1
      · simp only [Option.some.injEq, Prod.mk.injEq] at h1
        obtain ⟨rfl, -⟩ := h1
        exact quiet hf rfl rfl fun xs hx => ((List.eraseIdx_sublist ..).filterMap _).subset hx
      · cases h1
    | cancel =>
      have hf := hfin (by simp)
      simp only [step] at h1
      split at h1
      · simp only [Option.some.injEq, Prod.mk.injEq] at h1
        obtain ⟨rfl, -⟩ := h1
        exact quiet hf rfl rfl fun xs hx => hx
      · cases h1

/-- C44, the part that holds: for `n ≠ 0`, after its first failure the source is subscribed once more (as
soon as its subscription was disposed), and by `C43_stream` the observer gets the values of both. Missing:
more than one retry, the error at the end, a count of its own for each subscription. -/
theorem C44_once_partial {n : Int} (hn : n ≠ 0) {ls : List (Label α)} {s : State Int Attempt}
    {out : List (Notif α)} (hr : LTS.run (next factory honour) (start n .source, []) ls = some (s, out))
    (hw : Lawful ls) (hf : NoFailure ls) (hp : ∀ xs d, .disposing xs d ∉ s.frames) {e : Err}
    (he : (story (calls 0 ls)).fin = .failed e) :
    s.started[1]? = some .source ∧ out = (recover (streams s.started.length ls)).events := by
  refine ⟨?_, C43_stream hr hw⟩
  have hlen : 1 < s.started.length := by
    rcases continues hr hw hf hp he with h | ⟨u, e', h⟩
    · exact h
    · simp only [factory] at h; split at h <;> cases h
  cases stage_run hn hr hw with
  | first h1 => omega
  | between h1 => omega
  | second h1 => exact h1

end Aio.Catch
