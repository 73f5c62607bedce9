import Verif.Spec.Catch
import Verif.Lemmas.Stream
/-!
# Invariants of catch
-/

namespace Aio.Catch
open Spec
variable {C ω α : Type} {h : Handler C ω} {honour : Bool}

theorem split_at {β : Type} {l : List β} {j : Nat} {x : β} (hx : l[j]? = some x) :
    ∃ a b, l = a ++ x :: b ∧ (∀ y, l.set j y = a ++ y :: b) ∧ l.eraseIdx j = a ++ b := by
  induction l generalizing j with
  | nil => simp at hx
  | cons z l ih =>
    cases j with
    | zero => simp only [List.getElem?_cons_zero, Option.some.injEq] at hx; subst hx; exact ⟨[], l, rfl, fun _ => rfl, rfl⟩
    | succ j =>
      simp only [List.getElem?_cons_succ] at hx
      obtain ⟨a, b, h1, h2, h3⟩ := ih hx
      exact ⟨z :: a, b, by rw [h1]; rfl, fun y => by simp [h2 y], by simp [h3]⟩

/-- the observables that will be subscribed by the suspended activations -/
def pending (fs : List (Frame ω)) : List ω := fs.filterMap fun | .disposing xs _ => some xs | _ => none

theorem pending_append (a b : List (Frame ω)) : pending (a ++ b) = pending a ++ pending b :=
  List.filterMap_append ..

/-- without the errors -/
def noErr (ns : List (Notif α)) : List (Notif α) := ns.filter fun | .error _ => false | _ => true

theorem calls_snoc (k : Nat) (ls : List (Label α)) (l : Label α) : calls k (ls ++ [l]) =
    calls k ls ++ (match l with | .call j n => if j = k then [n] else [] | _ => []) := by
  rw [calls, List.filterMap_append]
  cases l <;> try rfl
  rename_i j n
  by_cases h : j = k <;> simp [h, calls]

def total (n : Nat) (ls : List (Label α)) : List (Notif α) :=
  (List.range n).flatMap fun k => noErr (calls k ls)

theorem total_succ (n : Nat) (ls : List (Label α)) : total (n + 1) ls = total n ls ++ noErr (calls n ls) := by
  simp [total, List.range_succ]

theorem total_congr {n : Nat} {ls ls' : List (Label α)} (hk : ∀ k < n, calls k ls = calls k ls') :
    total n ls = total n ls' := by
  induction n with
  | zero => rfl
  | succ n ih => rw [total_succ, total_succ, ih fun k hk' => hk k (by omega), hk n (by omega)]

def fin (k : Nat) (ls : List (Label α)) : End := (story (calls k ls)).fin

/-- `xs` was made by the handler for `e` -/
def Made (h : Handler C ω) (e : Err) (xs : ω) : Prop := ∃ c, (h c e).2 = .ok xs

structure Inv (h : Handler C ω) (ls : List (Label α)) (s : State C ω) (out : List (Notif α)) : Prop where
  pos : 0 < s.started.length
  fresh : ∀ k, s.started.length ≤ k → calls k ls = []
  chain : ∀ k xs, s.started[k + 1]? = some xs → ∃ e, fin k ls = .failed e ∧ Made h e xs
  pend : pending s.frames = [] ∨ ∃ xs, pending s.frames = [xs] ∧
    ∃ e, fin (s.started.length - 1) ls = .failed e ∧ Made h e xs
  out : out = total s.started.length ls

/-- a step that is not a call -/
theorem Inv.silent {ls : List (Label α)} {s s' : State C ω} {out : List (Notif α)} (hi : Inv h ls s out)
    (l : Label α) (hl : ∀ k n, l ≠ .call k n) (h1 : s'.started = s.started)
    (h2 : pending s'.frames = pending s.frames ∨ pending s'.frames = []) : Inv h (ls ++ [l]) s' out := by
  have hc : ∀ k, calls k (ls ++ [l]) = calls k ls := fun k => by
    rw [calls_snoc]
    cases l with
    | call k n => exact absurd rfl (hl k n)
    | _ => simp
  have hf : ∀ k, fin k (ls ++ [l]) = fin k ls := fun k => by rw [fin, fin, hc]
  refine ⟨h1 ▸ hi.pos, fun k hk => ?_, fun k xs hk => ?_, ?_, ?_⟩
  · rw [hc]; exact hi.fresh k (h1 ▸ hk)
  · rw [hf]; rw [h1] at hk; exact hi.chain k xs hk
  · rw [hf, h1]
    rcases h2 with h2 | h2
    · rw [h2]; exact hi.pend
    · exact .inl h2
  · rw [h1, hi.out]; exact (total_congr fun k _ => hc k).symm

theorem noErr_append (a b : List (Notif α)) : noErr (a ++ b) = noErr a ++ noErr b := List.filter_append ..

theorem inv_step {ls : List (Label α)} {s s' : State C ω} {out o : List (Notif α)} {l : Label α}
    (hi : Inv h ls s out) (hs : step h honour s l = some (s', o)) (hw : Lawful (ls ++ [l])) :
    Inv h (ls ++ [l]) s' (out ++ o) := by
  cases l with
  | call k n =>
    simp only [step] at hs
    split at hs
    next hk =>
      have hrun : fin k ls = .running := by
        have := hw k
        rw [calls_snoc] at this
        simp only [if_true] at this
        exact grammar_snoc this
      have hlast : k + 1 = s.started.length := by
        rcases Nat.lt_or_ge (k + 1) s.started.length with hlt | hge
        · obtain ⟨e, he, -⟩ := hi.chain k _ (List.getElem?_eq_getElem hlt)
          rw [hrun] at he; cases he
        · omega
      have hp : pending s.frames = [] := by
        rcases hi.pend with hp | ⟨xs, -, e, he, -⟩
        · exact hp
        · rw [← hlast, Nat.add_sub_cancel, hrun] at he; cases he
      have hc : ∀ j, j ≠ k → calls j (ls ++ [.call k n]) = calls j ls := fun j hj => by
        rw [calls_snoc]; simp [Ne.symm hj]
      have hck : calls k (ls ++ [.call k n]) = calls k ls ++ [n] := by rw [calls_snoc]; simp
      have hf : ∀ j, j ≠ k → fin j (ls ++ [.call k n]) = fin j ls := fun j hj => by rw [fin, fin, hc j hj]
      have hfk : fin k (ls ++ [.call k n]) = (story [n]).fin := by
        rw [fin, hck, story_snoc n hrun]
      have htot : total s.started.length (ls ++ [.call k n]) = total s.started.length ls ++ noErr [n] := by
        rw [← hlast, total_succ, total_succ, hck, noErr_append,
          total_congr (n := k) (ls := ls ++ [Label.call k n]) (ls' := ls) fun j hj => hc j (by omega)]
        simp
      have hfresh : ∀ j, s.started.length ≤ j → calls j (ls ++ [.call k n]) = [] := fun j hj => by
        rw [hc j (by omega)]; exact hi.fresh j hj
      have hchain : ∀ j xs, s.started[j + 1]? = some xs →
          ∃ e, fin j (ls ++ [.call k n]) = .failed e ∧ Made h e xs := fun j xs hj => by
        have := (List.getElem?_eq_some_iff.mp hj).1
        rw [hf j (by omega)]; exact hi.chain j xs hj
      have same : ∀ c, Inv h (ls ++ [.call k n]) { s with c := c } (out ++ noErr [n]) := fun c =>
        ⟨hi.pos, hfresh, hchain, .inl hp, by show _ = total s.started.length _; rw [htot, hi.out]⟩
      cases n with
      | next v =>
        simp only [Option.some.injEq, Prod.mk.injEq] at hs; obtain ⟨rfl, rfl⟩ := hs; exact same s.c
      | completed =>
        simp only [Option.some.injEq, Prod.mk.injEq] at hs; obtain ⟨rfl, rfl⟩ := hs; exact same s.c
      | error e =>
        have hmade : ∀ c xs, h s.c e = (c, .ok xs) → Made h e xs := fun c xs he => ⟨s.c, by rw [he]⟩
        dsimp only at hs
        split at hs
        next c xs he =>
          simp only [Option.some.injEq, Prod.mk.injEq] at hs; obtain ⟨rfl, rfl⟩ := hs
          rw [List.append_nil]
          have hm := hmade c xs he
          simp only [action]
          split
          · refine ⟨by simp, fun j hj => hfresh j (by simp at hj; omega), fun j ys hj => ?_, .inl ?_, ?_⟩
            · dsimp only at hj
              by_cases hjk : j + 1 < s.started.length
              · rw [List.getElem?_append_left hjk] at hj
                exact hchain j ys hj
              · have := (List.getElem?_eq_some_iff.mp hj).1
                simp only [List.length_append, List.length_singleton] at this
                have hjl : j + 1 = s.started.length := by omega
                rw [hjl, List.getElem?_append_right (Nat.le_refl _)] at hj
                simp at hj
                subst hj
                have : j = k := by omega
                subst this
                exact ⟨e, hfk, hm⟩
            · dsimp only; rw [pending_append, hp]; rfl
            · show _ = total (s.started ++ [xs]).length _
              rw [List.length_append, List.length_singleton, total_succ, htot, hfresh _ (Nat.le_refl _), hi.out]
              simp [noErr]
          · refine ⟨hi.pos, hfresh, hchain, .inr ⟨xs, ?_, e, ?_, hm⟩, ?_⟩
            · dsimp only; rw [pending_append, hp]; rfl
            · dsimp only; rw [← hlast, Nat.add_sub_cancel]; exact hfk
            · show _ = total s.started.length _
              rw [htot, hi.out]; simp [noErr]
        next c x he =>
          simp only [Option.some.injEq, Prod.mk.injEq] at hs; obtain ⟨rfl, rfl⟩ := hs
          exact same c
    next => cases hs
  | disposed j =>
    simp only [step] at hs
    split at hs
    next xs d hj =>
      simp only [Option.some.injEq, Prod.mk.injEq] at hs; obtain ⟨rfl, rfl⟩ := hs
      rw [List.append_nil]
      obtain ⟨a, b, h1, h2, -⟩ := split_at hj
      have hp1 : pending s.frames = pending a ++ xs :: pending b := by
        rw [h1, pending_append]; rfl
      obtain ⟨ha, hb, e, he, hm⟩ : pending a = [] ∧ pending b = [] ∧
          ∃ e, fin (s.started.length - 1) ls = .failed e ∧ Made h e xs := by
        rcases hi.pend with hp | ⟨ys, hp, e, he, hm⟩
        · rw [hp] at hp1; simp at hp1
        · rw [hp] at hp1
          cases hpa : pending a with
          | nil =>
            rw [hpa] at hp1
            simp only [List.nil_append, List.cons.injEq] at hp1
            exact ⟨rfl, hp1.2.symm, e, he, hp1.1 ▸ hm⟩
          | cons y ys => rw [hpa] at hp1; simp at hp1
      have hc : ∀ k, calls k (ls ++ [.disposed j]) = calls k ls := fun k => by rw [calls_snoc]; simp
      have hf : ∀ k, fin k (ls ++ [.disposed j]) = fin k ls := fun k => by rw [fin, fin, hc]
      refine ⟨by simp, fun k hk => ?_, fun k ys hk => ?_, .inl ?_, ?_⟩
      · rw [hc]; simp only [List.length_append, List.length_singleton] at hk; exact hi.fresh k (by omega)
      · rw [hf]
        dsimp only at hk
        by_cases hkl : k + 1 < s.started.length
        · rw [List.getElem?_append_left hkl] at hk
          exact hi.chain k ys hk
        · have := (List.getElem?_eq_some_iff.mp hk).1
          simp only [List.length_append, List.length_singleton] at this
          have hjl : k + 1 = s.started.length := by omega
          rw [hjl, List.getElem?_append_right (Nat.le_refl _)] at hk
          simp at hk
          subst hk
          exact ⟨e, by rw [← he, ← hjl, Nat.add_sub_cancel], hm⟩
      · dsimp only
        rw [h2, pending_append, ha]
        simpa [pending] using hb
      · show _ = total (s.started ++ [xs]).length _
        rw [List.length_append, List.length_singleton, total_succ, hc, hi.fresh _ (Nat.le_refl _), hi.out,
          total_congr fun k _ => hc k]
        simp [noErr]
    next => cases hs
  | subscribed j =>
    simp only [step] at hs
    split at hs
    next k hj =>
      simp only [Option.some.injEq, Prod.mk.injEq] at hs; obtain ⟨rfl, rfl⟩ := hs
      rw [List.append_nil]
      obtain ⟨a, b, h1, -, h3⟩ := split_at hj
      refine hi.silent _ (by simp) rfl (.inl ?_)
      dsimp only
      rw [h3, h1, pending_append, pending_append]; rfl
    next => cases hs
  | fails j =>
    simp only [step] at hs
    split at hs
    next hj =>
      simp only [Option.some.injEq, Prod.mk.injEq] at hs; obtain ⟨rfl, rfl⟩ := hs
      rw [List.append_nil]
      obtain ⟨a, b, h1, -, h3⟩ := split_at (List.getElem?_eq_getElem hj)
      refine hi.silent _ (by simp) rfl ?_
      dsimp only
      rw [h3]
      generalize s.frames[j] = f at h1
      rcases hi.pend with hp | ⟨xs, hp, -⟩
      · right
        rw [h1, pending_append, List.append_eq_nil_iff] at hp
        rw [pending_append, hp.1]
        have := hp.2
        rw [show f :: b = [f] ++ b from rfl, pending_append, List.append_eq_nil_iff] at this
        exact this.2
      · cases f with
        | subscribing k => left; rw [h1, pending_append, pending_append]; rfl
        | disposing ys d =>
          right
          rw [h1, pending_append] at hp
          rw [pending_append]
          cases hpa : pending a with
          | nil => rw [hpa] at hp; simp [pending] at hp ⊢; exact hp.2
          | cons y ys => rw [hpa] at hp; simp [pending] at hp
    next => cases hs
  | cancel =>
    simp only [step] at hs
    split at hs
    · simp only [Option.some.injEq, Prod.mk.injEq] at hs; obtain ⟨rfl, rfl⟩ := hs
      rw [List.append_nil]
      exact hi.silent _ (by simp) rfl (.inl rfl)
    · cases hs

theorem inv_run {c : C} {x : ω} {ls : List (Label α)} {s : State C ω} {out : List (Notif α)}
    (hr : LTS.run (next h honour) (start c x, []) ls = some (s, out)) (hw : Lawful ls) :
    Inv h ls s out := by
  refine LTS.inv_hist (fun ls (c : State C ω × List (Notif α)) => Lawful ls → Inv h ls c.1 c.2) ?_ ?_ hr hw
  · intro _
    refine ⟨by simp [start], fun _ _ => rfl, by simp [start], .inl rfl, ?_⟩
    simp [start, total, calls, noErr, List.range_succ]
  · rintro ls ⟨s, out⟩ l ⟨s', out'⟩ ih hs hw
    simp only [next, Option.map_eq_some_iff, Prod.mk.injEq] at hs
    obtain ⟨⟨t, o⟩, h1, rfl, rfl⟩ := hs
    refine inv_step (ih fun k => grammar_prefix ?_ (hw k)) h1 hw
    rw [calls_snoc]; exact List.prefix_append ..

end Aio.Catch
