import Verif.Model.RoundTrip
import Verif.Props.C97_AsyncFor
/-!
# C147: from observable to async iterable and back
-/

namespace Aio.RoundTrip
open Spec
open Safe (calls calls_append)
variable {α γ : Type} {c : Chain α γ} {dom : List (Notif α) → Prop} {G : Story α → Story γ}

/-- What the source has posted. -/
def posted (ls : List (Label c)) : List (Notif α) := ls.filterMap fun | .inner (.post n) => some n | _ => none

/-- The observer never raises. -/
def NoRaise (ls : List (Label c)) : Prop := ∀ e, Label.raise e ∉ ls

/-- No task that is under way can go on, and the observer is not in the middle of a call. -/
def Rest (s : State c) : Prop := step s .start = none ∧ step s .ret = none ∧ ∀ l, AsyncFor.Internal l → step s (.inner l) = none

/-- Specification: what the observer is told of a stream: its values and its completion, but not its error. -/
def survives (t : Story γ) : List (Notif γ) := t.vals.map .next ++ (match t.fin with | .done => [.completed] | _ => [])

/-! ### one step of the iterator -/

private theorem access_same (it : Iterator.State γ) (k : Nat) (n : Notif γ) : (it.access k n).consumer = it.consumer ∧ (it.access k n).taken = it.taken := by
  unfold Iterator.State.access
  split
  · exact ⟨rfl, rfl⟩
  · unfold Iterator.State.handOver
    split
    · exact ⟨rfl, rfl⟩
    · dsimp only; split <;> exact ⟨rfl, rfl⟩

private theorem take_takes (it : Iterator.State γ) (n : Notif γ) : ∃ x, (it.take n).taken = it.taken ++ [x] ∧ (it.take n).consumer = .idle := by
  unfold Iterator.State.take
  split
  · exact ⟨_, rfl, rfl⟩
  · exact ⟨_, rfl, rfl⟩
  · split
    · exact ⟨_, rfl, rfl⟩
    · dsimp only
      split <;> exact ⟨_, rfl, rfl⟩

private theorem receive_takes (it : Iterator.State γ) : (it.receive.taken = it.taken ∧ it.receive.consumer = .waiting) ∨ ∃ x, it.receive.taken = it.taken ++ [x] ∧ it.receive.consumer = .idle := by
  unfold Iterator.State.receive
  split
  · exact .inr (take_takes it _)
  · exact .inl ⟨rfl, rfl⟩

/-- In `__anext__`. -/
private def In (it : Iterator.State γ) : Prop := it.consumer = .subscribing ∨ it.consumer = .waiting

private theorem iter_step {it it' : Iterator.State γ} {l : Iterator.Label γ} (hl : l ≠ .anext) (h : Iterator.step it l = some it') :
    (it'.taken = it.taken ∧ (it'.consumer = it.consumer ∨ In it ∧ In it')) ∨ ∃ x, it'.taken = it.taken ++ [x] ∧ it'.consumer = .idle := by
  cases l with
  | anext => exact absurd rfl hl
  | call n =>
    cases h
    exact .inl ⟨(access_same _ _ _).2, .inl (access_same _ _ _).1⟩
  | subscribed =>
    simp only [Iterator.step] at h
    split at h
    · cases h
    · split at h
      · next hk =>
        cases h
        rcases receive_takes it with ⟨h1, h2⟩ | h
        · exact .inl ⟨h1, .inr ⟨.inl hk, .inr h2⟩⟩
        · exact .inr h
      · cases h
  | run =>
    simp only [Iterator.step] at h
    split at h
    · cases h
    · split at h
      · cases h
        exact .inr (take_takes _ _)
      · cases h
    · cases h; exact .inl ⟨rfl, .inl rfl⟩
    · split at h
      · cases h
        exact .inl ⟨(access_same _ _ _).2, .inl (access_same _ _ _).1⟩
      · cases h

private theorem iter_anext {it it' : Iterator.State γ} (h : Iterator.step it .anext = some it') : (it'.taken = it.taken ∧ In it') ∨ ∃ x, it'.taken = it.taken ++ [x] ∧ it'.consumer = .idle := by
  simp only [Iterator.step] at h
  split at h
  · cases h
  · split at h
    · cases h; exact .inl ⟨rfl, .inl rfl⟩
    · cases h
      rcases receive_takes it with ⟨h1, h2⟩ | h
      · exact .inl ⟨h1, .inr h2⟩
      · exact .inr h
    · cases h

private theorem loop_step {s s' : AsyncFor.State c} {l : AsyncFor.Label c} (hl : l ≠ .anext) (h : AsyncFor.step s l = some s') :
    (s'.it.taken = s.it.taken ∧ (s'.it.consumer = s.it.consumer ∨ In s.it ∧ In s'.it)) ∨ ∃ x, s'.it.taken = s.it.taken ++ [x] ∧ s'.it.consumer = .idle := by
  have mv : ∀ {ps o}, AsyncFor.move s ps o = some s' → (s'.it.taken = s.it.taken ∧ (s'.it.consumer = s.it.consumer ∨ In s.it ∧ In s'.it)) ∨ ∃ x, s'.it.taken = s.it.taken ++ [x] ∧ s'.it.consumer = .idle := by
    intro ps o h
    unfold AsyncFor.move at h
    split at h
    · cases h; exact .inl ⟨rfl, .inl rfl⟩
    · split at h
      · obtain ⟨it, h1, rfl⟩ := Option.map_eq_some_iff.mp h
        exact iter_step (by simp) h1
      · cases h
    · cases h
  cases l with
  | anext => exact absurd rfl hl
  | subscribed =>
    obtain ⟨it, h1, rfl⟩ := Option.map_eq_some_iff.mp h
    exact iter_step (by simp) h1
  | resume =>
    obtain ⟨it, h1, rfl⟩ := Option.map_eq_some_iff.mp h
    exact iter_step (by simp) h1
  | post n =>
    simp only [AsyncFor.step] at h
    split at h
    · cases h
    · exact mv h
  | worker l =>
    simp only [AsyncFor.step] at h
    split at h
    · cases h
    · exact mv h

/-! ### the invariant -/

/-- What the worker has told the observer. -/
private inductive Phase : OfAsyncIterable.State γ → Iterator.State γ → Prop where
  | fresh {it log} : it.taken = [] → it.consumer = .fresh → calls log = [] → Phase ⟨.fresh, false, log⟩ it
  | pulling {it log} (vs : List γ) : it.taken = vs.map .value → In it → calls log = vs.map .next → Phase ⟨.pulling, false, log⟩ it
  | sending {it log} (vs : List γ) (v) : it.taken = vs.map .value → it.consumer = .idle → calls log = vs.map .next → Phase ⟨.sending v, false, log⟩ it
  | closing {it log} (vs : List γ) : it.taken = vs.map .value ++ [.stop] → calls log = vs.map .next ++ [.completed] → Phase ⟨.closing, false, log⟩ it
  | closed {it log} (vs : List γ) : it.taken = vs.map .value ++ [.stop] → calls log = vs.map .next ++ [.completed] → Phase ⟨.dead, false, log⟩ it
  | failed {it log} (vs : List γ) (e) : it.taken = vs.map .value ++ [.raised e] → calls log = vs.map .next → Phase ⟨.dead, false, log⟩ it

private structure Inv (ls : List (Label c)) (s : State c) : Prop where
  loop : ∃ al, LTS.run AsyncFor.step (AsyncFor.init c) al = some s.loop ∧ AsyncFor.posted al = posted ls
  phase : Phase s.w s.loop.it

/-- `__anext__` is being awaited, and the iterator does something. -/
private theorem goesOn_phase {s s' : State c} {loop : AsyncFor.State c} {vs : List γ} {log} (hw : s.w = ⟨.pulling, false, log⟩) (ht : s.loop.it.taken = vs.map .value) (hc : calls log = vs.map .next)
    (hstep : (loop.it.taken = s.loop.it.taken ∧ In loop.it) ∨ ∃ x, loop.it.taken = s.loop.it.taken ++ [x] ∧ loop.it.consumer = .idle) (h : goesOn s loop = some s') : s'.loop = loop ∧ Phase s'.w loop.it := by
  rcases hstep with ⟨h1, h2⟩ | ⟨x, h1, h2⟩
  · simp only [goesOn, h1] at h
    rw [List.getElem?_eq_none (Nat.le_refl _)] at h
    cases h
    refine ⟨rfl, ?_⟩
    dsimp only
    rw [hw]
    exact .pulling vs (h1.trans ht) h2 hc
  · simp only [goesOn, h1] at h
    rw [List.getElem?_append_right (Nat.le_refl _), Nat.sub_self] at h
    simp only [List.getElem?_cons_zero] at h
    rw [ht] at h1
    cases x with
    | value v =>
      simp only [hw, OfAsyncIterable.step, Option.map_some, Option.some.injEq] at h
      subst h
      exact ⟨rfl, .sending (vs ++ [v]) v (by rw [h1]; simp) h2 (by rw [calls_append, hc]; simp [calls])⟩
    | stop =>
      simp only [hw, OfAsyncIterable.step, Option.map_some, Option.some.injEq] at h
      subst h
      exact ⟨rfl, .closing vs h1 (by rw [calls_append, hc]; simp [calls])⟩
    | raised e =>
      simp only [hw, OfAsyncIterable.step, Option.map_some, Option.some.injEq] at h
      subst h
      exact ⟨rfl, .failed vs e h1 hc⟩

private theorem posted_snoc (ls : List (Label c)) (l : Label c) : posted (ls ++ [l]) = posted ls ++ (match l with | .inner (.post n) => [n] | _ => []) := by
  rw [posted, List.filterMap_append]
  rcases l with _ | l | _ | _
  · rfl
  · cases l <;> rfl
  · rfl
  · rfl

private theorem loop_snoc {ls : List (Label c)} {s s' : State c} {l : Label c} {al : AsyncFor.Label c} (h : ∃ al, LTS.run AsyncFor.step (AsyncFor.init c) al = some s.loop ∧ AsyncFor.posted al = posted ls)
    (hs : AsyncFor.step s.loop al = some s'.loop) (hp : posted (ls ++ [l]) = posted ls ++ AsyncFor.posted [al]) :
    ∃ al, LTS.run AsyncFor.step (AsyncFor.init c) al = some s'.loop ∧ AsyncFor.posted al = posted (ls ++ [l]) := by
  obtain ⟨a, h1, h2⟩ := h
  exact ⟨a ++ [al], LTS.run_append.mpr ⟨_, h1, LTS.run_cons.mpr ⟨_, hs, rfl⟩⟩, by rw [hp, ← h2, AsyncFor.posted, List.filterMap_append]; rfl⟩

private theorem anext_inv {ls : List (Label c)} {s s' : State c} {l : Label c} {vs : List γ} {log} (hw : s.w = ⟨.pulling, false, log⟩) (ht : s.loop.it.taken = vs.map .value) (hc : calls log = vs.map .next)
    (hl : ∃ al, LTS.run AsyncFor.step (AsyncFor.init c) al = some s.loop ∧ AsyncFor.posted al = posted ls) (hp : posted (ls ++ [l]) = posted ls) (h : anext s = some s') : Inv (ls ++ [l]) s' := by
  obtain ⟨loop, h1, h2⟩ := Option.bind_eq_some_iff.mp h
  have h1' := h1
  simp only [AsyncFor.step, Option.map_eq_some_iff] at h1'
  obtain ⟨it, h3, rfl⟩ := h1'
  obtain ⟨h4, h5⟩ := goesOn_phase hw ht hc (iter_anext h3) h2
  rw [← h4] at h1 h5
  exact ⟨loop_snoc hl h1 (by rw [hp]; simp [AsyncFor.posted]), h5⟩

private theorem inv_step {ls : List (Label c)} {s s' : State c} {l : Label c} (h : Inv ls s) (hl : ∀ e, l ≠ .raise e) (hs : step s l = some s') : Inv (ls ++ [l]) s' := by
  obtain ⟨hloop, hph⟩ := h
  cases l with
  | start =>
    simp only [step, Option.bind_eq_some_iff] at hs
    obtain ⟨w, h1, h2⟩ := hs
    obtain ⟨loop, sw⟩ := s
    dsimp only at hph h1 h2 hloop
    cases hph <;> simp only [OfAsyncIterable.step, reduceCtorEq] at h1
    next h5 h3 h4 =>
    cases h1
    exact anext_inv (vs := []) rfl (by simpa using h3) (by simpa using h5) hloop (by simp [posted_snoc]) h2
  | inner al =>
    have key : al ≠ .anext → (AsyncFor.step s.loop al).bind (goesOn s) = some s' → posted (ls ++ [.inner al]) = posted ls ++ AsyncFor.posted [al] → Inv (ls ++ [.inner al]) s' := by
      intro hne hs hp
      obtain ⟨loop, h1, h2⟩ := Option.bind_eq_some_iff.mp hs
      have h3 := loop_step hne h1
      obtain ⟨sl, sw⟩ := s
      dsimp only at hph h1 h3 hloop
      have hkeep : ∀ {w}, sw = w → w.pc ≠ .pulling → s' = ⟨loop, sw⟩ ∧ loop.it.taken = sl.it.taken := by
        intro w hw hpc
        subst hw
        rcases h3 with ⟨h4, -⟩ | ⟨x, h4, -⟩
        · simp only [goesOn, h4] at h2
          rw [List.getElem?_eq_none (Nat.le_refl _)] at h2
          cases h2
          exact ⟨rfl, h4⟩
        · exfalso
          simp only [goesOn, h4] at h2
          rw [List.getElem?_append_right (Nat.le_refl _), Nat.sub_self] at h2
          simp only [List.getElem?_cons_zero] at h2
          obtain ⟨pc, cc, log⟩ := sw
          cases pc <;> first | exact hpc rfl | (cases x <;> simp [OfAsyncIterable.step] at h2)
      cases hph with
      | fresh g1 g2 g3 =>
        obtain ⟨rfl, h5⟩ := hkeep rfl (by simp)
        refine ⟨loop_snoc (s := ⟨sl, OfAsyncIterable.init⟩) hloop h1 hp, .fresh (h5.trans g1) ?_ g3⟩
        rcases h3 with ⟨-, h6 | ⟨h6, -⟩⟩ | ⟨x, h6, -⟩
        · exact h6.trans g2
        · rcases h6 with h6 | h6 <;> rw [g2] at h6 <;> cases h6
        · rw [h5] at h6; exact absurd (congrArg List.length h6) (by simp)
      | pulling vs g1 g2 g3 =>
        have h3' : (loop.it.taken = sl.it.taken ∧ In loop.it) ∨ ∃ x, loop.it.taken = sl.it.taken ++ [x] ∧ loop.it.consumer = .idle := by
          rcases h3 with ⟨h4, h5 | ⟨-, h5⟩⟩ | h3
          · exact .inl ⟨h4, by unfold In; rw [h5]; exact g2⟩
          · exact .inl ⟨h4, h5⟩
          · exact .inr h3
        obtain ⟨h4, h5⟩ := goesOn_phase (s := ⟨sl, _⟩) rfl g1 g3 h3' h2
        rw [← h4] at h1 h5
        exact ⟨loop_snoc (s := ⟨sl, OfAsyncIterable.init⟩) hloop h1 hp, h5⟩
      | sending vs v g1 g2 g3 =>
        obtain ⟨rfl, h5⟩ := hkeep rfl (by simp)
        refine ⟨loop_snoc (s := ⟨sl, OfAsyncIterable.init⟩) hloop h1 hp, .sending vs v (h5.trans g1) ?_ g3⟩
        rcases h3 with ⟨-, h6 | ⟨h6, -⟩⟩ | ⟨x, h6, -⟩
        · exact h6.trans g2
        · rcases h6 with h6 | h6 <;> rw [g2] at h6 <;> cases h6
        · rw [h5] at h6; exact absurd (congrArg List.length h6) (by simp)
      | closing vs g1 g3 =>
        obtain ⟨rfl, h5⟩ := hkeep rfl (by simp)
        exact ⟨loop_snoc (s := ⟨sl, OfAsyncIterable.init⟩) hloop h1 hp, .closing vs (h5.trans g1) g3⟩
      | closed vs g1 g3 =>
        obtain ⟨rfl, h5⟩ := hkeep rfl (by simp)
        exact ⟨loop_snoc (s := ⟨sl, OfAsyncIterable.init⟩) hloop h1 hp, .closed vs (h5.trans g1) g3⟩
      | failed vs e g1 g3 =>
        obtain ⟨rfl, h5⟩ := hkeep rfl (by simp)
        exact ⟨loop_snoc (s := ⟨sl, OfAsyncIterable.init⟩) hloop h1 hp, .failed vs e (h5.trans g1) g3⟩
    cases al with
    | anext => cases hs
    | _ => exact key (by simp) hs (by rw [posted_snoc]; rfl)
  | ret =>
    simp only [step] at hs
    obtain ⟨loop, sw⟩ := s
    dsimp only at hph hs hloop
    have hp : posted (ls ++ [Label.ret]) = posted ls := by simp [posted_snoc]
    cases hph with
    | sending vs v g1 g2 g3 =>
      simp only [OfAsyncIterable.step] at hs
      exact anext_inv (vs := vs) rfl g1 (by rw [calls_append, g3]; simp [calls]) hloop hp hs
    | closing vs g1 g3 =>
      simp only [OfAsyncIterable.step] at hs
      cases hs
      exact ⟨by rw [hp]; exact hloop, .closed vs g1 (by rw [calls_append, g3]; simp [calls])⟩
    | _ => simp [OfAsyncIterable.step] at hs
  | raise e => exact absurd rfl (hl e)

private theorem inv_run {ls : List (Label c)} {s : State c} (hr : LTS.run step (init c) ls = some s) (hn : NoRaise ls) : Inv ls s := by
  refine LTS.inv_hist (step := step) (fun ls s => NoRaise ls → Inv ls s) (s0 := init c) (fun _ => ⟨⟨[], rfl, rfl⟩, .fresh rfl rfl rfl⟩) ?_ hr hn
  intro ls s l s' h hs hn
  exact inv_step (h fun e he => hn e (List.mem_append_left _ he)) (fun e he => hn e (by simp [he])) hs

/-- What the loop has got of the stream, when it has got an end. -/
private theorem ended {t : Story γ} {vs : List γ} {x : Iterator.Took γ} (h : vs.map .value ++ [x] = answers t (vs.length + 1)) (hx : ∀ v, x ≠ .value v) :
    t.vals = vs ∧ x = (match t.fin with | .failed e => .raised e | _ => .stop) := by
  have hE : ∀ v, (match t.fin with | .failed e => Iterator.Took.raised e | _ => .stop) ≠ Iterator.Took.value (α := γ) v := by intro v; cases t.fin <;> simp
  unfold answers at h
  generalize hEE : (match t.fin with | .failed e => Iterator.Took.raised e | _ => .stop) = E at hE ⊢
  change _ = (_ ++ List.replicate _ (match t.fin with | .failed e => Iterator.Took.raised e | _ => .stop)).take _ at h
  rw [hEE] at h
  rcases Nat.lt_trichotomy vs.length t.vals.length with hlt | heq | hgt
  · have h1 := congrArg (·[vs.length]?) h
    simp only [List.getElem?_take, List.getElem?_append, List.length_map] at h1
    simp [hlt] at h1
    exact absurd h1 (hx _)
  · rw [heq, Nat.add_sub_cancel_left, List.take_of_length_le (by simp)] at h
    obtain ⟨h1, h2⟩ := List.append_inj h (by simp [heq])
    refine ⟨(List.map_inj_right (f := Iterator.Took.value) (by intro a b h; cases h; rfl)).mp h1.symm, by simpa using h2⟩
  · have h1 := congrArg (·[t.vals.length]?) h
    simp only [List.getElem?_take, List.getElem?_append, List.length_map] at h1
    rw [if_pos hgt, if_pos (by omega), if_neg (by omega), Nat.sub_self, List.getElem?_replicate, if_pos (by omega), List.getElem?_map] at h1
    rw [List.getElem?_eq_getElem hgt] at h1
    simp only [Option.map_some, Option.some.injEq] at h1
    exact absurd h1.symm (hE _)

/-- The values of a stream that the loop has got so far. -/
private theorem begun {t : Story γ} {vs : List γ} (h : vs.map .value = answers t vs.length) : vs <+: t.vals := by
  have hE : ∀ v, (match t.fin with | .failed e => Iterator.Took.raised e | _ => .stop) ≠ Iterator.Took.value (α := γ) v := by intro v; cases t.fin <;> simp
  unfold answers at h
  generalize hEE : (match t.fin with | .failed e => Iterator.Took.raised e | _ => .stop) = E at hE
  change _ = (_ ++ List.replicate _ (match t.fin with | .failed e => Iterator.Took.raised e | _ => .stop)).take _ at h
  rw [hEE] at h
  by_cases hle : vs.length ≤ t.vals.length
  · rw [Nat.sub_eq_zero_of_le hle, List.replicate_zero, List.append_nil, ← List.map_take] at h
    rw [(List.map_inj_right (f := Iterator.Took.value) (by intro a b h; cases h; rfl)).mp h]
    exact List.take_prefix _ _
  · have hgt : t.vals.length < vs.length := by omega
    have h1 := congrArg (·[t.vals.length]?) h
    simp only [List.getElem?_take, List.getElem?_append, List.length_map] at h1
    rw [if_pos hgt, if_neg (by omega), Nat.sub_self, List.getElem?_replicate, if_pos (by omega), List.getElem?_map, List.getElem?_eq_getElem hgt] at h1
    simp only [Option.map_some, Option.some.injEq] at h1
    exact absurd h1.symm (hE _)

/-- How far the observer is, in terms of the stream. -/
private theorem standing (hG : Delivers c.proc dom G) {ls : List (Label c)} {s : State c} (hr : LTS.run step (init c) ls = some s) (hn : NoRaise ls) (hd : dom (posted ls)) :
    (∃ vs, vs <+: (G (story (posted ls))).vals ∧ s.loop.it.taken = vs.map .value ∧ calls s.w.log = vs.map .next) ∨
    calls s.w.log = survives (G (story (posted ls))) := by
  obtain ⟨⟨al, h1, h2⟩, h3⟩ := inv_run hr hn
  obtain ⟨h4, h5⟩ := AsyncFor.C97_yields hG h1 (h2 ▸ hd)
  rw [h2] at h4 h5
  have live : ∀ vs : List γ, s.loop.it.taken = vs.map .value → calls s.w.log = vs.map .next → ∃ vs, vs <+: (G (story (posted ls))).vals ∧ s.loop.it.taken = vs.map .value ∧ calls s.w.log = vs.map .next :=
    fun vs ht hc => ⟨vs, begun (by rw [ht] at h4; simpa using h4), ht, hc⟩
  have fin : ∀ (vs : List γ) x, s.loop.it.taken = vs.map .value ++ [x] → (∀ v, x ≠ .value v) →
      (G (story (posted ls))).vals = vs ∧ x = (match (G (story (posted ls))).fin with | .failed e => .raised e | _ => .stop) ∧ (G (story (posted ls))).fin ≠ .running := by
    intro vs x ht hx
    obtain ⟨h6, h7⟩ := ended (t := G (story (posted ls))) (vs := vs) (x := x) (by rw [ht] at h4; simpa using h4) hx
    exact ⟨h6, h7, h5 ⟨x, by simp [ht], hx⟩⟩
  have stops : ∀ vs : List γ, s.loop.it.taken = vs.map .value ++ [.stop] → calls s.w.log = vs.map .next ++ [.completed] → calls s.w.log = survives (G (story (posted ls))) := by
    intro vs ht hc
    obtain ⟨h6, h7, h8⟩ := fin vs _ ht (by simp)
    unfold survives
    rw [hc, h6]
    cases hf : (G (story (posted ls))).fin with
    | running => exact absurd hf h8
    | done => rfl
    | failed e => rw [hf] at h7; cases h7
  obtain ⟨loop, w⟩ := s
  dsimp only at *
  cases h3 with
  | fresh g1 g2 g3 => exact .inl (live [] g1 g3)
  | pulling vs g1 g2 g3 => exact .inl (live vs g1 g3)
  | sending vs v g1 g2 g3 => exact .inl (live vs g1 g3)
  | closing vs g1 g2 => exact .inr (stops vs g1 g2)
  | closed vs g1 g2 => exact .inr (stops vs g1 g2)
  | failed vs e g1 g2 =>
    obtain ⟨h6, h7, h8⟩ := fin vs _ g1 (by simp)
    right
    unfold survives
    rw [g2, h6]
    cases hf : (G (story (posted ls))).fin with
    | running => exact absurd hf h8
    | done => rw [hf] at h7; cases h7
    | failed e => simp

/-- Part of C147. Whatever the source posts and whatever the schedule (the observer does not raise): the observer is told the values of the stream in order, each once, and then the completion. Missing: its error. -/
theorem C147_prefix_partial (hG : Delivers c.proc dom G) {ls : List (Label c)} {s : State c} (hr : LTS.run step (init c) ls = some s) (hn : NoRaise ls) (hd : dom (posted ls)) :
    calls s.w.log <+: survives (G (story (posted ls))) := by
  rcases standing hG hr hn hd with ⟨vs, h1, -, h2⟩ | h
  · rw [h2]
    exact ((List.prefix_map_iff_of_injective (by intro a b h; cases h; rfl)).mpr h1).trans (List.prefix_append _ _)
  · rw [h]; exact List.prefix_rfl

private theorem goesOn_ok {s : State c} {log} (hw : s.w = ⟨.pulling, false, log⟩) (loop : AsyncFor.State c) : goesOn s loop ≠ none := by
  unfold goesOn
  split <;> simp [hw, OfAsyncIterable.step]

private theorem anext_ok {s : State c} {log} (hw : s.w = ⟨.pulling, false, log⟩) (ht : Iterator.isTurn s.loop.it.ready = false) (hc : s.loop.it.consumer = .fresh ∨ s.loop.it.consumer = .idle) : anext s ≠ none := by
  intro h
  unfold anext at h
  have : ∃ it, Iterator.step s.loop.it .anext = some it := by
    rcases hc with hc | hc <;> simp [Iterator.step, ht, hc]
  obtain ⟨it, h1⟩ := this
  simp only [AsyncFor.step, h1, Option.map_some, Option.bind_some] at h
  exact goesOn_ok hw _ h

/-- Part of C147. When nothing is left to do the observer has been told all of them. -/
theorem C147_all_partial (hG : Delivers c.proc dom G) {ls : List (Label c)} {s : State c} (hr : LTS.run step (init c) ls = some s) (hn : NoRaise ls) (hd : dom (posted ls)) (hrest : Rest s) :
    calls s.w.log = survives (G (story (posted ls))) := by
  obtain ⟨⟨al, h1, h2⟩, h3⟩ := inv_run hr hn
  rcases standing hG hr hn hd with ⟨vs, hv, ht, hc⟩ | h
  · have htf := AsyncFor.turn_free h1
    obtain ⟨hstart, hret, hin⟩ := hrest
    obtain ⟨loop, w⟩ := s
    dsimp only at *
    cases h3 with
    | fresh g1 g2 g3 =>
      simp only [step, OfAsyncIterable.step] at hstart
      exact absurd hstart (anext_ok rfl htf (.inl g2))
    | sending us v g1 g2 g3 =>
      simp only [step, OfAsyncIterable.step] at hret
      exact absurd hret (anext_ok rfl htf (.inr g2))
    | pulling us g1 g2 g3 =>
      have hrest' : AsyncFor.Rest loop := by
        intro l hl
        have := hin l hl
        cases hs : AsyncFor.step loop l with
        | none => rfl
        | some loop' =>
          exfalso
          cases l with
          | anext => exact hl
          | _ => exact goesOn_ok (s := ⟨loop, _⟩) rfl loop' (by simpa only [step, hs, Option.bind_some] using this)
      obtain ⟨h4, h5⟩ := AsyncFor.C97_no_deadlock hG h1 (h2 ▸ hd) hrest'
      rcases g2 with g2 | g2
      · exact absurd g2 h4
      · rw [h2, ht] at h5
        have hy := Iterator.yielded_value vs []
        rw [List.append_nil] at hy
        rw [h5 g2, hy]
        simpa [survives, Iterator.yielded] using hc
    | closing us g1 g2 => rw [g1] at ht; exact absurd (ht ▸ List.mem_append_right _ (.head _) : Iterator.Took.stop ∈ vs.map .value) (by simp)
    | closed us g1 g2 => rw [g1] at ht; exact absurd (ht ▸ List.mem_append_right _ (.head _) : Iterator.Took.stop ∈ vs.map .value) (by simp)
    | failed us e g1 g2 => rw [g1] at ht; exact absurd (ht ▸ List.mem_append_right _ (.head _) : Iterator.Took.raised e ∈ vs.map .value) (by simp)
  · exact h

/-- C147 is false of streams that fail: in no run the observer is told the error. -/
theorem C147_violated (hG : Delivers c.proc dom G) {ls : List (Label c)} {s : State c} (hr : LTS.run step (init c) ls = some s) (hn : NoRaise ls) (hd : dom (posted ls)) (e : Err) :
    .error e ∉ calls s.w.log := by
  intro h
  have := (C147_prefix_partial hG hr hn hd).subset h
  unfold survives at this
  cases hf : (G (story (posted ls))).fin <;> simp [hf] at this

private abbrev demo : Chain Nat Nat := EndToEnd.demo.protected
private abbrev u : Label demo := .inner (.worker (.inl ()))
private abbrev v : Label demo := .inner (.worker (.inr (.inl ())))
private abbrev w : Label demo := .inner (.worker (.inr (.inr ())))
private abbrev p (n : Notif Nat) : Label demo := .inner (.post n)

/-- `map(x + 10) | take(2)` there and back. -/
private def demoRun : List (Label demo) :=
  [.start, p (.next 1), p (.next 2), p (.next 3), p .completed, .inner .subscribed, u, u, u, u, v, v, v, v, v, w, w, .inner .resume, w, .inner .resume, w, .ret, .inner .resume, w, w, .ret, .ret]

example : (LTS.run step (init demo) demoRun).map (fun s => calls s.w.log) = some [.next 11, .next 12, .completed] := by decide
example : NoRaise demoRun ∧ survives (⟨[11, 12], .done⟩ : Story Nat) = [.next 11, .next 12, .completed] := ⟨by intro e; simp [demoRun], rfl⟩

/-- The same with a source that fails: the worker ends, the observer is told nothing. -/
private def failing : List (Label demo) := [.start, p (.next 1), p (.error (.user 7)), .inner .subscribed, u, u, u, u, v, v, v, v, w, w, .inner .resume, w, .inner .resume, w, .ret]

example : (LTS.run step (init demo) failing).map (fun s => (calls s.w.log, s.loop.it.taken, s.w.pc matches .dead)) = some ([.next 11], [.value 11, .raised (.user 7)], true) := by decide

end Aio.RoundTrip
