import Verif.Lemmas.Hub
import Verif.Props.C07_Pipelines
/-!
# C62, C67: subscriptions of an operator chain to an `AsyncSubject`
-/

namespace Aio.Hub
variable {α β γ : Type} {c : Chain α γ} {guard : Bool}

/-! ## examples: two subscriptions to `skip(1) | map(+10) | distinct_until_changed | take(2)` -/

/-- Subscription 7 sees all values, 8 is subscribed later; 7 is disposed, then more is sent. -/
def demo : List (Label demoPipe) :=
  [.subscribe 7, .call (.next 1), .ret 0, .subscribe 8, .call (.next 2), .ret 1, .ret 1, .inner 7 w1, .call (.next 3), .ret 2, .ret 2,
   .inner 7 w1, .inner 8 w1, .unsubscribe 7, .call (.next 4), .ret 3,
   .inner 8 w1, .inner 7 w2, .inner 8 w2, .inner 8 w2, .inner 7 w2, .inner 7 w3, .inner 8 w3, .inner 8 w3, .inner 7 w3,
   .inner 7 w4, .inner 8 w4, .inner 8 w4, .inner 8 w4, .inner 7 w4, .inner 7 w4]

-- 7 gets what was sent before its disposal (12, 13, and the completion by `take`), 8 starts with its own `skip`
example : (LTS.run (step true) (init demoPipe) demo).map (fun s => (s.outs 7, s.outs 8)) =
    some ([.next 12, .next 13, .completed], [.next 13, .next 14, .completed]) := by decide
example : Spec.heard 7 demo = [.next 1, .next 2, .next 3] ∧ Spec.heard 8 demo = [.next 2, .next 3, .next 4] := by decide
example : (LTS.run (step true) (init demoPipe) demo).map (fun s => s.sub.calls) = some [.returned, .returned, .returned, .returned] := by
  decide
example : ∀ k e, Label.raise (c := demoPipe) k e ∉ demo := by simp [demo]


/-- A check for `Sequential`, for the example. -/
private def seqOk (guard : Bool) (ls : List (Label c)) : Bool :=
  (List.range ls.length).all fun i => match ls[i]? with
    | some (.call _) => match LTS.run (step guard) (init c) (ls.take i) with
      | some s => s.sub.calls.all fun | .running .. => false | _ => true
      | none => true
    | _ => true

private theorem seqOk_sound {ls : List (Label c)} (h : seqOk guard ls = true) : Spec.Sequential guard ls := by
  intro a n b s hl hr x hx n' o' rest hxr
  have := List.all_eq_true.mp h a.length (by simp [hl])
  simp only [hl, List.getElem?_append_right (Nat.le_refl _), Nat.sub_self, List.getElem?_cons_zero, List.take_left, hr] at this
  have := List.all_eq_true.mp this x hx
  simp [hxr] at this

example : Spec.Sequential true demo := seqOk_sound (by decide)

/-! ## C62 -/

private theorem indices {l : List (Nat × Nat × Notif α)} {q : List (Notif α)} (h : ∀ x ∈ l, q[x.1]? = some x.2.2) :
    (l.map (·.1)).filterMap (fun k => q[k]?) = l.map (·.2.2) := by
  induction l with
  | nil => rfl
  | cons x l ih =>
    rw [List.map_cons, List.filterMap_cons, h x (List.mem_cons_self ..), ih fun y hy => h y (List.mem_cons_of_mem _ hy)]
    rfl

private theorem heard_grammar (o : Nat) (ls : List (Label c)) : Spec.Grammar (Spec.heard o ls) := by
  suffices h : ∀ (ls : List (Label c)) (e : Spec.Ear α), (∃ vs : List α, ∃ fin : Spec.End, e.heard = (⟨vs, fin⟩ : Spec.Story α).events ∧
      (e.over = false → fin = .running)) → Spec.Grammar (ls.foldl (Spec.Ear.next o) e).heard from
    h ls _ ⟨[], .running, rfl, fun _ => rfl⟩
  intro ls
  induction ls with
  | nil => rintro e ⟨vs, fin, h, -⟩; exact ⟨⟨vs, fin⟩, h⟩
  | cons l ls ih =>
    rintro e ⟨vs, fin, h, h'⟩
    rw [List.foldl_cons]
    apply ih
    cases l with
    | call n =>
      simp only [Spec.Ear.next]
      cases hov : e.over with
      | true => exact ⟨vs, fin, h, by simp [hov]⟩
      | false =>
        have := h' hov; subst this
        cases hl : e.listening with
        | false => exact ⟨vs, .running, by simpa [hl] using h, fun _ => rfl⟩
        | true =>
          cases n with
          | next v => exact ⟨vs ++ [v], .running, by simp [h, Spec.Story.events, Spec.End.events], fun _ => rfl⟩
          | error x => exact ⟨vs, .failed x, by simp [h, Spec.Story.events, Spec.End.events], nofun⟩
          | completed => exact ⟨vs, .done, by simp [h, Spec.Story.events, Spec.End.events], nofun⟩
    | subscribe o' => simp only [Spec.Ear.next]; split <;> exact ⟨vs, fin, h, h'⟩
    | unsubscribe o' => simp only [Spec.Ear.next]; split <;> exact ⟨vs, fin, h, h'⟩
    | dispose => exact ⟨vs, fin, h, nofun⟩
    | ret k => exact ⟨vs, fin, h, h'⟩
    | raise k x => exact ⟨vs, fin, h, h'⟩
    | inner o' x => exact ⟨vs, fin, h, h'⟩

/-- C62. For every chain there is a function of streams `f` such that under all schedules, with any number of other
subscriptions, overlapping calls and raising observers: what the final observer of subscription `o` ever gets is an
initial part of `f` of notifications that were sent by calls made before `dispose_async` of the subscription was
called. Calls made later have no effect. -/
theorem C62_nothing_new (c : Chain α γ) : ∃ f : List (Notif α) → List (Notif γ), c.proc.Implements f ∧
    ∀ (guard : Bool) (a b : List (Label c)) (o : Nat) (s : State c),
      LTS.run (step guard) (init c) (a ++ .unsubscribe o :: b) = some s →
      ∃ ks : List Nat, (∀ k ∈ ks, k < (Spec.sent a).length) ∧ s.outs o <+: f (ks.filterMap fun k => (Spec.sent a)[k]?) := by
  obtain ⟨f, hf, -⟩ := c.implements
  refine ⟨f, hf, ?_⟩
  intro guard a b o s hr
  obtain ⟨s1, h1, h2⟩ := LTS.run_append.mp hr
  obtain ⟨s2, h3, h4⟩ := LTS.run_cons.mp h2
  have S1 := sent_run h1
  have hb1 := unsubscribed (base_run h1) h3
  have G0 : Gone o (Spec.sent a).length s2 := by
    have S2 := sent_step S1 h3
    have hl : Spec.sent (a ++ [Label.unsubscribe o]) = Spec.sent a := by rw [sent_snoc]; simp
    refine ⟨hb1.1, hb1.2, by rw [S2.length, hl]; exact Nat.le_refl _, ?_, ?_⟩
    · intro k n p rest hk hm
      have := (List.getElem?_eq_some_iff.mp (S2.running k n p rest hk)).1
      rw [hl] at this; omega
    · intro x hx _
      have := (List.getElem?_eq_some_iff.mp (S2.log x hx)).1
      rw [hl] at this; exact this
  have G : Gone o (Spec.sent a).length s := LTS.inv (Gone o (Spec.sent a).length) G0 (fun _ _ _ => gone_step) h4
  have S := sent_run hr
  obtain ⟨es, e1, e2⟩ := own_run hr o
  refine ⟨(s.sub.log.filter (·.2.1 == o)).map (·.1), ?_, ?_⟩
  · intro k hk
    obtain ⟨x, hx, rfl⟩ := List.mem_map.mp hk
    obtain ⟨hx1, hx2⟩ := List.mem_filter.mp hx
    exact G.log x hx1 (by simpa using hx2)
  · have := (hf es _ _ e1).1
    rw [e2] at this
    have key : ((s.sub.log.filter (·.2.1 == o)).map (·.1)).filterMap (fun k => (Spec.sent a)[k]?) = logOf o s.sub := by
      rw [logOf]
      refine indices ?_
      intro x hx
      obtain ⟨hx1, hx2⟩ := List.mem_filter.mp hx
      have hlt := G.log x hx1 (by simpa using hx2)
      have hs := S.log x hx1
      have hpre : (Spec.sent (a ++ Label.unsubscribe o :: b)) = Spec.sent a ++ Spec.sent (Label.unsubscribe o :: b) := by
        simp [Spec.sent, List.filterMap_append]
      rw [hpre, List.getElem?_append_left hlt] at hs
      exact hs
    rw [key]; exact this

/-- C62, with calls that do not overlap: under all schedules the final observer of a disposed subscription gets an
initial part of what the chain makes of the notifications sent while it was subscribed, and when the workers have
nothing left to do, all of it. -/
theorem C62_exactly (op : Operator α γ) (G : Spec.Story α → Spec.Story γ) (hG : op.Computes G)
    {a b : List (Label op.direct)} {o : Nat} {s : State op.direct}
    (hr : LTS.run (step guard) (init op.direct) (a ++ .unsubscribe o :: b) = some s)
    (hq : Spec.Sequential guard (a ++ .unsubscribe o :: b)) (hn : ∀ k e, Label.raise k e ∉ a ++ .unsubscribe o :: b)
    (hi : ∀ x ∈ s.sub.calls, ∀ n p rest, x ≠ .running n p rest) :
    s.outs o <+: (G (Spec.story (Spec.heard o (a ++ .unsubscribe o :: b)))).events ∧
    (op.direct.proc.Quiescent (s.ps o) → s.outs o = (G (Spec.story (Spec.heard o (a ++ .unsubscribe o :: b)))).events) := by
  obtain ⟨es, e1, e2⟩ := own_run hr o
  have hd := heard_grammar o (a ++ .unsubscribe o :: b)
  have H := (hears_run o hr hq hn).heard
  have hh : Spec.heard o (a ++ .unsubscribe o :: b) = logOf o s.sub := by
    rcases H with ⟨-, h⟩ | ⟨k, n, p, rest, hb, -⟩
    · exact h
    · exact absurd rfl (hi _ (List.mem_of_getElem? hb.it) _ _ _)
  rw [hh] at hd ⊢
  rw [← e2] at hd ⊢
  exact ⟨hG.direct.prefix_ es _ _ e1 hd, hG.direct.all es _ _ e1 hd⟩

/-! ## C67 -/

/-- C67. Whatever the other subscriptions do (and the subject's callers, with overlapping calls, raising observers,
...): the operators of subscription `o` do a run of the chain of their own, from its initial state, on the
notifications that the subject has passed to `o`. -/
theorem C67_own_run {ls : List (Label c)} {s : State c} (hr : LTS.run (step guard) (init c) ls = some s) (o : Nat) :
    ∃ es, c.proc.exec c.proc.init es = some (s.ps o, s.outs o) ∧
      Proc.inputs es = s.sub.log.filterMap fun x => if x.2.1 = o then some x.2.2 else none := by
  obtain ⟨es, e1, e2⟩ := own_run hr o
  refine ⟨es, e1, ?_⟩
  rw [e2, logOf]
  generalize s.sub.log = l
  induction l with
  | nil => rfl
  | cons x l ih =>
    by_cases hx : x.2.1 = o
    · simp [hx, ih]
    · simp [hx, ih]

/-- C67. A subscription hears the notifications that were sent while it was subscribed, whatever the other
subscriptions are (calls that do not overlap, observers that do not raise). -/
theorem C67_hears {ls : List (Label c)} {s : State c} (hr : LTS.run (step guard) (init c) ls = some s)
    (hq : Spec.Sequential guard ls) (hn : ∀ k e, Label.raise k e ∉ ls) (hi : ∀ x ∈ s.sub.calls, ∀ n p rest, x ≠ .running n p rest)
    (o : Nat) : s.sub.log.filterMap (fun x => if x.2.1 = o then some x.2.2 else none) = Spec.heard o ls := by
  have H := (hears_run o hr hq hn).heard
  have hh : Spec.heard o ls = logOf o s.sub := by
    rcases H with ⟨-, h⟩ | ⟨k, n, p, rest, hb, -⟩
    · exact h
    · exact absurd rfl (hi _ (List.mem_of_getElem? hb.it) _ _ _)
  rw [hh, logOf]
  generalize s.sub.log = l
  induction l with
  | nil => rfl
  | cons x l ih =>
    by_cases hx : x.2.1 = o
    · simp [hx, ih]
    · simp [hx, ih]

/-- C67. Each subscription behaves as if the others did not exist: two histories with the same calls of the subject and
the same subscribing and disposing of `o`, but otherwise arbitrary other subscriptions, disposals and schedules,
lead to the same calls of the final observer of `o` once the workers have nothing left to do. -/
theorem C67_as_if_alone {ls ls' : List (Label c)} {s s' : State c} {o : Nat}
    (hr : LTS.run (step guard) (init c) ls = some s) (hr' : LTS.run (step guard) (init c) ls' = some s')
    (hq : Spec.Sequential guard ls) (hq' : Spec.Sequential guard ls')
    (hn : ∀ k e, Label.raise k e ∉ ls) (hn' : ∀ k e, Label.raise k e ∉ ls')
    (hi : ∀ x ∈ s.sub.calls, ∀ n p rest, x ≠ .running n p rest) (hi' : ∀ x ∈ s'.sub.calls, ∀ n p rest, x ≠ .running n p rest)
    (hs : ls.filter (Spec.concerns o) = ls'.filter (Spec.concerns o))
    (hf : c.proc.Quiescent (s.ps o)) (hf' : c.proc.Quiescent (s'.ps o)) : s.outs o = s'.outs o := by
  obtain ⟨f, h, -⟩ := c.implements
  have one : ∀ {ls : List (Label c)} {s : State c}, LTS.run (step guard) (init c) ls = some s → Spec.Sequential guard ls →
      (∀ k e, Label.raise k e ∉ ls) → (∀ x ∈ s.sub.calls, ∀ n p rest, x ≠ .running n p rest) → c.proc.Quiescent (s.ps o) →
      s.outs o = f (Spec.heard o (ls.filter (Spec.concerns o))) := by
    intro ls s hr hq hn hi hf
    obtain ⟨es, e1, e2⟩ := C67_own_run hr o
    rw [C67_hears hr hq hn hi o] at e2
    rw [(h es _ _ e1).2 hf, e2, Spec.heard, Spec.heard, ear_concerns]
  rw [one hr hq hn hi hf, one hr' hq' hn' hi' hf', hs]

/-- The example again, without subscription 7: the same for 8. -/
def alone : List (Label demoPipe) :=
  [.call (.next 1), .subscribe 8, .call (.next 2), .ret 1, .call (.next 3), .ret 2, .call (.next 4), .ret 3,
   .inner 8 w1, .inner 8 w1, .inner 8 w2, .inner 8 w2, .inner 8 w3, .inner 8 w3, .inner 8 w4, .inner 8 w4, .inner 8 w4]

example : (LTS.run (step true) (init demoPipe) alone).map (fun s => s.outs 8) = some [.next 13, .next 14, .completed] := by decide

end Aio.Hub
