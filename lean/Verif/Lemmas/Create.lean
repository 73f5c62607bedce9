import Verif.Model.Create
import Verif.Lemmas.Safe
import Verif.Props.C01_05_Safe
import Verif.Spec.Sources
/-! Subscriptions to a `Producer`: reduction to the safe observer. -/

namespace Aio
open Aio.Spec
variable {S L α : Type}

namespace Safe

theorem run_append {a b : List (Label α)} : ∀ {s s' : State α},
    run s (a ++ b) = some s' ↔ ∃ s1, run s a = some s1 ∧ run s1 b = some s' := by
  induction a with
  | nil => simp [run]
  | cons l a ih =>
    intro s s'
    simp only [List.cons_append, run, Option.bind_eq_some_iff, ih]
    constructor
    · rintro ⟨s1, h1, s2, h2, h3⟩; exact ⟨s2, ⟨s1, h1, h2⟩, h3⟩
    · rintro ⟨s2, ⟨s1, h1, h2⟩, h3⟩; exact ⟨s1, h1, s2, h2, h3⟩

theorem run_posts (o : List (Notif α)) : ∀ s : State α,
    run s (o.map .post) = some { s with inbox := s.inbox ++ o } := by
  induction o with
  | nil => intro s; simp [run]
  | cons n o ih => intro s; simp [run, step, ih]

theorem posted_map (o : List (Notif α)) : posted (o.map .post) = o := by
  induction o with
  | nil => rfl
  | cons n o ih => simp [posted, ih]

/-- how much the worker still has to do -/
def weight (s : State α) : Nat :=
  4 * s.inbox.length + match s.pc with
    | .waiting => 0 | .sending _ => 3 | .rethrowing _ => 1 | .disposing _ => 3 | .terminating _ => 1
    | .halted => 0

theorem weight_receive {s s' : State α} (h : step s .receive = some s') : weight s' < weight s := by
  obtain ⟨inbox, pc, log⟩ := s
  cases pc <;> simp only [step] at h <;> try (simp at h; done)
  match inbox, h with
  | .next v :: q, h => simp at h; subst h; simp [weight]; omega
  | .error e :: q, h => simp at h; subst h; simp [weight]; omega
  | .completed :: q, h => simp at h; subst h; simp [weight]; omega

theorem weight_ret {s s' : State α} (h : step s .ret = some s') : weight s' < weight s := by
  obtain ⟨inbox, pc, log⟩ := s
  cases pc <;> simp only [step] at h <;> try (simp at h; done)
  all_goals simp at h; subst h; simp [weight]

theorem weight_raise {s s' : State α} {e : Err} (h : step s (.raise e) = some s') :
    weight s' < weight s := by
  obtain ⟨inbox, pc, log⟩ := s
  cases pc <;> simp only [step] at h <;> try (simp at h; done)
  case sending v => split at h <;> (simp at h; subst h; simp [weight])
  all_goals simp at h; subst h; simp [weight]

/-- A worker that is not drained can take a step without raising. -/
theorem not_drained {s : State α} (h : ¬ Drained s) :
    (∃ s', step s .receive = some s') ∨ ∃ s', step s .ret = some s' := by
  obtain ⟨inbox, pc, log⟩ := s
  cases pc
  case waiting =>
    left
    match inbox with
    | [] => simp [Drained] at h
    | .next v :: q => exact ⟨_, rfl⟩
    | .error e :: q => exact ⟨_, rfl⟩
    | .completed :: q => exact ⟨_, rfl⟩
  case halted => simp [Drained] at h
  all_goals exact .inr ⟨_, rfl⟩

end Safe

namespace Producer

theorem safe_run (p : Producer S L α) {ls : List (Label L)} {s : State S α}
    (hr : LTS.run p.next p.start ls = some s) :
    ∃ ls', Safe.run Safe.init ls' = some s.safe ∧ Safe.posted ls' = s.posts ∧
      (NoRaise ls → Safe.NoRaise ls') := by
  refine LTS.inv_hist (fun ls s => ∃ ls', Safe.run Safe.init ls' = some s.safe ∧
    Safe.posted ls' = s.posts ∧ (NoRaise ls → Safe.NoRaise ls')) ?_ ?_ hr
  · exact ⟨[], rfl, rfl, fun _ => by simp [Safe.NoRaise]⟩
  · rintro ls s l s' ⟨ls', h1, h2, h3⟩ hs
    have hsub : ∀ {l}, NoRaise (ls ++ [l]) → NoRaise ls := fun h e he => h e (by simp [he])
    cases l with
    | own l =>
      simp only [next] at hs
      split at hs
      · simp at hs
      · rename_i t o _
        simp at hs; subst hs
        refine ⟨ls' ++ o.map .post, ?_, ?_, ?_⟩
        · rw [Safe.run_append]; exact ⟨_, h1, Safe.run_posts o _⟩
        · rw [Safe.posted_append, Safe.posted_map, h2]
        · intro hn e he
          have := h3 (hsub hn) e
          simp [this] at he
    | dispose =>
      simp only [next] at hs
      simp at hs; subst hs
      exact ⟨ls', h1, h2, fun hn => h3 (hsub hn)⟩
    | receive =>
      simp only [next] at hs
      split at hs
      · simp at hs
      · rename_i t ht
        simp at hs; subst hs
        refine ⟨ls' ++ [.receive], ?_, ?_, ?_⟩
        · rw [Safe.run_append]; exact ⟨_, h1, by simp [Safe.run, ht]⟩
        · rw [Safe.posted_append]; simp [Safe.posted, h2]
        · intro hn e he; have := h3 (hsub hn) e; simp [this] at he
    | ret =>
      simp only [next, Option.map_eq_some_iff] at hs
      obtain ⟨t, ht, rfl⟩ := hs
      refine ⟨ls' ++ [.ret], ?_, ?_, ?_⟩
      · rw [Safe.run_append]; exact ⟨_, h1, by simp [Safe.run, ht]⟩
      · rw [Safe.posted_append]; simp [Safe.posted, h2]
      · intro hn e he; have := h3 (hsub hn) e; simp [this] at he
    | raise e =>
      simp only [next, Option.map_eq_some_iff] at hs
      obtain ⟨t, ht, rfl⟩ := hs
      refine ⟨ls' ++ [.raise e], ?_, ?_, ?_⟩
      · rw [Safe.run_append]; exact ⟨_, h1, by simp [Safe.run, ht]⟩
      · rw [Safe.posted_append]; simp [Safe.posted, h2]
      · intro hn; exact absurd (by simp) (hn e)

theorem received_grammar (p : Producer S L α) {ls : List (Label L)} {s : State S α}
    (hr : LTS.run p.next p.start ls = some s) : Grammar s.received := by
  obtain ⟨ls', h1, -, -⟩ := p.safe_run hr
  exact Safe.C01_grammar ls' s.safe h1

theorem received_cut (p : Producer S L α) {ls : List (Label L)} {s : State S α}
    (hr : LTS.run p.next p.start ls = some s) (hn : NoRaise ls) :
    s.received <+: cut s.posts ∧ (Safe.Drained s.safe → s.received = cut s.posts) := by
  obtain ⟨ls', h1, h2, h3⟩ := p.safe_run hr
  have := Safe.C03_fifo ls' s.safe h1 (h3 hn)
  rwa [h2] at this

/-- invariants of the producer's own state and its posts -/
theorem src_inv (p : Producer S L α) (I : S → List (Notif α) → Prop) (h0 : I p.init [])
    (hs : ∀ s ps l s' o, I s ps → p.step s l = some (s', o) → I s' (ps ++ o))
    (hd : ∀ s ps, I s ps → I (p.dispose s) ps) {ls : List (Label L)} {s : State S α}
    (hr : LTS.run p.next p.start ls = some s) : I s.src s.posts := by
  refine LTS.inv (fun s => I s.src s.posts) h0 ?_ hr
  intro s l s' hi h
  cases l with
  | own l =>
    simp only [next] at h
    split at h
    · simp at h
    · rename_i t o ht
      simp at h; subst h
      exact hs _ _ _ _ _ hi ht
  | dispose => simp only [next] at h; simp at h; subst h; exact hd _ _ hi
  | receive =>
    simp only [next] at h
    split at h
    · simp at h
    · rename_i t ht
      simp at h; subst h
      simp only
      split
      · exact hd _ _ hi
      · exact hi
  | ret => simp only [next, Option.map_eq_some_iff] at h; obtain ⟨t, ht, rfl⟩ := h; exact hi
  | raise e => simp only [next, Option.map_eq_some_iff] at h; obtain ⟨t, ht, rfl⟩ := h; exact hi

end Producer
end Aio

namespace Aio.Producer
open Aio.Spec
variable {S L α : Type}

/-- a producer that cannot run forever -/
structure Measured (p : Producer S L α) (μ : S → Nat) : Prop where
  step : ∀ s l s' o, p.step s l = some (s', o) → μ s' < μ s
  dispose : ∀ s, μ (p.dispose s) ≤ μ s

variable {p : Producer S L α} {μ : S → Nat}

theorem Measured.ends (h : Measured p μ) (s : State S α) :
    Acc (fun s' s => ∃ l, Internal l ∧ p.next s l = some s') s := by
  have wf : WellFounded (Prod.Lex (fun a b : Nat => a < b) (fun a b : Nat => a < b)) :=
    (Prod.lex ⟨_, Nat.lt_wfRel.wf⟩ ⟨_, Nat.lt_wfRel.wf⟩).wf
  refine Subrelation.accessible ?_
    ((InvImage.wf (fun s : State S α => (μ s.src, Safe.weight s.safe)) wf).apply s)
  rintro s' s ⟨l, hl, hs⟩
  simp only [InvImage]
  cases l with
  | own l =>
    simp only [next] at hs
    split at hs
    · simp at hs
    · rename_i t o ht
      simp at hs; subst hs
      exact Prod.Lex.left _ _ (h.step _ _ _ _ ht)
  | dispose => exact absurd hl id
  | receive =>
    simp only [next] at hs
    split at hs
    · simp at hs
    · rename_i t ht
      simp at hs; subst hs
      have hw := Safe.weight_receive ht
      simp only
      split
      · rcases Nat.lt_or_ge (μ (p.dispose s.src)) (μ s.src) with h1 | h1
        · exact Prod.Lex.left _ _ h1
        · rw [Nat.le_antisymm (h.dispose s.src) h1]; exact Prod.Lex.right _ hw
      · exact Prod.Lex.right _ hw
  | ret =>
    simp only [next, Option.map_eq_some_iff] at hs; obtain ⟨t, ht, rfl⟩ := hs
    exact Prod.Lex.right _ (Safe.weight_ret ht)
  | raise e =>
    simp only [next, Option.map_eq_some_iff] at hs; obtain ⟨t, ht, rfl⟩ := hs
    exact Prod.Lex.right _ (Safe.weight_raise ht)

theorem Measured.finishes (h : Measured p μ) (s : State S α) :
    ∃ ls' s', (∀ l ∈ ls', Internal l) ∧ NoRaise ls' ∧ LTS.run p.next s ls' = some s' ∧ p.Idle s' := by
  have key : ∀ s, Acc (fun s' s => ∃ l, Internal l ∧ p.next s l = some s') s →
      ∃ ls' s', (∀ l ∈ ls', Internal l) ∧ NoRaise ls' ∧ LTS.run p.next s ls' = some s' ∧
        p.Idle s' := by
    intro s hs
    induction hs with
    | intro s _ ih =>
      have go : ∀ l s1, Internal l → (∀ e, l ≠ .raise e) → p.next s l = some s1 →
          ∃ ls' s', (∀ l ∈ ls', Internal l) ∧ NoRaise ls' ∧ LTS.run p.next s ls' = some s' ∧
            p.Idle s' := by
        intro l s1 hl hr h1
        obtain ⟨ls', s', a, b, c, d⟩ := ih s1 ⟨l, hl, h1⟩
        refine ⟨l :: ls', s', ?_, ?_, ?_, d⟩
        · intro l' hl'
          rcases List.mem_cons.mp hl' with rfl | hl'
          · exact hl
          · exact a l' hl'
        · intro e he
          rcases List.mem_cons.mp he with he | he
          · exact hr e he.symm
          · exact b e he
        · exact LTS.run_cons.mpr ⟨s1, h1, c⟩
      by_cases h1 : ∃ l r, p.step s.src l = some r
      · obtain ⟨l, r, hl⟩ := h1
        exact go (.own l) _ trivial (by simp) (by simp only [next, hl]; rfl)
      · have h1' : ∀ l, p.step s.src l = none := by
          intro l
          cases hl : p.step s.src l with
          | none => rfl
          | some r => exact absurd ⟨l, r, hl⟩ h1
        by_cases h2 : Safe.Drained s.safe
        · exact ⟨[], s, by simp, by simp [NoRaise], rfl, h1', h2⟩
        · rcases Safe.not_drained h2 with ⟨t, ht⟩ | ⟨t, ht⟩
          · exact go .receive _ trivial (by simp) (by simp only [next, ht]; rfl)
          · exact go .ret _ trivial (by simp) (by simp only [next, ht, Option.map_some]; rfl)
  exact key s (h.ends s)

theorem delivers_of {ok : List (Label L) → Prop} {out : List (Notif α)} (h : Measured p μ)
    (ho : ∀ ls s, LTS.run p.next p.start ls = some s → ok ls → cut s.posts <+: out ∧
      ((∀ l, p.step s.src l = none) → cut s.posts = out)) : p.Delivers ok out where
  prefix_ ls s hr hn hk := (p.received_cut hr hn).1.trans (ho ls s hr hk).1
  all ls s hr hn hk hi := ((p.received_cut hr hn).2 hi.2).trans ((ho ls s hr hk).2 hi.1)
  finishes _ s _ := h.finishes s
  ends := h.ends

/-! ### producers on which disposal has no effect: the run of the producer alone -/

/-- The producer without the safe observer; the posts are recorded. -/
def solo (p : Producer S L α) (s : S × List (Notif α)) (l : L) : Option (S × List (Notif α)) :=
  (p.step s.1 l).map fun r => (r.1, s.2 ++ r.2)

/-- The producer's own labels of a schedule. -/
def owns (ls : List (Label L)) : List L := ls.filterMap fun | .own l => some l | _ => none

theorem solo_run (p : Producer S L α) (hd : ∀ s, p.dispose s = s) {ls : List (Label L)}
    {s : State S α} (hr : LTS.run p.next p.start ls = some s) :
    LTS.run p.solo (p.init, []) (owns ls) = some (s.src, s.posts) := by
  refine LTS.inv_hist (fun ls s => LTS.run p.solo (p.init, []) (owns ls) = some (s.src, s.posts))
    rfl ?_ hr
  intro ls s l s' hi h
  have key : ∀ l : Label L, owns [l] = [] → s'.src = s.src → s'.posts = s.posts →
      LTS.run p.solo (p.init, []) (owns (ls ++ [l])) = some (s'.src, s'.posts) := by
    intro l h0 h1 h2
    have : owns (ls ++ [l]) = owns ls ++ owns [l] := List.filterMap_append ..
    rw [this, h0, List.append_nil, hi, h1, h2]
  cases l with
  | own l =>
    simp only [next] at h
    cases hst : p.step s.src l with
    | none => simp [hst] at h
    | some r =>
      obtain ⟨t, o⟩ := r
      simp only [hst, Option.some.injEq] at h
      subst h
      have : owns (ls ++ [.own l]) = owns ls ++ [l] := List.filterMap_append ..
      rw [this, LTS.run_append]
      exact ⟨_, hi, by simp [LTS.run, solo, hst]⟩
  | dispose => simp only [next, Option.some.injEq] at h; subst h; exact key _ rfl (hd _) rfl
  | receive =>
    simp only [next] at h
    cases hst : Safe.step s.safe .receive with
    | none => simp [hst] at h
    | some t =>
      simp only [hst, Option.some.injEq] at h
      subst h
      refine key _ rfl ?_ rfl
      dsimp only
      split
      · exact hd _
      · rfl
  | ret =>
    simp only [next, Option.map_eq_some_iff] at h
    obtain ⟨t, -, rfl⟩ := h
    exact key _ rfl rfl rfl
  | raise e =>
    simp only [next, Option.map_eq_some_iff] at h
    obtain ⟨t, -, rfl⟩ := h
    exact key _ rfl rfl rfl

end Aio.Producer
