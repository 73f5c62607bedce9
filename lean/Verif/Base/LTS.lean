/-!
# Labelled transition systems

`step s l = none` means that the atomic segment `l` cannot happen in state `s`. A schedule is a list
of labels; the theorems quantify over all of them.
-/

namespace Aio.LTS
variable {S L : Type}

/-- Run a schedule; `none` if some step is not possible. -/
def run (step : S → L → Option S) : S → List L → Option S
  | s, [] => some s
  | s, l :: ls => (step s l).bind fun s' => run step s' ls

theorem run_cons {step : S → L → Option S} {s s' : S} {l : L} {ls : List L} :
    run step s (l :: ls) = some s' ↔ ∃ s1, step s l = some s1 ∧ run step s1 ls = some s' := by
  simp [run, Option.bind_eq_some_iff]

theorem run_append {step : S → L → Option S} {a b : List L} : ∀ {s s' : S},
    run step s (a ++ b) = some s' ↔ ∃ s1, run step s a = some s1 ∧ run step s1 b = some s' := by
  induction a with
  | nil => simp [run]
  | cons l a ih =>
    intro s s'
    simp only [List.cons_append, run_cons, ih]
    constructor
    · rintro ⟨s1, h1, s2, h2, h3⟩; exact ⟨s2, ⟨s1, h1, h2⟩, h3⟩
    · rintro ⟨s2, ⟨s1, h1, h2⟩, h3⟩; exact ⟨s1, h1, s2, h2, h3⟩

/-- Invariants that also talk about the labels so far. -/
theorem inv_from {step : S → L → Option S} (I : List L → S → Prop)
    (hs : ∀ ls s l s', I ls s → step s l = some s' → I (ls ++ [l]) s') :
    ∀ {ls pre : List L} {s s' : S}, I pre s → run step s ls = some s' → I (pre ++ ls) s' := by
  intro ls
  induction ls with
  | nil => intro pre s s' h hr; simp [run] at hr; subst hr; simpa using h
  | cons l ls ih =>
    intro pre s s' h hr
    obtain ⟨s1, h1, h2⟩ := run_cons.mp hr
    simpa using ih (hs _ _ _ _ h h1) h2

theorem inv_hist {step : S → L → Option S} (I : List L → S → Prop) {s0 : S} (h0 : I [] s0)
    (hs : ∀ ls s l s', I ls s → step s l = some s' → I (ls ++ [l]) s') {ls : List L} {s : S}
    (hr : run step s0 ls = some s) : I ls s := by
  simpa using inv_from I hs h0 hr

/-- The same, with reachability as an additional hypothesis. -/
theorem inv_reach {step : S → L → Option S} (I : List L → S → Prop) {s0 : S} (h0 : I [] s0)
    (hs : ∀ ls s l s', run step s0 ls = some s → I ls s → step s l = some s' → I (ls ++ [l]) s')
    {ls : List L} {s : S} (hr : run step s0 ls = some s) : I ls s := by
  refine (inv_hist (fun ls s => run step s0 ls = some s ∧ I ls s) ⟨rfl, h0⟩ ?_ hr).2
  rintro ls s l s' ⟨h1, h2⟩ h3
  exact ⟨run_append.mpr ⟨s, h1, run_cons.mpr ⟨s', h3, rfl⟩⟩, hs ls s l s' h1 h2 h3⟩

theorem inv {step : S → L → Option S} (I : S → Prop) {s0 : S} (h0 : I s0)
    (hs : ∀ s l s', I s → step s l = some s' → I s') {ls : List L} {s : S}
    (hr : run step s0 ls = some s) : I s :=
  inv_hist (fun _ => I) h0 (fun _ s l s' => hs s l s') hr

/-- Invariants under a restriction on the labels. -/
theorem inv_of {step : S → L → Option S} (P : L → Prop) (I : S → Prop) {s0 : S} (h0 : I s0)
    (hs : ∀ s l s', P l → I s → step s l = some s' → I s') :
    ∀ {ls : List L} {s : S}, (∀ l ∈ ls, P l) → run step s0 ls = some s → I s := by
  intro ls
  induction ls generalizing s0 with
  | nil => intro s _ hr; simp [run] at hr; subst hr; exact h0
  | cons l ls ih =>
    intro s hP hr
    obtain ⟨s1, h1, h2⟩ := run_cons.mp hr
    exact ih (hs _ _ _ (hP _ (by simp)) h0 h1) (fun l hl => hP l (by simp [hl])) h2

end Aio.LTS
