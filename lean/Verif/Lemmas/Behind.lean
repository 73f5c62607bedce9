import Verif.Model.Behind
import Verif.Lemmas.Create
import Verif.Lemmas.Proc
import Verif.Lemmas.Stream
import Verif.Spec.Merge
/-!
# Runs of a composition, split into a run of the front and a run of the back
-/

namespace Aio
open Spec
variable {FS FL S β ω α : Type}

theorem Feeder.exec_cons {f : Feeder FS FL ω} {s : FS} {l : FL} {ls : List FL} {r : FS × List (Notif ω)} :
    f.exec s (l :: ls) = some r ↔ ∃ t o u o', f.step s l = some (t, o) ∧ f.exec t ls = some (u, o') ∧ r = (u, o ++ o') := by
  simp only [Feeder.exec]
  constructor
  · intro h
    split at h
    · cases h
    · next t o h1 =>
      split at h
      · cases h
      · next u o' h2 => cases h; exact ⟨t, o, u, o', h1, h2, rfl⟩
  · rintro ⟨t, o, u, o', h1, h2, rfl⟩
    rw [h1]; dsimp only; rw [h2]

theorem Feeder.exec_append {f : Feeder FS FL ω} {a b : List FL} : ∀ {s s1 s2 : FS} {o o' : List (Notif ω)},
    f.exec s a = some (s1, o) → f.exec s1 b = some (s2, o') → f.exec s (a ++ b) = some (s2, o ++ o') := by
  induction a with
  | nil => intro s s1 s2 o o' h1 h2; cases h1; simpa using h2
  | cons l a ih =>
    intro s s1 s2 o o' h1 h2
    obtain ⟨t, p, u, p', h3, h4, h5⟩ := Feeder.exec_cons.mp h1
    cases h5
    rw [List.cons_append]
    exact Feeder.exec_cons.mpr ⟨t, p, s2, p' ++ o', h3, ih h4 h2, by simp⟩

theorem Feeder.exec_one {f : Feeder FS FL ω} {s t : FS} {l : FL} {o : List (Notif ω)} (h : f.step s l = some (t, o)) :
    f.exec s [l] = some (t, o) := Feeder.exec_cons.mpr ⟨t, o, t, [], h, rfl, by simp⟩

/-- The front made of a pipeline runs like the pipeline. -/
theorem Proc.feeder_exec {St Lab : Type} (p : Proc St Lab (Notif β) (Notif ω)) {es : List (Proc.Ev (Notif β) Lab)} :
    ∀ {s t : St} {out : List (Notif ω)}, p.feeder.exec s es = some (t, out) → p.exec s es = some (t, out) := by
  induction es with
  | nil => intro s t out h; exact h
  | cons e es ih =>
    intro s t out h
    obtain ⟨u, o, v, o', h1, h2, h3⟩ := Feeder.exec_cons.mp h
    cases h3
    exact Proc.exec_append p (es := [e]) h1 (ih h2)

theorem Producer.received_step {L : Type} (p : Producer S L ω) {s t : Producer.State S ω} {l : Producer.Label L}
    (h : p.next s l = some t) : s.received <+: t.received := by
  have hs : ∀ (a b : Safe.State ω) (k : Safe.Label ω), Safe.step a k = some b → Safe.calls a.log <+: Safe.calls b.log := by
    intro a b k hk
    have happ : ∀ (x y : List (Safe.Event ω)), Safe.calls x <+: Safe.calls (x ++ y) :=
      fun x y => ⟨_, (Safe.calls_append x y).symm⟩
    cases k with
    | post n => cases hk; exact List.prefix_refl _
    | receive =>
      simp only [Safe.step] at hk
      split at hk
      · cases hk; exact happ _ _
      · cases hk; exact happ _ _
      · cases hk
    | ret =>
      simp only [Safe.step] at hk
      split at hk
      all_goals first | (cases hk; done) | (cases hk; exact happ _ _)
    | raise e =>
      simp only [Safe.step] at hk
      split at hk
      · split at hk
        · cases hk; exact happ _ _
        · cases hk; exact happ _ _
      all_goals first | (cases hk; done) | (cases hk; exact happ _ _)
  cases l with
  | own l =>
    simp only [Producer.next] at h
    split at h
    · cases h
    · cases h; exact List.prefix_refl _
  | dispose => cases h; exact List.prefix_refl _
  | receive =>
    simp only [Producer.next] at h
    split at h
    · cases h
    · next u hu => cases h; exact hs _ _ _ hu
  | ret =>
    simp only [Producer.next] at h
    obtain ⟨u, hu, rfl⟩ := Option.map_eq_some_iff.mp h
    exact hs _ _ _ hu
  | raise e =>
    simp only [Producer.next] at h
    obtain ⟨u, hu, rfl⟩ := Option.map_eq_some_iff.mp h
    exact hs _ _ _ hu

/-- The front made of a source runs like the source, and calls what the source's observer received. -/
theorem Producer.feeder_exec {L : Type} (p : Producer S L ω) {ls : List (Producer.Label L)} :
    ∀ {s t : Producer.State S ω} {out : List (Notif ω)}, p.feeder.exec s ls = some (t, out) →
      LTS.run p.next s ls = some t ∧ t.received = s.received ++ out := by
  induction ls with
  | nil => intro s t out h; cases h; simp [LTS.run]
  | cons l ls ih =>
    intro s t out h
    obtain ⟨u, o, v, o', h1, h2, h3⟩ := Feeder.exec_cons.mp h
    cases h3
    obtain ⟨u', h4, h5⟩ := Option.map_eq_some_iff.mp h1
    cases h5
    obtain ⟨h6, h7⟩ := ih h2
    refine ⟨LTS.run_cons.mpr ⟨_, h4, h6⟩, ?_⟩
    obtain ⟨d, hd⟩ := p.received_step h4
    rw [h7, ← hd]; simp

namespace Behind
open Merge (outerCalls innerCalls arrivals NoFailure)

def isOuter : Producer.Label (Merge.Label ω α) → Bool
  | .own (.outer _) => true
  | _ => false

theorem outers_calls (out : List (Notif ω)) :
    outerCalls (Producer.owns (out.map fun n => Producer.Label.own (Merge.Label.outer (α := α) n))) = out := by
  induction out with
  | nil => rfl
  | cons n out ih => simpa [Producer.owns, outerCalls] using ih

theorem outers_filter (out : List (Notif ω)) :
    (out.map fun n => Producer.Label.own (Merge.Label.outer (α := α) n)).filter (fun l => !isOuter l) = [] := by
  induction out with
  | nil => rfl
  | cons n out ih => simpa [isOuter] using ih

theorem outerCalls_append (a b : List (Merge.Label ω α)) : outerCalls (a ++ b) = outerCalls a ++ outerCalls b :=
  List.filterMap_append ..

theorem owns_append' {L : Type} (a b : List (Producer.Label L)) : Producer.owns (a ++ b) = Producer.owns a ++ Producer.owns b :=
  List.filterMap_append ..

/-- A run of the composition is a run of the front together with a run of the back in which the outer calls are those
that the front made, and everything else is as in the composition. -/
theorem split {f : Feeder FS FL ω} {q : Producer S (Merge.Label ω α) α} {ls : List (Label FL ω α)} {s : State FS S α}
    (hr : Reaches f q ls s) : ∃ out ls', f.exec f.init (fronts ls) = some (s.front, out) ∧
      LTS.run q.next q.start ls' = some s.back ∧ outerCalls (Producer.owns ls') = out ∧
      ls'.filter (fun l => !isOuter l) = backs ls := by
  refine LTS.inv_hist (fun ls (s : State FS S α) => ∃ out ls', f.exec f.init (fronts ls) = some (s.front, out) ∧
      LTS.run q.next q.start ls' = some s.back ∧ outerCalls (Producer.owns ls') = out ∧
      ls'.filter (fun l => !isOuter l) = backs ls) ⟨[], [], rfl, rfl, rfl, rfl⟩ ?_ hr
  rintro ls s l s' ⟨out, ls', h1, h2, h3, h4⟩ hs
  have back : ∀ k, isOuter k = false → (q.next s.back k).map (⟨s.front, ·⟩) = some s' →
      ∃ out ls', f.exec f.init (fronts (ls ++ [.back k])) = some (s'.front, out) ∧
      LTS.run q.next q.start ls' = some s'.back ∧ outerCalls (Producer.owns ls') = out ∧
      ls'.filter (fun l => !isOuter l) = backs (ls ++ [.back k]) := by
    intro k hk h
    obtain ⟨t, h5, rfl⟩ := Option.map_eq_some_iff.mp h
    refine ⟨out, ls' ++ [k], by simpa [fronts] using h1, LTS.run_append.mpr ⟨_, h2, LTS.run_cons.mpr ⟨_, h5, rfl⟩⟩, ?_, ?_⟩
    · rw [owns_append', outerCalls_append, h3]
      cases k with
      | own k => cases k <;> simp_all [Producer.owns, outerCalls, isOuter]
      | _ => simp [Producer.owns, outerCalls]
    · rw [List.filter_append, h4]
      simp [backs, hk]
  cases l with
  | front l =>
    simp only [step] at hs
    split at hs
    · cases hs
    · next t o h5 =>
      obtain ⟨b, h6, rfl⟩ := Option.map_eq_some_iff.mp hs
      refine ⟨out ++ o, ls' ++ o.map fun n => .own (.outer n), ?_, LTS.run_append.mpr ⟨_, h2, h6⟩, ?_, ?_⟩
      · have : fronts (ls ++ [.front l]) = fronts ls ++ [l] := by simp [fronts]
        rw [this]; exact Feeder.exec_append h1 (Feeder.exec_one h5)
      · rw [owns_append', outerCalls_append, h3, outers_calls]
      · rw [List.filter_append, h4, outers_filter]
        simp [backs]
  | back l =>
    cases l with
    | own l =>
      cases l with
      | outer n => cases hs
      | _ => exact back _ rfl hs
    | _ => exact back _ rfl hs

theorem filterMap_backs {γ : Type} {ls : List (Label FL ω α)} {ls' : List (Producer.Label (Merge.Label ω α))}
    (h : ls'.filter (fun l => !isOuter l) = backs ls) (g : Producer.Label (Merge.Label ω α) → Option γ)
    (hg : ∀ n, g (.own (.outer n)) = none) : ls'.filterMap g = (backs ls).filterMap g := by
  rw [← h]
  clear h
  induction ls' with
  | nil => rfl
  | cons l ls' ih =>
    cases hl : isOuter l with
    | true =>
      have : g l = none := by
        cases l with
        | own l => cases l <;> first | exact hg _ | simp [isOuter] at hl
        | _ => simp [isOuter] at hl
      rw [List.filterMap_cons_none this, ih, List.filter_cons_of_neg (by simp [hl])]
    | false =>
      rw [List.filter_cons_of_pos (by simp [hl]), List.filterMap_cons, List.filterMap_cons, ih]

theorem mem_backs {ls : List (Label FL ω α)} {ls' : List (Producer.Label (Merge.Label ω α))}
    (h : ls'.filter (fun l => !isOuter l) = backs ls) {l : Producer.Label (Merge.Label ω α)} (hl : isOuter l = false) :
    l ∈ ls' ↔ l ∈ backs ls := by
  rw [← h, List.mem_filter]; simp [hl]

theorem mem_owns {L : Type} {l : L} {ls : List (Producer.Label L)} : l ∈ Producer.owns ls ↔ .own l ∈ ls := by
  simp only [Producer.owns, List.mem_filterMap]
  constructor
  · rintro ⟨k, hk, h⟩; split at h <;> cases h; exact hk
  · intro h; exact ⟨_, h, rfl⟩

theorem owns_backs (ls : List (Label FL ω α)) : Producer.owns (backs ls) = deeds ls := by
  unfold Producer.owns deeds
  congr 1; funext l; cases l <;> rfl

section
variable {ls : List (Label FL ω α)} {ls' : List (Producer.Label (Merge.Label ω α))}
  (h : ls'.filter (fun l => !isOuter l) = backs ls)
include h

theorem inner_backs (k : Nat) : innerCalls k (Producer.owns ls') = innerCalls k (deeds ls) := by
  have := filterMap_backs h (fun | .own (.inner j n) => if j = k then some n else none | _ => none) (fun _ => rfl)
  rw [innerCalls, innerCalls, ← owns_backs, Producer.owns, Producer.owns, List.filterMap_filterMap, List.filterMap_filterMap]
  refine Eq.trans ?_ (this.trans ?_)
  · congr 1; funext l; cases l with
    | own l => cases l <;> rfl
    | _ => rfl
  · congr 1; funext l; cases l with
    | own l => cases l <;> rfl
    | _ => rfl

theorem mem_deeds {l : Merge.Label ω α} (hl : isOuter (.own l) = false) : l ∈ Producer.owns ls' ↔ l ∈ deeds ls := by
  rw [mem_owns, mem_backs h hl, ← owns_backs, mem_owns]

theorem noFailure_deeds (hf : NoFailure (deeds ls)) : NoFailure (Producer.owns ls') :=
  ⟨fun hc => hf.1 ((mem_deeds h rfl).mp hc), fun hc => hf.2 ((mem_deeds h rfl).mp hc)⟩

theorem noRaise_backs (hn : Producer.NoRaise (backs ls)) : Producer.NoRaise ls' :=
  fun e hc => hn e ((mem_backs h rfl).mp hc)

theorem noCancel_deeds (hc : .cancel ∉ deeds ls) : .cancel ∉ Producer.owns ls' :=
  fun hm => hc ((mem_deeds h rfl).mp hm)
end

/-- The values and errors of the inner observables. -/
def innerArrivals (ms : List (Merge.Label ω α)) : List (Notif α) :=
  ms.filterMap fun
    | .inner _ (.next v) => some (.next v)
    | .inner _ (.error e) => some (.error e)
    | _ => none

theorem innerArrivals_deeds {ls : List (Label FL ω α)} {ls' : List (Producer.Label (Merge.Label ω α))}
    (h : ls'.filter (fun l => !isOuter l) = backs ls) : innerArrivals (Producer.owns ls') = arrivals (deeds ls) := by
  have h1 := filterMap_backs h (fun
    | .own (.inner _ (.next v)) => some (Notif.next v)
    | .own (.inner _ (.error e)) => some (.error e)
    | _ => none) (fun _ => rfl)
  have h2 : innerArrivals (Producer.owns ls') = (ls'.filterMap fun
    | .own (.inner _ (.next v)) => some (Notif.next v)
    | .own (.inner _ (.error e)) => some (.error e)
    | _ => none) := by
    rw [innerArrivals, Producer.owns, List.filterMap_filterMap]
    congr 1; funext l; cases l with
    | own l => cases l with
      | inner k n => cases n <;> rfl
      | _ => rfl
    | _ => rfl
  have h3 : innerArrivals (Producer.owns (backs ls)) = ((backs ls).filterMap fun
    | .own (.inner _ (.next v)) => some (Notif.next v)
    | .own (.inner _ (.error e)) => some (.error e)
    | _ => none) := by
    rw [innerArrivals, Producer.owns, List.filterMap_filterMap]
    congr 1; funext l; cases l with
    | own l => cases l with
      | inner k n => cases n <;> rfl
      | _ => rfl
    | _ => rfl
  rw [h2, h1, ← h3, owns_backs]
  have hno : ∀ l ∈ deeds ls, ∀ n, l ≠ .outer n := by
    intro l hl n hn
    subst hn
    rw [← owns_backs, mem_owns, ← h, List.mem_filter] at hl
    simp [isOuter] at hl
  clear h h1 h2 h3
  generalize deeds ls = ms at hno
  induction ms with
  | nil => rfl
  | cons l ms ih =>
    have ih := ih fun k hk => hno k (by simp [hk])
    unfold innerArrivals arrivals at ih ⊢
    cases l with
    | outer n => exact absurd rfl (hno _ (by simp) n)
    | inner k n => cases n <;> simp [ih]
    | _ => simp [ih]

theorem grammar_tail {β : Type} {x : β} {ns : List (Notif β)} (h : Grammar (.next x :: ns)) : Grammar ns := by
  obtain ⟨⟨vs, f⟩, hv⟩ := h
  cases vs with
  | nil => cases f <;> simp [Story.events, End.events] at hv
  | cons v vs =>
    refine ⟨⟨vs, f⟩, ?_⟩
    simp only [Story.events, List.map_cons, List.cons_append, List.cons.injEq] at hv ⊢
    exact hv.2

theorem grammar_end {β : Type} {n : Notif β} {ns : List (Notif β)} (h : Grammar (n :: ns)) (hn : n.isTerminal = true) :
    ns = [] := by
  obtain ⟨⟨vs, f⟩, hv⟩ := h
  cases vs with
  | nil => cases f <;> simp [Story.events, End.events] at hv <;> exact hv.2
  | cons v vs =>
    simp only [Story.events, List.map_cons, List.cons_append, List.cons.injEq] at hv
    rw [hv.1] at hn; cases hn

theorem arrivals_quiet {ms : List (Merge.Label ω α)} (h : outerCalls ms = []) : arrivals ms = innerArrivals ms := by
  induction ms with
  | nil => rfl
  | cons l ms ih =>
    cases l with
    | outer n => simp [outerCalls] at h
    | inner k n =>
      have := ih (by simpa [outerCalls] using h)
      unfold innerArrivals arrivals at this ⊢
      cases n <;> simp [this]
    | _ =>
      have := ih (by simpa [outerCalls] using h)
      unfold innerArrivals arrivals at this ⊢
      simp [this]

/-- An error of the source arrives somewhere among the events of the inner observables. -/
theorem arrivals_split {ms : List (Merge.Label ω α)} (hg : Grammar (outerCalls ms)) :
    ((∀ e, (story (outerCalls ms)).fin ≠ .failed e) ∧ arrivals ms = innerArrivals ms) ∨
    (∃ e a b, (story (outerCalls ms)).fin = .failed e ∧ innerArrivals ms = a ++ b ∧ arrivals ms = a ++ .error e :: b) := by
  induction ms with
  | nil => exact .inl ⟨by simp [outerCalls], rfl⟩
  | cons l ms ih =>
    have skip : outerCalls (l :: ms) = outerCalls ms → ∀ ys, arrivals (l :: ms) = ys ++ arrivals ms →
        innerArrivals (l :: ms) = ys ++ innerArrivals ms →
        ((∀ e, (story (outerCalls (l :: ms))).fin ≠ .failed e) ∧ arrivals (l :: ms) = innerArrivals (l :: ms)) ∨
        (∃ e a b, (story (outerCalls (l :: ms))).fin = .failed e ∧ innerArrivals (l :: ms) = a ++ b ∧
          arrivals (l :: ms) = a ++ .error e :: b) := by
      intro h1 ys h2 h3
      rw [h1] at hg ⊢
      rw [h2, h3]
      rcases ih hg with ⟨h4, h5⟩ | ⟨e, a, b, h4, h5, h6⟩
      · exact .inl ⟨h4, by rw [h5]⟩
      · exact .inr ⟨e, ys ++ a, b, h4, by rw [h5]; simp, by rw [h6]; simp⟩
    cases l with
    | outer n =>
      cases n with
      | next x =>
        have h1 : outerCalls (.outer (.next x) :: ms : List (Merge.Label ω α)) = .next x :: outerCalls ms := rfl
        have h2 : arrivals (.outer (.next x) :: ms : List (Merge.Label ω α)) = arrivals ms := rfl
        have h3 : innerArrivals (.outer (.next x) :: ms : List (Merge.Label ω α)) = innerArrivals ms := rfl
        rw [h1] at hg ⊢
        rw [h2, h3]
        have := ih (grammar_tail hg)
        simpa [story] using this
      | error e =>
        have h1 : outerCalls (.outer (.error e) :: ms : List (Merge.Label ω α)) = .error e :: outerCalls ms := rfl
        rw [h1] at hg ⊢
        have hq := grammar_end hg rfl
        refine .inr ⟨e, [], arrivals ms, by simp [story], ?_, rfl⟩
        exact (arrivals_quiet hq).symm
      | completed =>
        have h1 : outerCalls (.outer .completed :: ms : List (Merge.Label ω α)) = .completed :: outerCalls ms := rfl
        rw [h1] at hg ⊢
        have hq := grammar_end hg rfl
        exact .inl ⟨by simp [story], (arrivals_quiet hq : arrivals ms = _)⟩
    | inner k n =>
      cases n with
      | next v => exact skip rfl [.next v] rfl rfl
      | error e => exact skip rfl [.error e] rfl rfl
      | completed => exact skip rfl [] rfl rfl
    | _ => exact skip rfl [] rfl rfl

end Behind
end Aio
