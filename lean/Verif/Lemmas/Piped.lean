import Verif.Model.Piped
import Verif.Spec.Delivery
import Verif.Lemmas.AsyncFor
import Verif.Lemmas.Stream
import Verif.Lemmas.Proc
import Verif.Props.C96_EndToEnd
/-!
# Lemmas about pipelines behind any source
-/

namespace Aio
open Spec
variable {S L FS FL α β ω γ : Type}

theorem Source.Grows.drop {q : Source S L α} (h : q.Grows) {s s' : S} {l : L} (hs : q.step s l = some s') :
    q.out s ++ (q.out s').drop (q.out s).length = q.out s' := by
  obtain ⟨r, hr⟩ := h.step s l s' hs
  rw [← hr]; simp

theorem Producer.source_grows (p : Producer S L α) : p.source.Grows := by
  refine ⟨rfl, ?_⟩
  rintro s (_ | l) s' h
  · simp [Producer.source] at h; subst h; exact List.prefix_refl _
  · simp only [Producer.source, Option.map_eq_some_iff] at h
    obtain ⟨r, -, rfl⟩ := h
    exact List.prefix_append _ _

theorem Interval.source_grows (t0 : Nat) (seconds period : Int) : (Interval.source t0 seconds period).Grows := by
  refine ⟨rfl, ?_⟩
  rintro ⟨now, pc, c, calls⟩ l s' h
  have hcalls : ∀ {ps : List (Nat × Notif Nat)} {now pc c now' pc' c'} r, ps = r → (Interval.source t0 seconds period).out ⟨now, pc, c, ps⟩ <+:
      (Interval.source t0 seconds period).out ⟨now', pc', c', r⟩ := by
    rintro ps now pc c now' pc' c' r rfl; exact List.prefix_refl _
  have hmore : ∀ {ps r : List (Nat × Notif Nat)} {now pc c now' pc' c'}, (Interval.source t0 seconds period).out ⟨now, pc, c, ps⟩ <+:
      (Interval.source t0 seconds period).out ⟨now', pc', c', ps ++ r⟩ := by
    intro ps r now pc c now' pc' c'; simp [Interval.source]
  have hafter : ∀ (s : State) n, (Interval.source t0 seconds period).out s <+: (Interval.source t0 seconds period).out (afterSend period s n) := by
    rintro ⟨now, pc, c, calls⟩ n
    simp only [afterSend]
    split
    · exact hmore
    · exact hcalls _ rfl
  cases l <;> cases pc <;> simp only [Interval.source, Interval.step, reduceCtorEq, Option.some.injEq] at h
  all_goals try split at h
  all_goals try simp only [reduceCtorEq, Option.some.injEq] at h
  all_goals subst h
  all_goals first
    | exact hcalls _ rfl
    | exact hmore
    | exact hafter _ _
    | exact (hcalls _ rfl).trans (hafter ⟨_, _, false, _⟩ _)

/-- All labels of `Producer.next` only add to the posts. -/
theorem Producer.next_posts (p : Producer S L α) {s s' : Producer.State S α} {l : Producer.Label L} (h : p.next s l = some s') : s.posts <+: s'.posts := by
  cases l with
  | own l =>
    simp only [Producer.next] at h
    split at h
    · cases h
    · cases h; exact List.prefix_append _ _
  | dispose => simp only [Producer.next, Option.some.injEq] at h; subst h; exact List.prefix_refl _
  | receive =>
    simp only [Producer.next] at h
    split at h
    · cases h
    · cases h; exact List.prefix_refl _
  | ret => simp only [Producer.next, Option.map_eq_some_iff] at h; obtain ⟨t, -, rfl⟩ := h; exact List.prefix_refl _
  | raise e => simp only [Producer.next, Option.map_eq_some_iff] at h; obtain ⟨t, -, rfl⟩ := h; exact List.prefix_refl _

theorem Behind.source_grows (f : Feeder FS FL ω) (q : Producer S (Merge.Label ω α) α) : (Behind.source f q).Grows := by
  refine ⟨rfl, ?_⟩
  intro s l s' h
  cases l with
  | front l =>
    simp only [Behind.source, Behind.step] at h
    split at h
    · cases h
    · simp only [Option.map_eq_some_iff] at h
      obtain ⟨t, h, rfl⟩ := h
      exact LTS.inv (step := q.next) (fun t => s.back.posts <+: t.posts) (List.prefix_refl _) (fun _ _ _ h h' => h.trans (q.next_posts h')) h
  | back l =>
    have : ∀ l, (q.next s.back l).map (⟨s.front, ·⟩) = some s' → (Behind.source f q).out s <+: (Behind.source f q).out s' := by
      intro l h
      rw [Option.map_eq_some_iff] at h
      obtain ⟨t, h', rfl⟩ := h
      exact q.next_posts h'
    cases l with
    | own l =>
      cases l with
      | outer n => cases h
      | inner k n => exact this (.own (.inner k n)) h
      | cancel => exact this (.own .cancel) h
      | receive => exact this (.own .receive) h
      | subscribed => exact this (.own .subscribed) h
      | subscribeFails => exact this (.own .subscribeFails) h
      | disposed => exact this (.own .disposed) h
      | disposeFails => exact this (.own .disposeFails) h
    | dispose => exact this .dispose h
    | receive => exact this .receive h
    | ret => exact this .ret h
    | raise e => exact this (.raise e) h

theorem Source.pipe_grows (q : Source S L α) (c : Chain α γ) : (q.pipe c).Grows := by
  refine ⟨rfl, ?_⟩
  intro s l s' h
  cases l with
  | source l =>
    simp only [Source.pipe, Piped.step] at h
    split at h
    · cases h
    · cases h; exact List.prefix_append _ _
  | worker l =>
    simp only [Source.pipe, Piped.step] at h
    split at h
    · cases h
    · cases h; exact List.prefix_append _ _

namespace Piped
variable {q : Source S L α} {c : Chain α γ}

@[simp] theorem sources_append (a b : List (Label L c)) : sources (a ++ b) = sources a ++ sources b := List.filterMap_append ..

/-- A run of source and pipeline: a run of the source, and a run of the pipeline that is fed the source's calls. -/
theorem split (hq : q.Grows) {ls : List (Label L c)} {s : State S c} (hr : LTS.run (step q c) (init q c) ls = some s) :
    LTS.run q.step q.init (sources ls) = some s.src ∧
    ∃ es, c.slowProc.exec c.slowProc.init es = some (s.ps, s.outs) ∧ Proc.inputs es = q.out s.src := by
  refine LTS.inv_hist (step := step q c) (fun ls s => LTS.run q.step q.init (sources ls) = some s.src ∧
    ∃ es, c.slowProc.exec c.slowProc.init es = some (s.ps, s.outs) ∧ Proc.inputs es = q.out s.src) (s0 := init q c) ?_ ?_ hr
  · exact ⟨rfl, [], rfl, hq.init.symm⟩
  rintro ls s l s' ⟨h1, es, h2, h3⟩ h
  cases l with
  | source l =>
    simp only [step] at h
    split at h
    · cases h
    · next t ht =>
      cases h
      refine ⟨?_, es ++ ((q.out t).drop (q.out s.src).length).map .feed, Proc.exec_append _ h2 (Proc.exec_map_feed _ _ _), ?_⟩
      · rw [sources_append]
        exact LTS.run_append.mpr ⟨_, h1, LTS.run_cons.mpr ⟨_, ht, rfl⟩⟩
      · rw [Proc.inputs_append, Proc.inputs_map_feed, h3]; exact hq.drop ht
  | worker l =>
    simp only [step] at h
    split at h
    · cases h
    · next t o ht =>
      cases h
      refine ⟨by simpa [sources] using h1, es ++ [.step l], Proc.exec_append _ h2 (Proc.exec_step_intro (o2 := []) ht rfl |>.trans (by simp)), ?_⟩
      simp [h3]

/-- The workers on their own. -/
theorem run_workers : ∀ (ls : List c.compileSlow.SlowLab) (s : State S c) {t out},
    c.slowProc.exec s.ps (ls.map .step) = some (t, out) →
    LTS.run (step q c) s (ls.map .worker) = some { s with ps := t, outs := s.outs ++ out } := by
  intro ls
  induction ls with
  | nil =>
    intro s t out h
    simp at h
    obtain ⟨rfl, rfl⟩ := h
    simp [LTS.run]
  | cons l ls ih =>
    intro s t out h
    obtain ⟨s1, o1, o2, h1, h2, rfl⟩ := Proc.exec_step_inv h
    refine LTS.run_cons.mpr ⟨{ s with ps := s1, outs := s.outs ++ o1 }, by simp only [step, h1], ?_⟩
    rw [ih _ h2]
    simp

end Piped
end Aio
