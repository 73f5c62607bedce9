import Verif.Model.HostedRun
import Verif.Lemmas.HostedParts
import Verif.Lemmas.Deadline
/-!
# `run` on the `VirtualTimeEventLoop`
-/

namespace Aio
variable {S L T α : Type}

namespace Deadline
variable {timeout : Int}

theorem host_lawful : (host (α := α)).Lawful (stage true timeout) where
  names := by intro s n _; exact .head _
  turn := by
    intro s n hd
    have alone : ∀ (s' : State α) (n' : Unit) (w : Nat), n' ≠ n → (host.need s' n' = .until w → host.need s n' = .until w) := fun _ _ _ hne => absurd rfl hne
    obtain ⟨now, ⟨obv, phase, dis⟩, deadline, over⟩ := s
    cases phase with
    | subscribing =>
      refine ⟨by simp [host, stage], ?_⟩
      by_cases ht : timeout ≤ 0
      · obtain ⟨r, hr⟩ : ∃ r, RunUntil.step (⟨obv, .waiting, dis⟩ : RunUntil.State α) (if pending obv.fut then .timeout else .resume) = some r := by
          rcases obv with ⟨fut, a, b, c⟩
          cases fut <;> exact ⟨_, rfl⟩
        refine ⟨State.goOn ⟨now, ⟨obv, .subscribing, dis⟩, deadline, over⟩ r, ?_, alone _⟩
        · simp only [host, LTS.run, stage, if_true, promptStep, prompt, step, RunUntil.step, ht]
          simp only [RunUntil.step] at hr
          rw [hr]; rfl
      · exact ⟨{ now, run := ⟨obv, .waiting, dis⟩, deadline := some (now + timeout.toNat), over }, by simp [host, LTS.run, stage, promptStep, prompt, step, RunUntil.step, ht], alone _⟩
    | waiting =>
      obtain ⟨fut, a, b, c⟩ := obv
      cases fut with
      | pending =>
        cases deadline with
        | none => exact ⟨by simp [host, pending], _, rfl, alone _⟩
        | some w =>
          have hw : w ≤ now := hd w rfl
          refine ⟨by simp [host, stage, pending], ?_⟩
          have : ∃ s', LTS.run (stage true timeout).step (⟨now, ⟨⟨.pending, a, b, c⟩, .waiting, dis⟩, some w, over⟩ : State α) [.main .timeout] = some s' := by
            simp only [LTS.run, stage, if_true, promptStep, prompt, step, RunUntil.step, hw]
            exact ⟨_, rfl⟩
          obtain ⟨s', hs'⟩ := this
          exact ⟨s', hs', alone _⟩
      | _ => exact ⟨by simp [host, stage, pending], _, rfl, alone _⟩
    | disposing o => exact ⟨by simp [host, stage], _, rfl, alone _⟩
    | done o => exact ⟨by simp [host], _, rfl, alone _⟩
  event := by
    intro s e
    refine ⟨_, rfl, ?_⟩
    intro n w
    obtain ⟨now, ⟨⟨fut, last, st, has⟩, phase, dis⟩, deadline, over⟩ := s
    cases phase with
    | waiting =>
      cases fut with
      | pending =>
        generalize hf : pending (Awaitable.step (⟨.pending, last, st, has⟩ : Awaitable.State α) (.call e)).fut = b
        cases b with
        | false => simp only [host]; rw [hf]; simp
        | true => simp only [host]; rw [hf]; exact id
      | result _ | exception _ | cancelled => cases st <;> cases e <;> cases has <;> exact id
    | _ => exact id
  tick := by
    intro s d hc
    have hc := hc ()
    refine ⟨{ s with now := s.now + d }, ?_, fun n => rfl⟩
    have hr : prompt s (.tick d) = true := by
      obtain ⟨now, ⟨obv, phase, dis⟩, deadline, over⟩ := s
      cases phase with
      | subscribing => exact hc.elim
      | waiting =>
        simp only [host] at hc
        simp only [prompt]
        cases hp : pending obv.fut with
        | false => simp [hp] at hc
        | true =>
          rw [hp] at hc
          cases deadline with
          | none => rfl
          | some w => simpa [stage] using hc
      | disposing o => exact hc.elim
      | done o => rfl
    simp [stage, promptStep, hr, step]

theorem turn_main {s : State α} {n m} (h : m ∈ host.turn s n) : ∃ l, m = .main l ∧ Undisturbed l := by
  simp only [host] at h
  split at h
  · cases List.mem_singleton.mp h; exact ⟨_, rfl, .inl rfl⟩
  · split at h
    · split at h
      · cases List.mem_singleton.mp h; exact ⟨_, rfl, .inr (.inr (.inl rfl))⟩
      · cases h
    · cases List.mem_singleton.mp h; exact ⟨_, rfl, .inr (.inl rfl)⟩
  · cases List.mem_singleton.mp h; exact ⟨_, rfl, .inr (.inr (.inr rfl))⟩
  · cases h

/-- The calls of the source do not change how far `run` is. -/
theorem left_phase {q : Clocked S L α} : ∀ {as : List L} {s s' : S × State α}, LTS.run (q.through (stage true timeout)).act s (as.map .inl) = some s' →
    s'.2.run.phase = s.2.run.phase ∧ s'.2.over = s.2.over ∧ s'.2.now = s.2.now ∧ LTS.run q.act s.1 as = some s'.1
  | [], s, s', h => by cases h; exact ⟨rfl, rfl, rfl, rfl⟩
  | a :: as, s, s', h => by
    obtain ⟨s1, h1, h2⟩ := LTS.run_cons.mp h
    have key : ∀ {es : List (Notif α × Nat)} {p p' : State α}, LTS.run (stage true timeout).step p (es.map fun c => (stage true timeout).event c.1) = some p' →
        p'.run.phase = p.run.phase ∧ p'.over = p.over ∧ p'.now = p.now := by
      intro es
      induction es with
      | nil => intro p p' h; cases h; exact ⟨rfl, rfl, rfl⟩
      | cons e es ih =>
        intro p p' h
        obtain ⟨p1, g1, g2⟩ := LTS.run_cons.mp h
        obtain ⟨g3, g4, g5⟩ := ih g2
        cases g1
        exact ⟨g3, g4, g5⟩
    obtain ⟨g1, g2, g3, g4⟩ := left_phase h2
    simp only [Clocked.through] at h1
    cases hq : q.act s.1 a with
    | none => rw [hq] at h1; cases h1
    | some u =>
      rw [hq] at h1
      obtain ⟨p, h3, h4⟩ := Option.map_eq_some_iff.mp h1
      subst h4
      obtain ⟨e1, e2, e3⟩ := key h3
      exact ⟨g1.trans e1, g2.trans e2, g3.trans e3, LTS.run_cons.mpr ⟨u, hq, g4⟩⟩

/-- What a step of `run` consists of. -/
def expand (disp : List L) : Time (L ⊕ Label α) → List (Time (L ⊕ Label α))
  | .pass d => [.pass d]
  | .act l => (disposing disp l).map .act

theorem disposing_eq {disp : List L} {l : L ⊕ Label α} (h : l ≠ .inr (.main .disposed)) : disposing disp l = [l] := by
  rcases l with l | (n | d | m)
  · rfl
  · rfl
  · rfl
  · cases m <;> first | rfl | exact absurd rfl h

theorem flat_disposing {disp : List L} {ls : List (L ⊕ Label α)} (h : .inr (.main .disposed) ∉ ls) : ls.flatMap (disposing disp) = ls := by
  induction ls with
  | nil => rfl
  | cons l ls ih =>
    rw [List.flatMap_cons, disposing_eq (fun he => h (he ▸ List.mem_cons_self ..)), ih fun hm => h (List.mem_cons_of_mem _ hm)]
    rfl

theorem flat_expand {disp : List L} {ls : List (Time (L ⊕ Label α))} (h : .act (.inr (.main .disposed)) ∉ ls) : ls.flatMap (expand disp) = ls := by
  induction ls with
  | nil => rfl
  | cons l ls ih =>
    rw [List.flatMap_cons, ih fun hm => h (List.mem_cons_of_mem _ hm)]
    cases l with
    | pass d => rfl
    | act l => rw [expand, disposing_eq (fun he => h (he ▸ List.mem_cons_self ..))]; rfl

variable {q : Clocked S L α} {disp : List L}

theorem ran_acts : ∀ {as : List (L ⊕ Label α)} {s}, LTS.run (q.ran disp timeout).act s as = LTS.run (q.through (stage true timeout)).act s (as.flatMap (disposing disp))
  | [], s => rfl
  | a :: as, s => by
    rw [List.flatMap_cons, LTS.run]
    cases h : (q.ran disp timeout).act s a with
    | none =>
      have h : LTS.run (q.through (stage true timeout)).act s (disposing disp a) = none := h
      cases h2 : LTS.run (q.through (stage true timeout)).act s (disposing disp a ++ as.flatMap (disposing disp)) with
      | none => rfl
      | some x => obtain ⟨y, h3, -⟩ := LTS.run_append.mp h2; rw [h] at h3; cases h3
    | some s1 =>
      have h : LTS.run (q.through (stage true timeout)).act s (disposing disp a) = some s1 := h
      show LTS.run (q.ran disp timeout).act s1 as = _
      rw [ran_acts]
      cases h2 : LTS.run (q.through (stage true timeout)).act s1 (as.flatMap (disposing disp)) with
      | some x => exact (LTS.run_append.mpr ⟨s1, h, h2⟩).symm
      | none =>
        cases h3 : LTS.run (q.through (stage true timeout)).act s (disposing disp a ++ as.flatMap (disposing disp)) with
        | none => rfl
        | some x => obtain ⟨y, h4, h5⟩ := LTS.run_append.mp h3; rw [h] at h4; cases h4; rw [h2] at h5; cases h5

theorem ran_run : ∀ {ls : List (Time (L ⊕ Label α))} {s t}, LTS.run (q.ran disp timeout).step s ls = some t →
    LTS.run (q.through (stage true timeout)).step s (ls.flatMap (expand disp)) = some t
  | [], s, t, h => h
  | l :: ls, s, t, h => by
    obtain ⟨s1, h1, h2⟩ := LTS.run_cons.mp h
    rw [List.flatMap_cons]
    refine LTS.run_append.mpr ⟨s1, ?_, ran_run h2⟩
    cases l with
    | pass d => exact LTS.run_cons.mpr ⟨s1, h1, rfl⟩
    | act l => rw [expand, Hosted.run_acts]; exact h1

theorem acts_calls {M β : Type} {q : Clocked S M β} (hl : q.Lawful) : ∀ {as : List M} {ls : List (Time M)} {s s' : S}, LTS.run q.step q.init ls = some s →
    LTS.run q.act s as = some s' → q.now s' = q.now s ∧ ∃ ns : List (Notif β), q.calls s' = q.calls s ++ ns.map fun n => (n, q.now s)
  | [], ls, s, s', hr, ha => by cases ha; exact ⟨rfl, [], by simp⟩
  | a :: as, ls, s, s', hr, ha => by
    obtain ⟨s1, h1, h2⟩ := LTS.run_cons.mp ha
    obtain ⟨a1, ns, a2⟩ := hl.act hr h1
    have hr1 : LTS.run q.step q.init (ls ++ [.act a]) = some s1 := LTS.run_append.mpr ⟨s, hr, LTS.run_cons.mpr ⟨s1, h1, rfl⟩⟩
    obtain ⟨a3, ns', a4⟩ := acts_calls hl hr1 h2
    exact ⟨a3.trans a1, ns ++ ns', by rw [a4, a2, a1, List.append_assoc, List.map_append]⟩

theorem ran_clock (hq : q.Lawful) : (q.ran disp timeout).Lawful where
  init := (Clocked.through_lawful hq (stage_lawful true timeout)).init
  act := by
    intro ls s l t hr h
    exact acts_calls (Clocked.through_lawful hq (stage_lawful true timeout)) (ran_run hr) h
  pass := by
    intro ls s d t hr h
    exact (Clocked.through_lawful hq (stage_lawful true timeout)).pass (ran_run hr) h

end Deadline

/-- What `run` needs of its source: `dispose_async` can take place at any time; other code has no access to the subscription. -/
structure Host.Releases (H : Host S L T) (q : Clocked S L α) (disp : List L) (others : L → Bool) : Prop where
  outside : ∀ l ∈ disp, H.outside l = true
  others : ∀ l, others l = true → H.outside l = true
  always : ∀ {s}, H.Reach q s → ∀ l ∈ disp, ∃ s', q.act s l = some s'

theorem Host.Releases.none (H : Host S L T) (q : Clocked S L α) : H.Releases q [] H.outside := ⟨by simp, fun _ => id, fun _ => by simp⟩

namespace Host
open Deadline
variable {q : Clocked S L α} {disp : List L} {others : L → Bool} {H : Host S L T} {timeout : Int}

theorem ran_own (hd : H.Releases q disp others) {l : L ⊕ Label α} (h : (H.ran others).Own l) : ∀ x ∈ disposing disp l, (H.through Deadline.host).Own x := by
  intro x hx
  by_cases he : l = .inr (.main .disposed)
  · subst he
    rcases List.mem_append.mp hx with hx | hx
    · obtain ⟨y, hy, rfl⟩ := List.mem_map.mp hx
      exact .inl (hd.outside y hy)
    · cases List.mem_singleton.mp hx
      rcases h with h | ⟨s, t, h⟩
      · cases h
      · exact .inr ⟨s, t, h⟩
  · rw [disposing_eq he] at hx
    cases List.mem_singleton.mp hx
    rcases h with h | ⟨s, t, h⟩
    · left
      cases l with
      | inl l => exact hd.others l h
      | inr m => cases h
    · exact .inr ⟨s, t, h⟩

theorem ran_reach (hd : H.Releases q disp others) {s} (hr : (H.ran others).Reach (q.ran disp timeout) s) : (H.through Deadline.host).Reach (q.through (stage true timeout)) s := by
  obtain ⟨ls, h1, h2⟩ := hr
  refine ⟨_, ran_run h1, fun l hl => ?_⟩
  obtain ⟨x, hx, hl⟩ := List.mem_flatMap.mp hl
  cases x with
  | pass d => cases List.mem_singleton.mp hl
  | act x =>
    obtain ⟨y, hy, he⟩ := List.mem_map.mp hl
    cases he
    exact ran_own hd (h2 x hx) l hy

theorem ran_turn_disposed {s : S × State α} {t} (h : .inr (.main .disposed) ∈ (H.ran (α := α) others).turn s t) : t = .inr () ∧ (H.ran (α := α) others).turn s t = [.inr (.main .disposed)] := by
  cases t with
  | inl t => simp [ran, through] at h
  | inr n =>
    refine ⟨rfl, ?_⟩
    simp only [ran, through, Deadline.host] at h ⊢
    cases hp : s.2.run.phase with
    | subscribing => simp [hp] at h
    | waiting =>
      simp only [hp] at h
      split at h
      · split at h <;> simp at h
      · simp at h
    | disposing o => rfl
    | done o => simp [hp] at h

/-- Disposing the source does not put a task to sleep. -/
theorem disposed_run (hH : H.Lawful q) (hd : H.Releases q disp others) : ∀ {ds : List L} (_ : ∀ l ∈ ds, l ∈ disp) {s : S}, H.Reach q s →
    ∃ s', LTS.run q.act s ds = some s' ∧ ∀ t w, H.need s' t = .until w → H.need s t = .until w
  | [], _, s, hr => ⟨s, rfl, fun _ _ => id⟩
  | l :: ds, hm, s, hr => by
    have hin : l ∈ disp := hm l (by simp)
    obtain ⟨s1, h1⟩ := hd.always hr l hin
    obtain ⟨s2, h2, h3⟩ := disposed_run hH hd (ds := ds) (fun x hx => hm x (List.mem_cons_of_mem _ hx))
      (Hosted.Reach.acts hH.clock hr (as := [l]) (LTS.run_cons.mpr ⟨s1, h1, rfl⟩) fun x hx => by cases List.mem_singleton.mp hx; exact .inl (hd.outside l hin))
    exact ⟨s2, LTS.run_cons.mpr ⟨s1, h1, h2⟩, fun t w hn => hH.outside hr (hd.outside l hin) h1 t w (h3 t w hn)⟩

theorem ran_lawful (hH : H.Lawful q) (hd : H.Releases q disp others) : (H.ran others).Lawful (q.ran disp timeout) where
  clock := ran_clock hH.clock
  names := by
    intro s t hr hn
    exact (through_lawful hH (stage_lawful true timeout) host_lawful).names (ran_reach hd hr) hn
  turn := by
    intro s t hr hw
    have hL := through_lawful hH (stage_lawful true timeout) (host_lawful (α := α))
    have hr' := ran_reach hd hr
    obtain ⟨s', h1, h2⟩ := hL.turn (t := t) hr' hw
    rw [ran_acts]
    by_cases he : .inr (.main .disposed) ∈ (H.ran (α := α) others).turn s t
    · obtain ⟨rfl, he⟩ := ran_turn_disposed he
      rw [he]
      have h1 : LTS.run (q.through (stage true timeout)).act s [.inr (.main .disposed)] = some s' := by rw [← he]; exact h1
      obtain ⟨u, h3, h4⟩ := disposed_run hH hd (fun _ h => h) (through_reach hH.clock (stage_lawful true timeout) hr').1
      obtain ⟨p, h5, h6⟩ := through_left host_lawful s.2 h3
      have h7 : ∃ o, p.run.phase = .disposing o := by
        rw [(left_phase h5).1]
        cases hp : s.2.run.phase with
        | disposing o => exact ⟨o, rfl⟩
        | subscribing => simp [ran, through, Deadline.host, hp] at he
        | waiting =>
          simp only [ran, through, Deadline.host, hp] at he
          split at he
          · split at he <;> simp at he
          · simp at he
        | done o => simp [ran, through, Deadline.host, hp] at he
      obtain ⟨o, h7⟩ := h7
      have h8 : (q.through (stage true timeout)).act (u, p) (.inr (.main .disposed)) = some (u, p.goOn { p.run with phase := .done o }) := by
        simp [Clocked.through, stage, promptStep, prompt, step, RunUntil.step, h7]
      refine ⟨(u, p.goOn { p.run with phase := .done o }), ?_, ?_⟩
      · rw [List.flatMap_cons, List.flatMap_nil, List.append_nil]
        exact LTS.run_append.mpr ⟨_, h5, LTS.run_cons.mpr ⟨_, h8, rfl⟩⟩
      · intro t' w hne hn
        cases t' with
        | inl t' => exact h4 t' w hn
        | inr n => exact absurd rfl hne
    · rw [flat_disposing he]
      exact ⟨s', h1, h2⟩
  outside := by
    intro s l s' hr hl ha t w
    cases l with
    | inr m => cases hl
    | inl l =>
      obtain ⟨u, h1, h2⟩ := LTS.run_cons.mp (show LTS.run (q.through (stage true timeout)).act s [.inl l] = some s' from ha)
      cases h2
      exact (through_lawful hH (stage_lawful true timeout) host_lawful).outside (ran_reach hd hr) (l := .inl l) (hd.others l hl) h1 t w
  pass := by
    intro s d hr hc
    exact (through_lawful hH (stage_lawful true timeout) host_lawful).pass (ran_reach hd hr) hc

end Host
end Aio
