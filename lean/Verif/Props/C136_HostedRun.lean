import Verif.Lemmas.HostedRun
import Verif.Props.C117_Hosted
import Verif.Props.C118_Deadline
import Verif.Lemmas.HostedSwitch
/-!
# C136: `run(source, timeout=...)` on the `VirtualTimeEventLoop`
-/

namespace Aio
open Spec Spec.Timed Spec.Deadline
open VirtualTime (Heap)
variable {h : Heap} {S L T α : Type}

namespace Deadline
variable {q : Clocked S L α} {H : Host S L T} {disp : List L} {others : L → Bool} {timeout : Int}

private theorem main_undisturbed {ks : List (Time (L ⊕ Label α))} (ho : ∀ l, Time.act l ∈ ks → (H.ran others).Own l) :
    ∀ m, Time.act (.inr (.main m)) ∈ ks → Undisturbed m := by
  intro m hm
  rcases ho _ hm with h | ⟨s, t, h⟩
  · cases h
  · cases t with
    | inl t => simp [Host.ran, Host.through] at h
    | inr n =>
      simp only [Host.ran, Host.through, List.mem_map] at h
      obtain ⟨x, hx, he⟩ := h
      cases he
      obtain ⟨l, h1, h2⟩ := turn_main hx
      cases h1
      exact h2

private theorem expand_main {ks : List (Time (L ⊕ Label α))} {m} (h : Time.act (.inr (.main m)) ∈ ks.flatMap (expand disp)) : Time.act (.inr (.main m)) ∈ ks := by
  obtain ⟨x, hx, h⟩ := List.mem_flatMap.mp h
  cases x with
  | pass d => cases List.mem_singleton.mp h
  | act x =>
    by_cases he : x = .inr (.main .disposed)
    · subst he
      obtain ⟨y, hy, hh⟩ := List.mem_map.mp h
      cases hh
      rcases List.mem_append.mp hy with hy | hy
      · simp at hy
      · cases List.mem_singleton.mp hy; exact hx
    · rw [expand, disposing_eq he] at h
      cases List.mem_singleton.mp h; exact hx

/-- `run` is not over before it has disposed the source. -/
private theorem not_over (hq : q.Lawful) {ks : List (Time (L ⊕ Label α))} {s} (hr : LTS.run (q.through (stage true timeout)).step (q.through (stage true timeout)).init ks = some s)
    (hu : ∀ m, Time.act (.inr (.main m)) ∈ ks → Undisturbed m) (hd : Time.act (.inr (.main .disposed)) ∉ ks) : s.2.over = [] ∧ ∀ o, s.2.run.phase ≠ .done o := by
  obtain ⟨-, ms, h1, -, -, h4⟩ := Clocked.split hq (stage_reads true timeout) hr
  have h5 : ∀ l, Label.main l ∈ ms → Undisturbed l ∧ l ≠ .disposed := by
    intro l hl
    rcases h4 _ hl with ⟨-, h⟩ | ⟨n, h⟩ | ⟨d, h⟩
    · exact ⟨hu l h, fun he => hd (he ▸ h)⟩
    · cases h
    · cases h
  have key : ∀ (ms : List (Label α)) (p p' : State α), (∀ l, Label.main l ∈ ms → Undisturbed l ∧ l ≠ .disposed) → (p.over = [] ∧ ∀ o, p.run.phase ≠ .done o) →
      LTS.run (stage true timeout).step p ms = some p' → p'.over = [] ∧ ∀ o, p'.run.phase ≠ .done o := by
    intro ms
    induction ms with
    | nil => intro p p' _ hp h; cases h; exact hp
    | cons m ms ih =>
      intro p p' hl hp h
      obtain ⟨p1, h1, h2⟩ := LTS.run_cons.mp h
      refine ih p1 p' (fun l h => hl l (List.mem_cons_of_mem _ h)) ?_ h2
      have h1 := stage_step h1
      have resumed : ∀ {r : RunUntil.State α} {o}, r.phase = .disposing o → (p.goOn r).over = [] ∧ ∀ o, (p.goOn r).run.phase ≠ .done o := by
        intro r o hr
        refine ⟨by simp [State.goOn, hr, hp.1], fun o' => ?_⟩
        show r.phase ≠ _
        rw [hr]; nofun
      cases m with
      | event n => cases h1; exact hp
      | tick d => cases h1; exact hp
      | main l =>
        obtain ⟨h3, h4⟩ := hl l (by simp)
        rcases h3 with rfl | rfl | rfl | rfl
        · simp only [step] at h1
          split at h1
          · cases h1
          · next r hr =>
            have hph : r.phase = .waiting := by
              simp only [RunUntil.step] at hr
              split at hr <;> cases hr; rfl
            split at h1
            · obtain ⟨r', h5, h6⟩ := Option.map_eq_some_iff.mp h1
              subst h6
              by_cases hpd : pending r.obv.fut = true
              · rw [if_pos hpd] at h5; exact resumed (timeout_spec h5).2
              · rw [if_neg hpd] at h5; obtain ⟨-, o, -, h7⟩ := resume_spec h5; exact resumed h7
            · cases h1
              exact ⟨hp.1, fun o => by dsimp only; rw [hph]; nofun⟩
        · obtain ⟨r', h5, h6⟩ := Option.map_eq_some_iff.mp h1
          subst h6
          obtain ⟨-, o, -, h7⟩ := resume_spec h5; exact resumed h7
        · simp only [step] at h1
          split at h1
          · cases h1
          · split at h1
            · obtain ⟨r', h5, h6⟩ := Option.map_eq_some_iff.mp h1
              subst h6
              exact resumed (timeout_spec h5).2
            · cases h1
        · exact absurd rfl h4
  exact key ms _ _ h5 ⟨rfl, fun o h => by cases h⟩ h1

private theorem disposed_spec {s s' : S × State α} (h : (q.through (stage true timeout)).act s (.inr (.main .disposed)) = some s') :
    ∃ o, s.2.run.phase = .disposing o ∧ s' = (s.1, s.2.goOn { s.2.run with phase := .done o }) := by
  simp only [Clocked.through] at h
  split at h
  · obtain ⟨p, h1, h2⟩ := Option.map_eq_some_iff.mp h
    have h1 : (RunUntil.step s.2.run .disposed).map s.2.goOn = some p := stage_step h1
    obtain ⟨r, h3, h4⟩ := Option.map_eq_some_iff.mp h1
    simp only [RunUntil.step] at h3
    cases hp : s.2.run.phase with
    | disposing o => rw [hp] at h3; cases h3; exact ⟨o, rfl, by rw [← h2, ← h4]⟩
    | _ => rw [hp] at h3; cases h3
  · cases h

private theorem ran_prefix {a : List (Time (L ⊕ Label α))} (hd : Time.act (.inr (.main .disposed)) ∉ a) {s t} (hr : LTS.run (q.ran disp timeout).step s a = some t) :
    LTS.run (q.through (stage true timeout)).step s a = some t := by
  have := ran_run hr
  rwa [flat_expand hd] at this

private theorem undisposed_prompt (hq : q.Lawful) {a : List (Time (L ⊕ Label α))} {s} (hr : LTS.run (q.ran disp timeout).step (q.ran disp timeout).init a = some s)
    (hd : Time.act (.inr (.main .disposed)) ∉ a) {rest : S → Prop} (hp : (q.ran disp timeout).Prompt (fun s => rest s.1) a) : q.Prompt rest (Clocked.sources a) := by
  refine Clocked.Prompt.before hq (stage_lawful true timeout) (ran_prefix hd hr) ?_
  intro b d c x he hx
  subst he
  obtain ⟨y, h1, -⟩ := LTS.run_append.mp hr
  have h2 := ran_prefix (fun h => hd (List.mem_append_left _ h)) h1
  have h2 : LTS.run (q.through (stage true timeout)).step (q.through (stage true timeout)).init b = some y := h2
  rw [h2] at hx; cases hx
  exact hp b d c _ rfl h1

private theorem sources_own {ks : List (Time (L ⊕ Label α))} (ho : ∀ l, Time.act l ∈ ks → (H.ran others).Own l) :
    ∀ l, Time.act l ∈ Clocked.sources ks → others l = true ∨ ∃ s t, l ∈ H.turn s t := by
  intro l hl
  have : Time.act (Sum.inl l) ∈ ks := by
    obtain ⟨x, hx, he⟩ := List.mem_filterMap.mp hl
    match x with
    | .pass d => cases he
    | .act (.inl l') => cases he; exact hx
    | .act (.inr _) => cases he
  rcases ho _ this with h | ⟨s1, t, h⟩
  · exact .inl h
  · right
    cases t with
    | inl t => simp only [Host.ran, Host.through, List.mem_map] at h; obtain ⟨x, hx, he⟩ := h; cases he; exact ⟨s1.1, t, hx⟩
    | inr n => simp [Host.ran, Host.through] at h

private theorem sources_expand {ks : List (Time (L ⊕ Label α))} {l : L} (h : Time.act l ∈ Clocked.sources (ks.flatMap (expand disp))) : l ∈ disp ∨ Time.act l ∈ Clocked.sources ks := by
  obtain ⟨x, hx, he⟩ := List.mem_filterMap.mp h
  obtain ⟨y, hy, hx⟩ := List.mem_flatMap.mp hx
  have hx' : x = .act (.inl l) := by
    match x with
    | .pass d => cases he
    | .act (.inl l') => cases he; rfl
    | .act (.inr _) => cases he
  subst hx'
  cases y with
  | pass d => cases List.mem_singleton.mp hx
  | act y =>
    by_cases hd : y = .inr (.main .disposed)
    · subst hd
      left
      obtain ⟨z, hz, hh⟩ := List.mem_map.mp hx
      cases hh
      rcases List.mem_append.mp hz with hz | hz
      · simpa using hz
      · cases List.mem_singleton.mp hz
    · rw [expand, disposing_eq hd] at hx
      cases List.mem_singleton.mp hx
      exact .inr (List.mem_filterMap.mpr ⟨_, hy, rfl⟩)

private theorem through_source {ls : List (Time (L ⊕ Label α))} : ∀ {s s' : S × State α}, LTS.run (q.through (stage true timeout)).step s ls = some s' →
    LTS.run q.step s.1 (Clocked.sources ls) = some s'.1 := by
  induction ls with
  | nil => intro s s' h; cases h; rfl
  | cons l ls ih =>
    intro s s' h
    obtain ⟨s1, h1, h2⟩ := LTS.run_cons.mp h
    have h3 := ih h2
    match l with
    | .pass d =>
      simp only [Clocked.step, Clocked.through] at h1
      cases hq : q.pass s.1 d with
      | none => rw [hq] at h1; cases h1
      | some u =>
        rw [hq] at h1
        obtain ⟨p, -, h4⟩ := Option.map_eq_some_iff.mp h1
        subst h4
        exact LTS.run_cons.mpr ⟨u, hq, h3⟩
    | .act (.inl l) =>
      simp only [Clocked.step, Clocked.through] at h1
      cases hq : q.act s.1 l with
      | none => rw [hq] at h1; cases h1
      | some u =>
        rw [hq] at h1
        obtain ⟨p, -, h4⟩ := Option.map_eq_some_iff.mp h1
        subst h4
        exact LTS.run_cons.mpr ⟨u, hq, h3⟩
    | .act (.inr m) =>
      simp only [Clocked.step, Clocked.through] at h1
      split at h1
      · obtain ⟨p, -, h4⟩ := Option.map_eq_some_iff.mp h1
        subst h4
        exact h3
      · cases h1

/-- The source of `run` up to the time at which it is disposed. -/
theorem ran_source (hq : q.Lawful) {ks s} (hr : LTS.run (q.ran disp timeout).step (q.ran disp timeout).init ks = some s) (ho : ∀ l, Time.act l ∈ ks → (H.ran others).Own l)
    {rest : S → Prop} (hp : (q.ran disp timeout).Prompt (fun s => rest s.1) ks) :
    ∃ us u, LTS.run q.step q.init us = some u ∧ q.Prompt rest us ∧ (∀ l, Time.act l ∈ us → others l = true ∨ ∃ s t, l ∈ H.turn s t) ∧
      ((u = s.1 ∧ s.2.over = [] ∧ q.now u ≤ q.now q.init + timeout.toNat ∧ ∀ x, outcome (q.calls u) = some x → x.2 = q.now u) ∨
       ∃ o, s.2.over = [(.next o, q.now u)] ∧ q.now u ≤ q.now q.init + timeout.toNat ∧
        (outcome (q.calls u) = some (o, q.now u) ∨ (o = .timedOut ∧ q.now u = q.now q.init + timeout.toNat ∧ ∀ x, outcome (q.calls u) = some x → x.2 = q.now u)) ∧
        ∃ vs, LTS.run q.step u (disp.map .act ++ vs) = some s.1 ∧ ∀ l, Time.act l ∈ vs → l ∈ disp ∨ others l = true ∨ ∃ s t, l ∈ H.turn s t) := by
  have hT := Clocked.through_lawful hq (stage_lawful (α := α) true timeout)
  have hmain := main_undisturbed ho
  by_cases hd : Time.act (.inr (.main .disposed)) ∈ ks
  · obtain ⟨a, b, rfl, hna⟩ := List.eq_append_cons_of_mem hd
    obtain ⟨sa, ra, rb⟩ := LTS.run_append.mp hr
    obtain ⟨sd, rd, rb⟩ := LTS.run_cons.mp rb
    have ta := ran_prefix hna ra
    have rd0 := rd
    have rd : LTS.run (q.through (stage true timeout)).act sa (disp.map .inl ++ [.inr (.main .disposed)]) = some sd := rd
    obtain ⟨sx, rx, ry⟩ := LTS.run_append.mp rd
    obtain ⟨x1, x2, x3, x4⟩ := left_phase rx
    obtain ⟨sy, ry, rz⟩ := LTS.run_cons.mp ry
    cases rz
    obtain ⟨o, e1, rfl⟩ := disposed_spec ry
    obtain ⟨g1, g2⟩ := not_over hq ta (fun m hm => hmain m (List.mem_append_left _ hm)) hna
    have hph : sa.2.run.phase = .disposing o := by rw [← x1]; exact e1
    have hnow : sa.2.now = q.now sa.1 := (Clocked.clocks hq (stage_lawful true timeout) ta).2
    -- the same without the source
    have r1 : LTS.run (q.through (stage true timeout)).step (q.through (stage true timeout)).init (a ++ [.act (.inr (.main .disposed))]) =
        some (sa.1, sa.2.goOn { sa.2.run with phase := .done o }) :=
      LTS.run_append.mpr ⟨sa, ta, LTS.run_cons.mpr ⟨_, by simp [Clocked.step, Clocked.through, stage, promptStep, prompt, step, RunUntil.step, hph], rfl⟩⟩
    have hover : (sa.2.goOn { sa.2.run with phase := .done o }).over = [(.next o, q.now sa.1)] := by simp [State.goOn, g1, hnow]
    have hc := C118_exact hq timeout r1 (fun m hm => by
      rcases List.mem_append.mp hm with h | h
      · exact hmain m (List.mem_append_left _ h)
      · cases List.mem_singleton.mp h; exact .inr (.inr (.inr rfl)))
    have hstamps : ∀ x, outcome (q.calls sa.1) = some x → x.2 ≤ q.now sa.1 := by
      intro x hx
      obtain ⟨n, -, h2⟩ := outcome_mem hx
      exact Clocked.Lawful.stamps hq (Clocked.clocks hq (stage_lawful true timeout) ta).1 _ h2
    have hs := ran_run hr
    have hsu : s.2.over = [(.next o, q.now sa.1)] := by
      have hpre := (ran_clock (disp := disp) (timeout := timeout) hq).grows (ls₁ := a ++ [.act (.inr (.main .disposed))])
        (LTS.run_append.mpr ⟨sa, ra, LTS.run_cons.mpr ⟨_, rd0, rfl⟩⟩) rb
      have h0 : ((sx.1, sx.2.goOn { sx.2.run with phase := .done o }) : S × State α).2.over = [(.next o, q.now sa.1)] := by
        simp [State.goOn, x2, x3, g1, hnow]
      have hpre : [(.next o, q.now sa.1)] <+: s.2.over := by rw [← h0]; exact hpre
      rcases C118_exact hq timeout hs (fun m hm => hmain m (expand_main hm)) with ⟨h1, -⟩ | ⟨o', t', h1, -⟩
      · rw [h1] at hpre; simp at hpre
      · rw [h1] at hpre
        rw [h1]
        obtain ⟨r, hpre⟩ := hpre
        cases hpre
        rfl
    refine ⟨Clocked.sources a, sa.1, (Clocked.clocks hq (stage_lawful true timeout) ta).1, undisposed_prompt hq ra hna (fun b d c x he hx => hp b d (c ++ _) x (by rw [he, List.append_assoc]; rfl) hx),
      sources_own (fun l hl => ho l (List.mem_append_left _ hl)), .inr ⟨o, hsu, ?_⟩⟩
    refine (and_assoc.mp ⟨?_, ?_⟩)
    · rcases hc with ⟨h1, -⟩ | ⟨o', t', h1, h2, h3⟩
      · rw [hover] at h1; cases h1
      · rw [hover] at h1
        cases h1
        refine ⟨h2, h3.imp id fun ⟨h4, h5, h6⟩ => ⟨h4, h5, fun x hx => ?_⟩⟩
        exact Nat.le_antisymm (hstamps x hx) (h6 x hx)
    · refine ⟨Clocked.sources (b.flatMap (expand disp)), ?_, ?_⟩
      · refine LTS.run_append.mpr ⟨sx.1, by rw [Hosted.run_acts]; exact x4, ?_⟩
        have := through_source (ran_run rb)
        exact this
      · intro l hl
        rcases sources_expand hl with h | h
        · exact .inl h
        · exact .inr (sources_own (fun l hl => ho l (List.mem_append_right _ (List.mem_cons_of_mem _ hl))) l h)
  · have ta := ran_prefix hd hr
    obtain ⟨g1, g2⟩ := not_over hq ta hmain hd
    refine ⟨Clocked.sources ks, s.1, (Clocked.clocks hq (stage_lawful true timeout) ta).1, undisposed_prompt hq hr hd hp, sources_own ho, .inl ⟨rfl, g1, ?_⟩⟩
    rcases C118_exact hq timeout ta hmain with ⟨-, h2, h3⟩ | ⟨o', t', h1, -⟩
    · exact ⟨h2, h3⟩
    · rw [g1] at h1; cases h1

variable [DecidableEq T]

/-- C136, any source, whatever else runs on the virtual loop: `run` is over exactly when its source has ended or when the deadline is there, with the outcome of the source or with
TimeoutError, and then the source has been disposed. `us` is what the source did before it was disposed. -/
theorem C136_run (K : h.Laws) (hH : H.Lawful q) (hd : H.Releases q disp others) {hops ls m}
    (hr : LTS.run (Hosted.step h hops (q.ran disp timeout) (H.ran others)) Hosted.init ls = some m) {s} (hm : m.sub = some s) :
    ∃ us u, LTS.run q.step q.init us = some u ∧ q.Prompt (fun s => ∀ t, H.need s t ≠ .soon) us ∧ (∀ l, Time.act l ∈ us → others l = true ∨ ∃ s t, l ∈ H.turn s t) ∧
      ((u = s.1 ∧ s.2.over = [] ∧ m.vt.time ≤ (q.now q.init + timeout.toNat : Nat) ∧ (∀ x, outcome (q.calls u) = some x → (x.2 : Int) = m.vt.time) ∧
          (m.vt.ready = [] → outcome (q.calls u) = none)) ∨
       ∃ o, s.2.over = [(.next o, q.now u)] ∧ q.now u ≤ q.now q.init + timeout.toNat ∧
        (outcome (q.calls u) = some (o, q.now u) ∨ (o = .timedOut ∧ q.now u = q.now q.init + timeout.toNat ∧ ∀ x, outcome (q.calls u) = some x → x.2 = q.now u)) ∧
        ∃ vs, LTS.run q.step u (disp.map .act ++ vs) = some s.1) := by
  obtain ⟨hn, ks, h1, h2, h3⟩ := Hosted.C117_schedule K (Host.ran_lawful hH hd) hr hm
  have hn : (q.now s.1 : Int) = m.vt.time := hn
  obtain ⟨us, u, g1, g2, g3, g4⟩ := ran_source hH.clock h1 h3 (rest := fun s => ∀ t, H.need s t ≠ .soon) (fun a d b s he ha t => h2 a d b s he ha (.inl t))
  refine ⟨us, u, g1, g2, g3, ?_⟩
  rcases g4 with ⟨rfl, e1, e2, e3⟩ | ⟨o, e1, e2, e3, vs, e4, -⟩
  · refine .inl ⟨rfl, e1, by omega, fun x hx => by rw [e3 x hx]; exact hn, fun hrest => ?_⟩
    have hns := (Hosted.C117_rest K (Host.ran_lawful hH hd) hr hm hrest).1 (.inr ())
    obtain ⟨ms, I, k1, -⟩ := stage_run hH.clock (ran_run h1) (fun l hl => main_undisturbed h3 l (expand_main hl))
    have hns : Deadline.host.need s.2 () ≠ .soon := hns
    cases hp : s.2.run.phase with
    | subscribing => exact absurd (by simp [Deadline.host, hp]) hns
    | waiting =>
      obtain ⟨-, k2, -⟩ := I.obv (.inr hp)
      have k3 : pending s.2.run.obv.fut = true := by
        cases hf : pending s.2.run.obv.fut with
        | true => rfl
        | false => exact absurd (by simp [Deadline.host, hp, hf]) hns
      have k4 := pending_iff.mp k3
      rw [k2, k1, says_futOf] at k4
      simpa using k4
    | disposing o => exact absurd (by simp [Deadline.host, hp]) hns
    | done o => obtain ⟨t, k2, -⟩ := I.done o hp; rw [e1] at k2; cases k2
  · exact .inr ⟨o, e1, e2, e3, vs, e4⟩

/-- C136: `e` is how and when the source ends. `run` ends so, and at that time, if it is before the deadline; with TimeoutError, at the deadline, if that is before. -/
theorem C136_verdict (K : h.Laws) (hH : H.Lawful q) (hd : H.Releases q disp others) {e : RunUntil.Outcome α × Nat}
    (he : ∀ us u, LTS.run q.step q.init us = some u → q.Prompt (fun s => ∀ t, H.need s t ≠ .soon) us → (∀ l, Time.act l ∈ us → others l = true ∨ ∃ s t, l ∈ H.turn s t) →
      (∀ x, outcome (q.calls u) = some x → x = e) ∧ (e.2 < q.now u → outcome (q.calls u) = some e))
    {hops ls m} (hr : LTS.run (Hosted.step h hops (q.ran disp timeout) (H.ran others)) Hosted.init ls = some m) {s} (hm : m.sub = some s) :
    (e.2 < q.now q.init + timeout.toNat → (s.2.over = [] ∧ m.vt.time ≤ e.2) ∨ s.2.over = [(.next e.1, e.2)]) ∧
    (q.now q.init + timeout.toNat < e.2 → (s.2.over = [] ∧ m.vt.time ≤ (q.now q.init + timeout.toNat : Nat)) ∨ s.2.over = [(.next .timedOut, q.now q.init + timeout.toNat)]) := by
  have hn : (q.now s.1 : Int) = m.vt.time := (Hosted.C117_schedule K (Host.ran_lawful hH hd) hr hm).1
  obtain ⟨us, u, g1, g2, g3, g4⟩ := C136_run K hH hd hr hm
  obtain ⟨e1, e2⟩ := he us u g1 g2 g3
  rcases g4 with ⟨rfl, f1, f2, f3, -⟩ | ⟨o, f1, f2, f3, -⟩
  · refine ⟨fun _ => .inl ⟨f1, ?_⟩, fun _ => .inl ⟨f1, f2⟩⟩
    apply Classical.byContradiction
    intro hlt
    have := f3 _ (e2 (by omega))
    omega
  · rcases f3 with f3 | ⟨rfl, f4, f5⟩
    · obtain rfl := e1 _ f3
      exact ⟨fun _ => .inr f1, fun hlt => absurd f2 (by dsimp only at hlt; omega)⟩
    · refine ⟨fun hlt => ?_, fun _ => .inr (by rw [f1, f4])⟩
      have := f5 _ (e2 (by omega))
      omega

/-- C136: a source that does not end. -/
theorem C136_timeout (K : h.Laws) (hH : H.Lawful q) (hd : H.Releases q disp others)
    (he : ∀ us u, LTS.run q.step q.init us = some u → q.Prompt (fun s => ∀ t, H.need s t ≠ .soon) us → (∀ l, Time.act l ∈ us → others l = true ∨ ∃ s t, l ∈ H.turn s t) →
      outcome (q.calls u) = none)
    {hops ls m} (hr : LTS.run (Hosted.step h hops (q.ran disp timeout) (H.ran others)) Hosted.init ls = some m) {s} (hm : m.sub = some s) :
    (s.2.over = [] ∧ m.vt.time ≤ (q.now q.init + timeout.toNat : Nat)) ∨ s.2.over = [(.next .timedOut, q.now q.init + timeout.toNat)] := by
  obtain ⟨us, u, g1, g2, g3, g4⟩ := C136_run K hH hd hr hm
  have e1 := he us u g1 g2 g3
  rcases g4 with ⟨rfl, f1, f2, f3, -⟩ | ⟨o, f1, f2, f3, -⟩
  · exact .inl ⟨f1, f2⟩
  · rcases f3 with f3 | ⟨rfl, f4, f5⟩
    · rw [e1] at f3; cases f3
    · exact .inr (by rw [f1, f4])

end Deadline

/-! ## what is left -/

/-- After `dispose_async` the tasks of the source end as soon as they go on. -/
structure Host.Gone (H : Host S L T) (q : Clocked S L α) (disp : List L) (others : L → Bool) (gone : S → Prop) : Prop where
  stop : ∀ {s s'}, LTS.run q.act s disp = some s' → gone s'
  keeps : ∀ {s l s'}, gone s → (l ∈ disp ∨ others l = true ∨ ∃ s t, l ∈ H.turn s t) → q.act s l = some s' → gone s'
  pass : ∀ {s d s'}, gone s → q.pass s d = some s' → gone s'
  idle : ∀ {s}, gone s → (∀ t, H.need s t ≠ .soon) → ∀ t, H.need s t = .nothing

namespace Deadline
variable {q : Clocked S L α} {H : Host S L T} {disp : List L} {others : L → Bool} {timeout : Int} [DecidableEq T]

/-- C136: `run` leaves nothing behind: when it is over and no callback is due, no task of the pipeline is left on the loop. -/
theorem C136_released (K : h.Laws) (hH : H.Lawful q) (hd : H.Releases q disp others) {gone : S → Prop} (hg : H.Gone q disp others gone) {hops ls m}
    (hr : LTS.run (Hosted.step h hops (q.ran disp timeout) (H.ran others)) Hosted.init ls = some m) {s} (hm : m.sub = some s) (hover : s.2.over ≠ []) (hrest : m.vt.ready = []) :
    (∀ t, (H.ran others).need s t = .nothing) ∧ ∀ t, m.status t = .idle := by
  have hl := Host.ran_lawful (timeout := timeout) hH hd
  obtain ⟨hn, ks, h1, h2, h3⟩ := Hosted.C117_schedule K hl hr hm
  obtain ⟨us, u, -, -, -, g4⟩ := ran_source hH.clock h1 h3 (rest := fun _ => True) (fun a d b s he ha => trivial)
  have hsoon := (Hosted.C117_rest K hl hr hm hrest).1
  have hall : ∀ t, (H.ran others).need s t = .nothing := by
    rcases g4 with ⟨-, e1, -⟩ | ⟨o, e1, -, -, vs, e4, e5⟩
    · exact absurd e1 hover
    · obtain ⟨x, r1, r2⟩ := LTS.run_append.mp e4
      rw [Hosted.run_acts] at r1
      have key : ∀ (vs : List (Time L)) (x y : S), gone x → (∀ l, Time.act l ∈ vs → l ∈ disp ∨ others l = true ∨ ∃ s t, l ∈ H.turn s t) → LTS.run q.step x vs = some y → gone y := by
        intro vs
        induction vs with
        | nil => intro x y hx _ h; cases h; exact hx
        | cons v vs ih =>
          intro x y hx hv h
          obtain ⟨z, h1, h2⟩ := LTS.run_cons.mp h
          refine ih z y ?_ (fun l hl => hv l (List.mem_cons_of_mem _ hl)) h2
          cases v with
          | pass d => exact hg.pass hx h1
          | act l => exact hg.keeps hx (hv l (by simp)) h1
      have hgone := key vs x s.1 (hg.stop r1) e5 r2
      intro t
      cases t with
      | inl t => exact hg.idle hgone (fun t => hsoon (.inl t)) t
      | inr n =>
        obtain ⟨ms, I, -⟩ := stage_run hH.clock (ran_run h1) (fun l hl => main_undisturbed h3 l (expand_main hl))
        cases hp : s.2.run.phase with
        | done o => show Deadline.host.need s.2 n = _; simp [Deadline.host, hp]
        | subscribing => exact absurd (I.obv (.inl hp)).1 hover
        | waiting => exact absurd (I.obv (.inr hp)).1 hover
        | disposing o => exact absurd (I.disposing o hp).1 hover
  refine ⟨hall, fun t => ?_⟩
  obtain ⟨I, -⟩ := Hosted.good K hl hr
  cases hst : m.status t with
  | idle => rfl
  | ready k i =>
    obtain ⟨a, b, d⟩ := I.held t i (by rw [hst]; rfl)
    obtain ⟨c, hc⟩ := I.ready t k i hst
    rcases I.vt.placed i (I.owners i t a) with h | h | h | h
    · exact absurd h d
    · obtain ⟨y, hy, rfl⟩ := List.mem_map.mp h
      obtain ⟨c', hc', _⟩ := I.vt.scheduled y hy
      rw [hc] at hc'; cases hc'
    · rw [hrest] at h; cases h
    · exact absurd h b
  | sleeping i =>
    obtain ⟨w, s', c, a, b, -⟩ := I.sleeping t i hst
    rw [hm] at a; cases a; rw [hall t] at b; cases b

end Deadline

/-! ## operators -/

section operators
variable {P W β : Type} {q : Clocked S L α} {H : Host S L T} {disp : List L} {others : L → Bool} {p : Proc P W (Notif α) (Notif β)} {workers : List W}

theorem Host.Releases.operate (hH : H.Lawful q) (hd : H.Releases q disp others) :
    (H.operate p workers).Releases (q.operate p) (disp.map .inl) (Sum.elim others fun _ => false) where
  outside l h := by obtain ⟨x, hx, rfl⟩ := List.mem_map.mp h; exact hd.outside x hx
  others l h := by
    cases l with
    | inl l => exact hd.others l h
    | inr w => cases h
  always hr l h := by
    obtain ⟨x, hx, rfl⟩ := List.mem_map.mp h
    obtain ⟨u, hu⟩ := hd.always (Host.operate_reach hH.clock hr) x hx
    simp only [Clocked.operate, hu]
    exact ⟨_, rfl⟩

private theorem operate_left' : ∀ {as : List L} {s s' : S × Timed P (Notif α) (Notif β)}, LTS.run (q.operate p).act s (as.map .inl) = some s' → LTS.run q.act s.1 as = some s'.1
  | [], s, s', h => by cases h; rfl
  | a :: as, s, s', h => by
    obtain ⟨s1, h1, h2⟩ := LTS.run_cons.mp h
    simp only [Clocked.operate] at h1
    split at h1
    · cases h1
    · next u hu => cases h1; exact LTS.run_cons.mpr ⟨u, hu, operate_left' h2⟩

theorem Host.Gone.operate {gone : S → Prop} (hg : H.Gone q disp others gone) :
    (H.operate p workers).Gone (q.operate p) (disp.map .inl) (Sum.elim others fun _ => false) (fun s => gone s.1) where
  stop h := hg.stop (operate_left' h)
  keeps := by
    intro s l s' hs hl ha
    cases l with
    | inr w =>
      simp only [Clocked.operate, Option.map_eq_some_iff] at ha
      obtain ⟨x, -, rfl⟩ := ha
      exact hs
    | inl l =>
      simp only [Clocked.operate] at ha
      split at ha
      · cases ha
      · next u hu =>
        cases ha
        refine hg.keeps hs ?_ hu
        rcases hl with hl | hl | ⟨x, t, hl⟩
        · exact .inl (by simpa using hl)
        · exact .inr (.inl hl)
        · cases t with
          | inl t => simp only [Host.operate, List.mem_map] at hl; obtain ⟨y, hy, he⟩ := hl; cases he; exact .inr (.inr ⟨_, t, hy⟩)
          | inr n => simp only [Host.operate] at hl; split at hl <;> simp at hl
  pass := by
    intro s d s' hs h
    simp only [Clocked.operate, Option.map_eq_some_iff] at h
    obtain ⟨u, hu, rfl⟩ := h
    exact hg.pass hs hu
  idle := by
    intro s hs hn t
    cases t with
    | inl t => exact hg.idle hs (fun t => hn (.inl t)) t
    | inr w =>
      have := hn (.inr w)
      simp only [Host.operate] at this ⊢
      split <;> simp_all

private theorem operate_quiet {s : S × Timed P (Notif α) (Notif β)} (hs : ∀ t, (H.operate p workers).need s t ≠ .soon) : p.Quiescent s.2.ps := by
  intro w
  have := hs (.inr w)
  simp only [Host.operate] at this
  cases hc : p.step s.2.ps w with
  | none => rfl
  | some x => simp [hc] at this

/-- The workers come to rest without time passing. -/
private theorem operate_rests (hT : p.Terminates) : ∀ s : S × Timed P (Notif α) (Notif β),
    ∃ (ws : List W) (s' : S × Timed P (Notif α) (Notif β)), LTS.run (q.operate p).step s (ws.map fun w => .act (.inr w)) = some s' ∧ s'.1 = s.1 ∧ p.Quiescent s'.2.ps := by
  rintro ⟨u, ps, got, sent⟩
  have := hT ps
  induction this generalizing sent with
  | intro ps _ ih =>
    by_cases hq : p.Quiescent ps
    · exact ⟨[], _, rfl, rfl, hq⟩
    · obtain ⟨w, hw⟩ := Classical.not_forall.mp hq
      obtain ⟨⟨ps', o⟩, ho⟩ := Option.ne_none_iff_exists'.mp hw
      obtain ⟨ws, s', h1, h2, h3⟩ := ih ps' ⟨w, o, ho⟩ (sent ++ o.map fun o => (o, q.now u))
      exact ⟨w :: ws, s', LTS.run_cons.mpr ⟨_, by simp only [Clocked.step, Clocked.operate, Timed.work, ho]; rfl, h1⟩, h2, h3⟩

private theorem filter_prefix {ι : Type} {T : Nat} : ∀ {cs : List (ι × Nat)}, InTime cs → cs.filter (fun c => c.2 ≤ T) <+: cs := by
  intro cs
  induction cs with
  | nil => intro _; exact List.prefix_refl _
  | cons c cs ih =>
    intro h
    obtain ⟨u1, u2⟩ := List.pairwise_cons.mp h
    by_cases hc : c.2 ≤ T
    · rw [List.filter_cons_of_pos (by simpa using hc)]; exact (List.prefix_cons_inj _).mpr (ih u2)
    · rw [List.filter_cons_of_neg (by simpa using hc), List.filter_eq_nil_iff.mpr (by intro d hd; have := u1 d hd; simp; omega)]
      exact List.nil_prefix

variable [DecidableEq T] [DecidableEq W] {timeout : Int} {G : Story α → Story β} {dom : List (Notif α) → Prop}

open Deadline in
/-- C136: `run(pipe(source, op), timeout=T)`, for operators without timers: it is over exactly when what the operators make of what the source has sent has ended, or when the deadline is there.
`u` is the pipeline when `run` is over. -/
theorem C136_operator (K : h.Laws) (hH : H.Lawful q) (hd : H.Releases q disp others) (hw : ∀ w, w ∈ workers) (hG : Delivers p dom G) (h0 : (G ⟨[], .running⟩).events = [])
    (hdom : ∀ ls s, LTS.run q.step q.init ls = some s → dom ((q.calls s).map (·.1))) {hops ls m}
    (hr : LTS.run (Hosted.step h hops ((q.operate p).ran (disp.map .inl) timeout) ((H.operate p workers).ran (Sum.elim others fun _ => false))) Hosted.init ls = some m) {s} (hm : m.sub = some s) :
    ∃ us u, LTS.run q.step q.init us = some u ∧ (∀ l, Time.act l ∈ us → others l = true ∨ ∃ s t, l ∈ H.turn s t) ∧
      (∀ t < q.now u, verdict (G (story (upto t (q.calls u)))) = none) ∧ q.now u ≤ q.now q.init + timeout.toNat ∧
      ((s.2.over = [] ∧ (q.now u : Int) = m.vt.time ∧ u = s.1.1 ∧ (m.vt.ready = [] → verdict (G (story ((q.calls u).map (·.1)))) = none)) ∨
       ∃ o, s.2.over = [(.next o, q.now u)] ∧ (verdict (G (story ((q.calls u).map (·.1)))) = some o ∨ (o = .timedOut ∧ q.now u = q.now q.init + timeout.toNat))) := by
  have hl := Host.operate_lawful (p := p) hH hw
  have hn : (q.now s.1.1 : Int) = m.vt.time := (Hosted.C117_schedule K (Host.ran_lawful hl (hd.operate hH)) hr hm).1
  obtain ⟨us, u, g1, g2, g3, g4⟩ := C136_run K hl (hd.operate hH) hr hm
  have g2 : (q.operate p).Prompt (fun s => p.Quiescent s.2.ps) us := fun a d b s he ha => operate_quiet (g2 a d b s he ha)
  obtain ⟨k1, k2, -⟩ := C109_operator hH.clock hG h0 hdom g1 g2
  -- at rest
  obtain ⟨ws, u', r1, r2, r3⟩ := operate_rests (q := q) hG.ends u
  have g1' : LTS.run (q.operate p).step (q.operate p).init (us ++ ws.map fun w => .act (.inr w)) = some u' := LTS.run_append.mpr ⟨u, g1, r1⟩
  have g2' : (q.operate p).Prompt (fun s => p.Quiescent s.2.ps) (us ++ ws.map fun w => .act (.inr w)) := by
    intro a d b x he ha
    rcases List.append_eq_append_iff.mp he with ⟨c, e1, e2⟩ | ⟨c, e1, e2⟩
    · have : Time.pass d ∈ ws.map fun w => (Time.act (.inr w) : Time (L ⊕ W)) := by rw [e2]; simp
      simp at this
    · cases c with
      | nil =>
        have : Time.pass d ∈ ws.map fun w => (Time.act (.inr w) : Time (L ⊕ W)) := by
          rw [List.nil_append] at e2; rw [← e2]; simp
        simp at this
      | cons y ys => cases e2; exact g2 a d ys x e1 ha
  obtain ⟨-, -, k3⟩ := C109_operator hH.clock hG h0 hdom g1' g2'
  have k3 := k3 r3
  rw [r2] at k3
  have hqo := Clocked.operate_lawful hH.clock p
  obtain ⟨rr, hrr⟩ := hqo.grows g1 r1
  have hnow : ∀ t, q.now u.1 ≤ t → verdict (G (story (upto t (q.calls u.1)))) = (outcome ((q.operate p).calls u')).map (·.1) := by
    intro t ht
    have hall : upto t ((q.operate p).calls u') = ((q.operate p).calls u').map (·.1) := by
      rw [upto, List.filter_eq_self.mpr fun c hc => ?_]
      have := Clocked.Lawful.stamps hqo g1' c hc
      have : c.2 ≤ q.now u'.1 := this
      rw [r2] at this
      simp; omega
    rw [outcome_verdict, ← hall, k3 t, story_events]
  have hmapall : upto (q.now u.1) (q.calls u.1) = (q.calls u.1).map (·.1) := by
    rw [upto, List.filter_eq_self.mpr fun c hc => ?_]
    have hsrc := (Clocked.operate_source hH.clock g1).1
    simpa using Clocked.Lawful.stamps hH.clock hsrc c hc
  have early : (∀ x, outcome ((q.operate p).calls u) = some x → x.2 = q.now u.1) → ∀ t < q.now u.1, verdict (G (story (upto t (q.calls u.1)))) = none := by
    intro hx t ht
    have := k2 t ht
    have h1 : verdict (G (story (upto t (q.calls u.1)))) = (outcome (((q.operate p).calls u).filter fun c => c.2 ≤ t)).map (·.1) := by
      rw [outcome_verdict, ← story_events (G (story (upto t (q.calls u.1)))), ← this]; rfl
    rw [h1]
    cases ho : outcome (((q.operate p).calls u).filter fun c => c.2 ≤ t) with
    | none => rfl
    | some y =>
      obtain ⟨n, -, hy⟩ := outcome_mem ho
      have hyt : y.2 ≤ t := by simpa using (List.mem_filter.mp hy).2
      obtain ⟨r, hr'⟩ := filter_prefix (T := t) k1
      have := hx y (by rw [← hr']; exact outcome_append r ho)
      omega
  refine ⟨Clocked.sources us, u.1, (Clocked.operate_source hH.clock g1).1, fun l hl => ?_, ?_⟩
  · have : Time.act (Sum.inl l) ∈ us := by
      obtain ⟨x, hx, he⟩ := List.mem_filterMap.mp hl
      match x with
      | .pass d => cases he
      | .act (.inl l') => cases he; exact hx
      | .act (.inr _) => cases he
    rcases g3 _ this with h | ⟨s1, t, h⟩
    · exact .inl h
    · right
      cases t with
      | inl t => simp only [Host.operate, List.mem_map] at h; obtain ⟨x, hx, he⟩ := h; cases he; exact ⟨s1.1, t, hx⟩
      | inr n => simp only [Host.operate] at h; split at h <;> simp at h
  · rcases g4 with ⟨rfl, f1, f2, f3, f4⟩ | ⟨o, f1, f2, f3, -⟩
    · have f2 : m.vt.time ≤ (q.now q.init + timeout.toNat : Nat) := f2
      refine ⟨early fun x hx => ?_, by omega, .inl ⟨f1, hn, rfl, fun hrest => ?_⟩⟩
      · have := f3 x hx; omega
      · have hqu : p.Quiescent s.1.2.ps := operate_quiet (H := H) (workers := workers) fun t => (Hosted.C117_rest K (Host.ran_lawful hl (hd.operate hH)) hr hm hrest).1 (.inl t)
        have hws : u' = s.1 := by
          cases ws with
          | nil => cases r1; rfl
          | cons w ws =>
            obtain ⟨y, hy, -⟩ := LTS.run_cons.mp r1
            simp [Clocked.step, Clocked.operate, Timed.work, hqu w] at hy
        have := hnow (q.now s.1.1) (Nat.le_refl _)
        rw [hmapall, hws, f4 hrest] at this
        exact this
    · have f2 : q.now u.1 ≤ q.now q.init + timeout.toNat := f2
      have f1 : s.2.over = [(.next o, q.now u.1)] := f1
      rcases f3 with f3 | ⟨f3, f4, f5⟩
      · refine ⟨early fun x hx => ?_, f2, .inr ⟨o, f1, .inl ?_⟩⟩
        · rw [f3] at hx; cases hx; rfl
        · have := hnow (q.now u.1) (Nat.le_refl _)
          rw [hmapall, ← hrr, outcome_append rr f3] at this
          exact this
      · exact ⟨early f5, f2, .inr ⟨o, f1, .inr ⟨f3, f4⟩⟩⟩

end operators

/-! ## timers -/

namespace Interval
open Deadline
variable {t0 : Nat} {seconds period timeout : Int}

theorem cancellable_releases : cancellable.Releases (clocked true t0 seconds period) [.dispose] (fun _ => false) where
  outside l h := by cases List.mem_singleton.mp h; rfl
  others l h := by cases h
  always _ l h := by cases List.mem_singleton.mp h; exact ⟨_, rfl⟩

theorem cancellable_gone : cancellable.Gone (clocked true t0 seconds period) [.dispose] (fun _ => false) (fun s => s.cancelling = true ∨ s.pc = .dead) where
  stop h := by
    obtain ⟨x, h1, h2⟩ := LTS.run_cons.mp h
    cases h2; cases h1; exact .inl rfl
  keeps := by
    intro s l s' hg hl ha
    rcases hl with hl | hl | hl
    · cases List.mem_singleton.mp hl; cases ha; exact .inl rfl
    · cases hl
    · exact (Nested.cancellable_disposable (fun _ : Unit => (seconds, period))).keeps (xs := ()) (t := t0) hg hl ha
  pass h1 h2 := (Nested.cancellable_disposable (fun _ : Unit => (seconds, period))).pass (xs := ()) (t := t0) h1 h2
  idle := by
    intro s hg hs t
    have := hs ()
    obtain ⟨now, pc, c, calls⟩ := s
    cases pc with
    | dead => rfl
    | sleeping w n =>
      rcases hg with hg | hg
      · dsimp only at hg; subst hg; exact absurd rfl this
      · cases hg
    | _ => exact absurd rfl this

private theorem undisposed {us : List (Time Label)} (h : ∀ l, Time.act l ∈ us → (fun _ : Label => false) l = true ∨ ∃ s t, l ∈ cancellable.turn s t) :
    Time.act .dispose ∉ us ∧ ∀ e, Time.act (.raise e) ∉ us := by
  have key : ∀ l, Time.act l ∈ us → l ≠ .dispose ∧ ∀ e, l ≠ .raise e := by
    intro l hl
    rcases h l hl with h | ⟨s, t, h⟩
    · cases h
    · rcases cancellable_turn h with rfl | rfl | rfl | rfl <;> exact ⟨nofun, nofun⟩
  exact ⟨fun h => (key _ h).1 rfl, fun e h => (key _ h).2 e rfl⟩

/-- C136: on the virtual loop `run(timer(s), timeout=T)` returns 0 after exactly `s`, or raises TimeoutError after exactly `T`. -/
theorem C136_timer (K : h.Laws) {hops ls m} (hr : LTS.run (Hosted.step h hops ((clocked true t0 seconds 0).ran [.dispose] timeout) (cancellable.ran fun _ => false)) Hosted.init ls = some m)
    {s} (hm : m.sub = some s) :
    (seconds.toNat < timeout.toNat → (s.2.over = [] ∧ m.vt.time ≤ (t0 + seconds.toNat : Nat)) ∨ s.2.over = [(.next (.value (some 0)), t0 + seconds.toNat)]) ∧
    (timeout.toNat < seconds.toNat → (s.2.over = [] ∧ m.vt.time ≤ (t0 + timeout.toNat : Nat)) ∨ s.2.over = [(.next .timedOut, t0 + timeout.toNat)]) := by
  have := C136_verdict (e := (.value (some 0), t0 + seconds.toNat)) K cancellable_lawful cancellable_releases (fun us u h1 _ h3 => ⟨fun x hx => ?_, fun hlt => ?_⟩) hr hm
  · have h0 : (clocked true t0 seconds 0).now (clocked true t0 seconds 0).init = t0 := rfl
    rw [h0] at this
    exact ⟨fun hlt => this.1 (by dsimp only; omega), fun hlt => this.2 (by dsimp only; omega)⟩
  · obtain ⟨r, hpre⟩ := (timer_exact h1).1
    have : outcome ((clocked true t0 seconds 0).calls u ++ r) = some x := outcome_append r hx
    rw [hpre] at this
    cases this; rfl
  · rw [timer_done h1 (undisposed h3).1 (undisposed h3).2 hlt]; rfl

/-- C136: on the virtual loop `run(interval(s, p), timeout=T)` raises TimeoutError after exactly `T`. -/
theorem C136_interval (K : h.Laws) (hp : period ≠ 0) {hops ls m}
    (hr : LTS.run (Hosted.step h hops ((clocked true t0 seconds period).ran [.dispose] timeout) (cancellable.ran fun _ => false)) Hosted.init ls = some m) {s} (hm : m.sub = some s) :
    (s.2.over = [] ∧ m.vt.time ≤ (t0 + timeout.toNat : Nat)) ∨ s.2.over = [(.next .timedOut, t0 + timeout.toNat)] := by
  refine C136_timeout K cancellable_lawful cancellable_releases (fun us u h1 _ h3 => ?_) hr hm
  cases ho : outcome ((clocked true t0 seconds period).calls u) with
  | none => rfl
  | some x =>
    obtain ⟨n, h4, h2⟩ := outcome_mem ho
    obtain ⟨k, h3, -⟩ := clocked_exact hp h1
    rw [h3] at h2
    obtain ⟨j, -, h5⟩ := List.mem_map.mp h2
    rw [← (Prod.mk.inj h5).1] at h4
    cases h4

private theorem take_verdict (n : Nat) (hn : 0 < n) (l : List Nat) :
    verdict (Spec.take (n : Int) ⟨l, .running⟩) = if n ≤ l.length then some (match (l.take n).getLast? with | none => .cancelled | some v => .value (some v)) else none := by
  simp only [Spec.take]
  split
  · rw [if_pos (by omega)]
    simp only [verdict, Int.toNat_natCast]
    cases (l.take n).getLast? <;> rfl
  · rw [if_neg (by omega)]; rfl

private theorem story_nexts (l : List Nat) : story (l.map (Notif.next : Nat → Notif Nat)) = ⟨l, .running⟩ := by
  simpa [Story.events] using story_events (⟨l, .running⟩ : Story Nat)

private theorem take_computes (n : Nat) : (takeOp (n : Int) : Operator Nat Nat).Computes (Spec.take n) := (take_acts _).computes (take_calm _)

/-- C136: on the virtual loop `run(pipe(interval(s, p), take(n)), timeout=T)` returns `n - 1` exactly when the interval sends it, or raises TimeoutError after exactly `T`. -/
theorem C136_interval_take (n : Nat) [DecidableEq (takeOp (n : Int) : Operator Nat Nat).direct.compileSlow.SlowLab] (K : h.Laws) (hp : period ≠ 0) (hn : 0 < n) {workers} (hw : ∀ w, w ∈ workers) {hops ls m}
    (hr : LTS.run (Hosted.step h hops (((clocked true t0 seconds period).operate (takeOp (n : Int) : Operator Nat Nat).direct.slowProc).ran [.inl .dispose] timeout)
      ((cancellable.operate (takeOp (n : Int) : Operator Nat Nat).direct.slowProc workers).ran (Sum.elim (fun _ => false) fun _ => false))) Hosted.init ls = some m) {s} (hm : m.sub = some s) :
    (due t0 seconds period (n - 1) < t0 + timeout.toNat →
      (s.2.over = [] ∧ m.vt.time ≤ (due t0 seconds period (n - 1) : Nat)) ∨ s.2.over = [(.next (.value (some (n - 1))), due t0 seconds period (n - 1))]) ∧
    (t0 + timeout.toNat < due t0 seconds period (n - 1) →
      (s.2.over = [] ∧ m.vt.time ≤ (t0 + timeout.toNat : Nat)) ∨ s.2.over = [(.next .timedOut, t0 + timeout.toNat)]) := by
  have hgr : ∀ ls s, LTS.run (clocked true t0 seconds period).step (clocked true t0 seconds period).init ls = some s →
      Grammar (((clocked true t0 seconds period).calls s).map (·.1)) := by
    intro ls s h
    obtain ⟨m, hm, -⟩ := clocked_exact hp h
    refine ⟨⟨List.range m, .running⟩, ?_⟩
    rw [hm]
    simp [Story.events, Function.comp_def]
  obtain ⟨us, u, g1, g2, g3, g4, g5⟩ := C136_operator (timeout := timeout) K cancellable_lawful cancellable_releases hw (take_computes n).direct.slow (by
      simp only [Spec.take, List.take_nil, List.length_nil, Story.events]; rw [if_neg (by omega)]; rfl) hgr hr hm
  obtain ⟨c, h1, h2⟩ := clocked_exact hp g1
  have h2 := h2 (undisposed g2).1 (undisposed g2).2
  have hst : ∀ k < c, due t0 seconds period k ≤ u.now := fun k hk =>
    Clocked.Lawful.stamps (clocked_lawful true t0 seconds period) g1 (.next k, due t0 seconds period k) (by rw [h1]; exact List.mem_map.mpr ⟨k, by simpa using hk, rfl⟩)
  have hall : verdict (Spec.take (n : Int) (story (((clocked true t0 seconds period).calls u).map (·.1)))) = if n ≤ c then some (.value (some (n - 1))) else none := by
    have : ((clocked true t0 seconds period).calls u).map (·.1) = (List.range c).map .next := by rw [h1]; simp [Function.comp_def]
    rw [this, story_nexts, take_verdict n hn, List.length_range]
    split
    · next hc =>
      have : ((List.range c).take n).getLast? = some (n - 1) := by
        rw [List.take_range, Nat.min_eq_left hc, List.getLast?_range, if_neg (by omega)]
      rw [this]
    · rfl
  have hlast : u.now ≤ due t0 seconds period (n - 1) := Nat.le_of_not_lt fun hlt => by
    have hnc := h2 (n - 1) hlt
    have := g3 _ hlt
    have hup : upto (due t0 seconds period (n - 1)) ((clocked true t0 seconds period).calls u) = ((List.range c).filter fun k => due t0 seconds period k ≤ due t0 seconds period (n - 1)).map .next := by
      rw [h1]; simp [upto, List.filter_map, Function.comp_def]
    have hlen : n ≤ ((List.range c).filter fun k => due t0 seconds period k ≤ due t0 seconds period (n - 1)).length := by
      have e : List.range c = List.range n ++ (List.range (c - n)).map (n + ·) := by
        rw [← List.range_add]; congr 1; omega
      rw [e, List.filter_append, List.length_append, List.filter_eq_self.mpr, List.length_range]
      · omega
      · intro k hk
        have : k < n := by simpa using hk
        simpa using due_mono (by omega)
    rw [hup, story_nexts, take_verdict n hn, if_pos hlen] at this
    cases this
  have h0 : (clocked true t0 seconds period).now (clocked true t0 seconds period).init = t0 := rfl
  rw [h0] at g4 g5
  have g4 : u.now ≤ t0 + timeout.toNat := g4
  rcases g5 with ⟨f1, f2, rfl, -⟩ | ⟨o, f1, f2⟩
  · have f2 : (s.1.1.now : Int) = m.vt.time := f2
    exact ⟨fun _ => .inl ⟨f1, by omega⟩, fun _ => .inl ⟨f1, by omega⟩⟩
  · have f1 : s.2.over = [(.next o, u.now)] := f1
    rcases f2 with f2 | ⟨rfl, f2⟩
    · rw [hall] at f2
      split at f2
      · next hc =>
        cases f2
        have := hst (n - 1) (by omega)
        have : u.now = due t0 seconds period (n - 1) := by omega
        exact ⟨fun _ => .inr (by rw [f1, this]), fun hlt => by omega⟩
      · cases f2
    · have f2 : u.now = t0 + timeout.toNat := f2
      exact ⟨fun hlt => by omega, fun _ => .inr (by rw [f1, f2])⟩

/-- C136: whichever it was, then nothing of the pipeline is left on the loop. -/
theorem C136_interval_take_released (n : Nat) [DecidableEq (takeOp (n : Int) : Operator Nat Nat).direct.compileSlow.SlowLab] (K : h.Laws) {workers} (hw : ∀ w, w ∈ workers) {hops ls m}
    (hr : LTS.run (Hosted.step h hops (((clocked true t0 seconds period).operate (takeOp (n : Int) : Operator Nat Nat).direct.slowProc).ran [.inl .dispose] timeout)
      ((cancellable.operate (takeOp (n : Int) : Operator Nat Nat).direct.slowProc workers).ran (Sum.elim (fun _ => false) fun _ => false))) Hosted.init ls = some m) {s} (hm : m.sub = some s)
    (hover : s.2.over ≠ []) (hrest : m.vt.ready = []) :
    (∀ t, ((cancellable.operate (takeOp (n : Int) : Operator Nat Nat).direct.slowProc workers).ran (Sum.elim (fun _ => false) fun _ => false)).need s t = .nothing) ∧ ∀ t, m.status t = .idle :=
  C136_released K (Host.operate_lawful cancellable_lawful hw) (cancellable_releases.operate cancellable_lawful) cancellable_gone.operate hr hm hover hrest

/-- C136: the same of the interval itself. -/
theorem C136_interval_released (K : h.Laws) {hops ls m}
    (hr : LTS.run (Hosted.step h hops ((clocked true t0 seconds period).ran [.dispose] timeout) (cancellable.ran fun _ => false)) Hosted.init ls = some m) {s} (hm : m.sub = some s)
    (hover : s.2.over ≠ []) (hrest : m.vt.ready = []) : (∀ t, (cancellable.ran fun _ => false).need s t = .nothing) ∧ ∀ t, m.status t = .idle :=
  C136_released K cancellable_lawful cancellable_releases cancellable_gone hr hm hover hrest

end Interval
end Aio

/-! ## Examples -/

namespace Aio
namespace Hosted
open VirtualTime (heapq heapqLaws)

deriving instance DecidableEq for RunUntil.Outcome

set_option synthInstance.maxSize 1000

/-- The time, and how and when `run` was over. -/
def finished {S L T α : Type} [DecidableEq T] (hops : T ⊕ Unit → Nat) (q : Clocked S L α) (disp : List L) (timeout : Int) (H : Host S L T) (others : L → Bool)
    (ls : List (Option (Label (L ⊕ Deadline.Label α)))) : Option (Int × Option (List (Notif (RunUntil.Outcome α) × Nat))) :=
  (play hops (q.ran disp timeout) (H.ran others) init ls).map fun m => (m.vt.time, m.sub.map fun s => s.2.over)

/-- `run(timer(3), timeout=5)`; there is a timer of other code at 9. -/
example : finished (fun _ => 1) (Interval.clocked true 0 3 0) [.dispose] 5 Interval.cancellable (fun _ => false) ([some (.loop (.callAt 9)), some .subscribe] ++ List.replicate 40 none) =
    some (9, some [(.next (.value (some 0)), 3)]) := by decide +kernel

/-- `run(timer(7), timeout=5)` -/
example : finished (fun _ => 1) (Interval.clocked true 0 7 0) [.dispose] 5 Interval.cancellable (fun _ => false) ([some (.loop (.callAt 9)), some .subscribe] ++ List.replicate 40 none) =
    some (9, some [(.next .timedOut, 5)]) := by decide +kernel

/-- `run(interval(1, 2), timeout=4)` -/
example : finished (fun _ => 1) (Interval.clocked true 0 1 2) [.dispose] 4 Interval.cancellable (fun _ => false) ([some (.loop (.callAt 9)), some .subscribe] ++ List.replicate 60 none) =
    some (9, some [(.next .timedOut, 4)]) := by decide +kernel

example (hops ls m) (hr : LTS.run (step heapq hops ((Interval.clocked true 0 3 0).ran [.dispose] 5) (Interval.cancellable.ran fun _ => false)) init ls = some m) {s} (hm : m.sub = some s)
    (ht : 3 < m.vt.time) : s.2.over = [(.next (.value (some 0)), 3)] := by
  rcases (Interval.C136_timer heapqLaws hr hm).1 (by decide) with ⟨-, h⟩ | h
  · have : m.vt.time ≤ 3 := h
    omega
  · exact h

/-- `run(pipe(interval(1, 2), take(2)), timeout=10)` -/
example : finished (fun _ => 0) ((Interval.clocked true 0 1 2).operate demoOperator.slowProc) [.inl .dispose] 10 (Interval.cancellable.operate demoOperator.slowProc demoWorkers)
    (Sum.elim (fun _ => false) fun _ => false) ([some (.loop (.callAt 12)), some .subscribe] ++ List.replicate 90 none) =
    some (12, some [(.next (.value (some 1)), 3)]) := by decide +kernel

/-- `run(pipe(interval(1, 2), take(2)), timeout=2)` -/
example : finished (fun _ => 0) ((Interval.clocked true 0 1 2).operate demoOperator.slowProc) [.inl .dispose] 2 (Interval.cancellable.operate demoOperator.slowProc demoWorkers)
    (Sum.elim (fun _ => false) fun _ => false) ([some (.loop (.callAt 12)), some .subscribe] ++ List.replicate 90 none) =
    some (12, some [(.next .timedOut, 2)]) := by decide +kernel

example (hops ls m) (hr : LTS.run (step heapq hops (((Interval.clocked true 0 1 2).operate demoOperator.slowProc).ran [.inl .dispose] 10)
      ((Interval.cancellable.operate demoOperator.slowProc demoWorkers).ran (Sum.elim (fun _ => false) fun _ => false))) init ls = some m) {s} (hm : m.sub = some s)
    (ht : 3 < m.vt.time) (he : m.vt.ready = []) : s.2.over = [(.next (.value (some 1)), 3)] ∧ ∀ t, m.status t = .idle := by
  have hw : ∀ w, w ∈ demoWorkers := fun w => match w with | .inl () => .head _ | .inr () => .tail _ (.head _)
  rcases (Interval.C136_interval_take 2 heapqLaws (by decide) (by decide) hw hr hm).1 (by decide) with ⟨-, h⟩ | h
  · have : m.vt.time ≤ 3 := h
    omega
  · exact ⟨h, (Interval.C136_interval_take_released 2 heapqLaws hw hr hm (by rw [h]; nofun) he).2⟩

end Hosted
end Aio
