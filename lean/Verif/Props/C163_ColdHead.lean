import Verif.Model.ColdHead
import Verif.Props.C12_14_Single
import Verif.Props.C101_103_Piped
import Verif.Props.C45_52_Filtering
/-!
# C163: a pipeline over an `AsyncSingleSubject` loses nothing
-/

namespace Aio.Single
open Spec (Story Grammar story verdict)
variable {α γ : Type}

/-! ## vocabulary -/

/-- Nobody calls the subject between those who waited for the observer and have been woken. (So it is if the producer waits for one
call to return before it makes the next.) -/
def InTurn (ls : List (Label α)) : Prop := ∀ a n b, ls = a ++ .call n :: b → ∀ s, LTS.run step init a = some s → s.ready = []

/-- What the producer and the consumer may be relied on for: one observer; nobody disposes; nobody who waits is cancelled; calls in
turn; no call after `athrow` or `aclose`. -/
structure Proper (ls : List (Label α)) : Prop where
  one : ∀ o, .subscribe o ∈ ls → o = 0
  kept : ¬ Disposed ls
  patient : ¬ Cancelled ls
  turn : InTurn ls
  grammar : Grammar (made ls)

/-- The operators have been subscribed, and those who waited for it have gone on. -/
def Caught (ls : List (Label α)) (s : State α) : Prop := Subscribed ls ∧ s.ready = []

/-! ## lemmas -/

theorem source_grows : (source α).Grows := by
  refine ⟨rfl, fun s l s' h => ?_⟩
  have : ∃ d, s'.log = s.log ++ d := by
    obtain ⟨-, h⟩ := step_cases h
    rcases h with ⟨n, x, lg, rfl, ho, rfl⟩ | ⟨c, rd, n, x, lg, rfl, hr, hc, ho, rfl⟩ | ⟨c, n, rfl, hc, rfl⟩ |
      ⟨c, n, e, rfl, hc, rfl⟩ | ⟨c, n, rfl, hc, rfl⟩ | ⟨c, n, rfl, hc, rfl⟩ | ⟨o, rfl, hd, rfl⟩ |
      ⟨o, rfl, hd, hw, rfl⟩ | ⟨o, rfl, hd, hw, rfl⟩ | ⟨rfl, rfl⟩
    · exact ⟨lg, rfl⟩
    · exact ⟨lg, rfl⟩
    all_goals exact ⟨[], by simp⟩
  obtain ⟨d, hd⟩ := this
  simp only [source, hd, List.filterMap_append]
  exact List.prefix_append _ _

/-- Who has been served, and who has not. -/
structure Queue (ls : List (Label α)) (s : State α) : Prop where
  obs : Subscribed ls → s.observer = some 0
  mine : ∀ x ∈ s.log, x.2.1 = 0
  sending : ∀ (c : Nat) n, s.calls[c]? = some (.sending n) → ∃ o, (c, o, n) ∈ s.log
  served : ∃ k, s.log.map (·.1) = List.range k ∧ k ≤ s.calls.length
  next : Subscribed ls → s.isStopped = false → s.log.map (·.1) ++ s.ready = List.range s.calls.length
  over : s.isStopped = true → ∃ x ∈ s.log, x.2.2.isTerminal = true

/-- The part of `Proper` that is about what has happened so far. -/
structure Tidy (ls : List (Label α)) : Prop where
  one : ∀ o, .subscribe o ∈ ls → o = 0
  kept : ¬ Disposed ls
  patient : ¬ Cancelled ls
  turn : InTurn ls

theorem Tidy.of_snoc {ls : List (Label α)} {l : Label α} (h : Tidy (ls ++ [l])) : Tidy ls := by
  refine ⟨fun o ho => h.one o (by simp [ho]), fun hd => h.kept ?_, fun ⟨c, hc⟩ => h.patient ⟨c, by simp [hc]⟩, ?_⟩
  · simp only [Disposed] at hd ⊢; simp [hd]
  · rintro a n b rfl
    exact h.turn a n (b ++ [l]) (by simp)

theorem queue_set {ls ls' : List (Label α)} {s : State α} {c : Nat} {n : Notif α} {x : Call α} {stop : Bool} (hi : Queue ls s)
    (hsub : Subscribed ls' ↔ Subscribed ls) (hc : s.calls[c]? = some (.sending n)) (hx : ∀ m, x ≠ .sending m)
    (hstop : stop = true → s.isStopped = true ∨ n.isTerminal = true) (hstop' : stop = false → s.isStopped = false) :
    Queue ls' { s with calls := s.calls.set c x, isStopped := stop } := by
  refine ⟨fun h => hi.obs (hsub.mp h), hi.mine, ?_, ?_, ?_, ?_⟩
  · intro c' m hm
    dsimp only at hm ⊢
    rw [List.getElem?_set] at hm
    split at hm
    · split at hm
      · exact absurd (Option.some.inj hm) (hx m)
      · cases hm
    · exact hi.sending c' m hm
  · simpa using hi.served
  · intro h1 h2
    simpa using hi.next (hsub.mp h1) (hstop' h2)
  · intro h
    rcases hstop h with h | h
    · exact hi.over h
    · obtain ⟨o, ho⟩ := hi.sending c n hc
      exact ⟨_, ho, h⟩

theorem queue_run {ls : List (Label α)} {s : State α} (hr : LTS.run step init ls = some s) (ht : Tidy ls) : Queue ls s := by
  refine LTS.inv_reach (step := step) (fun (ls : List (Label α)) s => Tidy ls → Queue ls s) ?_ ?_ hr ht
  · intro _
    exact ⟨by simp [Subscribed], by simp [init], by simp [init], ⟨0, by simp [init]⟩, by simp [Subscribed], by simp [init]⟩
  intro ls s l s' hr hi h ht
  have ht0 := ht.of_snoc
  have hi := hi ht0
  have hdis : s.isDisposed = false := by
    cases h : s.isDisposed with
    | false => rfl
    | true => exact absurd ((disposed_iff hr).mp h) ht0.kept
  have hinv := inv_run hr
  have calm := calm_run hr ht0.kept
  obtain ⟨-, hwc, hwd⟩ := placed_run hr ht0.kept ht0.patient
  obtain ⟨k, hk, hkl⟩ := hi.served
  obtain ⟨-, h⟩ := step_cases h
  rcases h with ⟨n, x, lg, rfl, ho, rfl⟩ | ⟨c, rd, n, x, lg, rfl, hrd, hc, ho, rfl⟩ | ⟨c, n, rfl, hc, rfl⟩ |
    ⟨c, n, e, rfl, hc, rfl⟩ | ⟨c, n, rfl, hc, rfl⟩ | ⟨c, n, rfl, hc, rfl⟩ | ⟨o, rfl, hd, rfl⟩ |
    ⟨o, rfl, hd, hw, rfl⟩ | ⟨o, rfl, hd, hw, rfl⟩ | ⟨rfl, rfl⟩
  · -- a call
    have hready : s.ready = [] := ht.turn ls n [] rfl s hr
    have hsub : Subscribed (ls ++ [Label.call n]) ↔ Subscribed ls := by rw [subscribed_snoc]; simp
    have hlt : ∀ (c : Nat) m, (s.calls ++ [x])[c]? = some (.sending m) → c < s.calls.length ∧ s.calls[c]? = some (.sending m) ∨
        c = s.calls.length ∧ x = .sending m := by
      intro c m h
      rw [List.getElem?_append] at h
      split at h
      · exact .inl ⟨‹_›, h⟩
      · next hge =>
        rw [List.getElem?_singleton] at h
        split at h
        · exact .inr ⟨by omega, Option.some.inj h⟩
        · cases h
    cases ho with
    | sent o h1 h2 =>
      have hs : Subscribed ls := by
        refine Classical.byContradiction fun hn => ?_
        have := (hinv.fresh hn).2.2
        rw [h1] at this; cases this
      have ho := hi.obs hs
      rw [h1] at ho; cases ho
      have hall := hi.next hs h2
      rw [hready, List.append_nil] at hall
      refine ⟨fun _ => h1, ?_, ?_, ⟨s.calls.length + 1, ?_, by simp⟩, ?_, ?_⟩
      · intro y hy
        rcases List.mem_append.mp hy with hy | hy
        · exact hi.mine y hy
        · simp at hy; subst hy; rfl
      · intro c m hm
        rcases hlt c m hm with ⟨-, hm'⟩ | ⟨rfl, hm'⟩
        · obtain ⟨o, ho⟩ := hi.sending c m hm'; exact ⟨o, by simp [ho]⟩
        · cases hm'; exact ⟨0, by simp⟩
      · simp [hall, List.range_succ]
      · intro _ _; simp [hall, hready, List.range_succ]
      · intro h; dsimp only at h; rw [h2] at h; cases h
    | dropped h1 =>
      refine ⟨fun h => hi.obs (hsub.mp h), by simpa using hi.mine, ?_, ⟨k, by simpa using hk, by simp; omega⟩, ?_, by simpa using hi.over⟩
      · intro c m hm
        rcases hlt c m hm with ⟨-, hm'⟩ | ⟨rfl, hm'⟩
        · simpa using hi.sending c m hm'
        · cases hm'
      · intro _ h; dsimp only at h; rw [h1] at h; cases h
    | disposed h1 => rw [hdis] at h1; cases h1
    | wait h1 h2 =>
      have hns : ¬ Subscribed ls := hinv.unsub h2 hdis
      refine ⟨fun h => absurd (hsub.mp h) hns, by simpa using hi.mine, ?_, ⟨k, by simpa using hk, by simp; omega⟩, fun h => absurd (hsub.mp h) hns,
        by simpa using hi.over⟩
      intro c m hm
      rcases hlt c m hm with ⟨-, hm'⟩ | ⟨rfl, hm'⟩
      · simpa using hi.sending c m hm'
      · cases hm'
    | spin h1 h2 => exact absurd h1 (calm.wait h2)
    | cancelled h1 h2 => exact absurd h2 hwc
  · -- one who was woken
    have hsub : Subscribed (ls ++ [Label.wake (α := α)]) ↔ Subscribed ls := by rw [subscribed_snoc]; simp
    have hs : Subscribed ls := by
      refine Classical.byContradiction fun hn => ?_
      have := (hinv.fresh hn).2.1
      rw [hrd] at this; cases this
    have hobs := hi.obs hs
    have hcl := (List.getElem?_eq_some_iff.mp hc).1
    have hset : ∀ (c' : Nat) m, (s.calls.set c x)[c']? = some (.sending m) → s.calls[c']? = some (.sending m) ∨ c' = c ∧ x = .sending m := by
      intro c' m h
      rw [List.getElem?_set] at h
      split at h
      · exact .inr ⟨by omega, Option.some.inj h⟩
      · exact .inl h
    cases ho with
    | sent o h1 h2 =>
      rw [h1] at hobs; cases hobs
      have hall := hi.next hs h2
      rw [hrd, hk] at hall
      have hck : c = k := by
        have := congrArg (fun l : List Nat => l[k]?) hall
        simp at this
        rw [List.getElem?_range] at this
        · simpa using this
        · have := congrArg List.length hall; simp at this; omega
      have hlen := congrArg List.length hall
      simp at hlen
      refine ⟨fun _ => h1, ?_, ?_, ⟨k + 1, ?_, by simp; omega⟩, ?_, ?_⟩
      · intro y hy
        rcases List.mem_append.mp hy with hy | hy
        · exact hi.mine y hy
        · simp at hy; subst hy; rfl
      · intro c' m hm
        rcases hset c' m hm with hm' | ⟨rfl, hm'⟩
        · obtain ⟨o, ho⟩ := hi.sending c' m hm'; exact ⟨o, by simp [ho]⟩
        · cases hm'; exact ⟨0, by simp⟩
      · simp [hk, hck, List.range_succ]
      · intro _ _
        simp only [List.map_append, List.map_cons, List.map_nil, List.length_set, hk, List.append_assoc, List.singleton_append]
        exact hall
      · intro h; dsimp only at h; rw [h2] at h; cases h
    | dropped h1 =>
      refine ⟨fun h => hi.obs (hsub.mp h), by simpa using hi.mine, ?_, ⟨k, by simpa using hk, by simpa using hkl⟩, ?_, by simpa using hi.over⟩
      · intro c' m hm
        rcases hset c' m hm with hm' | ⟨-, hm'⟩
        · simpa using hi.sending c' m hm'
        · cases hm'
      · intro _ h; dsimp only at h; rw [h1] at h; cases h
    | disposed h1 => rw [hdis] at h1; cases h1
    | wait h1 h2 => rw [hobs] at h1; cases h1
    | spin h1 h2 => rw [hobs] at h1; cases h1
    | cancelled h1 h2 => rw [hobs] at h1; cases h1
  · refine queue_set hi (by rw [subscribed_snoc]; simp) hc (by simp) ?_ ?_
    · intro h; simpa using h
    · intro h; simp at h; exact h.1
  · exact queue_set hi (by rw [subscribed_snoc]; simp) hc (by simp) .inl id
  · exact absurd ⟨c, by simp⟩ ht.patient
  · exact absurd ⟨c, by simp⟩ ht.patient
  · rw [hdis] at hd; cases hd
  · -- the subscription
    have ho : o = 0 := ht.one o (by simp)
    subst ho
    have hns : ¬ Subscribed ls := hinv.unsub hw hdis
    obtain ⟨h1, h2⟩ := C12_held hr hns
    obtain ⟨-, hready, -⟩ := hinv.fresh hns
    have hwaits := h2 ht0.kept ht0.patient
    have hnone : ∀ (c : Nat) m, s.calls[c]? ≠ some (.sending m) := by
      intro c m h
      obtain ⟨o, ho⟩ := hi.sending c m h
      rw [h1] at ho; cases ho
    have hst : s.isStopped = false := by
      cases h : s.isStopped with
      | false => rfl
      | true => obtain ⟨x, hx, -⟩ := hi.over h; rw [h1] at hx; cases hx
    refine ⟨fun _ => rfl, hi.mine, ?_, ⟨k, hk, by simpa using hkl⟩, ?_, hi.over⟩
    · intro c m hm
      dsimp only at hm
      rw [List.getElem?_map] at hm
      cases hx : s.calls[c]? with
      | none => rw [hx] at hm; cases hm
      | some y =>
        rw [hx] at hm
        cases y <;> simp [Call.wake] at hm
        subst hm
        exact absurd hx (hnone c _)
    · intro _ _
      simp only [h1, List.map_nil, List.nil_append, hready, List.length_map]
      rw [State.waiters]
      refine List.filter_eq_self.mpr fun c hc => ?_
      obtain ⟨m, -, hm⟩ := hwaits c (by rw [← hinv.len]; simpa using hc)
      rw [hm]; rfl
  · -- again, the same observer
    have ho : o = 0 := ht.one o (by simp)
    subst ho
    have hs : Subscribed ls ∨ ¬ Subscribed ls := Classical.em _
    rcases hs with hs | hs
    · exact ⟨fun _ => rfl, hi.mine, hi.sending, hi.served, fun _ h => hi.next hs h, hi.over⟩
    · exfalso
      have hcase : s.wait = .done := by cases h : s.wait <;> simp_all
      have := calm.wait hcase
      exact this (hinv.fresh hs).2.2
  · exact absurd (by simp [Disposed]) ht.kept

theorem Proper.tidy {ls : List (Label α)} (h : Proper ls) : Tidy ls := ⟨h.one, h.kept, h.patient, h.turn⟩

/-- What the observer has been told. -/
theorem out_eq {ls : List (Label α)} {s : State α} (hr : LTS.run step init ls = some s) (ht : Tidy ls) :
    ∃ k, k ≤ (made ls).length ∧ (source α).out s = (made ls).take k ∧ s.log.map (·.1) = List.range k := by
  have hq := queue_run hr ht
  have hinv := inv_run hr
  obtain ⟨k, hk, hkl⟩ := hq.served
  refine ⟨k, by rw [← hinv.len]; exact hkl, ?_, hk⟩
  have h1 : (source α).out s = s.log.map (·.2.2) := by
    simp only [source]
    have : ∀ l : List (Nat × Nat × Notif α), (∀ x ∈ l, x.2.1 = 0) →
        l.filterMap (fun x => if x.2.1 = 0 then some x.2.2 else none) = l.map (·.2.2) := by
      intro l
      induction l with
      | nil => intro _; rfl
      | cons x l ih =>
        intro h
        rw [List.filterMap_cons, if_pos (h x (by simp))]
        simp [ih fun y hy => h y (by simp [hy])]
    exact this _ hq.mine
  rw [h1]
  have hlen : s.log.length = k := by have := congrArg List.length hk; simpa using this
  have hidx : ∀ (i : Nat) x, s.log[i]? = some x → x.1 = i := by
    intro i x hx
    have := congrArg (fun l : List Nat => l[i]?) hk
    simp [hx] at this
    have hi := (List.getElem?_eq_some_iff.mp hx).1
    rw [List.getElem?_range (by omega)] at this
    simpa using this
  refine List.ext_getElem? fun i => ?_
  rw [List.getElem?_map, List.getElem?_take]
  split
  · next hi =>
    cases hx : s.log[i]? with
    | none => rw [List.getElem?_eq_none_iff] at hx; omega
    | some x =>
      have h2 := hinv.logged x (List.mem_of_getElem? hx)
      rw [hidx i x hx] at h2
      rw [h2]; rfl
  · next hi => rw [List.getElem?_eq_none (by omega)]; rfl

/-- In a stream that keeps the grammar nothing comes after the end. -/
theorem take_ended {ns : List (Notif α)} (hg : Grammar ns) {k : Nat} {x : Notif α} (hx : x ∈ ns.take k) (ht : x.isTerminal = true) :
    ns.take k = ns := by
  obtain ⟨⟨vs, f⟩, rfl⟩ := hg
  rcases Nat.lt_or_ge k (Story.events ⟨vs, f⟩).length with h | h
  · exfalso
    have hk : k ≤ vs.length := by cases f <;> simp [Story.events, Spec.End.events] at h <;> omega
    simp only [Story.events] at hx
    rw [List.take_append_of_le_length (by simpa using hk), ← List.map_take] at hx
    obtain ⟨v, -, rfl⟩ := List.mem_map.mp hx
    cases ht
  · exact List.take_of_length_le h

theorem source_sends : (source α).Sends (fun ls _ => Proper ls) Caught (fun ls => story (made ls)) := by
  have hev : ∀ {ls : List (Label α)}, Proper ls → (story (made ls)).events = made ls := fun h => Spec.cut_of_grammar h.grammar
  refine ⟨fun ls s hr hp => ?_, fun ls s hr hp hc => ?_⟩
  · obtain ⟨k, -, ho, -⟩ := out_eq hr hp.tidy
    rw [hev hp, ho]
    exact List.take_prefix _ _
  · obtain ⟨k, hk, ho, hl⟩ := out_eq hr hp.tidy
    have hq := queue_run hr hp.tidy
    rw [hev hp, ho]
    cases hst : s.isStopped with
    | false =>
      have := hq.next hc.1 hst
      rw [hc.2, List.append_nil, hl, (inv_run hr).len] at this
      have := congrArg List.length this
      simp at this
      rw [List.take_of_length_le (by omega)]
    | true =>
      obtain ⟨x, hx, ht⟩ := hq.over hst
      refine take_ended hp.grammar (x := x.2.2) ?_ ht
      rw [← ho]
      simp only [source, List.mem_filterMap]
      exact ⟨x, hx, by simp [hq.mine x hx]⟩

/-! ## the claims -/

/-- C163: whatever the operators are, at any time the final observer has got an initial part of what they make of what has been sent to
the subject, before or after the subscription; and all of it when those who waited for the subscription have gone on and the workers are
at rest. -/
theorem C163_pipe {op : Operator α γ} {G : Story α → Story γ} (hG : op.Computes G) :
    ((source α).pipe op.direct).Sends (fun ls _ => Proper (Piped.sources ls))
      (fun ls s => Caught (Piped.sources ls) s.src ∧ op.direct.slowProc.Quiescent s.ps)
      (fun ls => G (story (made (Piped.sources ls)))) :=
  C101_pipe source_grows hG.direct (fun _ h => h) source_sends.posts
    (fun _ s hr hp => Spec.grammar_prefix (source_sends.prefix_ _ s hr hp) ⟨_, rfl⟩)

/-- C163, progress: from any such state everything gets there, with nothing but those who were woken, one after the other, and the
workers. -/
theorem C163_gets_there {op : Operator α γ} {G : Story α → Story γ} (hG : op.Computes G) {ls : List (Piped.Label (Label α) op.direct)}
    {s : Piped.State (State α) op.direct} (hr : LTS.run ((source α).pipe op.direct).step ((source α).pipe op.direct).init ls = some s)
    (hp : Proper (Piped.sources ls)) (hs : Subscribed (Piped.sources ls)) :
    ∃ (k : Nat) (ws : List op.direct.compileSlow.SlowLab) (s' : Piped.State (State α) op.direct), LTS.run ((source α).pipe op.direct).step s ((List.replicate k (.source .wake)) ++ ws.map .worker) = some s' ∧
      s'.outs = (G (story (made (Piped.sources ls)))).events := by
  have key : ∀ m (ls : List (Piped.Label (Label α) op.direct)) (s : Piped.State (State α) op.direct),
      LTS.run ((source α).pipe op.direct).step ((source α).pipe op.direct).init ls = some s →
      Proper (Piped.sources ls) → Subscribed (Piped.sources ls) → s.src.ready.length = m →
      ∃ (k : Nat) (ws : List op.direct.compileSlow.SlowLab) (s' : Piped.State (State α) op.direct), LTS.run ((source α).pipe op.direct).step s ((List.replicate k (.source .wake)) ++ ws.map .worker) = some s' ∧
        s'.outs = (G (story (made (Piped.sources ls)))).events := by
    intro m
    induction m using Nat.strongRecOn with
    | ind m ih =>
      intro ls s hr hp hs hm
      have hsrc := (Piped.split source_grows hr).1
      by_cases hre : s.src.ready = []
      · obtain ⟨-, -, -, ws, s', h1, h2, h3⟩ := C101_delivers source_grows hG.direct hr
          (Spec.grammar_prefix (source_sends.prefix_ _ _ hsrc hp) ⟨_, rfl⟩)
        refine ⟨0, ws, s', by rw [List.replicate_zero, List.nil_append]; exact h1, ?_⟩
        have hrun := LTS.run_append.mpr ⟨s, hr, h1⟩
        have hso : Piped.sources (ls ++ ws.map .worker) = Piped.sources ls := by
          simp [Piped.sources]
        have := (C163_pipe hG).all _ s' hrun (by rw [hso]; exact hp) (by rw [hso, h2]; exact ⟨⟨hs, hre⟩, h3⟩)
        rw [hso] at this
        exact this
      · obtain ⟨t, h1, h2⟩ := C12_progress hsrc hp.kept hre
        obtain ⟨s1, h3, h4⟩ : ∃ s1, ((source α).pipe op.direct).step s (.source .wake) = some s1 ∧ s1.src = t := by
          have h1' : (source α).step s.src .wake = some t := h1
          simp only [Source.pipe, Piped.step, h1']
          exact ⟨_, rfl, rfl⟩
        have hrun := LTS.run_append.mpr ⟨s, hr, LTS.run_cons.mpr ⟨s1, h3, (rfl : LTS.run _ s1 [] = some s1)⟩⟩
        have hso : Piped.sources (ls ++ [.source .wake]) = Piped.sources ls ++ [.wake] := by simp [Piped.sources]
        have hmade : made (Piped.sources ls ++ [.wake]) = made (Piped.sources ls) := by rw [made_snoc]; simp
        have hp' : Proper (Piped.sources ls ++ [.wake]) := by
          refine ⟨fun o ho => hp.one o (by simpa using ho), fun h => hp.kept (by simpa [Disposed] using h), fun ⟨c, hc⟩ => hp.patient ⟨c, by simpa using hc⟩,
            ?_, by rw [hmade]; exact hp.grammar⟩
          intro a n b he s0 hs0
          rcases List.eq_nil_or_concat b with rfl | ⟨b', l, rfl⟩
          · have := congrArg List.getLast? he; simp at this
          · rw [List.concat_eq_append] at he
            have he' : Piped.sources ls = a ++ .call n :: b' := by
              have h := congrArg List.dropLast he
              rw [List.dropLast_concat] at h
              rw [show a ++ Label.call n :: (b' ++ [l]) = (a ++ .call n :: b') ++ [l] by simp, List.dropLast_concat] at h
              exact h
            exact hp.turn a n b' he' s0 hs0
        obtain ⟨k, ws, s', g1, g2⟩ := ih s1.src.ready.length (by rw [h4, ← hm]; exact h2) _ s1 hrun (by rw [hso]; exact hp')
          (by rw [hso, subscribed_snoc]; exact .inl hs) rfl
        refine ⟨k + 1, ws, s', ?_, ?_⟩
        · rw [List.replicate_succ]
          exact LTS.run_cons.mpr ⟨s1, h3, g1⟩
        · rw [g2, hso, hmade]
  exact key _ ls s hr hp hs rfl

/-- C163 for `run(pipe(subject, op))`: it returns (or raises) what the stream that was sent makes, whenever it was sent. -/
theorem C163_run {op : Operator α γ} {G : Story α → Story γ} (hG : op.Computes G)
    {ls : List (Running.Label (Piped.Label (Label α) op.direct) γ)} {s : Running.State (Piped.State (State α) op.direct) γ}
    (hr : LTS.run (Running.step ((source α).pipe op.direct)) (Running.init ((source α).pipe op.direct)) ls = some s) (hpa : Running.Patient ls)
    (hp : Proper (Piped.sources (Running.sources ls))) :
    (∀ o, s.run.phase = .done o → verdict (G (story (made (Piped.sources (Running.sources ls))))) = some o) ∧
    (∀ o, Caught (Piped.sources (Running.sources ls)) s.src.src → op.direct.slowProc.Quiescent s.src.ps →
      verdict (G (story (made (Piped.sources (Running.sources ls))))) = some o →
      ∃ (ms : List (RunUntil.Label γ)) (s' : Running.State (Piped.State (State α) op.direct) γ),
        (∀ m ∈ ms, m = .subscribed ∨ m = .resume ∨ m = .disposed) ∧
        LTS.run (Running.step ((source α).pipe op.direct)) s (ms.map .main) = some s' ∧ s'.run.phase = .done o) := by
  obtain ⟨h1, h2⟩ := Running.C102_run (Source.pipe_grows (source α) op.direct) (C163_pipe hG).posts hr hpa hp
  exact ⟨h1, fun o a b c => h2 o ⟨a, b⟩ c⟩

/-! ## non-vacuity -/

/-- Is it a schedule in which calls come in turn? (For the examples.) -/
def inTurn (s : State α) : List (Label α) → Bool
  | [] => true
  | l :: ls =>
    (match l with | .call _ => s.ready.isEmpty | _ => true) &&
    (match step s l with | some t => inTurn t ls | none => true)

theorem inTurn_sound {ls : List (Label α)} : ∀ {s : State α}, inTurn s ls = true →
    ∀ a n b, ls = a ++ .call n :: b → ∀ t, LTS.run step s a = some t → t.ready = [] := by
  induction ls with
  | nil => intro s _ a n b h; simp at h
  | cons l ls ih =>
    intro s h a n b he t hr
    simp only [inTurn, Bool.and_eq_true] at h
    cases a with
    | nil =>
      simp only [List.nil_append, List.cons.injEq] at he
      obtain ⟨rfl, -⟩ := he
      simp only [LTS.run, Option.some.injEq] at hr
      subst hr
      simpa using h.1
    | cons l' a =>
      simp only [List.cons_append, List.cons.injEq] at he
      obtain ⟨rfl, he⟩ := he
      obtain ⟨s1, h1, h2⟩ := LTS.run_cons.mp hr
      rw [h1] at h
      exact ih h.2 a n b he t h2

/-- Two values are sent before anybody has subscribed, one and the completion afterwards. -/
def early2 : List (Label Nat) :=
  [.call (.next 1), .call (.next 2), .subscribe 0, .wake, .ret 0, .wake, .ret 1, .call (.next 3), .ret 2, .call .completed, .ret 3]

theorem early2_proper : Proper early2 :=
  ⟨by intro o h; simpa [early2] using h, by simp [Disposed, early2], by simp [Cancelled, early2], inTurn_sound (by decide),
    ⟨⟨[1, 2, 3], .done⟩, rfl⟩⟩
example : (LTS.run step init early2).map (fun s => (s.ready, (source Nat).out s)) =
    some ([], [.next 1, .next 2, .next 3, .completed]) := by decide
-- through `skip(1)`
example : ∃ (ls : List (Piped.Label (Label Nat) (skip 1 : Operator Nat Nat).direct)) (s : Piped.State (State Nat) _),
    LTS.run ((source Nat).pipe (skip 1 : Operator Nat Nat).direct).step ((source Nat).pipe (skip 1 : Operator Nat Nat).direct).init
      (early2.map .source ++ ls) = some s ∧ s.outs = [.next 2, .next 3, .completed] := by
  obtain ⟨s, hs⟩ := Option.isSome_iff_exists.mp (show (LTS.run ((source Nat).pipe (skip 1 : Operator Nat Nat).direct).step
    ((source Nat).pipe (skip 1 : Operator Nat Nat).direct).init (early2.map .source)).isSome = true by decide)
  obtain ⟨k, ws, s', h1, h2⟩ := C163_gets_there (C45_skip 1) hs early2_proper ⟨0, by decide⟩
  exact ⟨_, s', LTS.run_append.mpr ⟨s, hs, h1⟩, h2⟩
-- why "in turn": a call that comes between the two that were woken overtakes the second of them
example : (LTS.run step init [.call (.next 1), .call (.next 2), .subscribe 0, .wake, .call (.next 3), .wake]).map (source Nat).out =
    some [.next 1, .next 3, .next 2] := by decide

end Aio.Single
