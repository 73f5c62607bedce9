import Verif.Lemmas.Hosted
import Verif.Lemmas.Timed
/-!
# The parts of hosted pipelines
-/

namespace Aio
variable {S S₁ S₂ L L₁ L₂ T T₁ T₂ M N W P α β γ : Type}

theorem Clocked.driven_lawful (t0 : Nat) : (Clocked.driven t0 : Clocked _ _ α).Lawful where
  init := rfl
  act := by
    intro ls s l t _ h
    cases h
    exact ⟨rfl, [l], rfl⟩
  pass := by
    intro ls s d t _ h
    cases h
    exact ⟨rfl, rfl⟩

theorem Clocked.drivenHost_lawful (t0 : Nat) : (Clocked.drivenHost (α := α)).Lawful (Clocked.driven t0) where
  clock := Clocked.driven_lawful t0
  names {_ t} := nomatch t
  turn {_ t} := nomatch t
  outside := fun _ _ _ t => nomatch t
  pass := fun _ _ => ⟨_, rfl, fun t => nomatch t⟩

namespace Interval
variable {t0 : Nat} {seconds period : Int}

theorem host_cancelling {s : State} (hr : host.Reach (clocked true t0 seconds period) s) : s.cancelling = false := by
  obtain ⟨ls, hr, ho⟩ := hr
  have tick : ∀ d s s', LTS.run (promptStep seconds period) s (List.replicate d .tick) = some s' → s'.cancelling = s.cancelling := by
    intro d
    induction d with
    | zero => intro s s' h; cases h; rfl
    | succ d ih =>
      intro s s' h
      rw [List.replicate_succ] at h
      obtain ⟨s1, h1, h2⟩ := LTS.run_cons.mp h
      simp only [promptStep] at h1
      split at h1
      · cases h1
      · cases h1; exact ih { s with now := s.now + 1 } _ h2
  refine LTS.inv_hist (step := (clocked true t0 seconds period).step) (s0 := (clocked true t0 seconds period).init)
    (fun ls s => (∀ l, Time.act l ∈ ls → host.Own l) → s.cancelling = false) (fun _ => rfl) ?_ hr ho
  intro ls s l s' ih hs ho
  have ih := ih fun l hl => ho l (List.mem_append_left _ hl)
  cases l with
  | pass d => exact (tick d s s' hs).trans ih
  | act l =>
    have hl : l = .start ∨ l = .wake ∨ l = .ret := by
      rcases ho l (by simp) with h | ⟨s1, t, h⟩
      · cases h
      · simp only [host] at h
        split at h <;> simp at h <;> simp [h]
    simp only [Clocked.step, clocked] at hs
    rcases hl with rfl | rfl | rfl <;> simp only [reduceCtorEq, if_false, step] at hs
    · split at hs
      · split at hs <;> cases hs
        · rfl
        · exact ih
      · cases hs
    · split at hs
      · split at hs <;> cases hs
        exact ih
      · cases hs
    · split at hs
      · cases hs; simp only [afterSend]; split <;> exact ih
      · cases hs; exact ih
      · cases hs

theorem host_lawful : host.Lawful (clocked true t0 seconds period) where
  clock := clocked_lawful true t0 seconds period
  names := by intro s t _ _; simp [host]
  turn := by
    intro s t hr hd
    have hc := host_cancelling hr
    have alone : ∀ s' (t' : Unit) (w : Nat), t' ≠ t → (host.need s' t' = .until w → host.need s t' = .until w) :=
      fun _ t' _ hne => absurd rfl hne
    have : ∃ s', LTS.run (clocked true t0 seconds period).act s (host.turn s t) = some s' := by
      simp only [host] at hd ⊢
      cases hpc : s.pc with
      | fresh => simp [LTS.run, clocked, step, hpc, hc]
      | sleeping w n =>
        rw [hpc] at hd
        have : w ≤ s.now := hd w rfl
        simp [LTS.run, clocked, step, hpc, hc, this]
      | sending n => simp [LTS.run, clocked, step, hpc]
      | closing => simp [LTS.run, clocked, step, hpc]
      | dead => simp [LTS.run]
    obtain ⟨s', h⟩ := this
    exact ⟨s', h, alone s'⟩
  outside := by intro s l s' _ h; cases h
  pass := by
    intro s d hr hd
    have hc := host_cancelling hr
    have hd := hd ()
    have key : ∀ d s, s.cancelling = false → (s.pc = .dead ∨ ∃ w n, s.pc = .sleeping w n ∧ s.now + d ≤ w) →
        ∃ s', LTS.run (promptStep seconds period) s (List.replicate d .tick) = some s' ∧ s'.pc = s.pc := by
      intro d
      induction d with
      | zero => intro s _ _; exact ⟨s, rfl, rfl⟩
      | succ d ih =>
        intro s hc h
        obtain ⟨s', h1, h2⟩ := ih { s with now := s.now + 1 } hc (h.imp id fun ⟨w, n, h1, h2⟩ => ⟨w, n, h1, by dsimp only; omega⟩)
        refine ⟨s', ?_, h2⟩
        rw [List.replicate_succ]
        refine LTS.run_cons.mpr ⟨_, ?_, h1⟩
        have hb : busy s = false := by
          rcases h with h | ⟨w, n, h, hw⟩
          · simp [busy, h]
          · simp [busy, h, hc]; omega
        simp [promptStep, hb, step]
    have : s.pc = .dead ∨ ∃ w n, s.pc = .sleeping w n ∧ s.now + d ≤ w := by
      simp only [host] at hd
      cases hpc : s.pc <;> rw [hpc] at hd <;> simp at hd
      · exact .inr ⟨_, _, rfl, hd⟩
      · exact .inl rfl
    obtain ⟨s', h1, h2⟩ := key d s hc this
    exact ⟨s', h1, fun t => by simp only [host, h2]⟩

end Interval

/-- What the tasks of a stage have to satisfy. -/
structure Stage.Host.Lawful (O : Stage.Host P M N) (o : Stage P M α β) : Prop where
  names : ∀ {s n}, O.need s n ≠ .nothing → n ∈ O.names s
  turn : ∀ {s n}, (∀ w, O.need s n = .until w → w ≤ o.now s) → (∀ m ∈ O.turn s n, o.own m = true) ∧
    ∃ s', LTS.run o.step s (O.turn s n) = some s' ∧ ∀ n' w, n' ≠ n → (O.need s' n' = .until w → O.need s n' = .until w)
  event : ∀ s e, ∃ s', o.step s (o.event e) = some s' ∧ ∀ n w, O.need s' n = .until w → O.need s n = .until w
  tick : ∀ {s d}, (∀ n, match O.need s n with | .nothing => True | .soon => False | .until w => o.now s + d ≤ w) →
    ∃ s', o.step s (o.tick d) = some s' ∧ ∀ n, O.need s' n = O.need s n

theorem Debounce.host_lawful (seconds : Nat) : (Debounce.host (α := α)).Lawful (Debounce.stage true seconds) where
  names := by
    intro s n hn
    cases n with
    | none => simp [host]
    | some k =>
      simp only [host] at hn ⊢
      cases hk : s.timers[k]? with
      | none => rw [hk] at hn; exact absurd rfl hn
      | some x =>
        have := (List.getElem?_eq_some_iff.mp hk).1
        simp [this]
  turn := by
    intro s n hd
    cases n with
    | none =>
      cases hi : s.inbox with
      | nil => exact ⟨by simp [host, hi], s, by simp [host, hi, LTS.run], fun _ _ _ h => h⟩
      | cons m rest =>
        have ht : host.turn s none = [.receive] := by simp [host, hi]
        rw [ht]
        refine ⟨by simp [stage], ?_⟩
        simp only [stage, if_true, LTS.run, promptStep, prompt, step, hi]
        refine ⟨_, rfl, ?_⟩
        intro n' w hne
        cases n' with
        | none => exact absurd rfl hne
        | some k => exact id
    | some k =>
      simp only [host] at hd ⊢
      cases hk : s.timers[k]? with
      | none => exact ⟨by simp, s, rfl, fun _ _ _ h => h⟩
      | some x =>
        obtain ⟨n, tm⟩ := x
        have other : ∀ (x : Notif α × Timer) (j : Nat), j ≠ k → (s.timers.set k x)[j]? = s.timers[j]? := by
          intro x j hj; rw [List.getElem?_set_ne (fun h => hj h.symm)]
        cases tm with
        | fresh =>
          refine ⟨by simp [stage], ?_⟩
          simp only [stage, if_true, LTS.run, promptStep, prompt, step, hk]
          refine ⟨_, rfl, ?_⟩
          intro n' w hne
          cases n' with
          | none => exact id
          | some j => dsimp only; rw [other _ j (fun h => hne (by rw [h]))]; exact id
        | sleeping w =>
          rw [hk] at hd
          have hw : w ≤ s.now := hd w rfl
          refine ⟨by simp [stage], ?_⟩
          simp only [stage, if_true, LTS.run, promptStep, prompt, step, hk, if_pos hw]
          refine ⟨_, rfl, ?_⟩
          intro n' w hne
          cases n' with
          | none => dsimp only; split <;> split <;> simp
          | some j => dsimp only; rw [other _ j (fun h => hne (by rw [h]))]; exact id
        | done => exact ⟨by simp, s, rfl, fun _ _ _ h => h⟩
  event := by
    intro s e
    refine ⟨_, rfl, ?_⟩
    intro n w
    cases n with
    | none => simp only [host]; split <;> split <;> simp
    | some k =>
      simp only [host]
      rcases Nat.lt_trichotomy k s.timers.length with h | h | h
      · rw [List.getElem?_append_left h]; exact id
      · subst h; simp
      · rw [List.getElem?_eq_none (by simp; omega), List.getElem?_eq_none (by omega)]; exact id
  tick := by
    intro s d hc
    have hp : prompt s (.tick d) = true := by
      simp only [prompt, Bool.and_eq_true, List.isEmpty_iff, List.all_eq_true]
      constructor
      · have := hc none
        simp only [host] at this
        by_cases hi : s.inbox = []
        · exact hi
        · rw [if_neg hi] at this; exact this.elim
      · intro x hx
        obtain ⟨k, hk⟩ := List.mem_iff_getElem?.mp hx
        have := hc (some k)
        simp only [host, hk] at this
        obtain ⟨n, tm⟩ := x
        cases tm with
        | fresh => exact this.elim
        | sleeping w => simpa [stage] using this
        | done => rfl
    refine ⟨{ s with now := s.now + d }, ?_, ?_⟩
    · simp only [stage, if_true, promptStep, if_pos hp, step]
    · intro n; cases n <;> rfl

namespace Host
variable {q : Clocked S L α} {H : Host S L T}

section through
variable {o : Stage P M α β} {O : Stage.Host P M N}

theorem through_reach (hq : q.Lawful) (ho : o.Lawful) {s : S × P} (hr : (H.through O).Reach (q.through o) s) : H.Reach q s.1 ∧ o.now s.2 = q.now s.1 := by
  obtain ⟨ls, h1, h2⟩ := hr
  obtain ⟨h3, h4⟩ := Clocked.clocks hq ho h1
  refine ⟨⟨_, h3, fun l hl => ?_⟩, h4⟩
  have : Time.act (Sum.inl l) ∈ ls := by
    obtain ⟨x, hx, he⟩ := List.mem_filterMap.mp hl
    match x with
    | .pass d => cases he
    | .act (.inl l') => cases he; exact hx
    | .act (.inr _) => cases he
  rcases h2 _ this with h | ⟨s1, t, h⟩
  · exact .inl h
  · right
    cases t with
    | inl t => simp only [through, List.mem_map] at h; obtain ⟨x, hx, he⟩ := h; cases he; exact ⟨s1.1, t, hx⟩
    | inr n => simp [through] at h

theorem through_left (hO : O.Lawful o) : ∀ {as : List L} {s s' : S} (p : P), LTS.run q.act s as = some s' →
    ∃ p', LTS.run (q.through o).act (s, p) (as.map .inl) = some (s', p') ∧ ∀ n w, O.need p' n = .until w → O.need p n = .until w
  | [], s, s', p, h => by cases h; exact ⟨p, rfl, fun _ _ => id⟩
  | a :: as, s, s', p, h => by
    obtain ⟨s1, h1, h2⟩ := LTS.run_cons.mp h
    have feed : ∀ (es : List (Notif α)) (p : P), ∃ p', LTS.run o.step p (es.map o.event) = some p' ∧ ∀ n w, O.need p' n = .until w → O.need p n = .until w := by
      intro es
      induction es with
      | nil => intro p; exact ⟨p, rfl, fun _ _ => id⟩
      | cons e es ih =>
        intro p
        obtain ⟨p1, g1, g2⟩ := hO.event p e
        obtain ⟨p2, g3, g4⟩ := ih p1
        exact ⟨p2, LTS.run_cons.mpr ⟨p1, g1, g3⟩, fun n w => g2 n w ∘ g4 n w⟩
    obtain ⟨p1, g1, g2⟩ := feed (((q.calls s1).drop (q.calls s).length).map (·.1)) p
    obtain ⟨p2, g3, g4⟩ := through_left hO p1 h2
    refine ⟨p2, LTS.run_cons.mpr ⟨(s1, p1), ?_, g3⟩, fun n w => g2 n w ∘ g4 n w⟩
    simp only [Clocked.through, h1]
    rw [List.map_map] at g1
    have : ((q.calls s1).drop (q.calls s).length).map (fun c => o.event c.1) = ((q.calls s1).drop (q.calls s).length).map (o.event ∘ (·.1)) := rfl
    rw [this, g1]; rfl

theorem through_right : ∀ {ms : List M} {p p' : P} (s : S), LTS.run o.step p ms = some p' → (∀ m ∈ ms, o.own m = true) →
    LTS.run (q.through o).act (s, p) (ms.map .inr) = some (s, p')
  | [], p, p', s, h, _ => by cases h; rfl
  | m :: ms, p, p', s, h, ho => by
    obtain ⟨p1, h1, h2⟩ := LTS.run_cons.mp h
    refine LTS.run_cons.mpr ⟨(s, p1), ?_, through_right s h2 fun x hx => ho x (List.mem_cons_of_mem _ hx)⟩
    simp only [Clocked.through, ho m (by simp), if_true, h1, Option.map_some]

theorem through_lawful (hH : H.Lawful q) (ho : o.Lawful) (hO : O.Lawful o) : (H.through O).Lawful (q.through o) where
  clock := Clocked.through_lawful hH.clock ho
  names := by
    intro s t hr hn
    obtain ⟨h1, h2⟩ := through_reach hH.clock ho hr
    cases t with
    | inl t => simp only [through, List.mem_append, List.mem_map]; exact .inl ⟨t, hH.names h1 hn, rfl⟩
    | inr n => simp only [through, List.mem_append, List.mem_map]; exact .inr ⟨n, hO.names hn, rfl⟩
  turn := by
    rintro ⟨s, p⟩ t hr hd
    obtain ⟨h1, h2⟩ := through_reach hH.clock ho hr
    cases t with
    | inl t =>
      obtain ⟨s', g1, g2⟩ := hH.turn (t := t) h1 hd
      obtain ⟨p', g3, g4⟩ := through_left hO p g1
      refine ⟨(s', p'), g3, fun t' w hne => ?_⟩
      cases t' with
      | inl t' => exact g2 t' w (fun h => hne (by rw [h]))
      | inr n => exact g4 n w
    | inr n =>
      obtain ⟨g0, p', g1, g2⟩ := hO.turn (s := p) (n := n) (fun w hw => by rw [h2]; exact hd w hw)
      refine ⟨(s, p'), through_right s g1 g0, fun t' w hne => ?_⟩
      cases t' with
      | inl t' => exact id
      | inr n' => exact g2 n' w (fun h => hne (by rw [h]))
  outside := by
    rintro ⟨s, p⟩ l ⟨s', p'⟩ hr hl ha t w
    obtain ⟨h1, h2⟩ := through_reach hH.clock ho hr
    cases l with
    | inr m => cases hl
    | inl l =>
      cases hs : q.act s l with
      | none => simp [Clocked.through, hs] at ha
      | some s1 =>
        obtain ⟨p1, g1, g2⟩ := through_left hO p (LTS.run_cons.mpr ⟨s1, hs, rfl⟩ : LTS.run q.act s [l] = some s1)
        have : (q.through o).act (s, p) (.inl l) = some (s1, p1) := by
          obtain ⟨x, h1, h2⟩ := LTS.run_cons.mp g1
          cases h2; exact h1
        rw [this] at ha; cases ha
        cases t with
        | inl t => exact hH.outside h1 hl hs t w
        | inr n => exact g2 n w
  pass := by
    rintro ⟨s, p⟩ d hr hc
    obtain ⟨h1, h2⟩ := through_reach hH.clock ho hr
    obtain ⟨s', g1, g2⟩ := hH.pass (d := d) h1 (fun t => hc (.inl t))
    obtain ⟨p', g3, g4⟩ := hO.tick (s := p) (d := d) (fun n => by
      have := hc (.inr n)
      dsimp only [through] at this
      cases hn : O.need p n with
      | nothing => trivial
      | soon => rw [hn] at this; exact this
      | «until» w => rw [hn] at this; dsimp only at h2 ⊢; rw [h2]; exact this)
    refine ⟨(s', p'), by simp only [Clocked.through, g1, g3, Option.map_some], fun t => ?_⟩
    cases t with
    | inl t => exact g2 t
    | inr n => exact g4 n

end through

section operate
variable {p : Proc P W (Notif α) (Notif β)} {workers : List W}

theorem operate_reach (hq : q.Lawful) {s : S × Timed P (Notif α) (Notif β)} (hr : (H.operate p workers).Reach (q.operate p) s) : H.Reach q s.1 := by
  obtain ⟨ls, h1, h2⟩ := hr
  obtain ⟨h3, _⟩ := Clocked.operate_source hq h1
  refine ⟨_, h3, fun l hl => ?_⟩
  have : Time.act (Sum.inl l) ∈ ls := by
    obtain ⟨x, hx, he⟩ := List.mem_filterMap.mp hl
    match x with
    | .pass d => cases he
    | .act (.inl l') => cases he; exact hx
    | .act (.inr _) => cases he
  rcases h2 _ this with h | ⟨s1, t, h⟩
  · exact .inl h
  · right
    cases t with
    | inl t => simp only [operate, List.mem_map] at h; obtain ⟨x, hx, he⟩ := h; cases he; exact ⟨s1.1, t, hx⟩
    | inr n => simp only [operate] at h; split at h <;> simp at h

theorem operate_left : ∀ {as : List L} {s s' : S} (u : Timed P (Notif α) (Notif β)), LTS.run q.act s as = some s' →
    ∃ u', LTS.run (q.operate p).act (s, u) (as.map .inl) = some (s', u')
  | [], s, s', u, h => by cases h; exact ⟨u, rfl⟩
  | a :: as, s, s', u, h => by
    obtain ⟨s1, h1, h2⟩ := LTS.run_cons.mp h
    obtain ⟨u2, g⟩ := operate_left (u.feed p (q.now s) (((q.calls s1).drop (q.calls s).length).map (·.1))) h2
    exact ⟨u2, LTS.run_cons.mpr ⟨(s1, _), by simp only [Clocked.operate, h1], g⟩⟩

theorem operate_lawful (hH : H.Lawful q) (hw : ∀ w, w ∈ workers) : (H.operate p workers).Lawful (q.operate p) where
  clock := Clocked.operate_lawful hH.clock p
  names := by
    intro s t hr hn
    cases t with
    | inl t => simp only [operate, List.mem_append, List.mem_map]; exact .inl ⟨t, hH.names (operate_reach hH.clock hr) hn, rfl⟩
    | inr n => simp only [operate, List.mem_append, List.mem_map]; exact .inr ⟨n, hw n, rfl⟩
  turn := by
    rintro ⟨s, u⟩ t hr hd
    have h1 := operate_reach hH.clock hr
    have idle : ∀ (u u' : Timed P (Notif α) (Notif β)) w v, (H.operate p workers).need (s, u') (.inr w) = .until v →
        (H.operate p workers).need (s, u) (.inr w) = .until v := by
      intro u u' w v; simp only [operate]; split <;> split <;> simp
    cases t with
    | inl t =>
      obtain ⟨s', g1, g2⟩ := hH.turn (t := t) h1 hd
      obtain ⟨u', g3⟩ := operate_left (p := p) u g1
      refine ⟨(s', u'), g3, fun t' w hne => ?_⟩
      cases t' with
      | inl t' => exact g2 t' w (fun h => hne (by rw [h]))
      | inr n => exact idle u u' n w
    | inr n =>
      cases hs : p.step u.ps n with
      | none =>
        refine ⟨(s, u), by simp [operate, hs, LTS.run], fun _ _ _ h => h⟩
      | some x =>
        refine ⟨(s, { u with ps := x.1, sent := u.sent ++ x.2.map fun o => (o, q.now s) }), ?_, fun t' w hne => ?_⟩
        · simp [operate, hs, LTS.run, Clocked.operate, Timed.work]
        · cases t' with
          | inl t' => exact id
          | inr n' => exact idle _ _ n' w
  outside := by
    rintro ⟨s, u⟩ l ⟨s', u'⟩ hr hl ha t w
    cases l with
    | inr m => cases hl
    | inl l =>
      cases hs : q.act s l with
      | none => simp [Clocked.operate, hs] at ha
      | some s1 =>
        simp only [Clocked.operate, hs, Option.some.injEq, Prod.mk.injEq] at ha
        obtain ⟨rfl, rfl⟩ := ha
        cases t with
        | inl t => exact hH.outside (operate_reach hH.clock hr) hl hs t w
        | inr n => simp only [operate]; split <;> split <;> simp
  pass := by
    rintro ⟨s, u⟩ d hr hc
    obtain ⟨s', g1, g2⟩ := hH.pass (d := d) (operate_reach hH.clock hr) (fun t => hc (.inl t))
    refine ⟨(s', u), by simp only [Clocked.operate, g1, Option.map_some], fun t => ?_⟩
    cases t with
    | inl t => exact g2 t
    | inr n => rfl

theorem operate_calm {s : S × Timed P (Notif α) (Notif β)} {d : Nat} (hc : (H.operate p workers).Calm (q.operate p) s d) : p.Quiescent s.2.ps := by
  intro w
  have := hc (.inr w)
  simp only [operate] at this
  cases hs : p.step s.2.ps w with
  | none => rfl
  | some x => simp [hs] at this

end operate

section two
variable {q₁ : Clocked S₁ L₁ α} {q₂ : Clocked S₂ L₂ β} {H₁ : Host S₁ L₁ T₁} {H₂ : Host S₂ L₂ T₂}
  {p : Proc P W (Notif α ⊕ Notif β) (Notif γ)} {workers : List W}

theorem two_reach (h₁ : q₁.Lawful) (h₂ : q₂.Lawful) (h0 : q₁.now q₁.init = q₂.now q₂.init) {s : S₁ × S₂ × Timed P (Notif α ⊕ Notif β) (Notif γ)}
    (hr : (H₁.two H₂ p workers).Reach (q₁.two q₂ p) s) : H₁.Reach q₁ s.1 ∧ H₂.Reach q₂ s.2.1 ∧ q₁.now s.1 = q₂.now s.2.1 := by
  obtain ⟨ls, h1, h2⟩ := hr
  obtain ⟨g1, g2, g3, -, -⟩ := Clocked.two_sources h₁ h₂ h0 h1
  refine ⟨⟨_, g1, fun l hl => ?_⟩, ⟨_, g2, fun l hl => ?_⟩, g3⟩
  · have : Time.act (Two.Label.left l) ∈ ls := by
      obtain ⟨x, hx, he⟩ := List.mem_filterMap.mp hl
      match x with
      | .pass d => cases he
      | .act (.left l') => cases he; exact hx
      | .act (.right _) => cases he
      | .act (.worker _) => cases he
    rcases h2 _ this with h | ⟨s1, t, h⟩
    · exact .inl h
    · right
      match t with
      | .inl t => simp only [two, List.mem_map] at h; obtain ⟨x, hx, he⟩ := h; cases he; exact ⟨s1.1, t, hx⟩
      | .inr (.inl t) => simp [two] at h
      | .inr (.inr n) => simp only [two] at h; split at h <;> simp at h
  · have : Time.act (Two.Label.right l) ∈ ls := by
      obtain ⟨x, hx, he⟩ := List.mem_filterMap.mp hl
      match x with
      | .pass d => cases he
      | .act (.left l') => cases he
      | .act (.right _) => cases he; exact hx
      | .act (.worker _) => cases he
    rcases h2 _ this with h | ⟨s1, t, h⟩
    · exact .inl h
    · right
      match t with
      | .inl t => simp [two] at h
      | .inr (.inl t) => simp only [two, List.mem_map] at h; obtain ⟨x, hx, he⟩ := h; cases he; exact ⟨s1.2.1, t, hx⟩
      | .inr (.inr n) => simp only [two] at h; split at h <;> simp at h

theorem two_left : ∀ {as : List L₁} {s s' : S₁} (r : S₂) (u : Timed P (Notif α ⊕ Notif β) (Notif γ)), LTS.run q₁.act s as = some s' →
    ∃ u', LTS.run (q₁.two q₂ p).act (s, r, u) (as.map .left) = some (s', r, u')
  | [], s, s', r, u, h => by cases h; exact ⟨u, rfl⟩
  | a :: as, s, s', r, u, h => by
    obtain ⟨s1, h1, h2⟩ := LTS.run_cons.mp h
    obtain ⟨u2, g⟩ := two_left r (u.feed p (q₁.now s) (((q₁.calls s1).drop (q₁.calls s).length).map fun c => .inl c.1)) h2
    exact ⟨u2, LTS.run_cons.mpr ⟨(s1, r, _), by simp only [Clocked.two, h1], g⟩⟩

theorem two_right : ∀ {as : List L₂} {r r' : S₂} (s : S₁) (u : Timed P (Notif α ⊕ Notif β) (Notif γ)), LTS.run q₂.act r as = some r' →
    ∃ u', LTS.run (q₁.two q₂ p).act (s, r, u) (as.map .right) = some (s, r', u')
  | [], r, r', s, u, h => by cases h; exact ⟨u, rfl⟩
  | a :: as, r, r', s, u, h => by
    obtain ⟨r1, h1, h2⟩ := LTS.run_cons.mp h
    obtain ⟨u2, g⟩ := two_right s (u.feed p (q₁.now s) (((q₂.calls r1).drop (q₂.calls r).length).map fun c => .inr c.1)) h2
    exact ⟨u2, LTS.run_cons.mpr ⟨(s, r1, _), by simp only [Clocked.two, h1], g⟩⟩

theorem two_lawful (hH₁ : H₁.Lawful q₁) (hH₂ : H₂.Lawful q₂) (h0 : q₁.now q₁.init = q₂.now q₂.init) (hw : ∀ w, w ∈ workers) :
    (H₁.two H₂ p workers).Lawful (q₁.two q₂ p) where
  clock := Clocked.two_lawful hH₁.clock hH₂.clock h0 p
  names := by
    intro s t hr hn
    obtain ⟨r1, r2, -⟩ := two_reach hH₁.clock hH₂.clock h0 hr
    simp only [two, List.mem_append, List.mem_map]
    match t with
    | .inl t => exact .inl ⟨t, hH₁.names r1 hn, rfl⟩
    | .inr (.inl t) => exact .inr (.inl ⟨t, hH₂.names r2 hn, rfl⟩)
    | .inr (.inr n) => exact .inr (.inr ⟨n, hw n, rfl⟩)
  turn := by
    rintro ⟨s, r, u⟩ t hr hd
    obtain ⟨r1, r2, r3⟩ := two_reach hH₁.clock hH₂.clock h0 hr
    dsimp only at r1 r2 r3
    have idle : ∀ s s' r r' (u u' : Timed P (Notif α ⊕ Notif β) (Notif γ)) w v, (H₁.two H₂ p workers).need (s', r', u') (.inr (.inr w)) = .until v →
        (H₁.two H₂ p workers).need (s, r, u) (.inr (.inr w)) = .until v := by
      intro s s' r r' u u' w v; simp only [two]; split <;> split <;> simp
    match t, hd with
    | .inl t, hd =>
      obtain ⟨s', g1, g2⟩ := hH₁.turn (t := t) r1 hd
      obtain ⟨u', g3⟩ := two_left (q₂ := q₂) (p := p) r u g1
      refine ⟨(s', r, u'), g3, fun t' w hne => ?_⟩
      match t' with
      | .inl t' => exact g2 t' w (fun h => hne (by rw [h]))
      | .inr (.inl t') => exact id
      | .inr (.inr n) => exact idle _ _ _ _ _ _ _ _
    | .inr (.inl t), hd =>
      obtain ⟨r', g1, g2⟩ := hH₂.turn (t := t) r2 (fun w hw => r3 ▸ hd w hw)
      obtain ⟨u', g3⟩ := two_right (q₁ := q₁) (p := p) s u g1
      refine ⟨(s, r', u'), g3, fun t' w hne => ?_⟩
      match t' with
      | .inl t' => exact id
      | .inr (.inl t') => exact g2 t' w (fun h => hne (by rw [h]))
      | .inr (.inr n) => exact idle _ _ _ _ _ _ _ _
    | .inr (.inr n), _ =>
      cases hs : p.step u.ps n with
      | none =>
        refine ⟨(s, r, u), by simp [two, hs, LTS.run], fun _ _ _ h => h⟩
      | some x =>
        refine ⟨(s, r, { u with ps := x.1, sent := u.sent ++ x.2.map fun o => (o, q₁.now s) }), ?_, fun t' w hne => ?_⟩
        · simp [two, hs, LTS.run, Clocked.two, Timed.work]
        · match t' with
          | .inl t' => exact id
          | .inr (.inl t') => exact id
          | .inr (.inr n') => exact idle _ _ _ _ _ _ _ _
  outside := by
    rintro ⟨s, r, u⟩ l ⟨s', r', u'⟩ hr hl ha t w
    obtain ⟨r1, r2, r3⟩ := two_reach hH₁.clock hH₂.clock h0 hr
    cases l with
    | worker m => cases hl
    | left l =>
      cases hs : q₁.act s l with
      | none => simp [Clocked.two, hs] at ha
      | some s1 =>
        simp only [Clocked.two, hs, Option.some.injEq, Prod.mk.injEq] at ha
        obtain ⟨rfl, rfl, rfl⟩ := ha
        match t with
        | .inl t => exact hH₁.outside r1 hl hs t w
        | .inr (.inl t) => exact id
        | .inr (.inr n) => simp only [two]; split <;> split <;> simp
    | right l =>
      cases hs : q₂.act r l with
      | none => simp [Clocked.two, hs] at ha
      | some s1 =>
        simp only [Clocked.two, hs, Option.some.injEq, Prod.mk.injEq] at ha
        obtain ⟨rfl, rfl, rfl⟩ := ha
        match t with
        | .inl t => exact id
        | .inr (.inl t) => exact hH₂.outside r2 hl hs t w
        | .inr (.inr n) => simp only [two]; split <;> split <;> simp
  pass := by
    rintro ⟨s, r, u⟩ d hr hc
    obtain ⟨r1, r2, r3⟩ := two_reach hH₁.clock hH₂.clock h0 hr
    dsimp only at r1 r2 r3
    obtain ⟨s', g1, g2⟩ := hH₁.pass (d := d) r1 (fun t => hc (.inl t))
    obtain ⟨r', g3, g4⟩ := hH₂.pass (d := d) r2 (fun t => by
      have := hc (.inr (.inl t))
      dsimp only [two, Clocked.two] at this
      rw [← r3]; exact this)
    refine ⟨(s', r', u), by simp only [Clocked.two, g1, g3], fun t => ?_⟩
    match t with
    | .inl t => exact g2 t
    | .inr (.inl t) => exact g4 t
    | .inr (.inr n) => rfl

theorem two_calm {s : S₁ × S₂ × Timed P (Notif α ⊕ Notif β) (Notif γ)} {d : Nat} (hc : (H₁.two H₂ p workers).Calm (q₁.two q₂ p) s d) :
    p.Quiescent s.2.2.ps := by
  intro w
  have := hc (.inr (.inr w))
  simp only [two] at this
  cases hs : p.step s.2.2.ps w with
  | none => rfl
  | some x => simp [hs] at this

end two

end Host

end Aio
