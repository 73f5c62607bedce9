import Verif.Model.HostedCaught
import Verif.Lemmas.HostedNested
import Verif.Lemmas.CaughtChain
import Verif.Props.C115_Caught
/-!
# `catch` on the `VirtualTimeEventLoop`
-/

namespace Aio
variable {C S S₁ S₂ L L₁ L₂ T T₁ T₂ ω α : Type}

namespace Host
open Caught Catch
variable {fam : ω → Nat → Clocked S L α} {hd : Handler C ω} {c : C} {x : ω} {t0 : Nat} {I : Host S L T}

theorem caught_own {ls : List (Time (Caught.Label L α))} (ho : ∀ l, Time.act l ∈ ls → (I.caught (C := C) (ω := ω) (α := α)).Own l) :
    (∀ k l, Time.act (.source k l) ∈ ls → I.Own l) ∧ ∀ l, Time.act (.own l) ∈ ls → ∃ j, l = .disposed j ∨ l = .subscribed j := by
  refine ⟨fun k l hl => ?_, fun l hl => ?_⟩
  · rcases ho _ hl with h | ⟨s, t, h⟩
    · exact .inl h
    · match t with
      | .inl (k', t) =>
        simp only [caught] at h
        split at h
        next i hi => simp only [List.mem_map] at h; obtain ⟨x, hx, he⟩ := h; cases he; exact .inr ⟨_, t, hx⟩
        next => cases h
      | .inr j => simp [caught] at h
  · rcases ho _ hl with h | ⟨s, t, h⟩
    · cases h
    · match t with
      | .inl (k', t) => simp only [caught] at h; split at h <;> simp at h
      | .inr j =>
        simp only [caught, List.mem_map] at h
        obtain ⟨x, hx, he⟩ := h
        cases he
        simp only [Catch.turn] at hx
        split at hx
        · exact ⟨j, .inl (by simpa using hx)⟩
        · exact ⟨j, .inr (by simpa using hx)⟩
        · cases hx

structure CaughtParts (fam : ω → Nat → Clocked S L α) (I : Host S L T) (s : Caught C S ω α) : Prop where
  source : ∀ (k : Nat) xs t si, s.srcs[k]? = some (xs, t, si) → I.Reach (fam xs t) si ∧ (fam xs t).now si = s.now
  started : s.srcs.length = s.ctl.started.length

theorem caught_parts (hf : Proper fam) {s} (hr : (I.caught).Reach (Clocked.caught fam hd false c x t0) s) : CaughtParts fam I s := by
  obtain ⟨ls, hr, ho⟩ := hr
  obtain ⟨o1, -⟩ := caught_own ho
  obtain ⟨h, hp, hc⟩ := Caught.past hf hr
  refine ⟨fun k xs t si hk => ?_, ?_⟩
  · obtain ⟨⟨li, h1, h2⟩, h3⟩ := hp.sources k xs t si hk
    exact ⟨⟨li, h1, fun l hl => o1 k l (h2 l hl)⟩, h3⟩
  · have := congrArg List.length hc.started
    simpa [births] using this

theorem started_mono {honour : Bool} {s s' : Catch.State C ω} {l : Catch.Label α} {o} (hs : Catch.step hd honour s l = some (s', o)) :
    s.started.length ≤ s'.started.length := by
  cases l with
  | call k n =>
    simp only [Catch.step] at hs
    split at hs
    · cases n with
      | next v => cases hs; exact Nat.le_refl _
      | completed => cases hs; exact Nat.le_refl _
      | error e =>
        dsimp only at hs
        split at hs
        · cases hs; simp only [action]; split <;> simp
        · cases hs; exact Nat.le_refl _
    · cases hs
  | disposed j => simp only [Catch.step] at hs; split at hs <;> cases hs; simp
  | subscribed j => simp only [Catch.step] at hs; split at hs <;> cases hs; exact Nat.le_refl _
  | fails j => simp only [Catch.step] at hs; split at hs <;> cases hs; exact Nat.le_refl _
  | cancel => simp only [Catch.step] at hs; split at hs <;> cases hs; exact Nat.le_refl _

/-- Calls of sources that were subscribed are always taken. -/
theorem caught_calls {k : Nat} : ∀ {ns : List (Notif α)} (s : Caught C S ω α), k < s.ctl.started.length →
    ∃ s', Caught.work fam hd false s (ns.map (Catch.Label.call k)) = some s' ∧ k < s'.ctl.started.length
  | [], s, h => ⟨s, rfl, h⟩
  | n :: ns, s, h => by
    have : ∃ r, Catch.step hd false s.ctl (.call k n) = some r := by
      simp only [Catch.step, h, Bool.false_eq_true, false_and, not_false_eq_true, and_self, if_true]
      cases n with
      | next v => exact ⟨_, rfl⟩
      | completed => exact ⟨_, rfl⟩
      | error e => dsimp only; split <;> exact ⟨_, rfl⟩
    obtain ⟨⟨ctl, out⟩, h1⟩ := this
    obtain ⟨s', h2, h3⟩ := caught_calls (ns := ns) (subscribed fam { s with ctl := ctl, sent := s.sent ++ out.map fun n => (n, s.now) })
      (Nat.lt_of_lt_of_le h (started_mono h1))
    refine ⟨s', ?_, h3⟩
    simp only [List.map_cons, Caught.work, h1]
    exact h2

/-- What segments of source `k` do: some new sources are subscribed. -/
theorem caught_source {k : Nat} {xs : ω} {t1 : Nat} : ∀ {as : List L} (s : Caught C S ω α) {si si' : S}, s.srcs[k]? = some (xs, t1, si) →
    k < s.ctl.started.length → LTS.run (fam xs t1).act si as = some si' →
    ∃ (s' : Caught C S ω α) (new : List ω), LTS.run (Clocked.caught fam hd false c x t0).act s (as.map (.source k)) = some s' ∧ s'.now = s.now ∧
      s'.srcs = s.srcs.set k (xs, t1, si') ++ new.map fun xs => (xs, s.now, (fam xs s.now).init)
  | [], s, si, si', hk, _, h => by
    cases h
    refine ⟨s, [], rfl, rfl, ?_⟩
    have : s.srcs.set k (xs, t1, si) = s.srcs := by
      apply List.ext_getElem?
      intro j
      by_cases hj : k = j
      · subst hj; rw [hk, List.getElem?_set_self ((List.getElem?_eq_some_iff.mp hk).1)]
      · rw [List.getElem?_set_ne hj]
    rw [this]; simp
  | a :: as, s, si, si', hk, hs, h => by
    obtain ⟨u1, h1, h2⟩ := LTS.run_cons.mp h
    have hlt := (List.getElem?_eq_some_iff.mp hk).1
    obtain ⟨s1, h3, h4⟩ := caught_calls (fam := fam) (hd := hd) (k := k) (ns := (((fam xs t1).calls u1).drop ((fam xs t1).calls si).length).map (·.1))
      { s with srcs := s.srcs.set k (xs, t1, u1) } hs
    obtain ⟨-, h5, new1, h6⟩ := Caught.work_run h3
    dsimp only at h5 h6
    obtain ⟨s2, new2, h7, h8, h9⟩ := caught_source s1 (si := u1) (si' := si') (as := as)
      (by rw [h6, List.getElem?_append_left (by simpa using hlt)]; simp [hlt]) h4 h2
    refine ⟨s2, new1 ++ new2, LTS.run_cons.mpr ⟨s1, ?_, h7⟩, h8.trans h5, ?_⟩
    · simp only [Clocked.caught, hk, h1]
      simpa only [List.map_map, Function.comp_def] using h3
    · rw [h9, h6, h5, List.set_append_left _ _ (by simpa using hlt), List.set_set, List.append_assoc, ← List.map_append]

/-- New sources do not sleep. -/
theorem caught_fresh (hI : Family I fam) {srcs : List (ω × Nat × S)} {new : List ω} {now : Nat} {s s' : Caught C S ω α} (hs : s.srcs = srcs)
    (hs' : s'.srcs = srcs ++ new.map fun xs => (xs, now, (fam xs now).init)) {t' : (Nat × T) ⊕ Nat} {w : Nat}
    (hn : (I.caught).need s' t' = .until w) : (I.caught).need s t' = .until w := by
  match t' with
  | .inr j => simp only [caught] at hn; split at hn <;> cases hn
  | .inl (j, t') =>
    simp only [caught] at hn ⊢
    rw [hs'] at hn
    rw [hs]
    by_cases hj : j < srcs.length
    · rw [List.getElem?_append_left hj] at hn; exact hn
    · rw [List.getElem?_append_right (by omega), List.getElem?_map] at hn
      cases hc : new[j - srcs.length]? with
      | none => rw [hc] at hn; cases hn
      | some y => rw [hc] at hn; exact absurd hn (hI.fresh _ _ _ _)

theorem caught_lawful (hI : Family I fam) (hf : Proper fam) : (I.caught).Lawful (Clocked.caught fam hd false c x t0) where
  clock := Caught.caught_lawful hf hd false c x t0
  names := by
    intro s t hr hn
    have P := caught_parts hf hr
    simp only [caught, List.mem_append, List.mem_map, List.mem_flatMap, List.mem_range]
    match t with
    | .inr j =>
      refine .inr ⟨j, ?_, rfl⟩
      by_cases h : j < s.ctl.frames.length
      · exact h
      · simp [caught, h] at hn
    | .inl (k, t) =>
      simp only [caught] at hn
      cases hk : s.srcs[k]? with
      | none => rw [hk] at hn; exact absurd rfl hn
      | some i =>
        obtain ⟨xs, t1, si⟩ := i
        rw [hk] at hn
        refine .inl ⟨k, (List.getElem?_eq_some_iff.mp hk).1, ?_⟩
        rw [hk]
        exact List.mem_map.mpr ⟨t, (hI.lawful xs t1).names (P.source k xs t1 si hk).1 hn, rfl⟩
  turn := by
    intro s t hr hd'
    have P := caught_parts hf hr
    match t with
    | .inl (k, t) =>
      cases hk : s.srcs[k]? with
      | none => exact ⟨s, by simp [caught, hk, LTS.run], fun _ _ _ h => h⟩
      | some i =>
        obtain ⟨xs, t1, si⟩ := i
        obtain ⟨g1, g2⟩ := P.source k xs t1 si hk
        obtain ⟨si', h1, h2⟩ := (hI.lawful xs t1).turn (t := t) g1 (fun w hw => by
          rw [g2]; exact hd' w (by simp only [caught, hk]; exact hw))
        have hlt := (List.getElem?_eq_some_iff.mp hk).1
        obtain ⟨s', new, h3, h4, h5⟩ := caught_source (hd := hd) (c := c) (x := x) (t0 := t0) s hk (by rw [← P.started]; exact hlt) h1
        refine ⟨s', (by simp only [caught, hk]; exact h3), fun t' w hne hn => ?_⟩
        have := caught_fresh hI (s := { s with srcs := s.srcs.set k (xs, t1, si') }) rfl h5 hn
        match t' with
        | .inr j => simp only [caught] at this; split at this <;> cases this
        | .inl (j, t') =>
          simp only [caught] at this ⊢
          by_cases hj : k = j
          · subst hj
            rw [List.getElem?_set_self hlt] at this
            rw [hk]
            exact h2 t' w (fun h => hne (by rw [h])) this
          · rw [List.getElem?_set_ne hj] at this; exact this
    | .inr j =>
      have fin : ∀ l : Catch.Label α, Caught.own l = true → Catch.turn s.ctl j = [l] → (∃ r, Catch.step hd false s.ctl l = some r) →
          ∃ s', LTS.run (Clocked.caught fam hd false c x t0).act s ((I.caught).turn s (.inr j)) = some s' ∧
            ∀ t' w, t' ≠ .inr j → (I.caught).need s' t' = .until w → (I.caught).need s t' = .until w := by
        rintro l h1 h2 ⟨⟨ctl, out⟩, h3⟩
        refine ⟨subscribed fam { s with ctl := ctl, sent := s.sent ++ out.map fun n => (n, s.now) }, ?_, ?_⟩
        · simp only [caught, h2, List.map_cons, List.map_nil, LTS.run, Clocked.caught, h1, if_true, Caught.work, h3]
          rfl
        · intro t' w _ hn
          exact caught_fresh hI rfl (by simp only [subscribed]; rfl) hn
      cases hfr : s.ctl.frames[j]? with
      | none => exact ⟨s, by simp [caught, Catch.turn, hfr, LTS.run], fun _ _ _ h => h⟩
      | some f =>
        cases f with
        | disposing xs d => exact fin (.disposed j) rfl (by simp [Catch.turn, hfr]) ⟨_, by simp only [Catch.step, hfr]; rfl⟩
        | subscribing k => exact fin (.subscribed j) rfl (by simp [Catch.turn, hfr]) ⟨_, by simp only [Catch.step, hfr]; rfl⟩
  outside := by
    intro s l s' hr hl ha t w hn
    have P := caught_parts hf hr
    match l with
    | .own l => cases hl
    | .source k l =>
      cases hk : s.srcs[k]? with
      | none => simp [Clocked.caught, hk] at ha
      | some i =>
        obtain ⟨xs, t1, si⟩ := i
        have hlt := (List.getElem?_eq_some_iff.mp hk).1
        cases hs : (fam xs t1).act si l with
        | none => simp [Clocked.caught, hk, hs] at ha
        | some u =>
          obtain ⟨s1, new, h3, -, h5⟩ := caught_source (hd := hd) (c := c) (x := x) (t0 := t0) s hk (by rw [← P.started]; exact hlt)
            (LTS.run_cons.mpr ⟨u, hs, rfl⟩ : LTS.run (fam xs t1).act si [l] = some u)
          obtain ⟨y, h4, h6⟩ := LTS.run_cons.mp h3
          cases h6
          rw [h4] at ha; cases ha
          have := caught_fresh hI (s := { s with srcs := s.srcs.set k (xs, t1, u) }) rfl h5 hn
          match t with
          | .inr j => simp only [caught] at this; split at this <;> cases this
          | .inl (j, t) =>
            simp only [caught] at this ⊢
            by_cases hj : k = j
            · subst hj
              rw [List.getElem?_set_self hlt] at this
              rw [hk]
              exact (hI.lawful xs t1).outside (P.source k xs t1 si hk).1 hl hs t w this
            · rw [List.getElem?_set_ne hj] at this; exact this
  pass := by
    intro s d hr hc
    have P := caught_parts hf hr
    obtain ⟨is, h3, h4, h5⟩ := passAll_some (I := I) (fam := fam) (d := d) s.srcs (fun i hi => by
      obtain ⟨k, hk⟩ := List.getElem?_of_mem hi
      obtain ⟨xs, t1, si⟩ := i
      obtain ⟨g1, g2⟩ := P.source k xs t1 si hk
      refine (hI.lawful xs t1).pass g1 (fun t => ?_)
      have := hc (.inl (k, t))
      simp only [caught, hk] at this
      rw [g2]; exact this)
    refine ⟨{ s with now := s.now + d, srcs := is }, by simp only [Clocked.caught, h3], fun t => ?_⟩
    match t with
    | .inr j => rfl
    | .inl (k, t) =>
      simp only [caught]
      cases hk : s.srcs[k]? with
      | none => rw [List.getElem?_eq_none (by rw [h4]; exact List.getElem?_eq_none_iff.mp hk)]
      | some i =>
        have hlt := (List.getElem?_eq_some_iff.mp hk).1
        rw [List.getElem?_eq_getElem (by rw [h4]; exact hlt)]
        exact h5 k i _ hk (List.getElem?_eq_getElem (by rw [h4]; exact hlt)) t

/-- When no task can go on, no activation of `action` is suspended. -/
theorem caught_idle {s : Caught C S ω α} (hn : ∀ t, (I.caught).need s t ≠ .soon) : Idle s := by
  rcases hfr : s.ctl.frames with _ | ⟨f, fs⟩
  · exact hfr
  · have := hn (.inr 0)
    simp [caught, hfr] at this

/-! ## two kinds -/

section
variable {H₁ : Host S₁ L₁ T₁} {H₂ : Host S₂ L₂ T₂}

theorem left_reach {q : Clocked S₁ L₁ α} {s} (hr : (H₁.sum H₂).Reach (q.left (S₂ := S₂) (L₂ := L₂)) s) : ∃ s₁, s = .inl s₁ ∧ H₁.Reach q s₁ := by
  obtain ⟨ls, hr, ho⟩ := hr
  obtain ⟨s₁, ls₁, rfl, h1, h2⟩ := left_run hr
  refine ⟨s₁, rfl, ls₁, h1, fun l hl => ?_⟩
  rcases ho _ (h2 l hl) with h | ⟨s, t, h⟩
  · exact .inl h
  · match s, t with
    | .inl s, .inl t => obtain ⟨y, hy, he⟩ := List.mem_map.mp h; cases he; exact .inr ⟨s, t, hy⟩
    | .inr s, .inr t => obtain ⟨y, hy, he⟩ := List.mem_map.mp h; cases he
    | .inl s, .inr t => cases h
    | .inr s, .inl t => cases h

theorem right_reach {q : Clocked S₂ L₂ α} {s} (hr : (H₁.sum H₂).Reach (q.right (S₁ := S₁) (L₁ := L₁)) s) : ∃ s₂, s = .inr s₂ ∧ H₂.Reach q s₂ := by
  obtain ⟨ls, hr, ho⟩ := hr
  obtain ⟨s₁, ls₁, rfl, h1, h2⟩ := right_run hr
  refine ⟨s₁, rfl, ls₁, h1, fun l hl => ?_⟩
  rcases ho _ (h2 l hl) with h | ⟨s, t, h⟩
  · exact .inl h
  · match s, t with
    | .inr s, .inr t => obtain ⟨y, hy, he⟩ := List.mem_map.mp h; cases he; exact .inr ⟨s, t, hy⟩
    | .inl s, .inl t => obtain ⟨y, hy, he⟩ := List.mem_map.mp h; cases he
    | .inl s, .inr t => cases h
    | .inr s, .inl t => cases h

theorem left_acts {q : Clocked S₁ L₁ α} : ∀ {as : List L₁} {s s' : S₁}, LTS.run q.act s as = some s' →
    LTS.run (q.left (S₂ := S₂) (L₂ := L₂)).act (.inl s) (as.map .inl) = some (.inl s')
  | [], s, s', h => by cases h; rfl
  | a :: as, s, s', h => by
    obtain ⟨u, h1, h2⟩ := LTS.run_cons.mp h
    exact LTS.run_cons.mpr ⟨.inl u, by simp [Clocked.left, h1], left_acts h2⟩

theorem right_acts {q : Clocked S₂ L₂ α} : ∀ {as : List L₂} {s s' : S₂}, LTS.run q.act s as = some s' →
    LTS.run (q.right (S₁ := S₁) (L₁ := L₁)).act (.inr s) (as.map .inr) = some (.inr s')
  | [], s, s', h => by cases h; rfl
  | a :: as, s, s', h => by
    obtain ⟨u, h1, h2⟩ := LTS.run_cons.mp h
    exact LTS.run_cons.mpr ⟨.inr u, by simp [Clocked.right, h1], right_acts h2⟩

theorem left_lawful {q : Clocked S₁ L₁ α} (h : H₁.Lawful q) : (H₁.sum H₂).Lawful (q.left (S₂ := S₂) (L₂ := L₂)) where
  clock := Caught.left_lawful h.clock
  names := by
    intro s t hr hn
    obtain ⟨s₁, rfl, h1⟩ := left_reach hr
    cases t with
    | inl t => exact List.mem_map.mpr ⟨t, h.names h1 hn, rfl⟩
    | inr t => exact absurd rfl hn
  turn := by
    intro s t hr hd
    obtain ⟨s₁, rfl, h1⟩ := left_reach hr
    cases t with
    | inr t => exact ⟨_, rfl, fun _ _ _ => id⟩
    | inl t =>
      obtain ⟨s', h2, h3⟩ := h.turn (t := t) h1 hd
      refine ⟨.inl s', left_acts h2, fun t' w hne => ?_⟩
      cases t' with
      | inl t' => exact h3 t' w fun h => hne (by rw [h])
      | inr t' => exact id
  outside := by
    intro s l s' hr hl ha t w
    obtain ⟨s₁, rfl, h1⟩ := left_reach hr
    cases l with
    | inr l => simp [Clocked.left] at ha
    | inl l =>
      simp only [Clocked.left, Option.map_eq_some_iff] at ha
      obtain ⟨u, h2, rfl⟩ := ha
      cases t with
      | inl t => exact h.outside h1 hl h2 t w
      | inr t => exact id
  pass := by
    intro s d hr hc
    obtain ⟨s₁, rfl, h1⟩ := left_reach hr
    obtain ⟨u, h2, h3⟩ := h.pass (d := d) h1 (fun t => hc (.inl t))
    refine ⟨.inl u, by simp [Clocked.left, h2], fun t => ?_⟩
    cases t with
    | inl t => exact h3 t
    | inr t => rfl

theorem right_lawful {q : Clocked S₂ L₂ α} (h : H₂.Lawful q) : (H₁.sum H₂).Lawful (q.right (S₁ := S₁) (L₁ := L₁)) where
  clock := Caught.right_lawful h.clock
  names := by
    intro s t hr hn
    obtain ⟨s₁, rfl, h1⟩ := right_reach hr
    cases t with
    | inr t => exact List.mem_map.mpr ⟨t, h.names h1 hn, rfl⟩
    | inl t => exact absurd rfl hn
  turn := by
    intro s t hr hd
    obtain ⟨s₁, rfl, h1⟩ := right_reach hr
    cases t with
    | inl t => exact ⟨_, rfl, fun _ _ _ => id⟩
    | inr t =>
      obtain ⟨s', h2, h3⟩ := h.turn (t := t) h1 hd
      refine ⟨.inr s', right_acts h2, fun t' w hne => ?_⟩
      cases t' with
      | inr t' => exact h3 t' w fun h => hne (by rw [h])
      | inl t' => exact id
  outside := by
    intro s l s' hr hl ha t w
    obtain ⟨s₁, rfl, h1⟩ := right_reach hr
    cases l with
    | inl l => simp [Clocked.right] at ha
    | inr l =>
      simp only [Clocked.right, Option.map_eq_some_iff] at ha
      obtain ⟨u, h2, rfl⟩ := ha
      cases t with
      | inr t => exact h.outside h1 hl h2 t w
      | inl t => exact id
  pass := by
    intro s d hr hc
    obtain ⟨s₁, rfl, h1⟩ := right_reach hr
    obtain ⟨u, h2, h3⟩ := h.pass (d := d) h1 (fun t => hc (.inr t))
    refine ⟨.inr u, by simp [Clocked.right, h2], fun t => ?_⟩
    cases t with
    | inr t => exact h3 t
    | inl t => rfl

end
end Host
end Aio
