import Verif.Base.Proc
/-!
# Kahn-style theory of mailbox processes
-/

namespace Aio

namespace Agent
variable {S ι μ ο : Type}

theorem run_append (a : Agent S ι ο) (s : S) (xs ys : List ι) :
    a.run s (xs ++ ys) =
      ((a.run (a.run s xs).1 ys).1, (a.run s xs).2 ++ (a.run (a.run s xs).1 ys).2) := by
  induction xs generalizing s with
  | nil => simp [run]
  | cons x xs ih => simp [run, ih]

@[simp] theorem run_nil (a : Agent S ι ο) (s : S) : a.run s [] = (s, []) := rfl

@[simp] theorem run_cons (a : Agent S ι ο) (s : S) (x : ι) (xs : List ι) :
    a.run s (x :: xs) = ((a.run (a.recv s x).1 xs).1, (a.recv s x).2 ++ (a.run (a.recv s x).1 xs).2) :=
  rfl

/-- Handlers are online: more input only adds output at the end. -/
theorem fn_mono (a : Agent S ι ο) {xs ys : List ι} (h : xs <+: ys) : a.fn xs <+: a.fn ys := by
  obtain ⟨zs, rfl⟩ := h
  simp only [fn, run_append]
  exact List.prefix_append ..

@[simp] theorem fn_id (xs : List ι) : (Agent.id : Agent Unit ι ι).fn xs = xs := by
  have : ∀ s, ((Agent.id : Agent Unit ι ι).run s xs).2 = xs := by
    induction xs with
    | nil => intro; rfl
    | cons x xs ih => intro s; simp [id] at *; simpa using ih ()
  exact this _

end Agent

namespace Proc
variable {S St St' Lab Lab' ι μ ο : Type}

@[simp] theorem inputs_nil : inputs ([] : List (Ev ι Lab)) = [] := rfl
@[simp] theorem inputs_feed (i : ι) (es : List (Ev ι Lab)) :
    inputs (.feed i :: es) = i :: inputs es := rfl
@[simp] theorem inputs_step (l : Lab) (es : List (Ev ι Lab)) :
    inputs (.step l :: es) = inputs es := rfl

@[simp] theorem inputs_append (xs ys : List (Ev ι Lab)) :
    inputs (xs ++ ys) = inputs xs ++ inputs ys := by
  induction xs with
  | nil => rfl
  | cons e xs ih => cases e <;> simp [ih]

@[simp] theorem inputs_map_feed (is : List ι) :
    inputs (is.map (Ev.feed (Lab := Lab))) = is := by
  induction is with
  | nil => rfl
  | cons i is ih => simp [ih]

@[simp] theorem exec_nil (p : Proc St Lab ι ο) (s : St) : p.exec s [] = some (s, []) := rfl

theorem exec_feed_inv {p : Proc St Lab ι ο} {s s'' : St} {i es o}
    (h : p.exec s (.feed i :: es) = some (s'', o)) :
    ∃ o2, p.exec (p.feed s i).1 es = some (s'', o2) ∧ o = (p.feed s i).2 ++ o2 := by
  simp only [exec] at h
  split at h
  · simp at h
  · rename_i s2 o2 h2
    simp at h; obtain ⟨rfl, rfl⟩ := h
    exact ⟨_, h2, rfl⟩

theorem exec_feed_intro {p : Proc St Lab ι ο} {s s'' : St} {i es o2}
    (h : p.exec (p.feed s i).1 es = some (s'', o2)) :
    p.exec s (.feed i :: es) = some (s'', (p.feed s i).2 ++ o2) := by
  simp [exec, h]

theorem exec_step_inv {p : Proc St Lab ι ο} {s s'' : St} {l es o}
    (h : p.exec s (.step l :: es) = some (s'', o)) :
    ∃ s' o1 o2, p.step s l = some (s', o1) ∧ p.exec s' es = some (s'', o2) ∧ o = o1 ++ o2 := by
  simp only [exec] at h
  split at h
  · simp at h
  · rename_i s1 o1 hs
    split at h
    · simp at h
    · rename_i s2 o2 h2
      simp at h; obtain ⟨rfl, rfl⟩ := h
      exact ⟨_, _, _, hs, h2, rfl⟩

theorem exec_step_intro {p : Proc St Lab ι ο} {s s' s'' : St} {l es o1 o2}
    (h : p.step s l = some (s', o1)) (h' : p.exec s' es = some (s'', o2)) :
    p.exec s (.step l :: es) = some (s'', o1 ++ o2) := by
  simp [exec, h, h']

theorem exec_append (p : Proc St Lab ι ο) {s s' s'' : St} {es es' : List (Ev ι Lab)} {o o' : List ο}
    (h : p.exec s es = some (s', o)) (h' : p.exec s' es' = some (s'', o')) :
    p.exec s (es ++ es') = some (s'', o ++ o') := by
  induction es generalizing s o with
  | nil => simp at h; obtain ⟨rfl, rfl⟩ := h; simpa using h'
  | cons e es ih =>
    cases e with
    | feed i =>
      obtain ⟨o2, h2, rfl⟩ := exec_feed_inv h
      simpa using exec_feed_intro (ih h2)
    | step l =>
      obtain ⟨s1, o1, o2, hs, h2, rfl⟩ := exec_step_inv h
      simpa using exec_step_intro hs (ih h2)

theorem exec_map_feed (p : Proc St Lab ι ο) (s : St) (is : List ι) :
    p.exec s (is.map Ev.feed) = some (p.feedAll s is) := by
  induction is generalizing s with
  | nil => rfl
  | cons i is ih => exact exec_feed_intro (ih _)

/-! ### one mailbox -/

theorem mailbox_exec (a : Agent S ι ο) {es : List (Ev ι Unit)} {s s' : List ι × S} {out}
    (h : (mailbox a).exec s es = some (s', out)) :
    (a.run s.2 (s.1 ++ inputs es)) =
      ((a.run s'.2 s'.1).1, out ++ (a.run s'.2 s'.1).2) := by
  induction es generalizing s out with
  | nil => simp at h; obtain ⟨rfl, rfl⟩ := h; simp
  | cons e es ih =>
    cases e with
    | feed i =>
      obtain ⟨o2, h2, rfl⟩ := exec_feed_inv h
      simpa [mailbox] using ih h2
    | step l =>
      obtain ⟨s1, o1, o2, hs, h2, rfl⟩ := exec_step_inv h
      have := ih h2
      obtain ⟨q, t⟩ := s
      cases q with
      | nil => simp [mailbox] at hs
      | cons i q =>
        simp [mailbox] at hs
        obtain ⟨rfl, rfl⟩ := hs
        simp at this ⊢
        simp [this]

theorem mailbox_implements (a : Agent S ι ο) : (mailbox a).Implements a.fn := by
  intro es s out h
  have := mailbox_exec a h
  simp [mailbox] at this
  constructor
  · simp [Agent.fn, this]
  · intro hq
    obtain ⟨q, t⟩ := s
    cases q with
    | nil => simp [Agent.fn, this]
    | cons i q => have := hq (); simp [mailbox] at this

theorem mailbox_terminates (a : Agent S ι ο) : (mailbox a).Terminates := by
  intro s
  obtain ⟨q, t⟩ := s
  induction q generalizing t with
  | nil => constructor; rintro _ ⟨l, o, h⟩; simp [mailbox] at h
  | cons i q ih =>
    constructor
    rintro s' ⟨l, o, h⟩
    simp [mailbox] at h
    obtain ⟨rfl, rfl⟩ := h
    exact ih _

/-! ### code in the caller's task -/

theorem direct_exec (a : Agent S ι ο) {es : List (Ev ι Empty)} {s s' : S} {out}
    (h : (direct a).exec s es = some (s', out)) : a.run s (inputs es) = (s', out) := by
  induction es generalizing s out with
  | nil => simp at h; obtain ⟨rfl, rfl⟩ := h; rfl
  | cons e es ih =>
    cases e with
    | feed i =>
      obtain ⟨o2, h2, rfl⟩ := exec_feed_inv h
      have := ih h2
      simp only [direct] at this
      simp [this, direct]
    | step l => exact nomatch l

/-- Direct calls deliver everything at once. -/
theorem direct_implements (a : Agent S ι ο) : (direct a).Implements a.fn := by
  intro es s out h
  have := direct_exec a h
  have h' : a.fn (inputs es) = out := by
    have hi : (direct a).init = a.init := rfl
    rw [hi] at this
    simp [Agent.fn, this]
  simp [h']

theorem direct_terminates (a : Agent S ι ο) : (direct a).Terminates := by
  intro s
  constructor
  rintro s' ⟨l, _⟩
  exact nomatch l

/-! ### sequential composition -/

theorem seq_exec (p : Proc St Lab ι μ) (q : Proc St' Lab' μ ο) {es} {s s' : St × St'} {out}
    (h : (seq p q).exec s es = some (s', out)) :
    ∃ esp esq mid, p.exec s.1 esp = some (s'.1, mid) ∧ inputs esp = inputs es ∧
      q.exec s.2 esq = some (s'.2, out) ∧ inputs esq = mid := by
  induction es generalizing s out with
  | nil => simp at h; obtain ⟨rfl, rfl⟩ := h; exact ⟨[], [], [], by simp⟩
  | cons e es ih =>
    cases e with
    | feed i =>
      obtain ⟨o2, h2, rfl⟩ := exec_feed_inv h
      obtain ⟨esp, esq, mid, h3, h4, h5, h6⟩ := ih h2
      simp only [seq] at h3 h5
      exact ⟨.feed i :: esp, (p.feed s.1 i).2.map Ev.feed ++ esq, (p.feed s.1 i).2 ++ mid,
        exec_feed_intro h3, by simp [h4], exec_append q (exec_map_feed q s.2 _) h5, by simp [h6]⟩
    | step l =>
      obtain ⟨s1, o1, o2, hs, h2, rfl⟩ := exec_step_inv h
      obtain ⟨esp, esq, mid, h3, h4, h5, h6⟩ := ih h2
      cases l with
      | inl l =>
        simp only [seq] at hs
        split at hs
        · simp at hs
        · rename_i t o hp
          simp at hs; obtain ⟨rfl, rfl⟩ := hs
          exact ⟨.step l :: esp, o.map Ev.feed ++ esq, o ++ mid, exec_step_intro hp h3,
            h4, exec_append q (exec_map_feed q s.2 o) h5, by simp [h6]⟩
      | inr l =>
        simp only [seq] at hs
        split at hs
        · simp at hs
        · rename_i t o hp
          simp at hs; obtain ⟨rfl, rfl⟩ := hs
          exact ⟨esp, .step l :: esq, mid, h3, h4, exec_step_intro hp h5, h6⟩

theorem seq_implements {p : Proc St Lab ι μ} {q : Proc St' Lab' μ ο} {f : List ι → List μ} {g : List μ → List ο}
    (hp : p.Implements f) (hq : q.Implements g) (hg : ∀ xs ys, xs <+: ys → g xs <+: g ys) :
    (seq p q).Implements fun is => g (f is) := by
  intro es s out h
  obtain ⟨esp, esq, mid, h1, h2, h3, h4⟩ := seq_exec p q h
  have hp := hp _ _ _ h1
  have hq := hq _ _ _ h3
  rw [h2] at hp
  rw [h4] at hq
  refine ⟨List.IsPrefix.trans hq.1 (hg _ _ hp.1), fun hquiet => ?_⟩
  have e1 := hp.2 fun l => by
    have := hquiet (.inl l)
    simp only [seq] at this
    split at this
    · assumption
    · simp at this
  have e2 := hq.2 fun l => by
    have := hquiet (.inr l)
    simp only [seq] at this
    split at this
    · assumption
    · simp at this
  rw [e2, e1]

theorem seq_terminates {p : Proc St Lab ι μ} {q : Proc St' Lab' μ ο} (hp : p.Terminates) (hq : q.Terminates) :
    (seq p q).Terminates := by
  rintro ⟨s, t⟩
  induction hp s generalizing t with
  | intro s _ ihp =>
    induction hq t with
    | intro t _ ihq =>
      constructor
      rintro ⟨s', t'⟩ ⟨l, o, h⟩
      cases l with
      | inl l =>
        simp only [seq] at h
        split at h
        · simp at h
        · rename_i hp
          simp at h; obtain ⟨⟨rfl, rfl⟩, rfl⟩ := h
          exact ihp _ ⟨l, _, hp⟩ _
      | inr l =>
        simp only [seq] at h
        split at h
        · simp at h
        · rename_i hq
          simp at h; obtain ⟨⟨rfl, rfl⟩, rfl⟩ := h
          exact ihq _ ⟨l, _, hq⟩

/-- From every state the process can be run until nothing is left to do. -/
theorem can_finish {p : Proc St Lab ι ο} (hp : p.Terminates) (s : St) :
    ∃ ls : List Lab, ∃ s' out, p.exec s (ls.map Ev.step) = some (s', out) ∧ p.Quiescent s' := by
  induction hp s with
  | intro s _ ih =>
    by_cases hq : p.Quiescent s
    · exact ⟨[], s, [], rfl, hq⟩
    · simp only [Quiescent, Classical.not_forall] at hq
      obtain ⟨l, hl⟩ := hq
      cases hs : p.step s l with
      | none => exact absurd hs hl
      | some r =>
        obtain ⟨ls, s', out, h1, h2⟩ := ih r.1 ⟨l, r.2, hs⟩
        exact ⟨l :: ls, s', r.2 ++ out, exec_step_intro hs h1, h2⟩

@[simp] theorem inputs_map_step (ls : List Lab) :
    inputs (ι := ι) (ls.map Ev.step) = [] := by
  induction ls with
  | nil => rfl
  | cons l ls ih => simpa using ih

/-- Liveness: every execution of a terminating process can be completed, and then everything has
been delivered. -/
theorem eventually {p : Proc St Lab ι ο} {f} (hi : p.Implements f) (ht : p.Terminates) {es s out}
    (h : p.exec p.init es = some (s, out)) :
    ∃ (ls : List Lab) (s' : St) (out' : List ο), p.exec p.init (es ++ ls.map Ev.step) = some (s', out ++ out') ∧
      p.Quiescent s' ∧ out ++ out' = f (inputs es) := by
  obtain ⟨ls, s', out', h1, h2⟩ := can_finish ht s
  have h3 := exec_append p h h1
  refine ⟨ls, s', out', h3, h2, ?_⟩
  have := (hi _ _ _ h3).2 h2
  simpa using this

/-- The function implemented by a terminating process is online. -/
theorem Implements.mono {p : Proc St Lab ι ο} {f} (hi : p.Implements f) (ht : p.Terminates)
    {xs ys : List ι} (h : xs <+: ys) : f xs <+: f ys := by
  obtain ⟨zs, rfl⟩ := h
  obtain ⟨ls, s', out, h1, h2, h3⟩ := eventually hi ht (exec_map_feed p p.init xs)
  have h4 := exec_append p h1 (exec_map_feed p s' zs)
  have := (hi _ _ _ h4).1
  simp at this h3
  refine List.IsPrefix.trans ?_ this
  rw [← List.append_assoc, h3]
  exact List.prefix_append ..

theorem Implements.congr {p : Proc St Lab ι ο} {f g} (h : p.Implements f) (hfg : ∀ xs, f xs = g xs) :
    p.Implements g := by
  intro es s out he
  have := h es s out he
  rw [hfg] at this
  exact this

end Proc
end Aio
