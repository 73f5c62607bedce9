import Verif.Model.Timed
import Verif.Spec.Timed
import Verif.Lemmas.Clocked
import Verif.Lemmas.Proc
import Verif.Lemmas.Stream
/-!
# Operators without timers, on a clock
-/

namespace Aio
open Spec.Timed
variable {S S₁ S₂ L L₁ L₂ P W ι ο α β γ : Type}

/-! ## streams with times -/

namespace Spec.Timed

@[simp] theorem upto_nil (t : Nat) : upto t ([] : List (ι × Nat)) = [] := rfl

theorem upto_append (t : Nat) (a b : List (ι × Nat)) : upto t (a ++ b) = upto t a ++ upto t b := by simp [upto]

theorem upto_all {t : Nat} {cs : List (ι × Nat)} (h : ∀ c ∈ cs, c.2 ≤ t) : upto t cs = cs.map (·.1) := by
  rw [upto, List.filter_eq_self.mpr (by simpa using h)]

theorem upto_none {t : Nat} {cs : List (ι × Nat)} (h : ∀ c ∈ cs, t < c.2) : upto t cs = [] := by
  rw [upto, List.filter_eq_nil_iff.mpr (by simpa using h)]; rfl

theorem upto_cons (t : Nat) (c : ι × Nat) (cs : List (ι × Nat)) : upto t (c :: cs) = if c.2 ≤ t then c.1 :: upto t cs else upto t cs := by
  simp only [upto, List.filter_cons]
  split <;> rename_i h <;> simp at h <;> simp <;> omega

theorem upto_prefix {t : Nat} {cs : List (ι × Nat)} (h : InTime cs) : upto t cs <+: cs.map (·.1) := by
  induction cs with
  | nil => exact List.prefix_refl _
  | cons c cs ih =>
    obtain ⟨g1, g2⟩ := List.pairwise_cons.mp h
    rw [upto_cons]
    split
    · exact (List.prefix_cons_inj _).mpr (ih g2)
    · rw [upto_none fun d hd => by have := g1 d hd; omega]; exact List.nil_prefix

theorem upto_map {κ : Type} (f : ι → κ) (t : Nat) (cs : List (ι × Nat)) : upto t (cs.map fun c => (f c.1, c.2)) = (upto t cs).map f := by
  simp [upto, List.filter_map, Function.comp_def]

theorem InTime.append {a b : List (ι × Nat)} (ha : InTime a) (hb : InTime b) (h : ∀ x ∈ a, ∀ y ∈ b, x.2 ≤ y.2) : InTime (a ++ b) :=
  List.pairwise_append.mpr ⟨ha, hb, h⟩

/-- The events and their times are determined by what has been sent up to which time. -/
theorem ext : ∀ {a b : List (ι × Nat)}, InTime a → InTime b → (∀ t, upto t a = upto t b) → a = b := by
  intro a
  induction a with
  | nil =>
    intro b _ _ h
    cases b with
    | nil => rfl
    | cons c b => have := h c.2; simp [upto_cons] at this
  | cons x a ih =>
    intro b ha hb h
    cases b with
    | nil => have := h x.2; simp [upto_cons] at this
    | cons y b =>
      obtain ⟨ha1, ha2⟩ := List.pairwise_cons.mp ha
      obtain ⟨hb1, hb2⟩ := List.pairwise_cons.mp hb
      have key : ∀ {u v : ι × Nat} {as bs : List (ι × Nat)}, (∀ z ∈ bs, v.2 ≤ z.2) → upto u.2 (u :: as) = upto u.2 (v :: bs) → v.2 ≤ u.2 := by
        intro u v as bs hv h
        apply Classical.byContradiction
        intro hn
        rw [upto_none (cs := v :: bs) (by
          intro z hz
          rcases List.mem_cons.mp hz with rfl | hz
          · omega
          · have := hv z hz; omega)] at h
        simp [upto_cons] at h
      have e1 := key hb1 (h x.2)
      have e2 := key ha1 (h y.2).symm
      have et : x.2 = y.2 := by omega
      have ex : x.1 = y.1 := by
        have := h x.2
        rw [upto_cons, upto_cons, if_pos (Nat.le_refl _), if_pos (by omega)] at this
        exact (List.cons.inj this).1
      obtain ⟨x1, x2⟩ := x
      obtain ⟨y1, y2⟩ := y
      dsimp only at et ex
      subst et ex
      congr 1
      refine ih ha2 hb2 fun t => ?_
      by_cases hx : x2 ≤ t
      · have := h t
        rw [upto_cons, upto_cons, if_pos hx, if_pos hx] at this
        exact (List.cons.inj this).2
      · rw [upto_none fun c hc => ?_, upto_none fun c hc => ?_]
        · have := hb1 c hc; dsimp only at this; omega
        · have := ha1 c hc; dsimp only at this; omega

theorem cut_prefix (cs : List (Notif α × Nat)) : cut cs <+: cs := by
  induction cs with
  | nil => exact List.prefix_refl _
  | cons c cs ih =>
    obtain ⟨n, t⟩ := c
    cases n with
    | next v => exact (List.prefix_cons_inj _).mpr ih
    | error e => exact ⟨cs, rfl⟩
    | completed => exact ⟨cs, rfl⟩

theorem InTime.sublist {a b : List (ι × Nat)} (h : a.Sublist b) (hb : InTime b) : InTime a := List.Pairwise.sublist h hb

/-- Cutting a stream off and looking at an initial part of it commute. -/
theorem upto_cut {cs : List (Notif α × Nat)} (h : InTime cs) (t : Nat) : upto t (cut cs) = Spec.cut (upto t cs) := by
  induction cs with
  | nil => rfl
  | cons c cs ih =>
    obtain ⟨h1, h2⟩ := List.pairwise_cons.mp h
    obtain ⟨n, u⟩ := c
    by_cases hu : u ≤ t
    · cases n with
      | next v => simp only [cut, upto_cons, hu, if_true, Spec.cut_next, ih h2]
      | error e => simp only [cut, upto_cons, hu, if_true, Spec.cut_error, upto_nil]
      | completed => simp only [cut, upto_cons, hu, if_true, Spec.cut_completed, upto_nil]
    · have : ∀ c ∈ (n, u) :: cs, t < c.2 := by
        intro c hc
        rcases List.mem_cons.mp hc with rfl | hc
        · dsimp only; omega
        · have := h1 c hc; dsimp only at this; omega
      rw [upto_none this, upto_none fun c hc => this c ((cut_prefix _).subset hc)]
      rfl

end Spec.Timed

/-! ## one operator -/

namespace Timed

/-- What is known about an operator that computes `F`, at time `now`. -/
structure Good (p : Proc P W ι ο) (F : List ι → List ο) (now : Nat) (s : Timed P ι ο) : Prop where
  exec : ∃ es, p.exec p.init es = some (s.ps, s.sent.map (·.1)) ∧ Proc.inputs es = s.got.map (·.1)
  got : InTime s.got ∧ ∀ c ∈ s.got, c.2 ≤ now
  sent : InTime s.sent ∧ ∀ c ∈ s.sent, c.2 ≤ now
  past : ∀ t < now, upto t s.sent = F (upto t s.got)

variable {p : Proc P W ι ο} {F : List ι → List ο} {now : Nat} {s t : Timed P ι ο}

theorem stamped {cs : List (ι × Nat)} (h : InTime cs ∧ ∀ c ∈ cs, c.2 ≤ now) (is : List ι) :
    InTime (cs ++ is.map fun i => (i, now)) ∧ ∀ c ∈ cs ++ is.map (fun i => (i, now)), c.2 ≤ now := by
  refine ⟨h.1.append ?_ ?_, ?_⟩
  · rw [InTime, List.pairwise_map]; exact List.pairwise_of_forall fun _ _ => Nat.le_refl _
  · intro x hx y hy
    obtain ⟨i, -, rfl⟩ := List.mem_map.mp hy
    exact h.2 x hx
  · intro c hc
    rcases List.mem_append.mp hc with hc | hc
    · exact h.2 c hc
    · obtain ⟨i, -, rfl⟩ := List.mem_map.mp hc
      exact Nat.le_refl _

theorem upto_stamped {u : Nat} (hu : u < now) (cs : List (ι × Nat)) (is : List ι) : upto u (cs ++ is.map fun i => (i, now)) = upto u cs := by
  rw [upto_append, upto_none (cs := is.map _) (by simpa using fun _ _ => hu), List.append_nil]

theorem good_init (p : Proc P W ι ο) (F : List ι → List ο) (h0 : F [] = []) (now : Nat) : Good p F now (init p) :=
  ⟨⟨[], rfl, rfl⟩, ⟨.nil, by simp [init]⟩, ⟨.nil, by simp [init]⟩, fun t _ => by simp [init, h0]⟩

theorem Good.feed (h : Good p F now s) (is : List ι) : Good p F now (s.feed p now is) := by
  obtain ⟨⟨es, h1, h2⟩, h3, h4, h5⟩ := h
  refine ⟨⟨es ++ is.map .feed, ?_, ?_⟩, stamped h3 is, stamped h4 _, fun t ht => ?_⟩
  · have := Proc.exec_append p h1 (Proc.exec_map_feed p s.ps is)
    simpa [Timed.feed, Function.comp_def] using this
  · simp [Timed.feed, Function.comp_def, h2]
  · simp only [Timed.feed]
    rw [upto_stamped ht, upto_stamped ht, h5 t ht]

theorem Good.work (h : Good p F now s) {w : W} (hw : s.work p now w = some t) : Good p F now t := by
  obtain ⟨⟨es, h1, h2⟩, h3, h4, h5⟩ := h
  simp only [Timed.work] at hw
  split at hw
  · cases hw
  · next ps o hs =>
    cases hw
    refine ⟨⟨es ++ [.step w], ?_, by simp [h2]⟩, h3, stamped h4 _, fun t ht => ?_⟩
    · have := Proc.exec_append p h1 (Proc.exec_step_intro (es := []) (o2 := []) hs rfl)
      simpa [Function.comp_def] using this
    · dsimp only
      rw [upto_stamped ht, h5 t ht]

/-- When the workers have nothing left to do, everything has been sent. -/
theorem Good.at_rest (h : Good p F now s) {dom : List ι → Prop}
    (hF : ∀ es s out, p.exec p.init es = some (s, out) → dom (Proc.inputs es) → p.Quiescent s → out = F (Proc.inputs es))
    (hd : dom (s.got.map (·.1))) (hq : p.Quiescent s.ps) : ∀ t, upto t s.sent = F (upto t s.got) := by
  intro t
  by_cases ht : t < now
  · exact h.past t ht
  · obtain ⟨es, h1, h2⟩ := h.exec
    rw [upto_all fun c hc => Nat.le_trans (h.sent.2 c hc) (by omega), upto_all fun c hc => Nat.le_trans (h.got.2 c hc) (by omega), ← h2]
    exact hF es _ _ h1 (h2 ▸ hd) hq

theorem Good.pass (h : Good p F now s) {dom : List ι → Prop}
    (hF : ∀ es s out, p.exec p.init es = some (s, out) → dom (Proc.inputs es) → p.Quiescent s → out = F (Proc.inputs es))
    (hd : dom (s.got.map (·.1))) (hq : p.Quiescent s.ps) (d : Nat) : Good p F (now + d) s :=
  ⟨h.exec, ⟨h.got.1, fun c hc => Nat.le_trans (h.got.2 c hc) (by omega)⟩, ⟨h.sent.1, fun c hc => Nat.le_trans (h.sent.2 c hc) (by omega)⟩,
    fun t _ => h.at_rest hF hd hq t⟩

end Timed

/-! ## behind a source -/

namespace Clocked

theorem Prompt.init {q : Clocked S L α} {rest : S → Prop} {ls : List (Time L)} {l : Time L} (h : q.Prompt rest (ls ++ [l])) : q.Prompt rest ls :=
  fun ls₁ d ls₂ s he hr => h ls₁ d (ls₂ ++ [l]) s (by rw [he]; simp) hr

theorem Prompt.last {q : Clocked S L α} {rest : S → Prop} {ls : List (Time L)} {d : Nat} {s : S} (h : q.Prompt rest (ls ++ [.pass d]))
    (hr : LTS.run q.step q.init ls = some s) : rest s := h ls d [] s rfl hr

theorem Lawful.fresh {q : Clocked S L α} (hq : q.Lawful) {ls s l t} (hr : LTS.run q.step q.init ls = some s) (h : q.act s l = some t) :
    q.now t = q.now s ∧ q.calls t = q.calls s ++ (((q.calls t).drop (q.calls s).length).map (·.1)).map fun n => (n, q.now s) := by
  obtain ⟨h1, ns, h2⟩ := hq.act hr h
  refine ⟨h1, ?_⟩
  rw [h2, List.drop_left, List.map_map]
  congr 1
  simp [Function.comp_def]

section operate
variable {q : Clocked S L α} {p : Proc P W (Notif α) (Notif β)}

/-- A run of source and operator contains a run of the source, whose calls are what the operator gets. -/
theorem operate_source (hq : q.Lawful) {ls : List (Time (L ⊕ W))} {s : S × Timed P (Notif α) (Notif β)}
    (hr : LTS.run (q.operate p).step (q.operate p).init ls = some s) :
    LTS.run q.step q.init (sources ls) = some s.1 ∧ s.2.got = q.calls s.1 := by
  refine LTS.inv_hist (step := (q.operate p).step) (fun ls s => LTS.run q.step q.init (sources ls) = some s.1 ∧ s.2.got = q.calls s.1)
    (s0 := (q.operate p).init) ⟨rfl, hq.init.symm⟩ ?_ hr
  rintro ls ⟨s, t⟩ l ⟨s', t'⟩ ⟨h1, h2⟩ h
  have hap : sources (ls ++ [l]) = sources ls ++ sources [l] := List.filterMap_append ..
  rw [hap]
  dsimp only at h1 h2 ⊢
  match l with
  | .pass d =>
    simp only [step, operate, Option.map_eq_some_iff, Prod.mk.injEq] at h
    obtain ⟨u, hu, rfl, rfl⟩ := h
    exact ⟨LTS.run_append.mpr ⟨_, h1, LTS.run_cons.mpr ⟨u, hu, rfl⟩⟩, by rw [(hq.pass h1 hu).2, h2]⟩
  | .act (.inl l) =>
    simp only [step, operate] at h
    split at h
    · cases h
    · next u hu =>
      simp only [Option.some.injEq, Prod.mk.injEq] at h
      obtain ⟨rfl, rfl⟩ := h
      exact ⟨LTS.run_append.mpr ⟨_, h1, LTS.run_cons.mpr ⟨u, hu, rfl⟩⟩, by
        show t.got ++ _ = _
        rw [h2]
        exact (hq.fresh h1 hu).2.symm⟩
  | .act (.inr w) =>
    simp only [step, operate, Option.map_eq_some_iff, Prod.mk.injEq] at h
    obtain ⟨u, hu, rfl, rfl⟩ := h
    refine ⟨LTS.run_append.mpr ⟨_, h1, rfl⟩, ?_⟩
    simp only [Timed.work] at hu
    split at hu
    · cases hu
    · cases hu; exact h2

theorem operate_lawful (hq : q.Lawful) (p : Proc P W (Notif α) (Notif β)) : (q.operate p).Lawful := by
  refine ⟨rfl, ?_, ?_⟩
  · rintro ls ⟨s, t⟩ l ⟨s', t'⟩ hr h
    have h1 := (operate_source hq hr).1
    match l with
    | .inl l =>
      simp only [operate] at h ⊢
      split at h
      · cases h
      · next u hu =>
        simp only [Option.some.injEq, Prod.mk.injEq] at h
        obtain ⟨rfl, rfl⟩ := h
        exact ⟨(hq.fresh h1 hu).1, _, rfl⟩
    | .inr w =>
      simp only [operate, Option.map_eq_some_iff, Prod.mk.injEq] at h ⊢
      obtain ⟨u, hu, rfl, rfl⟩ := h
      simp only [Timed.work] at hu
      split at hu
      · cases hu
      · cases hu; exact ⟨rfl, _, rfl⟩
  · rintro ls ⟨s, t⟩ d ⟨s', t'⟩ hr h
    have h1 := (operate_source hq hr).1
    simp only [operate, Option.map_eq_some_iff, Prod.mk.injEq] at h ⊢
    obtain ⟨u, hu, rfl, rfl⟩ := h
    exact ⟨(hq.pass h1 hu).1, rfl⟩

theorem operate_good (hq : q.Lawful) {F : List (Notif α) → List (Notif β)} {dom : List (Notif α) → Prop}
    (hF : ∀ es s out, p.exec p.init es = some (s, out) → dom (Proc.inputs es) → p.Quiescent s → out = F (Proc.inputs es)) (h0 : F [] = [])
    (hd : ∀ ls s, LTS.run q.step q.init ls = some s → dom ((q.calls s).map (·.1))) {ls : List (Time (L ⊕ W))} {s : S × Timed P (Notif α) (Notif β)}
    (hr : LTS.run (q.operate p).step (q.operate p).init ls = some s) (hp : (q.operate p).Prompt (fun s => p.Quiescent s.2.ps) ls) :
    s.2.Good p F (q.now s.1) := by
  revert hp
  refine LTS.inv_reach (step := (q.operate p).step) (fun ls s => (q.operate p).Prompt (fun s => p.Quiescent s.2.ps) ls → s.2.Good p F (q.now s.1))
    (s0 := (q.operate p).init) (fun _ => Timed.good_init p F h0 _) ?_ hr
  rintro ls ⟨s, t⟩ l ⟨s', t'⟩ hr ih h hp
  have hg := ih hp.init
  obtain ⟨h1, h2⟩ := operate_source hq hr
  dsimp only at h1 h2 hg ⊢
  match l with
  | .pass d =>
    have hqu := hp.last hr
    simp only [step, operate, Option.map_eq_some_iff, Prod.mk.injEq] at h
    obtain ⟨u, hu, rfl, rfl⟩ := h
    rw [(hq.pass h1 hu).1]
    exact hg.pass hF (by rw [h2]; exact hd _ _ h1) hqu d
  | .act (.inl l) =>
    simp only [step, operate] at h
    split at h
    · cases h
    · next u hu =>
      simp only [Option.some.injEq, Prod.mk.injEq] at h
      obtain ⟨rfl, rfl⟩ := h
      rw [(hq.fresh h1 hu).1]
      exact hg.feed _
  | .act (.inr w) =>
    simp only [step, operate, Option.map_eq_some_iff, Prod.mk.injEq] at h
    obtain ⟨u, hu, rfl, rfl⟩ := h
    exact hg.work hu

end operate

/-! ## behind two sources -/

section two
variable {q₁ : Clocked S₁ L₁ α} {q₂ : Clocked S₂ L₂ β} {p : Proc P W (Notif α ⊕ Notif β) (Notif γ)}

/-- The calls of the two sources among those that have come in. -/
def _root_.Aio.Timed.lefts (cs : List ((Notif α ⊕ Notif β) × Nat)) : List (Notif α × Nat) :=
  cs.filterMap fun c => c.1.getLeft?.map fun n => (n, c.2)
def _root_.Aio.Timed.rights (cs : List ((Notif α ⊕ Notif β) × Nat)) : List (Notif β × Nat) :=
  cs.filterMap fun c => c.1.getRight?.map fun n => (n, c.2)

theorem stamp_left (got : List ((Notif α ⊕ Notif β) × Nat)) (cs : List (Notif α × Nat)) (t : Nat) :
    Timed.lefts (got ++ (cs.map fun c => .inl c.1).map fun i => (i, t)) = Timed.lefts got ++ (cs.map (·.1)).map (fun n => (n, t)) ∧
    Timed.rights (got ++ (cs.map fun c => .inl c.1).map fun i => (i, t)) = Timed.rights got := by
  simp only [Timed.lefts, Timed.rights, List.filterMap_append]
  refine ⟨congrArg _ ?_, ?_⟩
  · induction cs with
    | nil => rfl
    | cons c cs ih => simpa using ih
  · conv => rhs; rw [← List.append_nil (List.filterMap _ got)]
    congr 1
    induction cs with
    | nil => rfl
    | cons c cs ih => exact ih

theorem stamp_right (got : List ((Notif α ⊕ Notif β) × Nat)) (cs : List (Notif β × Nat)) (t : Nat) :
    Timed.rights (got ++ (cs.map fun c => .inr c.1).map fun i => (i, t)) = Timed.rights got ++ (cs.map (·.1)).map (fun n => (n, t)) ∧
    Timed.lefts (got ++ (cs.map fun c => .inr c.1).map fun i => (i, t)) = Timed.lefts got := by
  simp only [Timed.lefts, Timed.rights, List.filterMap_append]
  refine ⟨congrArg _ ?_, ?_⟩
  · induction cs with
    | nil => rfl
    | cons c cs ih => simpa using ih
  · conv => rhs; rw [← List.append_nil (List.filterMap _ got)]
    congr 1
    induction cs with
    | nil => rfl
    | cons c cs ih => exact ih

theorem two_sources (h₁ : q₁.Lawful) (h₂ : q₂.Lawful) (h0 : q₁.now q₁.init = q₂.now q₂.init)
    {ls : List (Time (Two.Label L₁ L₂ W))} {s : S₁ × S₂ × Timed P (Notif α ⊕ Notif β) (Notif γ)}
    (hr : LTS.run (q₁.two q₂ p).step (q₁.two q₂ p).init ls = some s) :
    LTS.run q₁.step q₁.init (lefts ls) = some s.1 ∧ LTS.run q₂.step q₂.init (rights ls) = some s.2.1 ∧ q₁.now s.1 = q₂.now s.2.1 ∧
    Timed.lefts s.2.2.got = q₁.calls s.1 ∧ Timed.rights s.2.2.got = q₂.calls s.2.1 := by
  refine LTS.inv_hist (step := (q₁.two q₂ p).step) (fun ls s =>
    LTS.run q₁.step q₁.init (lefts ls) = some s.1 ∧ LTS.run q₂.step q₂.init (rights ls) = some s.2.1 ∧ q₁.now s.1 = q₂.now s.2.1 ∧
    Timed.lefts s.2.2.got = q₁.calls s.1 ∧ Timed.rights s.2.2.got = q₂.calls s.2.1)
    (s0 := (q₁.two q₂ p).init) ⟨rfl, rfl, h0, h₁.init.symm, h₂.init.symm⟩ ?_ hr
  rintro ls ⟨s, u, t⟩ l ⟨s', u', t'⟩ ⟨g1, g2, g3, g4, g5⟩ h
  have ha : lefts (ls ++ [l]) = lefts ls ++ lefts [l] := List.filterMap_append ..
  have hb : rights (ls ++ [l]) = rights ls ++ rights [l] := List.filterMap_append ..
  rw [ha, hb]
  dsimp only at g1 g2 g3 g4 g5 ⊢
  match l with
  | .pass d =>
    simp only [step, two] at h
    split at h
    · next s₁ s₂ e₁ e₂ =>
      simp only [Option.some.injEq, Prod.mk.injEq] at h
      obtain ⟨rfl, rfl, rfl⟩ := h
      obtain ⟨a1, a2⟩ := h₁.pass g1 e₁
      obtain ⟨b1, b2⟩ := h₂.pass g2 e₂
      exact ⟨LTS.run_append.mpr ⟨_, g1, LTS.run_cons.mpr ⟨_, e₁, rfl⟩⟩, LTS.run_append.mpr ⟨_, g2, LTS.run_cons.mpr ⟨_, e₂, rfl⟩⟩,
        by rw [a1, b1, g3], by rw [a2, g4], by rw [b2, g5]⟩
    · cases h
  | .act (.left l) =>
    simp only [step, two] at h
    split at h
    · cases h
    · next v hv =>
      simp only [Option.some.injEq, Prod.mk.injEq] at h
      obtain ⟨rfl, rfl, rfl⟩ := h
      obtain ⟨a1, a2⟩ := h₁.fresh g1 hv
      refine ⟨LTS.run_append.mpr ⟨_, g1, LTS.run_cons.mpr ⟨_, hv, rfl⟩⟩, LTS.run_append.mpr ⟨_, g2, rfl⟩, by rw [a1, g3], ?_, ?_⟩
      · exact (stamp_left _ _ _).1.trans (by rw [g4]; exact a2.symm)
      · exact (stamp_left _ _ _).2.trans g5
  | .act (.right l) =>
    simp only [step, two] at h
    split at h
    · cases h
    · next v hv =>
      simp only [Option.some.injEq, Prod.mk.injEq] at h
      obtain ⟨rfl, rfl, rfl⟩ := h
      obtain ⟨a1, a2⟩ := h₂.fresh g2 hv
      refine ⟨LTS.run_append.mpr ⟨_, g1, rfl⟩, LTS.run_append.mpr ⟨_, g2, LTS.run_cons.mpr ⟨_, hv, rfl⟩⟩, by rw [a1, g3], ?_, ?_⟩
      · exact (stamp_right _ _ _).2.trans g4
      · exact (stamp_right _ _ _).1.trans (by rw [g5, g3]; exact a2.symm)
  | .act (.worker w) =>
    simp only [step, two, Option.map_eq_some_iff, Prod.mk.injEq] at h
    obtain ⟨v, hv, rfl, rfl, rfl⟩ := h
    have hg : v.got = t.got := by
      simp only [Timed.work] at hv
      split at hv
      · cases hv
      · cases hv; rfl
    exact ⟨LTS.run_append.mpr ⟨_, g1, rfl⟩, LTS.run_append.mpr ⟨_, g2, rfl⟩, g3, by rw [hg, g4], by rw [hg, g5]⟩

theorem two_lawful (h₁ : q₁.Lawful) (h₂ : q₂.Lawful) (h0 : q₁.now q₁.init = q₂.now q₂.init) (p : Proc P W (Notif α ⊕ Notif β) (Notif γ)) :
    (q₁.two q₂ p).Lawful := by
  refine ⟨rfl, ?_, ?_⟩
  · rintro ls ⟨s, u, t⟩ l ⟨s', u', t'⟩ hr h
    obtain ⟨g1, g2, g3, -, -⟩ := two_sources h₁ h₂ h0 hr
    match l with
    | .left l =>
      simp only [two] at h ⊢
      split at h
      · cases h
      · next v hv =>
        simp only [Option.some.injEq, Prod.mk.injEq] at h
        obtain ⟨rfl, rfl, rfl⟩ := h
        exact ⟨(h₁.fresh g1 hv).1, _, rfl⟩
    | .right l =>
      simp only [two] at h ⊢
      split at h
      · cases h
      · next v hv =>
        simp only [Option.some.injEq, Prod.mk.injEq] at h
        obtain ⟨rfl, rfl, rfl⟩ := h
        exact ⟨rfl, _, rfl⟩
    | .worker w =>
      simp only [two, Option.map_eq_some_iff, Prod.mk.injEq] at h ⊢
      obtain ⟨v, hv, rfl, rfl, rfl⟩ := h
      simp only [Timed.work] at hv
      split at hv
      · cases hv
      · cases hv; exact ⟨rfl, _, rfl⟩
  · rintro ls ⟨s, u, t⟩ d ⟨s', u', t'⟩ hr h
    obtain ⟨g1, g2, g3, -, -⟩ := two_sources h₁ h₂ h0 hr
    simp only [two] at h ⊢
    split at h
    · next s₁ s₂ e₁ e₂ =>
      simp only [Option.some.injEq, Prod.mk.injEq] at h
      obtain ⟨rfl, rfl, rfl⟩ := h
      exact ⟨(h₁.pass g1 e₁).1, rfl⟩
    · cases h

theorem two_good (h₁ : q₁.Lawful) (h₂ : q₂.Lawful) (h0 : q₁.now q₁.init = q₂.now q₂.init) {F : List (Notif α ⊕ Notif β) → List (Notif γ)}
    (hF : ∀ es s out, p.exec p.init es = some (s, out) → p.Quiescent s → out = F (Proc.inputs es)) (hF0 : F [] = [])
    {ls : List (Time (Two.Label L₁ L₂ W))} {s : S₁ × S₂ × Timed P (Notif α ⊕ Notif β) (Notif γ)}
    (hr : LTS.run (q₁.two q₂ p).step (q₁.two q₂ p).init ls = some s) (hp : (q₁.two q₂ p).Prompt (fun s => p.Quiescent s.2.2.ps) ls) :
    s.2.2.Good p F (q₁.now s.1) := by
  revert hp
  refine LTS.inv_reach (step := (q₁.two q₂ p).step) (fun ls s => (q₁.two q₂ p).Prompt (fun s => p.Quiescent s.2.2.ps) ls → s.2.2.Good p F (q₁.now s.1))
    (s0 := (q₁.two q₂ p).init) (fun _ => Timed.good_init p F hF0 _) ?_ hr
  rintro ls ⟨s, u, t⟩ l ⟨s', u', t'⟩ hr ih h hp
  have hg := ih hp.init
  obtain ⟨g1, g2, g3, -, -⟩ := two_sources h₁ h₂ h0 hr
  dsimp only at g1 g2 g3 hg ⊢
  match l with
  | .pass d =>
    have hqu := hp.last hr
    simp only [step, two] at h
    split at h
    · next s₁ s₂ e₁ e₂ =>
      simp only [Option.some.injEq, Prod.mk.injEq] at h
      obtain ⟨rfl, rfl, rfl⟩ := h
      rw [(h₁.pass g1 e₁).1]
      exact hg.pass (dom := fun _ => True) (fun es s out h _ => hF es s out h) trivial hqu d
    · cases h
  | .act (.left l) =>
    simp only [step, two] at h
    split at h
    · cases h
    · next v hv =>
      simp only [Option.some.injEq, Prod.mk.injEq] at h
      obtain ⟨rfl, rfl, rfl⟩ := h
      rw [(h₁.fresh g1 hv).1]
      exact hg.feed _
  | .act (.right l) =>
    simp only [step, two] at h
    split at h
    · cases h
    · next v hv =>
      simp only [Option.some.injEq, Prod.mk.injEq] at h
      obtain ⟨rfl, rfl, rfl⟩ := h
      exact hg.feed _
  | .act (.worker w) =>
    simp only [step, two, Option.map_eq_some_iff, Prod.mk.injEq] at h
    obtain ⟨v, hv, rfl, rfl, rfl⟩ := h
    exact hg.work hv

end two

end Clocked

end Aio
