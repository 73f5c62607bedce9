import Verif.Model.TestSubject
import Verif.Spec.TestSubject
import Verif.Lemmas.VirtualTime
import Verif.Lemmas.Lists
/-!
# The test subjects' timed methods: invariants
-/

namespace Aio.TestSubject
variable {α : Type}
open Aio.VirtualTime (Heap)

def St.begun : St → Bool
  | .sending => true
  | .finished => true
  | .failed => true
  | _ => false

/-- When the job should send. -/
def Job.due (b : Job α) : Int :=
  match b.kind with
  | .at w => Spec.timeAt w b.made
  | .later d => Spec.timeLater d b.made

/-- Whether the job's `worker` finds its task in the variable. -/
def Job.assigns (b : Job α) : Bool :=
  match b.kind with
  | .at _ => callbackAssigns b.ev
  | .later _ => true

/-- What holds of a job, by its state. -/
def Ok (v : VirtualTime.State) (b : Job α) : Prop :=
  match b.st with
  | .scheduled => b.inSet = false ∧ ∃ (i : Nat) (w : Int), b.handle = some i ∧ b.kind = .at w ∧ v.made[i]? = some (some w, b.made)
  | .created => b.inSet = true ∧ b.var = b.assigns ∧ ∃ (i : Nat) (t : Int), b.handle = some i ∧ v.made[i]? = some (none, t) ∧
      match b.kind with
      | .at w => t = Spec.timeAt w b.made
      | .later _ => t = b.made
  | .sleeping => b.inSet = true ∧ b.var = b.assigns ∧ ∃ (i : Nat) (d : Int), b.handle = some i ∧ b.kind = .later d ∧ 0 < d ∧
      v.made[i]? = some (some (b.made + d), b.made)
  | .resumed => b.inSet = true ∧ b.var = b.assigns ∧ ∃ (i : Nat), b.handle = some i ∧ v.made[i]? = some (none, b.due)
  | .sending => b.inSet = true ∧ b.var = b.assigns ∧ b.handle = none
  | .finished => b.inSet = !b.assigns ∧ b.handle = none
  | .failed => b.inSet = true ∧ b.handle = none

/-- The loop has not touched handle `i`. -/
def Keeps (v v' : VirtualTime.State) (i : Nat) : Prop :=
  (∀ x, v.made[i]? = some x → v'.made[i]? = some x) ∧ v.made.length ≤ v'.made.length ∧
  (i ∉ v.cancelled → i ∉ v'.cancelled) ∧ (i ∉ v.log.map (·.id) → i ∉ v'.log.map (·.id))

theorem Ok.keep {v v' : VirtualTime.State} {b : Job α} (h : Ok v b) (k : ∀ i, b.handle = some i → Keeps v v' i) : Ok v' b := by
  unfold Ok at h ⊢
  cases hs : b.st <;> simp only [hs] at h ⊢
  case scheduled => obtain ⟨h0, i, w, h1, h2, h3⟩ := h; exact ⟨h0, i, w, h1, h2, (k i h1).1 _ h3⟩
  case created => obtain ⟨h0, h', i, t, h1, h2, h3⟩ := h; exact ⟨h0, h', i, t, h1, (k i h1).1 _ h2, h3⟩
  case sleeping => obtain ⟨h0, h', i, d, h1, h2, h3, h4⟩ := h; exact ⟨h0, h', i, d, h1, h2, h3, (k i h1).1 _ h4⟩
  case resumed => obtain ⟨h0, h', i, h1, h2⟩ := h; exact ⟨h0, h', i, h1, (k i h1).1 _ h2⟩
  all_goals exact h

theorem clean_keeps (h : Heap) (s : VirtualTime.State) : (s.cleanUp h).made = s.made ∧ (s.cleanUp h).cancelled = s.cancelled ∧
    (s.cleanUp h).log = s.log ∧ (s.cleanUp h).time = s.time := by
  unfold VirtualTime.State.cleanUp; split <;> exact ⟨rfl, rfl, rfl, rfl⟩

theorem advance_keeps (h : Heap) (s : VirtualTime.State) : (s.advance h).made = s.made ∧ (s.advance h).cancelled = s.cancelled ∧
    (s.advance h).log = s.log ∧ s.time ≤ (s.advance h).time := by
  unfold VirtualTime.State.advance; split
  · exact ⟨rfl, rfl, rfl, by dsimp only; omega⟩
  · exact ⟨rfl, rfl, rfl, Int.le_refl _⟩

/-- What a step of the loop does to a handle. -/
theorem vt_keeps {h : Heap} {v v' : VirtualTime.State} {l : VirtualTime.Label} (hs : VirtualTime.step h v l = some v') (i : Nat)
    (hc : l ≠ .cancel i) (hn : l = .next → ∀ x, v.ready.head? = some x → x.1 ≠ i) : Keeps v v' i := by
  have push : ∀ (x y : Option Int × Int), v.made[i]? = some x → (v.made ++ [y])[i]? = some x := by
    intro x y hx
    rw [List.getElem?_append_left]; · exact hx
    exact (List.getElem?_eq_some_iff.mp hx).1
  cases l with
  | callSoon =>
    simp only [VirtualTime.step] at hs; split at hs <;> cases hs
    exact ⟨fun x => push x _, by simp, fun h => h, fun h => h⟩
  | callAt w =>
    simp only [VirtualTime.step] at hs; split at hs <;> cases hs
    exact ⟨fun x => push x _, by simp, fun h => h, fun h => h⟩
  | cancel k =>
    simp only [VirtualTime.step] at hs
    split at hs
    · split at hs <;> cases hs
      · exact ⟨fun x h => h, Nat.le_refl _, fun h => h, fun h => h⟩
      · refine ⟨fun x h => h, Nat.le_refl _, fun h => ?_, fun h => h⟩
        have : i ≠ k := fun he => hc (by rw [he])
        simp [this, h]
    · cases hs
  | runOnce =>
    simp only [VirtualTime.step] at hs; split at hs <;> cases hs
    obtain ⟨a1, a2, a3, _⟩ := clean_keeps h v
    obtain ⟨b1, b2, b3, _⟩ := advance_keeps h (v.cleanUp h)
    refine ⟨fun x hx => ?_, ?_, fun hx => ?_, fun hx => ?_⟩
    · dsimp only; rw [b1, a1]; exact hx
    · dsimp only; rw [b1, a1]; exact Nat.le_refl _
    · dsimp only; rw [b2, a2]; exact hx
    · dsimp only; rw [b3, a3]; exact hx
  | next =>
    simp only [VirtualTime.step] at hs
    split at hs
    · next k j due ready h1 h2 =>
      split at hs <;> cases hs
      · exact ⟨fun x h => h, Nat.le_refl _, fun h => h, fun h => h⟩
      · refine ⟨fun x h => h, Nat.le_refl _, fun h => h, fun h => ?_⟩
        have : j ≠ i := hn rfl (j, due) (by rw [h2]; rfl)
        simp only [List.map_append, List.map_cons, List.map_nil, List.mem_append, List.mem_singleton, not_or]
        exact ⟨h, fun he => this he.symm⟩
    · cases hs
  | done =>
    simp only [VirtualTime.step] at hs; split at hs <;> cases hs
    exact ⟨fun x h => h, Nat.le_refl _, fun h => h, fun h => h⟩

theorem vt_time {h : Heap} {v v' : VirtualTime.State} {l : VirtualTime.Label} (hs : VirtualTime.step h v l = some v') : v.time ≤ v'.time := by
  cases l with
  | callSoon => simp only [VirtualTime.step] at hs; split at hs <;> cases hs; exact Int.le_refl _
  | callAt w => simp only [VirtualTime.step] at hs; split at hs <;> cases hs; exact Int.le_refl _
  | cancel k =>
    simp only [VirtualTime.step] at hs
    split at hs
    · split at hs <;> cases hs <;> exact Int.le_refl _
    · cases hs
  | runOnce =>
    simp only [VirtualTime.step] at hs; split at hs <;> cases hs
    have a := (clean_keeps h v).2.2.2
    have b := (advance_keeps h (v.cleanUp h)).2.2.2
    dsimp only; omega
  | next =>
    simp only [VirtualTime.step] at hs
    split at hs
    · split at hs <;> cases hs <;> exact Int.le_refl _
    · cases hs
  | done => simp only [VirtualTime.step] at hs; split at hs <;> cases hs; exact Int.le_refl _

/-- The invariant, except for the job `ex` that is being run. -/
structure Inv {h : Heap} (L : h.Laws) (s : State α) (ex : Option Nat) : Prop where
  vt : VirtualTime.Inv L s.vt
  ok : ∀ (j : Nat) (b : Job α), s.jobs[j]? = some b → some j ≠ ex → Ok s.vt b
  free : ∀ (j : Nat) (b : Job α) (i : Nat), s.jobs[j]? = some b → some j ≠ ex → b.handle = some i →
    i < s.vt.made.length ∧ i ∉ s.vt.cancelled ∧ i ∉ s.vt.log.map (·.id)
  inj : ∀ (j k : Nat) (b c : Job α) (i : Nat), s.jobs[j]? = some b → s.jobs[k]? = some c → some j ≠ ex → some k ≠ ex →
    b.handle = some i → c.handle = some i → j = k
  sent : ∀ (j : Nat) (b : Job α), s.jobs[j]? = some b →
    s.sent.filter (·.1 == j) = if b.st.begun then [(j, b.ev, b.due)] else []
  bound : ∀ e ∈ s.sent, e.1 < s.jobs.length
  order : s.sent.Pairwise (fun a b => a.2.2 ≤ b.2.2)
  now : ∀ e ∈ s.sent, e.2.2 ≤ s.vt.time

theorem inv_init {h : Heap} (L : h.Laws) : Inv L (init : State α) none :=
  ⟨VirtualTime.inv_init L, by simp [init], by simp [init], by simp [init], by simp [init], by simp [init], by simp [init],
    by simp [init]⟩

/-- The loop does something that touches no job, except possibly the one being run. -/
theorem Inv.loop {h : Heap} {L : h.Laws} {s : State α} {ex ex' : Option Nat} (I : Inv L s ex) {l : VirtualTime.Label}
    {v : VirtualTime.State} (hs : VirtualTime.step h s.vt l = some v) (hx : ∀ j, some j = ex → some j = ex')
    (hk : ∀ (j : Nat) (b : Job α) (i : Nat), s.jobs[j]? = some b → some j ≠ ex' → b.handle = some i → Keeps s.vt v i) :
    Inv L { s with vt := v } ex' := by
  refine ⟨VirtualTime.inv_step L _ _ _ I.vt hs, ?_, ?_, ?_, I.sent, I.bound, I.order, ?_⟩
  · intro j b hj hne
    exact (I.ok j b hj (fun he => hne (hx j he))).keep (fun i hi => hk j b i hj hne hi)
  · intro j b i hj hne hi
    obtain ⟨h1, h2, h3⟩ := I.free j b i hj (fun he => hne (hx j he)) hi
    obtain ⟨_, k2, k3, k4⟩ := hk j b i hj hne hi
    exact ⟨Nat.lt_of_lt_of_le h1 k2, k3 h2, k4 h3⟩
  · intro j k b c i hj hk hne1 hne2
    exact I.inj j k b c i hj hk (fun he => hne1 (hx j he)) (fun he => hne2 (hx k he))
  · intro e he
    exact Int.le_trans (I.now e he) (vt_time hs)

/-- The job that is being run is put back. -/
theorem Inv.restore {h : Heap} {L : h.Laws} {s : State α} {j : Nat} (I : Inv L s (some j)) {b b' : Job α}
    (hj : s.jobs[j]? = some b) (sent : List (Nat × Notif α × Int)) (hok : Ok s.vt b')
    (hfree : ∀ i, b'.handle = some i → i < s.vt.made.length ∧ i ∉ s.vt.cancelled ∧ i ∉ s.vt.log.map (·.id))
    (hnew : ∀ i, b'.handle = some i → ∀ (k : Nat) (c : Job α), s.jobs[k]? = some c → k ≠ j → c.handle ≠ some i)
    (hsent : sent.filter (·.1 == j) = if b'.st.begun then [(j, b'.ev, b'.due)] else [])
    (hrest : sent = s.sent ∨ ∃ e, sent = s.sent ++ [(j, e, s.vt.time)]) :
    Inv L { s with jobs := s.jobs.set j b', sent := sent } none := by
  have hlt := (List.getElem?_eq_some_iff.mp hj).1
  have get : ∀ (k : Nat) (c : Job α), (s.jobs.set j b')[k]? = some c → (k = j ∧ c = b') ∨ (k ≠ j ∧ s.jobs[k]? = some c) := by
    intro k c hk
    rw [List.getElem?_set] at hk
    split at hk
    · next he =>
      cases hk
      exact Or.inl ⟨he.symm, rfl⟩
    · next he => exact Or.inr ⟨fun h => he h.symm, hk⟩
  have ne : ∀ k, k ≠ j → some k ≠ some j := fun k hk he => hk (Option.some.inj he)
  refine ⟨I.vt, ?_, ?_, ?_, ?_, ?_, ?_, ?_⟩
  · intro k c hk _
    rcases get k c hk with ⟨rfl, rfl⟩ | ⟨hne, hk1⟩
    · exact hok
    · exact I.ok k c hk1 (ne k hne)
  · intro k c i hk _ hi
    rcases get k c hk with ⟨rfl, rfl⟩ | ⟨hne, hk1⟩
    · exact hfree i hi
    · exact I.free k c i hk1 (ne k hne) hi
  · intro k m c d i hk hm _ _ hi hi'
    rcases get k c hk with ⟨rfl, rfl⟩ | ⟨hne, hk1⟩ <;> rcases get m d hm with ⟨rfl, rfl⟩ | ⟨hne', hm1⟩
    · rfl
    · exact absurd hi' (hnew i hi m d hm1 hne')
    · exact absurd hi (hnew i hi' k c hk1 hne)
    · exact I.inj k m c d i hk1 hm1 (ne k hne) (ne m hne') hi hi'
  · intro k c hk
    rcases get k c hk with ⟨rfl, rfl⟩ | ⟨hne, hk1⟩
    · exact hsent
    · rcases hrest with rfl | ⟨e, rfl⟩
      · exact I.sent k c hk1
      · dsimp only
        rw [List.filter_append, I.sent k c hk1]
        have : (j == k) = false := by simp; exact fun h => hne h.symm
        simp [this]
  · intro e he
    dsimp only at he ⊢
    rw [List.length_set]
    rcases hrest with rfl | ⟨x, rfl⟩
    · exact I.bound e he
    · rcases List.mem_append.mp he with he | he
      · exact I.bound e he
      · rw [List.mem_singleton.mp he]; exact hlt
  · rcases hrest with rfl | ⟨x, rfl⟩
    · exact I.order
    · refine List.pairwise_append.mpr ⟨I.order, by simp, ?_⟩
      intro a ha c hc
      rw [List.mem_singleton.mp hc]
      exact I.now a ha
  · intro e he
    dsimp only at he ⊢
    rcases hrest with rfl | ⟨x, rfl⟩
    · exact I.now e he
    · rcases List.mem_append.mp he with he | he
      · exact I.now e he
      · rw [List.mem_singleton.mp he]; exact Int.le_refl _

/-- Dropping a job from view. -/
theorem Inv.hide {h : Heap} {L : h.Laws} {s : State α} (I : Inv L s none) (j : Nat) : Inv L s (some j) :=
  ⟨I.vt, fun k b hk _ => I.ok k b hk nofun, fun k b i hk _ => I.free k b i hk nofun,
    fun k m b c i hk hm _ _ => I.inj k m b c i hk hm nofun nofun, I.sent, I.bound, I.order, I.now⟩

/-- A new handle is what it should be. -/
theorem soon_spec {h : Heap} {v v' : VirtualTime.State} (hs : VirtualTime.step h v .callSoon = some v') :
    v'.made[v.made.length]? = some (none, v.time) ∧ v'.made.length = v.made.length + 1 ∧ v'.cancelled = v.cancelled ∧
    v'.log = v.log ∧ v'.time = v.time := by
  simp only [VirtualTime.step] at hs; split at hs <;> cases hs
  exact ⟨by simp, by simp, rfl, rfl, rfl⟩

theorem at_spec {h : Heap} {v v' : VirtualTime.State} {w : Int} (hs : VirtualTime.step h v (.callAt w) = some v') :
    v'.made[v.made.length]? = some (some w, v.time) ∧ v'.made.length = v.made.length + 1 ∧ v'.cancelled = v.cancelled ∧
    v'.log = v.log ∧ v'.time = v.time := by
  simp only [VirtualTime.step] at hs; split at hs <;> cases hs
  exact ⟨by simp, by simp, rfl, rfl, rfl⟩

/-- The handle that is made next is in no use. -/
theorem fresh_free {h : Heap} {L : h.Laws} {v v' : VirtualTime.State} (I : VirtualTime.Inv L v)
    (h1 : v'.made.length = v.made.length + 1) (h2 : v'.cancelled = v.cancelled) (h3 : v'.log = v.log) :
    v.made.length < v'.made.length ∧ v.made.length ∉ v'.cancelled ∧ v.made.length ∉ v'.log.map (·.id) := by
  refine ⟨by omega, ?_, ?_⟩
  · rw [h2]; intro hm; exact Nat.lt_irrefl _ (I.cancelledBound _ hm)
  · rw [h3]; intro hm; exact Nat.lt_irrefl _ (I.bound _ (List.mem_append.mpr (Or.inr hm)))

/-- A job is added. -/
theorem Inv.add {h : Heap} {L : h.Laws} {s : State α} (I : Inv L s none) {l : VirtualTime.Label} {v : VirtualTime.State}
    (hs : VirtualTime.step h s.vt l = some v) (hl : ∀ i, l ≠ .cancel i) (hl' : l ≠ .next) {b : Job α} (hok : Ok v b)
    (hh : b.handle = some s.vt.made.length) (hb : b.st.begun = false)
    (h1 : v.made.length = s.vt.made.length + 1) (h2 : v.cancelled = s.vt.cancelled) (h3 : v.log = s.vt.log) :
    Inv L { s with vt := v, jobs := s.jobs ++ [b] } none := by
  have I' := I.loop (ex' := none) hs nofun (fun j b i _ _ _ => vt_keeps hs i (hl i) (fun he => absurd he hl'))
  have old : ∀ (j : Nat) (c : Job α) (i : Nat), s.jobs[j]? = some c → c.handle = some i → i ≠ s.vt.made.length := by
    intro j c i hj hi he
    exact Nat.lt_irrefl _ (he ▸ (I.free j c i hj nofun hi).1)
  have get : ∀ (k : Nat) (c : Job α), (s.jobs ++ [b])[k]? = some c → (k = s.jobs.length ∧ c = b) ∨ s.jobs[k]? = some c := by
    intro k c hk
    rcases (get_push ..).mp hk with hk | ⟨rfl, rfl⟩
    · exact Or.inr hk
    · exact Or.inl ⟨rfl, rfl⟩
  refine ⟨I'.vt, ?_, ?_, ?_, ?_, ?_, I.order, I'.now⟩
  · intro k c hk _
    rcases get k c hk with ⟨rfl, rfl⟩ | hk1
    · exact hok
    · exact I'.ok k c hk1 nofun
  · intro k c i hk _ hi
    rcases get k c hk with ⟨rfl, rfl⟩ | hk1
    · rw [hh] at hi; cases hi
      exact fresh_free I.vt h1 h2 h3
    · exact I'.free k c i hk1 nofun hi
  · intro k m c d i hk hm _ _ hi hi'
    rcases get k c hk with ⟨rfl, rfl⟩ | hk1 <;> rcases get m d hm with ⟨rfl, rfl⟩ | hm1
    · rfl
    · rw [hh] at hi; cases hi; exact absurd rfl (old m d _ hm1 hi')
    · rw [hh] at hi'; cases hi'; exact absurd rfl (old k c _ hk1 hi)
    · exact I.inj k m c d i hk1 hm1 nofun nofun hi hi'
  · intro k c hk
    rcases get k c hk with ⟨rfl, rfl⟩ | hk1
    · rw [hb]
      simp only [Bool.false_eq_true, if_false, List.filter_eq_nil_iff]
      intro e he hee
      have := I.bound e he
      simp only [beq_iff_eq] at hee
      omega
    · exact I.sent k c hk1
  · intro e he
    have := I.bound e he
    dsimp only; rw [List.length_append]; omega

theorem Ok.made {v v' : VirtualTime.State} {b : Job α} (h : Ok v b) (he : v'.made = v.made) : Ok v' b := by
  unfold Ok at h ⊢; rw [he]; exact h

/-- The sending begins. -/
theorem inv_send {h : Heap} {L : h.Laws} {s : State α} {j : Nat} (I : Inv L s (some j)) {b : Job α}
    (hj : s.jobs[j]? = some b) (hb : b.st.begun = false) (h1 : b.inSet = true) (h2 : b.var = b.assigns)
    (ht : s.vt.time = b.due) : Inv L (s.send j b) none := by
  unfold State.send
  refine I.restore hj _ ?_ nofun nofun ?_ (Or.inr ⟨b.ev, rfl⟩)
  · exact ⟨h1, h2, rfl⟩
  · rw [List.filter_append, I.sent j b hj, hb, ht]
    simp [St.begun, Job.due]

/-- A handle was made for the job. -/
theorem inv_goOn {h : Heap} {L : h.Laws} {s : State α} {j : Nat} (I : Inv L s (some j)) {b b' : Job α}
    (hj : s.jobs[j]? = some b) (hb : b.st.begun = false) (hb' : b'.st.begun = false)
    {l : VirtualTime.Label} {v : VirtualTime.State}
    (hs : VirtualTime.step h s.vt l = some v) (hl : ∀ i, l ≠ .cancel i) (hl' : l ≠ .next) (hok : Ok v b')
    (hh : b'.handle = some s.vt.made.length)
    (h1 : v.made.length = s.vt.made.length + 1) (h2 : v.cancelled = s.vt.cancelled) (h3 : v.log = s.vt.log) :
    Inv L { s with vt := v, jobs := s.jobs.set j b' } none := by
  have I' := I.loop (ex' := some j) hs (fun _ h => h) (fun j b i _ _ _ => vt_keeps hs i (hl i) (fun he => absurd he hl'))
  refine I'.restore (b := b) hj s.sent hok ?_ ?_ ?_ (Or.inl rfl)
  · intro i hi
    rw [hh] at hi; cases hi
    exact fresh_free I.vt h1 h2 h3
  · intro i hi k c hk hne hc
    rw [hh] at hi; cases hi
    exact Nat.lt_irrefl _ (I.free k c _ hk (fun he => hne (Option.some.inj he)) hc).1
  · rw [I.sent j b hj, hb, hb']; rfl

theorem inv_runJob {h : Heap} {L : h.Laws} {s s' : State α} {j i : Nat} (I : Inv L s (some j)) {b : Job α}
    (hj : s.jobs[j]? = some b) (hok : Ok s.vt b) (hi : b.handle = some i) {due : Option Int} {c : Int}
    (ht : s.vt.time = match due with | some w => max w c | none => c) (hm : s.vt.made[i]? = some (due, c))
    (hr : s.runJob h j b = some s') : Inv L s' none := by
  unfold State.runJob at hr
  unfold Ok at hok
  cases hst : b.st <;> simp only [hst] at hr hok
  case scheduled =>
    obtain ⟨v, hv, rfl⟩ := Option.map_eq_some_iff.mp hr
    obtain ⟨q1, q2, q3, q4, q5⟩ := soon_spec hv
    refine inv_goOn I hj (by rw [hst]; rfl) rfl hv nofun nofun ?_ rfl q2 q3 q4
    obtain ⟨k1, i', w, k2, k3, k4⟩ := hok
    rw [hi] at k2; cases k2
    rw [hm] at k4; cases k4
    refine ⟨rfl, ?_, s.vt.made.length, _, rfl, q1, ?_⟩
    · simp only [Job.assigns, k3]
    · dsimp only
      rw [k3]
      dsimp only at ht ⊢
      rw [ht]; simp only [Spec.timeAt]; split <;> omega
  case created =>
    obtain ⟨k1, k2, i', t, k3, k4, k5⟩ := hok
    rw [hi] at k3; cases k3
    rw [hm] at k4; cases k4
    dsimp only at ht
    cases hk : b.kind with
    | «at» w =>
      simp only [hk] at hr k5
      cases hr
      refine inv_send I hj (by rw [hst]; rfl) k1 k2 ?_
      rw [ht, k5]; simp only [Job.due, hk]
    | later d =>
      simp only [hk] at hr k5
      split at hr
      · next hd =>
        obtain ⟨v, hv, rfl⟩ := Option.map_eq_some_iff.mp hr
        obtain ⟨q1, q2, q3, q4, q5⟩ := soon_spec hv
        refine inv_goOn I hj (by rw [hst]; rfl) rfl hv nofun nofun ?_ rfl q2 q3 q4
        refine ⟨k1, by rw [k2]; simp only [Job.assigns, hk], s.vt.made.length, rfl, ?_⟩
        rw [q1, ht, k5]
        simp only [Job.due, Spec.timeLater]
        split
        · have : d = 0 := by omega
          rw [this]; simp
        · rfl
      · next hd =>
        obtain ⟨v, hv, rfl⟩ := Option.map_eq_some_iff.mp hr
        obtain ⟨q1, q2, q3, q4, q5⟩ := at_spec hv
        refine inv_goOn I hj (by rw [hst]; rfl) rfl hv nofun nofun ?_ rfl q2 q3 q4
        refine ⟨k1, by rw [k2]; simp only [Job.assigns, hk], s.vt.made.length, d, rfl, rfl, by omega, ?_⟩
        rw [q1, ht, k5]
  case sleeping =>
    obtain ⟨v, hv, rfl⟩ := Option.map_eq_some_iff.mp hr
    obtain ⟨q1, q2, q3, q4, q5⟩ := soon_spec hv
    refine inv_goOn I hj (by rw [hst]; rfl) rfl hv nofun nofun ?_ rfl q2 q3 q4
    obtain ⟨k1, k2, i', d, k3, k4, k5, k6⟩ := hok
    rw [hi] at k3; cases k3
    rw [hm] at k6; cases k6
    refine ⟨k1, k2, s.vt.made.length, rfl, ?_⟩
    dsimp only at ht
    rw [q1, ht]
    simp only [Job.due, k4, Spec.timeLater]
    rw [if_pos (by omega)]
    congr 2
    omega
  case resumed =>
    obtain ⟨k1, k2, i', k3, k4⟩ := hok
    rw [hi] at k3; cases k3
    rw [hm] at k4; cases k4
    cases hr
    exact inv_send I hj (by rw [hst]; rfl) k1 k2 ht
  all_goals cases hr

/-- What the start of the next callback does. -/
theorem next_spec {h : Heap} {v v' : VirtualTime.State} {i : Nat} {due : Option Int} {rest : List (Nat × Option Int)}
    (hs : VirtualTime.step h v .next = some v') (hr : v.ready = (i, due) :: rest) :
    v'.made = v.made ∧ (i ∈ v.cancelled ∧ v'.inCallback = false ∧ v'.log = v.log ∨
      i ∉ v.cancelled ∧ v'.inCallback = true ∧ v'.log = v.log ++ [⟨i, due, v'.time, v.made.length⟩]) := by
  simp only [VirtualTime.step] at hs
  split at hs
  · next k i' due' rest' h1 h2 =>
    rw [hr] at h2; cases h2
    split at hs <;> cases hs
    · next hc => exact ⟨rfl, Or.inl ⟨hc, rfl, rfl⟩⟩
    · next hc => exact ⟨rfl, Or.inr ⟨hc, rfl, rfl⟩⟩
  · cases hs

theorem inv_step {h : Heap} (L : h.Laws) (s : State α) (l : Label α) (s' : State α) (I : Inv L s none)
    (hs : step h s l = some s') : Inv L s' none := by
  cases l with
  | sendAt n w =>
    simp only [step] at hs
    obtain ⟨v, hv, rfl⟩ := Option.map_eq_some_iff.mp hs
    obtain ⟨q1, q2, q3, q4, q5⟩ := at_spec hv
    exact I.add hv nofun nofun ⟨rfl, _, w, rfl, rfl, q1⟩ rfl rfl q2 q3 q4
  | sendLater n d =>
    simp only [step] at hs
    obtain ⟨v, hv, rfl⟩ := Option.map_eq_some_iff.mp hs
    obtain ⟨q1, q2, q3, q4, q5⟩ := soon_spec hv
    exact I.add hv nofun nofun ⟨rfl, rfl, _, _, rfl, q1, rfl⟩ rfl rfl q2 q3 q4
  | loop l =>
    simp only [step] at hs
    split at hs
    · next ha =>
      obtain ⟨v, hv, rfl⟩ := Option.map_eq_some_iff.mp hs
      refine I.loop hv (fun _ h => h) ?_
      intro j b i hj _ hi
      refine vt_keeps hv i ?_ ?_
      · rintro rfl
        simp only [allowed, List.all_eq_true] at ha
        have := ha b (List.mem_of_getElem? hj)
        rw [hi] at this
        simp at this
      · rintro rfl; simp [allowed] at ha
    · cases hs
  | next =>
    simp only [step] at hs
    split at hs
    · next v i due rest hv hrd =>
      obtain ⟨m1, m2⟩ := next_spec hv hrd
      have Iv := VirtualTime.inv_step L _ _ _ I.vt hv
      have notHead : ∀ k, k ≠ i → Keeps s.vt v k := fun k hk => vt_keeps hv k nofun (fun _ x hx => by
        rw [hrd] at hx; cases hx; exact fun h => hk h.symm)
      rcases m2 with ⟨c1, c2, c3⟩ | ⟨c1, c2, c3⟩
      · rw [if_neg (by rw [c2]; exact nofun)] at hs; cases hs
        refine I.loop hv (fun _ h => h) ?_
        intro j b k hj _ hk
        refine notHead k ?_
        rintro rfl
        exact (I.free j b k hj nofun hk).2.1 c1
      · rw [if_pos c2] at hs
        cases hf : s.jobs.findIdx? fun b => b.handle == some i with
        | none =>
          rw [hf] at hs; cases hs
          refine I.loop hv (fun _ h => h) ?_
          intro j b k hj _ hk
          refine notHead k ?_
          rintro rfl
          have := List.findIdx?_eq_none_iff.mp hf b (List.mem_of_getElem? hj)
          rw [hk] at this; simp at this
        | some j =>
          rw [hf] at hs; dsimp only at hs
          cases hj : s.jobs[j]? with
          | none => rw [hj] at hs; cases hs
          | some b =>
            rw [hj] at hs; dsimp only at hs
            have hb : b.handle = some i := by
              obtain ⟨hlt, h1, _⟩ := List.findIdx?_eq_some_iff_getElem.mp hf
              rw [List.getElem?_eq_getElem hlt] at hj; cases hj
              simpa using h1
            obtain ⟨c, g1, _, g2⟩ := Iv.log ⟨i, due, v.time, s.vt.made.length⟩ (by rw [c3]; simp)
            refine inv_runJob (s := { s with vt := v }) (i := i) ?_ hj ((I.ok j b hj nofun).made m1) hb g2 g1 hs
            refine I.loop hv nofun ?_
            intro k d m hk hne hm
            refine notHead m ?_
            rintro rfl
            exact hne (by rw [I.inj k j d b m hk hj nofun nofun hm hb])
    · cases hs
  | ret j =>
    simp only [step] at hs
    cases hj : s.jobs[j]? with
    | none => rw [hj] at hs; cases hs
    | some b =>
      rw [hj] at hs; dsimp only at hs
      split at hs
      · next hst =>
        cases hs
        have hok := I.ok j b hj nofun
        unfold Ok at hok
        simp only [hst] at hok
        obtain ⟨k1, k2, k3⟩ := hok
        refine (I.hide j).restore hj s.sent ⟨?_, k3⟩ ?_ ?_ ?_ (Or.inl rfl)
        · dsimp only; rw [k1, k2]; simp [Job.assigns]
        · intro i hi; rw [show _ = none from k3] at hi; cases hi
        · intro i hi; rw [show _ = none from k3] at hi; cases hi
        · rw [I.sent j b hj, hst]; rfl
      · cases hs
  | raise j =>
    simp only [step] at hs
    cases hj : s.jobs[j]? with
    | none => rw [hj] at hs; cases hs
    | some b =>
      rw [hj] at hs; dsimp only at hs
      split at hs
      · next hst =>
        cases hs
        have hok := I.ok j b hj nofun
        unfold Ok at hok
        simp only [hst] at hok
        obtain ⟨k1, k2, k3⟩ := hok
        refine (I.hide j).restore hj s.sent ⟨k1, k3⟩ ?_ ?_ ?_ (Or.inl rfl)
        · intro i hi; rw [show _ = none from k3] at hi; cases hi
        · intro i hi; rw [show _ = none from k3] at hi; cases hi
        · rw [I.sent j b hj, hst]; rfl
      · cases hs

theorem inv_run {h : Heap} (L : h.Laws) {ls : List (Label α)} {s : State α} (hr : LTS.run (step h) init ls = some s) :
    Inv L s none :=
  LTS.inv (fun s => Inv L s none) (inv_init L) (inv_step L) hr

end Aio.TestSubject
