import Verif.Model.Hosted
import Verif.Lemmas.Clocked
import Verif.Lemmas.TestSubject
import Verif.Props.C63_VirtualTime
/-!
# Pipelines on the `VirtualTimeEventLoop`: time passes only when no task can go on
-/

namespace Aio
variable {S L T α : Type}

/-- `d` can pass: no task can go on, and none sleeps for a shorter time. -/
def Host.Calm (H : Host S L T) (q : Clocked S L α) (s : S) (d : Nat) : Prop :=
  ∀ t, match H.need s t with
    | .nothing => True
    | .soon => False
    | .until w => q.now s + d ≤ w

/-- Segments that are executed in a hosted pipeline. -/
def Host.Own (H : Host S L T) (l : L) : Prop := H.outside l = true ∨ ∃ s t, l ∈ H.turn s t

def Host.Reach (H : Host S L T) (q : Clocked S L α) (s : S) : Prop :=
  ∃ ls, LTS.run q.step q.init ls = some s ∧ ∀ l, Time.act l ∈ ls → H.Own l

/-- The tasks are those of the pipeline: each of them can do what it is going to do; only its own segments put a task to sleep. -/
structure Host.Lawful (H : Host S L T) (q : Clocked S L α) : Prop where
  clock : q.Lawful
  names : ∀ {s t}, H.Reach q s → H.need s t ≠ .nothing → t ∈ H.names s
  turn : ∀ {s t}, H.Reach q s → (∀ w, H.need s t = .until w → w ≤ q.now s) →
    ∃ s', LTS.run q.act s (H.turn s t) = some s' ∧ ∀ t' w, t' ≠ t → H.need s' t' = .until w → H.need s t' = .until w
  outside : ∀ {s l s'}, H.Reach q s → H.outside l = true → q.act s l = some s' →
    ∀ t w, H.need s' t = .until w → H.need s t = .until w
  pass : ∀ {s d}, H.Reach q s → H.Calm q s d → ∃ s', q.pass s d = some s' ∧ ∀ t, H.need s' t = H.need s t

namespace Hosted
open VirtualTime (Heap)
open TestSubject (Keeps vt_keeps soon_spec at_spec next_spec vt_time)

section
variable [DecidableEq T]

@[simp] theorem set_same (f : T → Status) (t : T) (x : Status) : set f t x t = x := by simp [set]
theorem set_ne (f : T → Status) {t t' : T} (x : Status) (h : t' ≠ t) : set f t x t' = f t' := by simp [set, h]
theorem set_set (f : T → Status) (t : T) (x y : Status) : set (set f t x) t y = set f t y := by
  funext t'; by_cases h : t' = t <;> simp [set, h]
theorem set_self (f : T → Status) (t : T) : set f t (f t) = f := by
  funext t'; by_cases h : t' = t <;> simp [set, h]

/-- `pend`: tasks that may not have what they need. -/
structure Inv {h : Heap} (K : h.Laws) (q : Clocked S L α) (H : Host S L T) (m : State S T) (pend : T → Prop) : Prop where
  reach : ∃ ls, LTS.run (VirtualTime.step h) VirtualTime.init ls = some m.vt
  owners : ∀ i t, m.owner.lookup i = some t → i < m.vt.made.length
  held : ∀ t i, (m.status t).handle = some i → m.owner.lookup i = some t ∧ i ∉ m.vt.log.map (·.id) ∧ i ∉ m.vt.cancelled
  ready : ∀ t k i, m.status t = .ready k i → ∃ c, m.vt.made[i]? = some (none, c)
  sleeping : ∀ t i, m.status t = .sleeping i → ∃ w s c, m.sub = some s ∧ H.need s t = .until w ∧ m.vt.made[i]? = some (some (w : Int), c)
  before : m.sub = none → ∀ t, m.status t = .idle
  clock : ∀ s, m.sub = some s → (q.now s : Int) = m.vt.time
  idle : ∀ s t, m.sub = some s → m.status t = .idle → H.need s t = .nothing ∨ pend t
  due : ∀ s t k i w, m.sub = some s → m.status t = .ready k i → H.need s t = .until w → w ≤ q.now s

theorem inv_init {h : Heap} (K : h.Laws) (q : Clocked S L α) (H : Host S L T) : Inv K q H (init : State S T) fun _ => False := by
  constructor
  · exact ⟨[], rfl⟩
  all_goals simp [init, Status.handle]

variable {h : Heap} {K : h.Laws} {q : Clocked S L α} {H : Host S L T} {m : State S T} {pend : T → Prop}

theorem Inv.vt (I : Inv K q H m pend) : VirtualTime.Inv K m.vt := let ⟨_, hr⟩ := I.reach; VirtualTime.inv_run K hr

theorem reach_step {v v' : VirtualTime.State} {l : VirtualTime.Label} (hr : ∃ ls, LTS.run (VirtualTime.step h) VirtualTime.init ls = some v)
    (hs : VirtualTime.step h v l = some v') : ∃ ls, LTS.run (VirtualTime.step h) VirtualTime.init ls = some v' := by
  obtain ⟨ls, hr⟩ := hr
  exact ⟨ls ++ [l], LTS.run_append.mpr ⟨v, hr, LTS.run_cons.mpr ⟨v', hs, rfl⟩⟩⟩

/-- A handle is made for task `t`. -/
theorem Inv.make (I : Inv K q H m pend) {l : VirtualTime.Label} {v : VirtualTime.State} (hs : VirtualTime.step h m.vt l = some v)
    (hl : ∀ i, l ≠ .cancel i) (hl' : l ≠ .next) {t : T} (ht : m.status t = .idle) {x : Status} (hx : x.handle = some m.vt.made.length)
    {due : Option Int} (h0 : v.made[m.vt.made.length]? = some (due, m.vt.time)) (h1 : v.made.length = m.vt.made.length + 1)
    (h2 : v.cancelled = m.vt.cancelled) (h3 : v.log = m.vt.log) (h4 : v.time = m.vt.time)
    (hr : ∀ k i, x = .ready k i → due = none ∧ ∀ s w, m.sub = some s → H.need s t = .until w → w ≤ q.now s)
    (hsl : ∀ i, x = .sleeping i → ∃ w s, m.sub = some s ∧ H.need s t = .until w ∧ due = some (w : Int)) (hne : x ≠ .idle)
    (hsub : m.sub ≠ none) :
    Inv K q H { m with vt := v, status := set m.status t x, owner := (m.vt.made.length, t) :: m.owner } fun t' => pend t' ∧ t' ≠ t := by
  have keeps : ∀ i, Keeps m.vt v i := fun i => vt_keeps hs i (hl i) (fun he => absurd he hl')
  have fresh : ∀ i t', m.owner.lookup i = some t' → i ≠ m.vt.made.length := fun i t' hi he => Nat.lt_irrefl _ (he ▸ I.owners i t' hi)
  have look : ∀ i t', ((m.vt.made.length, t) :: m.owner).lookup i = some t' → (i = m.vt.made.length ∧ t' = t) ∨ m.owner.lookup i = some t' := by
    intro i t' hi
    rw [List.lookup_cons] at hi
    split at hi
    · next he => cases hi; exact .inl ⟨by simpa using he, rfl⟩
    · exact .inr hi
  have look' : ∀ i t', m.owner.lookup i = some t' → ((m.vt.made.length, t) :: m.owner).lookup i = some t' := by
    intro i t' hi
    have hne : (i == m.vt.made.length) = false := by simpa using fresh i t' hi
    simp only [List.lookup_cons, hne]; exact hi
  refine ⟨reach_step I.reach hs, ?_, ?_, ?_, ?_, fun hn => absurd hn hsub, ?_, ?_, ?_⟩
  · intro i t' hi
    rcases look i t' hi with ⟨rfl, rfl⟩ | hi
    · dsimp only; omega
    · have := I.owners i t' hi
      dsimp only; omega
  · intro t' i hi
    dsimp only at hi ⊢
    by_cases he : t' = t
    · subst he
      rw [set_same, hx] at hi; cases hi
      refine ⟨by simp, ?_, ?_⟩
      · rw [h3]; intro hm; exact Nat.lt_irrefl _ (I.vt.bound _ (List.mem_append.mpr (Or.inr hm)))
      · rw [h2]; intro hc; exact Nat.lt_irrefl _ (I.vt.cancelledBound _ hc)
    · rw [set_ne _ _ he] at hi
      obtain ⟨a, b, c⟩ := I.held t' i hi
      exact ⟨look' i t' a, by rw [h3]; exact b, by rw [h2]; exact c⟩
  · intro t' k i hi
    dsimp only at hi ⊢
    by_cases he : t' = t
    · subst he
      rw [set_same] at hi
      obtain ⟨rfl, _⟩ := hr k i hi
      rw [hi] at hx; cases hx
      exact ⟨_, h0⟩
    · rw [set_ne _ _ he] at hi
      obtain ⟨c, hc⟩ := I.ready t' k i hi
      exact ⟨c, (keeps i).1 _ hc⟩
  · intro t' i hi
    dsimp only at hi ⊢
    by_cases he : t' = t
    · subst he
      rw [set_same] at hi
      obtain ⟨w, s, a, b, rfl⟩ := hsl i hi
      rw [hi] at hx; cases hx
      exact ⟨w, s, _, a, b, h0⟩
    · rw [set_ne _ _ he] at hi
      obtain ⟨w, s, c, a, b, hc⟩ := I.sleeping t' i hi
      exact ⟨w, s, c, a, b, (keeps i).1 _ hc⟩
  · intro s hsub; dsimp only; rw [h4]; exact I.clock s hsub
  · intro s t' hsub hi
    dsimp only at hi hsub ⊢
    by_cases he : t' = t
    · subst he; rw [set_same] at hi; exact absurd hi hne
    · rw [set_ne _ _ he] at hi
      exact (I.idle s t' hsub hi).imp id fun hp => ⟨hp, he⟩
  · intro s t' k i w hsub hi hw
    dsimp only at hi hsub
    by_cases he : t' = t
    · subst he; rw [set_same] at hi; exact (hr k i hi).2 s w hsub hw
    · rw [set_ne _ _ he] at hi; exact I.due s t' k i w hsub hi hw

theorem Inv.callSoon (I : Inv K q H m pend) {t : T} (hsub : m.sub ≠ none) (ht : m.status t = .idle) {k : Nat}
    (hd : ∀ s w, m.sub = some s → H.need s t = .until w → w ≤ q.now s) {m' : State S T} (hc : callSoon h m t k = some m') :
    Inv K q H m' fun t' => pend t' ∧ t' ≠ t := by
  unfold Hosted.callSoon at hc
  obtain ⟨v, hv, rfl⟩ := Option.map_eq_some_iff.mp hc
  obtain ⟨q1, q2, q3, q4, q5⟩ := soon_spec hv
  exact I.make hv nofun nofun ht rfl q1 q2 q3 q4 q5 (fun _ _ _ => ⟨rfl, hd⟩) nofun nofun hsub

theorem Inv.callAt (I : Inv K q H m pend) {t : T} (ht : m.status t = .idle) {w : Nat} {s : S} (hsub : m.sub = some s)
    (hw : H.need s t = .until w) {m' : State S T} (hc : callAt h m t w = some m') : Inv K q H m' fun t' => pend t' ∧ t' ≠ t := by
  unfold Hosted.callAt at hc
  obtain ⟨v, hv, rfl⟩ := Option.map_eq_some_iff.mp hc
  obtain ⟨q1, q2, q3, q4, q5⟩ := at_spec hv
  exact I.make hv nofun nofun ht rfl q1 q2 q3 q4 q5 nofun (fun _ _ => ⟨w, s, hsub, hw, rfl⟩) nofun
    (by rw [hsub]; exact nofun)

theorem Inv.mono (I : Inv K q H m pend) {pend' : T → Prop} (hp : ∀ s t, m.sub = some s → m.status t = .idle → pend t → H.need s t = .nothing ∨ pend' t) :
    Inv K q H m pend' :=
  { I with idle := fun s t h1 h2 => (I.idle s t h1 h2).elim .inl fun hb => hp s t h1 h2 hb }

/-- What asking for a task changes. -/
theorem ask_frame {hops : T → Nat} {t : T} {n : Need} {m m' : State S T} (ha : ask h hops m t n = some m') :
    m'.sub = m.sub ∧ m'.vt.time = m.vt.time ∧ (∀ t', m.status t' ≠ .idle → m'.status t' = m.status t') := by
  have soon : ∀ {k m'}, m.status t = .idle → callSoon h m t k = some m' →
      m'.sub = m.sub ∧ m'.vt.time = m.vt.time ∧ (∀ t', m.status t' ≠ .idle → m'.status t' = m.status t') := by
    intro k m' ht hc
    unfold Hosted.callSoon at hc
    obtain ⟨v, hv, rfl⟩ := Option.map_eq_some_iff.mp hc
    refine ⟨rfl, (soon_spec hv).2.2.2.2, fun t' ht' => set_ne _ _ ?_⟩
    rintro rfl; exact ht' ht
  unfold ask at ha
  split at ha
  · cases ha; exact ⟨rfl, rfl, fun _ _ => rfl⟩
  · split at ha
    · next ht => exact soon ht ha
    · cases ha; exact ⟨rfl, rfl, fun _ _ => rfl⟩
  · split at ha
    · next ht =>
      split at ha
      · exact soon ht ha
      · unfold Hosted.callAt at ha
        obtain ⟨v, hv, rfl⟩ := Option.map_eq_some_iff.mp ha
        refine ⟨rfl, (at_spec hv).2.2.2.2, fun t' ht' => set_ne _ _ ?_⟩
        rintro rfl; exact ht' ht
    · cases ha; exact ⟨rfl, rfl, fun _ _ => rfl⟩

theorem Inv.ask (I : Inv K q H m pend) {hops : T → Nat} {t : T} {s : S} (hsub : m.sub = some s) {m' : State S T}
    (ha : ask h hops m t (H.need s t) = some m') : Inv K q H m' fun t' => pend t' ∧ t' ≠ t := by
  have same : (m.status t = .idle → H.need s t = .nothing) → Inv K q H m fun t' => pend t' ∧ t' ≠ t := by
    intro hn
    refine I.mono fun s' t' h1 h2 hp => ?_
    rw [hsub] at h1; cases h1
    by_cases he : t' = t
    · subst he; exact .inl (hn h2)
    · exact .inr ⟨hp, he⟩
  unfold Hosted.ask at ha
  split at ha
  · next hn => cases ha; exact same fun _ => hn
  · next hn =>
    split at ha
    · next ht =>
      refine I.callSoon (by rw [hsub]; exact nofun) ht ?_ ha
      intro s' w h1 h2; rw [hsub] at h1; cases h1; rw [hn] at h2; cases h2
    · next ht => cases ha; exact same fun hi => absurd hi ht
  · next w hn =>
    split at ha
    · next ht =>
      split at ha
      · next hw =>
        refine I.callSoon (by rw [hsub]; exact nofun) ht ?_ ha
        intro s' w' h1 h2; rw [hsub] at h1; cases h1; rw [hn] at h2; cases h2
        have := I.clock s hsub; omega
      · exact I.callAt ht hsub hn ha
    · next ht => cases ha; exact same fun hi => absurd hi ht

theorem askAll_frame {hops : T → Nat} {need : T → Need} : ∀ {ts : List T} {m m' : State S T}, askAll h hops need m ts = some m' →
    m'.sub = m.sub ∧ m'.vt.time = m.vt.time
  | [], m, m', ha => by cases ha; exact ⟨rfl, rfl⟩
  | t :: ts, m, m', ha => by
    unfold askAll at ha
    split at ha
    · cases ha
    · next m1 h1 =>
      obtain ⟨a, b, _⟩ := ask_frame h1
      obtain ⟨c, d⟩ := askAll_frame ha
      exact ⟨c.trans a, d.trans b⟩

theorem Inv.askAll {hops : T → Nat} {s : S} : ∀ {ts : List T} {m m' : State S T} {pend : T → Prop}, Inv K q H m pend → m.sub = some s →
    askAll h hops (H.need s) m ts = some m' → Inv K q H m' fun t' => pend t' ∧ t' ∉ ts
  | [], m, m', pend, I, _, ha => by cases ha; exact I.mono fun _ _ _ _ hp => .inr ⟨hp, by simp⟩
  | t :: ts, m, m', pend, I, hsub, ha => by
    unfold Hosted.askAll at ha
    split at ha
    · cases ha
    · next m1 h1 =>
      have := (I.ask hsub h1).askAll (by rw [(ask_frame h1).1]; exact hsub) ha
      refine this.mono fun _ _ _ _ hp => .inr ⟨hp.1.1, ?_⟩
      simp only [List.mem_cons, not_or]
      exact ⟨hp.1.2, hp.2⟩

/-- The pipeline does something. -/
theorem Inv.goOn (I : Inv K q H m pend) (hl : H.Lawful q) {s' : S} (hr : H.Reach q s')
    (hc : (q.now s' : Int) = m.vt.time)
    (hk : ∀ s t w, m.sub = some s → m.status t ≠ .idle → H.need s' t = .until w → H.need s t = .until w)
    {hops : T → Nat} {m' : State S T} (hg : goOn h hops H m s' = some m') : Inv K q H m' (fun _ => False) := by
  unfold Hosted.goOn at hg
  have wk : ∀ t x, wake (H.need s') m.status t = x → x ≠ .idle → m.status t = x ∧ ∀ i, x = .sleeping i → ∃ w, H.need s' t = .until w := by
    intro t x hx hne
    unfold wake at hx
    cases hs : m.status t <;> cases hn : H.need s' t <;> rw [hs, hn] at hx <;> subst hx <;> first
      | exact absurd rfl hne
      | exact ⟨rfl, fun _ _ => ⟨_, rfl⟩⟩
      | exact ⟨rfl, nofun⟩
  have I0 : Inv K q H { m with sub := some s', status := wake (H.need s') m.status } fun _ => True := by
    refine ⟨I.reach, I.owners, ?_, fun t k i hi => I.ready t k i (wk t _ hi nofun).1, ?_, nofun, ?_, ?_, ?_⟩
    · intro t i hi
      refine I.held t i ?_
      have := (wk t _ rfl (by intro he; dsimp only at hi; rw [he] at hi; cases hi)).1
      rw [this]; exact hi
    · intro t i hi
      obtain ⟨h1, h2⟩ := wk t _ hi nofun
      obtain ⟨w, s, c, a, b, d⟩ := I.sleeping t i h1
      obtain ⟨w', hw⟩ := h2 i rfl
      have := hk s t w' a (by rw [h1]; exact nofun) hw
      rw [b] at this; cases this
      exact ⟨w, s', c, rfl, hw, d⟩
    · intro s hs; cases hs; exact hc
    · exact fun _ _ _ _ => .inr trivial
    · intro s t k i w hs hi hw
      obtain rfl := Option.some.inj hs
      have hi := (wk t _ hi nofun).1
      cases hm : m.sub with
      | none => have := I.before hm t; rw [hi] at this; cases this
      | some s0 =>
        have h1 := I.due s0 t k i w hm hi (hk s0 t w hm (by rw [hi]; exact nofun) hw)
        have h2 := I.clock s0 hm
        omega
  refine (I0.askAll rfl hg).mono fun s t hs _ hp => .inl ?_
  rw [(askAll_frame hg).1] at hs; cases hs
  by_cases hn : H.need s' t = .nothing
  · exact hn
  · exact absurd (hl.names hr hn) hp.2

omit [DecidableEq T] in
/-- The loop does something that touches no handle for which a task waits. -/
theorem Inv.loop (I : Inv K q H m pend) {l : VirtualTime.Label} {v : VirtualTime.State} (hs : VirtualTime.step h m.vt l = some v)
    (hc : ∀ i t, (m.status t).handle = some i → l ≠ .cancel i)
    (hn : l = .next → ∀ x, m.vt.ready.head? = some x → ∀ t, (m.status t).handle ≠ some x.1) {sub' : Option S}
    (h0 : m.sub ≠ none → sub' ≠ none)
    (hneed : ∀ s', sub' = some s' → ∃ s, m.sub = some s ∧ (∀ t, H.need s' t = H.need s t) ∧ q.now s ≤ q.now s' ∧ (q.now s' : Int) = v.time) :
    Inv K q H { m with vt := v, sub := sub' } pend := by
  have keeps : ∀ i t, (m.status t).handle = some i → Keeps m.vt v i :=
    fun i t hh => vt_keeps hs i (hc i t hh) (fun he x hx he' => hn he x hx t (by rw [he']; exact hh))
  have canc : ∀ i t, (m.status t).handle = some i → i ∉ m.vt.cancelled → i ∉ v.cancelled := by
    intro i t hi hx
    cases l with
    | cancel k =>
      simp only [VirtualTime.step] at hs
      split at hs
      · split at hs <;> cases hs
        · exact hx
        · have : i ≠ k := fun he => hc i t hi (by rw [he])
          simp [this, hx]
      · cases hs
    | next =>
      simp only [VirtualTime.step] at hs
      split at hs
      · split at hs <;> cases hs <;> exact hx
      · cases hs
    | _ => exact (vt_keeps hs i nofun nofun).2.2.1 hx
  have made : m.vt.made.length ≤ v.made.length := by
    cases l with
    | next =>
      simp only [VirtualTime.step] at hs
      split at hs
      · split at hs <;> cases hs <;> exact Nat.le_refl _
      · cases hs
    | cancel k =>
      simp only [VirtualTime.step] at hs
      split at hs
      · split at hs <;> cases hs <;> exact Nat.le_refl _
      · cases hs
    | _ => exact (vt_keeps hs 0 nofun nofun).2.1
  refine ⟨reach_step I.reach hs, ?_, ?_, ?_, ?_, ?_, ?_, ?_, ?_⟩
  · exact fun i t hi => Nat.lt_of_lt_of_le (I.owners i t hi) made
  · intro t i hi
    obtain ⟨a, b, c⟩ := I.held t i hi
    exact ⟨a, (keeps i t hi).2.2.2 b, canc i t hi c⟩
  · intro t k i hi
    obtain ⟨c, hc⟩ := I.ready t k i hi
    have hh : (m.status t).handle = some i := by rw [show m.status t = _ from hi]; rfl
    exact ⟨c, (keeps i t hh).1 _ hc⟩
  · intro t i hi
    obtain ⟨w, s, c, a, b, hc⟩ := I.sleeping t i hi
    have hh : (m.status t).handle = some i := by rw [show m.status t = _ from hi]; rfl
    cases he : sub' with
    | none => exact absurd he (h0 (by rw [a]; exact nofun))
    | some s' =>
      obtain ⟨s1, e1, e2, _⟩ := hneed s' he
      rw [a] at e1; cases e1
      exact ⟨w, s', c, rfl, (e2 t).trans b, (keeps i t hh).1 _ hc⟩
  · intro he
    refine I.before ?_
    by_cases hm : m.sub = none
    · exact hm
    · exact absurd he (h0 hm)
  · intro s' he; obtain ⟨_, _, _, _, e⟩ := hneed s' he; exact e
  · intro s' t he hi
    obtain ⟨s, e1, e2, _⟩ := hneed s' he
    rw [e2]; exact I.idle s t e1 hi
  · intro s' t k i w he hi hw
    obtain ⟨s, e1, e2, e3, _⟩ := hneed s' he
    rw [e2] at hw
    exact Nat.le_trans (I.due s t k i w e1 hi hw) e3

/-- The loop starts a callback of task `t`. -/
theorem Inv.start (I : Inv K q H m fun _ => False) {v : VirtualTime.State} (hs : VirtualTime.step h m.vt .next = some v)
    {i : Nat} {due : Option Int} {rest : List (Nat × Option Int)} (hr : m.vt.ready = (i, due) :: rest) (hcb : v.inCallback = true)
    {t : T} (hh : (m.status t).handle = some i) :
    Inv K q H { m with vt := v, status := set m.status t .idle } (· = t) ∧ v.time = m.vt.time ∧
    ∀ s w, m.sub = some s → H.need s t = .until w → w ≤ q.now s := by
  obtain ⟨hm, hcase⟩ := next_spec hs hr
  have hlog : v.log = m.vt.log ++ [⟨i, due, v.time, m.vt.made.length⟩] := by
    rcases hcase with ⟨_, h2, _⟩ | ⟨_, _, h3⟩
    · rw [hcb] at h2; cases h2
    · exact h3
  have hct : v.cancelled = m.vt.cancelled ∧ v.time = m.vt.time := by
    simp only [VirtualTime.step] at hs
    split at hs
    · split at hs <;> cases hs <;> exact ⟨rfl, rfl⟩
    · cases hs
  have ho := (I.held t i hh).1
  have keeps : ∀ i', i' ≠ i → Keeps m.vt v i' := fun i' hne =>
    vt_keeps hs i' nofun (fun _ x hx => by rw [hr] at hx; cases hx; exact fun he => hne he.symm)
  have other : ∀ t' i', t' ≠ t → (m.status t').handle = some i' → i' ≠ i := by
    intro t' i' hne hh' he
    have := (I.held t' i' hh').1
    rw [he, ho] at this; cases this; exact hne rfl
  refine ⟨⟨reach_step I.reach hs, ?_, ?_, ?_, ?_, ?_, ?_, ?_, ?_⟩, hct.2, ?_⟩
  · intro i' t' hi
    dsimp only; rw [hm]; exact I.owners i' t' hi
  · intro t' i' hi
    dsimp only at hi
    by_cases he : t' = t
    · subst he; rw [set_same] at hi; cases hi
    · rw [set_ne _ _ he] at hi
      obtain ⟨a, b, c⟩ := I.held t' i' hi
      exact ⟨a, (keeps i' (other t' i' he hi)).2.2.2 b, by dsimp only; rw [hct.1]; exact c⟩
  · intro t' k i' hi
    dsimp only at hi ⊢
    by_cases he : t' = t
    · subst he; rw [set_same] at hi; cases hi
    · rw [set_ne _ _ he] at hi
      rw [hm]; exact I.ready t' k i' hi
  · intro t' i' hi
    dsimp only at hi ⊢
    by_cases he : t' = t
    · subst he; rw [set_same] at hi; cases hi
    · rw [set_ne _ _ he] at hi
      rw [hm]; exact I.sleeping t' i' hi
  · intro hn; have := I.before hn t; rw [this] at hh; cases hh
  · intro s hsub; dsimp only; rw [hct.2]; exact I.clock s hsub
  · intro s t' hsub hi
    dsimp only at hi
    by_cases he : t' = t
    · exact .inr he
    · rw [set_ne _ _ he] at hi
      exact (I.idle s t' hsub hi).elim .inl False.elim
  · intro s t' k i' w hsub hi hw
    dsimp only at hi
    by_cases he : t' = t
    · subst he; rw [set_same] at hi; cases hi
    · rw [set_ne _ _ he] at hi; exact I.due s t' k i' w hsub hi hw
  · intro s w hsub hw
    cases hst : m.status t with
    | idle => rw [hst] at hh; cases hh
    | ready k j => exact I.due s t k j w hsub hst hw
    | sleeping j =>
      rw [hst] at hh; cases hh
      obtain ⟨w', s', c, a, b, hc⟩ := I.sleeping t i hst
      rw [hsub] at a; cases a
      rw [hw] at b; cases b
      have hcl := I.clock s hsub
      cases due with
      | none =>
        have := I.vt.soon i (by rw [hr]; simp)
        rw [hc] at this; cases this
      | some x =>
        obtain ⟨_, _, _, _, ⟨c', hc', ht'⟩, _⟩ := I.vt.timer i x (by rw [hr]; simp)
        rw [hc] at hc'
        have hx : (w : Int) = x := by simpa using congrArg (·.map (·.1)) hc'
        omega

/-- If the clock advances, nothing can go on, and no task sleeps for a shorter time. -/
theorem Inv.calm (I : Inv K q H m fun _ => False) {l : VirtualTime.Label} {v : VirtualTime.State} (hs : VirtualTime.step h m.vt l = some v)
    (ht : v.time ≠ m.vt.time) {s : S} (hsub : m.sub = some s) : H.Calm q s (v.time - m.vt.time).toNat := by
  obtain ⟨ls, hr⟩ := I.reach
  obtain ⟨h1, _, h3⟩ := VirtualTime.C63_advances_to_next_timer K hr hs ht
  have V := I.vt
  have hle := vt_time hs
  have hcl := I.clock s hsub
  have place : ∀ t i, (m.status t).handle = some i → i ∈ m.vt.scheduled.map (·.1) := by
    intro t i hi
    obtain ⟨a, b, d⟩ := I.held t i hi
    rcases V.placed i (I.owners i t a) with h | h | h | h
    · exact absurd h d
    · exact h
    · rw [h1] at h; cases h
    · exact absurd h b
  intro t
  cases hst : m.status t with
  | idle =>
    rcases I.idle s t hsub hst with hn | hf
    · rw [hn]; trivial
    · exact hf.elim
  | ready k i =>
    obtain ⟨c, hc⟩ := I.ready t k i hst
    obtain ⟨y, hy, rfl⟩ := List.mem_map.mp (place t i (by rw [hst]; rfl))
    obtain ⟨c', hc', _⟩ := V.scheduled y hy
    rw [hc] at hc'; cases hc'
  | sleeping i =>
    obtain ⟨w, s', c, a, b, hc⟩ := I.sleeping t i hst
    rw [hsub] at a; cases a
    obtain ⟨y, hy, rfl⟩ := List.mem_map.mp (place t i (by rw [hst]; rfl))
    obtain ⟨c', hc', _⟩ := V.scheduled y hy
    rw [hc] at hc'
    have hw : (w : Int) = y.2 := by simpa using congrArg (·.map (·.1)) hc'
    have hh : (m.status t).handle = some y.1 := by rw [hst]; rfl
    have := h3 y hy (I.held t y.1 hh).2.2
    rw [b]
    dsimp only
    omega

/-- What has happened to the pipeline is a schedule of its own, in which time passes only when it is calm. -/
def Calmly (q : Clocked S L α) (H : Host S L T) (ls : List (Time L)) : Prop :=
  ∀ a d b s, ls = a ++ .pass d :: b → LTS.run q.step q.init a = some s → H.Calm q s d

def Runs (q : Clocked S L α) (H : Host S L T) (ls : List (Label L)) (s : S) (ks : List (Time L)) : Prop :=
  LTS.run q.step q.init ks = some s ∧ Calmly q H ks ∧ ∀ l, Time.act l ∈ ks → (Label.outside l ∈ ls ∧ H.outside l = true) ∨ ∃ s t, l ∈ H.turn s t

omit [DecidableEq T] in
theorem Calmly.acts {ks : List (Time L)} (hc : Calmly q H ks) (as : List L) : Calmly q H (ks ++ as.map .act) := by
  intro a d b s he hr
  rcases List.append_eq_append_iff.mp he with ⟨x, h1, h2⟩ | ⟨x, h1, h2⟩
  · have : Time.pass d ∈ as.map Time.act := by rw [h2]; simp
    simp at this
  · cases x with
    | nil =>
      have : Time.pass d ∈ as.map Time.act := by
        have : as.map Time.act = Time.pass d :: b := by simpa using h2.symm
        rw [this]; simp
      simp at this
    | cons y ys =>
      cases h2
      exact hc a d ys s h1 hr

omit [DecidableEq T] in
theorem Calmly.pass {ks : List (Time L)} (hc : Calmly q H ks) {s : S} (hr : LTS.run q.step q.init ks = some s) {d : Nat} (hd : H.Calm q s d) :
    Calmly q H (ks ++ [.pass d]) := by
  intro a e b s' he hr'
  rcases List.append_eq_append_iff.mp he with ⟨x, h1, h2⟩ | ⟨x, h1, h2⟩
  · cases x with
    | nil =>
      cases h2
      rw [List.append_nil] at h1; subst h1
      rw [hr] at hr'; cases hr'; exact hd
    | cons y ys => cases ys <;> cases h2
  · cases x with
    | nil =>
      cases h2
      rw [List.append_nil] at h1; subst h1
      rw [hr] at hr'; cases hr'; exact hd
    | cons y ys => cases h2; exact hc a e ys s' h1 hr'

omit [DecidableEq T] in
theorem run_acts : ∀ {as : List L} {s : S}, LTS.run q.step s (as.map .act) = LTS.run q.act s as
  | [], _ => rfl
  | _ :: _, _ => by simp only [List.map_cons, LTS.run]; congr 1; funext s'; exact run_acts

omit [DecidableEq T] in
/-- Segments of a task, in a reachable state. -/
theorem acts_clock (hl : q.Lawful) : ∀ {as : List L} {ls : List (Time L)} {s s' : S}, LTS.run q.step q.init ls = some s →
    LTS.run q.act s as = some s' → q.now s' = q.now s ∧ LTS.run q.step q.init (ls ++ as.map .act) = some s'
  | [], ls, s, s', hr, ha => by cases ha; exact ⟨rfl, by simpa using hr⟩
  | a :: as, ls, s, s', hr, ha => by
    obtain ⟨s1, h1, h2⟩ := LTS.run_cons.mp ha
    have hr1 : LTS.run q.step q.init (ls ++ [.act a]) = some s1 := LTS.run_append.mpr ⟨s, hr, LTS.run_cons.mpr ⟨s1, h1, rfl⟩⟩
    obtain ⟨a1, a2⟩ := acts_clock hl hr1 h2
    exact ⟨a1.trans (hl.act hr h1).1, by simpa using a2⟩

omit [DecidableEq T] in
theorem Reach.acts (hl : q.Lawful) {s s' : S} (hr : H.Reach q s) {as : List L} (ha : LTS.run q.act s as = some s') (ho : ∀ l ∈ as, H.Own l) :
    H.Reach q s' := by
  obtain ⟨ls, h1, h2⟩ := hr
  refine ⟨_, (acts_clock hl h1 ha).2, fun l hm => ?_⟩
  rcases List.mem_append.mp hm with hm | hm
  · exact h2 l hm
  · obtain ⟨x, hx, he⟩ := List.mem_map.mp hm
    cases he; exact ho _ hx

omit [DecidableEq T] in
theorem Runs.reach {ls : List (Label L)} {s : S} {ks : List (Time L)} (hr : Runs q H ls s ks) : H.Reach q s :=
  ⟨ks, hr.1, fun l hl => (hr.2.2 l hl).imp (·.2) id⟩

omit [DecidableEq T] in
theorem turns_spec (hl : H.Lawful q) {t : T} : ∀ {more : Nat} {s : S}, H.Reach q s →
    (∀ w, H.need s t = .until w → w ≤ q.now s) → ∃ s' as, turns q H t more s = some s' ∧ LTS.run q.act s as = some s' ∧
      (∀ l ∈ as, ∃ s t, l ∈ H.turn s t) ∧ ∀ t' w, t' ≠ t → H.need s' t' = .until w → H.need s t' = .until w
  | 0, s, hr, hd => by
    obtain ⟨s', h1, h2⟩ := hl.turn hr hd
    exact ⟨s', _, h1, h1, fun l h => ⟨s, t, h⟩, h2⟩
  | more + 1, s, hr, hd => by
    obtain ⟨s1, h1, h2⟩ := hl.turn hr hd
    unfold turns
    rw [h1]
    dsimp only
    split
    · next hn =>
      obtain ⟨s', as, g1, g2, g3, g4⟩ := turns_spec hl (more := more) (Reach.acts hl.clock hr h1 fun l hm => .inr ⟨s, t, hm⟩) (fun w hw => by rw [hn] at hw; cases hw)
      refine ⟨s', H.turn s t ++ as, g1, LTS.run_append.mpr ⟨s1, h1, g2⟩, ?_, fun t' w hne h => h2 t' w hne (g4 t' w hne h)⟩
      intro l hm
      rcases List.mem_append.mp hm with hm | hm
      · exact ⟨s, t, hm⟩
      · exact g3 l hm
    · exact ⟨s1, _, rfl, h1, fun l h => ⟨s, t, h⟩, h2⟩

/-- Every step keeps the invariant, and what happens to the pipeline is a schedule of its own. -/
def Good (K : h.Laws) (q : Clocked S L α) (H : Host S L T) (ls : List (Label L)) (m : State S T) : Prop :=
  Inv K q H m (fun _ => False) ∧ ∀ s, m.sub = some s → ∃ ks, Runs q H ls s ks

omit [DecidableEq T] in
theorem Runs.more {ls ls' : List (Label L)} {s : S} {ks : List (Time L)} (hr : Runs q H ls s ks) : Runs q H (ls ++ ls') s ks :=
  ⟨hr.1, hr.2.1, fun l hl => (hr.2.2 l hl).imp (fun h => ⟨List.mem_append_left _ h.1, h.2⟩) id⟩

theorem goOn_sub {hops : T → Nat} {m m' : State S T} {s' : S} (hg : goOn h hops H m s' = some m') : m'.sub = some s' :=
  (askAll_frame hg).1

theorem good_step (hl : H.Lawful q) {hops : T → Nat} {ls : List (Label L)} {m m' : State S T} {l : Label L} (G : Good K q H ls m)
    (hs : step h hops q H m l = some m') : Good K q H (ls ++ [l]) m' := by
  obtain ⟨I, R⟩ := G
  have keep : ∀ s, m.sub = some s → ∃ ks, Runs q H (ls ++ [l]) s ks := fun s hm => let ⟨ks, hk⟩ := R s hm; ⟨ks, hk.more⟩
  cases l with
  | subscribe =>
    simp only [step] at hs
    split at hs
    · next hc =>
      obtain ⟨h1, h2, h3⟩ := hc
      have hm : m.sub = none := by simpa using h1
      refine ⟨I.goOn hl ⟨[], rfl, by simp⟩ h3.symm (fun s t w hn => by rw [hm] at hn; cases hn) hs, fun s hsub => ?_⟩
      rw [goOn_sub hs] at hsub; cases hsub
      exact ⟨[], rfl, by intro a d b s he; simp at he, by simp⟩
    · cases hs
  | outside a =>
    simp only [step] at hs
    split at hs
    · cases hs
    · next s hm =>
      split at hs
      · next hc =>
        split at hs
        · cases hs
        · next s' ha =>
          obtain ⟨ks, kr⟩ := R s hm
          have kR := kr.reach
          obtain ⟨k1, k2, k3⟩ := kr
          have hc1 := (hl.clock.act k1 ha).1
          have k1' : LTS.run q.step q.init (ks ++ [.act a]) = some s' := LTS.run_append.mpr ⟨s, k1, LTS.run_cons.mpr ⟨s', ha, rfl⟩⟩
          refine ⟨I.goOn hl (Reach.acts hl.clock kR (as := [a]) (LTS.run_cons.mpr ⟨s', ha, rfl⟩) (fun l hm => by simp at hm; subst hm; exact .inl hc.2)) (by rw [hc1]; exact I.clock s hm) ?_ hs, fun s2 hsub => ?_⟩
          · intro s2 t w hn _
            rw [hm] at hn; cases hn
            exact hl.outside kR hc.2 ha t w
          · rw [goOn_sub hs] at hsub; cases hsub
            refine ⟨_, k1', k2.acts [a], fun l hl => ?_⟩
            rcases List.mem_append.mp hl with hl | hl
            · exact (k3 l hl).imp (fun h => ⟨List.mem_append_left _ h.1, h.2⟩) id
            · simp at hl; subst hl; exact .inl ⟨by simp, hc.2⟩
      · cases hs
  | loop a =>
    simp only [step] at hs
    split at hs
    · next hal =>
      have hcan : ∀ i t, (m.status t).handle = some i → a ≠ .cancel i := by
        rintro i t hh rfl
        simp [allowed, (I.held t i hh).1, hh] at hal
      have hnx : a ≠ .next := by rintro rfl; simp [allowed] at hal
      split at hs
      · cases hs
      · next v hv =>
        split at hs
        · next hm =>
          cases hs
          refine ⟨?_, keep⟩
          have := I.loop hv hcan (fun he => absurd he hnx) (sub' := m.sub) id (by rw [hm]; exact nofun)
          exact this
        · next s hm =>
          split at hs
          · next ht =>
            cases hs
            refine ⟨?_, keep⟩
            have := I.loop hv hcan (fun he => absurd he hnx) (sub' := m.sub) id
              (fun s' he => ⟨s', he, fun _ => rfl, Nat.le_refl _, by rw [ht]; exact I.clock s' he⟩)
            exact this
          · next ht =>
            obtain ⟨s', hp, rfl⟩ := Option.map_eq_some_iff.mp hs
            obtain ⟨ks, kr⟩ := R s hm
            have kR := kr.reach
            obtain ⟨k1, k2, k3⟩ := kr
            have hcalm := I.calm hv ht hm
            obtain ⟨s2, p1, p2⟩ := hl.pass kR hcalm
            rw [hp] at p1; cases p1
            have hnow := (hl.clock.pass k1 hp).1
            have hle := vt_time hv
            have hcl := I.clock s hm
            refine ⟨I.loop hv hcan (fun he => absurd he hnx) (fun _ => nofun) (fun s2 he => ?_), fun s2 hsub => ?_⟩
            · cases he
              exact ⟨s, hm, p2, by omega, by omega⟩
            · cases hsub
              refine ⟨ks ++ [.pass (v.time - m.vt.time).toNat], LTS.run_append.mpr ⟨s, k1, LTS.run_cons.mpr ⟨s', show q.step s (.pass _) = _ from hp, rfl⟩⟩, k2.pass k1 hcalm, fun l hl => ?_⟩
              rcases List.mem_append.mp hl with hl | hl
              · exact (k3 l hl).imp (fun h => ⟨List.mem_append_left _ h.1, h.2⟩) id
              · simp at hl
    · cases hs
  | next more =>
    simp only [step] at hs
    split at hs
    · next v i due rest hv hr =>
      have ht : v.time = m.vt.time := by
        have hv' := hv
        simp only [VirtualTime.step] at hv'
        split at hv'
        · split at hv' <;> cases hv' <;> rfl
        · cases hv'
      have same : (∀ t, (m.status t).handle ≠ some i) → Inv K q H { m with vt := v } fun _ => False := fun hno => by
        have := I.loop hv (fun _ _ _ => nofun) (fun _ x hx t => by rw [hr] at hx; cases hx; exact hno t) (sub' := m.sub) id
          (fun s' he => ⟨s', he, fun _ => rfl, Nat.le_refl _, by rw [ht]; exact I.clock s' he⟩)
        exact this
      split at hs
      · next hcb =>
        split at hs
        next t ho =>
          split at hs
          rotate_left
          · next hh =>
            cases hs
            refine ⟨same fun t' hh' => ?_, keep⟩
            have := (I.held t' i hh').1
            rw [ho] at this; cases this; exact hh hh'
          next hh =>
          obtain ⟨J, _, hdue⟩ := I.start hv hr hcb hh
          have hsub : m.sub ≠ none := fun hn => by have := I.before hn t; rw [this] at hh; cases hh
          have soon : ∀ k, callSoon h { m with vt := v } t k = some m' → Good K q H (ls ++ [.next more]) m' := by
            intro k hc
            have hc' : callSoon h { m with vt := v, status := set m.status t .idle } t k = some m' := by
              rw [← hc]; simp only [callSoon, set_set]
            refine ⟨(J.callSoon hsub (by simp) hdue hc').mono fun _ _ _ _ hp => .inr (hp.2 hp.1), fun s hs => ?_⟩
            unfold Hosted.callSoon at hc
            obtain ⟨_, _, rfl⟩ := Option.map_eq_some_iff.mp hc
            exact keep s hs
          unfold runTask at hs
          split at hs
          · cases hs
          · exact soon _ hs
          · exact soon _ hs
          · split at hs
            · cases hs
            · next s hm =>
              dsimp only at hm
              split at hs
              · cases hs
              · next s' htn =>
                obtain ⟨ks, kr⟩ := R s hm
                have kR := kr.reach
                obtain ⟨k1, k2, k3⟩ := kr
                obtain ⟨s2, as, g1, g2, g3, g4⟩ := turns_spec hl (t := t) (more := more) kR (hdue s · hm)
                rw [htn] at g1; cases g1
                obtain ⟨c1, c2⟩ := acts_clock hl.clock k1 g2
                refine ⟨J.goOn hl (Reach.acts hl.clock kR g2 fun l hm => .inr (g3 l hm)) (by dsimp only; rw [c1, ht]; exact I.clock s hm) ?_ hs, fun s2 hsub => ?_⟩
                · intro s2 t' w hn hne
                  dsimp only at hn hne
                  rw [hm] at hn; cases hn
                  refine g4 t' w ?_
                  rintro rfl; simp at hne
                · rw [goOn_sub hs] at hsub; cases hsub
                  refine ⟨_, c2, k2.acts as, fun l hl => ?_⟩
                  rcases List.mem_append.mp hl with hl | hl
                  · exact (k3 l hl).imp (fun h => ⟨List.mem_append_left _ h.1, h.2⟩) id
                  · obtain ⟨x, hx, he⟩ := List.mem_map.mp hl
                    cases he
                    exact .inr (g3 _ hx)
        next ho =>
          cases hs
          refine ⟨same fun t hh => ?_, keep⟩
          have := (I.held t i hh).1
          rw [ho] at this; cases this
      · next hcb =>
        cases hs
        refine ⟨same fun t hh => ?_, keep⟩
        rcases (next_spec hv hr).2 with ⟨hc, _⟩ | ⟨_, hc, _⟩
        · exact (I.held t i hh).2.2 hc
        · exact hcb hc
    · cases hs

theorem good (K : h.Laws) (hl : H.Lawful q) {hops : T → Nat} : ∀ {ls : List (Label L)} {m : State S T},
    LTS.run (step h hops q H) init ls = some m → Good K q H ls m := by
  intro ls m hr
  exact LTS.inv_hist (step := step h hops q H) (s0 := init) (I := fun ls m => Good K q H ls m) ⟨inv_init K q H, nofun⟩
    (fun ls m l m' hG hs => good_step hl hG hs) hr

theorem callSoon_some (m : State S T) (hu : m.vt.userCode = true) (t : T) (k : Nat) :
    ∃ m', callSoon h m t k = some m' ∧ m'.vt.userCode = true := by
  cases hv : VirtualTime.step h m.vt .callSoon with
  | none => simp [VirtualTime.step, hu] at hv
  | some v =>
    refine ⟨_, by rw [callSoon, hv]; rfl, ?_⟩
    simp only [VirtualTime.step, hu, if_true] at hv
    cases hv; exact hu

theorem callAt_some (m : State S T) (hu : m.vt.userCode = true) (t : T) (w : Nat) :
    ∃ m', callAt h m t w = some m' ∧ m'.vt.userCode = true := by
  cases hv : VirtualTime.step h m.vt (.callAt w) with
  | none => simp [VirtualTime.step, hu] at hv
  | some v =>
    refine ⟨_, by rw [callAt, hv]; rfl, ?_⟩
    simp only [VirtualTime.step, hu, if_true] at hv
    cases hv; exact hu

theorem askAll_some {hops : T → Nat} {need : T → Need} : ∀ {ts : List T} (m : State S T), m.vt.userCode = true →
    ∃ m', askAll h hops need m ts = some m'
  | [], m, _ => ⟨m, rfl⟩
  | t :: ts, m, hu => by
    have : ∃ m1, ask h hops m t (need t) = some m1 ∧ m1.vt.userCode = true := by
      unfold ask
      split
      · exact ⟨m, rfl, hu⟩
      · split
        · exact callSoon_some m hu t _
        · exact ⟨m, rfl, hu⟩
      · split
        · split
          · exact callSoon_some m hu t _
          · exact callAt_some m hu t _
        · exact ⟨m, rfl, hu⟩
    obtain ⟨m1, h1, h2⟩ := this
    unfold askAll
    rw [h1]
    exact askAll_some m1 h2

/-- The pipeline does not hold up the loop: whatever the loop alone could do, it can do with the pipeline on it. -/
theorem progress (K : h.Laws) (hl : H.Lawful q) {hops : T → Nat} {ls : List (Label L)} {m : State S T}
    (hr : LTS.run (step h hops q H) init ls = some m) {l : VirtualTime.Label} {v : VirtualTime.State} (hv : VirtualTime.step h m.vt l = some v)
    (hc : ∀ i t, (m.status t).handle = some i → l ≠ .cancel i) (more : Nat) :
    ∃ m', step h hops q H m (if l = .next then .next more else .loop l) = some m' := by
  obtain ⟨I, R⟩ := good K hl hr
  split
  · next hn =>
    subst hn
    have hrd : ∃ x rest, m.vt.ready = x :: rest := by
      simp only [VirtualTime.step] at hv
      split at hv
      · next h2 => exact ⟨_, _, h2⟩
      · cases hv
    obtain ⟨⟨i, due⟩, rest, hrd⟩ := hrd
    simp only [step]
    rw [hv, hrd]
    dsimp only
    split
    · next hcb =>
      split
      next t ho =>
        split
        rotate_left
        · exact ⟨_, rfl⟩
        next hh =>
        obtain ⟨J, ht, hdue⟩ := I.start hv hrd hcb hh
        have hu : v.userCode = true := by simp [VirtualTime.State.userCode, hcb]
        unfold runTask
        dsimp only
        split
        · next he => rw [he] at hh; cases hh
        · next k _ _ => obtain ⟨m', h1, _⟩ := callSoon_some (h := h) { m with vt := v } hu t k; exact ⟨m', h1⟩
        · obtain ⟨m', h1, _⟩ := callSoon_some (h := h) { m with vt := v } hu t 0; exact ⟨m', h1⟩
        · cases hm : m.sub with
          | none => have := I.before hm t; rw [this] at hh; cases hh
          | some s =>
            obtain ⟨ks, kr⟩ := R s hm
            obtain ⟨s', as, g1, _⟩ := turns_spec hl (t := t) (more := more) kr.reach (hdue s · hm)
            dsimp only
            rw [g1]
            dsimp only
            unfold goOn
            exact askAll_some _ hu
      · exact ⟨_, rfl⟩
    · exact ⟨_, rfl⟩
  · next hn =>
    simp only [step]
    have hal : allowed m l = true := by
      cases l with
      | next => exact absurd rfl hn
      | cancel i =>
        simp only [allowed]
        cases ho : m.owner.lookup i with
        | none => rfl
        | some t => simpa using fun hh => hc i t hh rfl
      | _ => rfl
    rw [if_pos hal, hv]
    dsimp only
    cases hm : m.sub with
    | none => exact ⟨_, rfl⟩
    | some s =>
      dsimp only
      split
      · exact ⟨_, rfl⟩
      · next ht =>
        obtain ⟨ks, kr⟩ := R s hm
        obtain ⟨s', p1, _⟩ := hl.pass kr.reach (I.calm hv ht hm)
        exact ⟨_, by rw [p1]; rfl⟩

end
end Hosted
end Aio
