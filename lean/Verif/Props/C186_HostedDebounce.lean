import Verif.Props.C117_Hosted
import Verif.Props.C134_HostedBox
import Verif.Props.C184_DebounceMoves
/-!
# C186: the laws of `debounce` on the virtual loop
-/

namespace Aio
open Spec Spec.Timed Spec.SearchBox Spec.Pauses
variable {S L T α β : Type} [DecidableEq T] {h : VirtualTime.Heap} {q : Clocked S L α} {H : Host S L T} {a b d : Nat} {op : Operator α β} {pick : α → Option β}

namespace HostedDebounce
open Debounces (twice)
open Nested (shown)
open DebounceMoves (behind)

private theorem own_left {P M N : Type} {O : Stage.Host P M N} {l : L} (ho : (H.through O).Own (.inl l)) : H.Own l := by
  rcases ho with h | ⟨s, t, h⟩
  · exact .inl h
  · cases t with
    | inl t => simp only [Host.through, List.mem_map] at h; obtain ⟨x, hx, he⟩ := h; cases he; exact .inr ⟨s.1, t, hx⟩
    | inr n => simp [Host.through] at h

private theorem own_source {P W : Type} {p : Proc P W (Notif α) (Notif β)} {workers : List W} {l : L} (ho : (H.operate p workers).Own (.inl l)) : H.Own l := by
  rcases ho with h | ⟨s, t, h⟩
  · exact .inl h
  · cases t with
    | inl t => simp only [Host.operate, List.mem_map] at h; obtain ⟨x, hx, he⟩ := h; cases he; exact .inr ⟨s.1, t, hx⟩
    | inr n => simp only [Host.operate] at h; split at h <;> simp at h

private theorem own_dispose (ho : (H.through (Debounce.host (α := α))).Own (.inr .dispose)) : False := by
  rcases ho with h | ⟨s, t, h⟩
  · cases h
  · cases t with
    | inl t => simp [Host.through] at h
    | inr n =>
      simp only [Host.through, List.mem_map] at h
      obtain ⟨x, hx, he⟩ := h
      cases he
      cases n with
      | none => simp only [Debounce.host] at hx; split at hx <;> simp at hx
      | some k => simp only [Debounce.host] at hx; split at hx <;> simp at hx

private theorem twice_lawful (hH : H.Lawful q) : ((H.through (Debounce.host (α := α))).through (Debounce.host (α := α))).Lawful (twice q a b) :=
  Host.through_lawful (Host.through_lawful hH (Debounce.stage_lawful true a) (Debounce.host_lawful a)) (Debounce.stage_lawful true b) (Debounce.host_lawful b)

/-- C186: on the virtual loop, whatever else runs on it, `pipe(source, debounce(a), debounce(b))` sends every value that nothing follows within the longer of the two times, none that something
follows within `a`, all of them `a + b` after the source sent them; with `b ≤ a` the second `debounce` drops nothing. -/
theorem C186_twice (K : h.Laws) (hH : H.Lawful q) {hops ls m}
    (hr : LTS.run (Hosted.step h hops (twice q a b) ((H.through (Debounce.host (α := α))).through (Debounce.host (α := α)))) Hosted.init ls = some m) {s} (hm : m.sub = some s)
    (hv : ∀ c ∈ q.calls s.1.1, c.1.isTerminal = false) (ha : Apart a m.vt.time.toNat (valuesAt (q.calls s.1.1)))
    (hb : (valuesAt (q.calls s.1.1)).Pairwise fun x y => x.2 + b ≠ y.2) (hab : ∀ c ∈ valuesAt (q.calls s.1.1), c.2 + a + b ≠ m.vt.time.toNat) :
    ((pauses (max a b) (a + b) m.vt.time.toNat (valuesAt (q.calls s.1.1))).map fun c => (Notif.next c.1, c.2)).Sublist ((twice q a b).calls s) ∧
    ((twice q a b).calls s).Sublist ((pauses a (a + b) m.vt.time.toNat (valuesAt (q.calls s.1.1))).map fun c => (Notif.next c.1, c.2)) ∧
    (b ≤ a → (twice q a b).calls s = (pauses a (a + b) m.vt.time.toNat (valuesAt (q.calls s.1.1))).map fun c => (Notif.next c.1, c.2)) := by
  obtain ⟨hn, ks, h1, -, h3⟩ := Hosted.C117_schedule K (twice_lawful hH) hr hm
  have hnow : m.vt.time.toNat = q.now s.1.1 := by
    have : (q.now s.1.1 : Int) = m.vt.time := hn
    omega
  rw [hnow] at ha hab ⊢
  have d1 : Time.act (.inr .dispose) ∉ ks := fun hk => own_dispose (h3 _ hk)
  have d2 : Time.act (.inl (.inr .dispose)) ∉ ks := fun hk => own_dispose (own_left (h3 _ hk))
  exact ⟨Debounces.C183_at_least hH.clock h1 d1 d2 hv ha hb hab, Debounces.C183_at_most hH.clock h1 d1 d2 hv ha hb hab, Debounces.C183_longer_first hH.clock h1 d1 d2 hv ha hb hab⟩

/-- The model of `pipe(source, debounce(d), op)` on the virtual loop -/
abbrev behindHost (H : Host S L T) (op : Operator α β) (workers : List op.protected.compileSlow.SlowLab) := (H.through (Debounce.host (α := α))).operate op.protected.slowProc workers

/-- The model of `pipe(source, op, debounce(d))` on the virtual loop -/
abbrev beforeHost (H : Host S L T) (op : Operator α β) (workers : List op.direct.compileSlow.SlowLab) := (H.operate op.direct.slowProc workers).through (Debounce.host (α := β))

private theorem behind_schedule [DecidableEq op.protected.compileSlow.SlowLab] (K : h.Laws) (hH : H.Lawful q) {workers : List op.protected.compileSlow.SlowLab} (hw : ∀ w, w ∈ workers) {hops ls m}
    (hr : LTS.run (Hosted.step h hops (behind q d op) (behindHost H op workers)) Hosted.init ls = some m) {s} (hm : m.sub = some s) (he : m.vt.ready = []) :
    m.vt.time.toNat = q.now s.1.1 ∧ ∃ ks, LTS.run (behind q d op).step (behind q d op).init ks = some s ∧
      (behind q d op).Prompt (fun s => op.protected.slowProc.Quiescent s.2.ps) ks ∧ op.protected.slowProc.Quiescent s.2.ps ∧ Time.act (.inl (.inr .dispose)) ∉ ks := by
  have hl := Host.operate_lawful (p := op.protected.slowProc) (Host.through_lawful hH (Debounce.stage_lawful (α := α) true d) (Debounce.host_lawful d)) hw
  obtain ⟨hn, ks, h1, h2, h3⟩ := Hosted.C117_schedule K hl hr hm
  have hnow : m.vt.time.toNat = q.now s.1.1 := by
    have : (q.now s.1.1 : Int) = m.vt.time := hn
    omega
  have quiet : ∀ s, (∀ t, (behindHost H op workers).need s t ≠ .soon) → op.protected.slowProc.Quiescent s.2.ps := by
    intro s hs w
    have := hs (.inr w)
    simp only [Host.operate] at this
    cases hc : op.protected.slowProc.step s.2.ps w with
    | none => rfl
    | some x => simp [hc] at this
  exact ⟨hnow, ks, h1, fun a d b s he ha => quiet s (h2 a d b s he ha), quiet s (Hosted.C117_rest K hl hr hm he).1, fun hk => own_dispose (own_source (h3 _ hk))⟩

private theorem before_schedule [DecidableEq op.direct.compileSlow.SlowLab] (K : h.Laws) (hH : H.Lawful q) {workers : List op.direct.compileSlow.SlowLab} (hw : ∀ w, w ∈ workers) {hops ls m}
    (hr : LTS.run (Hosted.step h hops (DebounceMoves.before q op d) (beforeHost H op workers)) Hosted.init ls = some m) {s} (hm : m.sub = some s) (he : m.vt.ready = []) :
    m.vt.time.toNat = q.now s.1.1 ∧ ∃ ks, LTS.run (DebounceMoves.before q op d).step (DebounceMoves.before q op d).init ks = some s ∧
      (DebounceMoves.before q op d).Prompt (fun s => op.direct.slowProc.Quiescent s.1.2.ps) ks ∧ op.direct.slowProc.Quiescent s.1.2.ps ∧ Time.act (.inr .dispose) ∉ ks := by
  have hl := Host.through_lawful (Host.operate_lawful (p := op.direct.slowProc) hH hw) (Debounce.stage_lawful (α := β) true d) (Debounce.host_lawful d)
  obtain ⟨hn, ks, h1, h2, h3⟩ := Hosted.C117_schedule K hl hr hm
  have hnow : m.vt.time.toNat = q.now s.1.1 := by
    have : (q.now s.1.1 : Int) = m.vt.time := hn
    omega
  have quiet : ∀ s, (∀ t, (beforeHost H op workers).need s t ≠ .soon) → op.direct.slowProc.Quiescent s.1.2.ps := by
    intro s hs w
    have := hs (.inl (.inr w))
    simp only [Host.through, Host.operate] at this
    cases hc : op.direct.slowProc.step s.1.2.ps w with
    | none => rfl
    | some x => simp [hc] at this
  exact ⟨hnow, ks, h1, fun a d b s he ha => quiet s (h2 a d b s he ha), quiet s (Hosted.C117_rest K hl hr hm he).1, fun hk => own_dispose (h3 _ hk)⟩

/-- C186: on the virtual loop, when no callback is due, `pipe(source, debounce(d), op)` has sent what `op` makes of the values that nothing followed within `d`, each `d` after the source
sent it. -/
theorem C186_behind [DecidableEq op.protected.compileSlow.SlowLab] (K : h.Laws) (hH : H.Lawful q) (hc : op.Computes fun s => ⟨s.vals.filterMap pick, s.fin⟩)
    {workers : List op.protected.compileSlow.SlowLab} (hw : ∀ w, w ∈ workers) {hops ls m}
    (hr : LTS.run (Hosted.step h hops (behind q d op) (behindHost H op workers)) Hosted.init ls = some m) {s} (hm : m.sub = some s)
    (he : m.vt.ready = []) (hv : ∀ c ∈ q.calls s.1.1, c.1.isTerminal = false) (ha : Apart d m.vt.time.toNat (valuesAt (q.calls s.1.1))) :
    (behind q d op).calls s = (wanted pick (quiet d m.vt.time.toNat (valuesAt (q.calls s.1.1)))).map fun c => (.next c.1, c.2) := by
  obtain ⟨hn, ks, h1, h2, h3, h4⟩ := behind_schedule K hH hw hr hm he
  rw [hn] at ha ⊢
  exact DebounceMoves.C184_behind hH.clock hc h1 h2 h3 h4 hv ha

/-- C186: and `pipe(source, op, debounce(d))` those results of `op` that no other result followed within `d`. -/
theorem C186_before [DecidableEq op.direct.compileSlow.SlowLab] (K : h.Laws) (hH : H.Lawful q) (hg : ∀ ls s, LTS.run q.step q.init ls = some s → Grammar ((q.calls s).map (·.1)))
    (hc : op.Computes fun s => ⟨s.vals.filterMap pick, s.fin⟩) {workers : List op.direct.compileSlow.SlowLab} (hw : ∀ w, w ∈ workers) {hops ls m}
    (hr : LTS.run (Hosted.step h hops (DebounceMoves.before q op d) (beforeHost H op workers)) Hosted.init ls = some m) {s} (hm : m.sub = some s)
    (he : m.vt.ready = []) (hv : ∀ c ∈ q.calls s.1.1, c.1.isTerminal = false) (ha : Apart d m.vt.time.toNat (wanted pick (valuesAt (q.calls s.1.1)))) :
    (DebounceMoves.before q op d).calls s = (quiet d m.vt.time.toNat (wanted pick (valuesAt (q.calls s.1.1)))).map fun c => (.next c.1, c.2) := by
  obtain ⟨hn, ks, h1, h2, h3, h4⟩ := before_schedule K hH hw hr hm he
  rw [hn] at ha ⊢
  exact DebounceMoves.C184_before hH.clock hg hc h1 h2 h3 h4 hv ha

section
variable [DecidableEq op.protected.compileSlow.SlowLab] [DecidableEq op.direct.compileSlow.SlowLab]
  (K : h.Laws) (hH : H.Lawful q) (hg : ∀ ls s, LTS.run q.step q.init ls = some s → Grammar ((q.calls s).map (·.1)))
  {workers : List op.protected.compileSlow.SlowLab} (hw : ∀ w, w ∈ workers) {workers' : List op.direct.compileSlow.SlowLab} (hw' : ∀ w, w ∈ workers') {hops} {ls} {m} {s} {hops'} {ls'} {m'} {s'}
  (hr : LTS.run (Hosted.step h hops (behind q d op) (behindHost H op workers)) Hosted.init ls = some m) (hm : m.sub = some s) (he : m.vt.ready = [])
  (hr' : LTS.run (Hosted.step h hops' (DebounceMoves.before q op d) (beforeHost H op workers')) Hosted.init ls' = some m') (hm' : m'.sub = some s') (he' : m'.vt.ready = [])
  (hv : ∀ c ∈ q.calls s.1.1, c.1.isTerminal = false) (ha : Apart d m.vt.time.toNat (valuesAt (q.calls s.1.1)))
  (hsame : q.calls s'.1.1 = q.calls s.1.1) (hnow : m'.vt.time = m.vt.time)
include K hH hg hw hw' hr hm he hr' hm' he' hv ha hsame hnow

/-- C186: a test cannot tell on which side of `debounce` a `map` stands: two runs in which the source has sent the same by the same time show the same values at the same times, whatever else
runs on the two loops. -/
theorem C186_map {f : α → β} (hc : op.Computes fun s => ⟨s.vals.map f, s.fin⟩) : (behind q d op).calls s = (DebounceMoves.before q op d).calls s' := by
  obtain ⟨n1, k1, a1, a2, a3, a4⟩ := behind_schedule K hH hw hr hm he
  obtain ⟨n2, k2, b1, b2, b3, b4⟩ := before_schedule K hH hw' hr' hm' he'
  exact DebounceMoves.C184_map hH.clock hg a1 a2 a3 a4 b1 b2 b3 b4 hv (n1 ▸ ha) hsame (by rw [← n1, ← n2, hnow]) hc

/-- C186: what is shown with a `filter` behind `debounce` is also shown with the `filter` before it. -/
theorem C186_filter (hc : op.Computes fun s => ⟨s.vals.filterMap pick, s.fin⟩) : ((behind q d op).calls s).Sublist ((DebounceMoves.before q op d).calls s') := by
  obtain ⟨n1, k1, a1, a2, a3, a4⟩ := behind_schedule K hH hw hr hm he
  obtain ⟨n2, k2, b1, b2, b3, b4⟩ := before_schedule K hH hw' hr' hm' he'
  exact DebounceMoves.C184_filter hH.clock hg a1 a2 a3 a4 b1 b2 b3 b4 hv (n1 ▸ ha) hsame (by rw [← n1, ← n2, hnow]) hc

end

/-! ## cases -/

section Examples
set_option synthInstance.maxSize 2000

abbrev twiceHost := ((Clocked.typedHost (α := Nat)).through (Debounce.host (α := Nat))).through (Debounce.host (α := Nat))
abbrev typeTwice (x : Nat) : Option (Hosted.Label ((Nat ⊕ Debounce.Label Nat) ⊕ Debounce.Label Nat)) := some (.outside (.inl (.inl x)))

/-- Two `debounce` on the virtual loop, on which other code sleeps until 5 and until 20: 0 and 1 are typed at 0, and 2 at 5. -/
example (hops ls m) (hr : LTS.run (Hosted.step VirtualTime.heapq hops (Debounces.demoTwice 4 2) twiceHost) Hosted.init ls = some m) {s} (hm : m.sub = some s)
    (ht : (Clocked.typed (α := Nat) 0).calls s.1.1 = [(.next 0, 0), (.next 1, 0), (.next 2, 5)]) (hnow : m.vt.time = 20) :
    (Debounces.demoTwice 4 2).calls s = [(.next 1, 6), (.next 2, 11)] := by
  have := (C186_twice VirtualTime.heapqLaws (Clocked.typedHost_lawful 0) hr hm (by rw [ht]; decide) (by rw [ht, hnow]; simp [Apart, valuesAt]) (by rw [ht]; simp [valuesAt])
    (by rw [ht, hnow]; simp [valuesAt])).2.2 (by decide)
  rw [this, ht, hnow]
  decide +kernel

example : shown (Debounces.demoTwice 4 2) twiceHost (fun _ => 0) ([some .subscribe, typeTwice 0, typeTwice 1, some (.loop (.callAt 5)), some (.loop (.callAt 20))] ++ List.replicate 33 none ++
    [typeTwice 2] ++ List.replicate 50 none) = some (20, some [(.next 1, 6), (.next 2, 11)]) := by decide +kernel

instance : DecidableEq DebounceMoves.demoEven.direct.compileSlow.SlowLab := inferInstanceAs (DecidableEq Unit)
instance : DecidableEq DebounceMoves.demoEven.protected.compileSlow.SlowLab := inferInstanceAs (DecidableEq (Unit ⊕ Unit))
abbrev evenBehindHost := behindHost (Clocked.typedHost (α := Nat)) DebounceMoves.demoEven [.inl (), .inr ()]
abbrev evenBeforeHost := beforeHost (Clocked.typedHost (α := Nat)) DebounceMoves.demoEven [()]
abbrev typeBehind (x : Nat) : Option (Hosted.Label ((Nat ⊕ Debounce.Label Nat) ⊕ DebounceMoves.demoEven.protected.compileSlow.SlowLab)) := some (.outside (.inl (.inl x)))
abbrev typeBefore (x : Nat) : Option (Hosted.Label ((Nat ⊕ DebounceMoves.demoEven.direct.compileSlow.SlowLab) ⊕ Debounce.Label Nat)) := some (.outside (.inl (.inl x)))

/-- The filter of the even values behind `debounce(2)`: 2 and 3 are typed at 0, and 4 at 5. -/
example (hops ls m) (hr : LTS.run (Hosted.step VirtualTime.heapq hops (DebounceMoves.demoBehind DebounceMoves.demoEven) evenBehindHost) Hosted.init ls = some m) {s} (hm : m.sub = some s)
    (he : m.vt.ready = []) (ht : (Clocked.typed (α := Nat) 0).calls s.1.1 = [(.next 2, 0), (.next 3, 0), (.next 4, 5)]) (hnow : m.vt.time = 20) :
    (DebounceMoves.demoBehind DebounceMoves.demoEven).calls s = [(.next 4, 7)] := by
  rw [C186_behind VirtualTime.heapqLaws (Clocked.typedHost_lawful 0) (cleaning_computes (fun x : Nat => x) fun x => x % 2 == 0)
    (fun | .inl () => List.mem_cons_self .. | .inr () => List.mem_cons_of_mem _ (List.mem_cons_self ..)) hr hm he (by rw [ht]; decide) (by rw [ht, hnow]; simp [Apart, valuesAt]), ht, hnow]
  decide +kernel

/-- And before it: `debounce` does not see 3. -/
example (hops ls m) (hr : LTS.run (Hosted.step VirtualTime.heapq hops (DebounceMoves.demoBefore DebounceMoves.demoEven) evenBeforeHost) Hosted.init ls = some m) {s} (hm : m.sub = some s)
    (he : m.vt.ready = []) (ht : (Clocked.typed (α := Nat) 0).calls s.1.1 = [(.next 2, 0), (.next 3, 0), (.next 4, 5)]) (hnow : m.vt.time = 20) :
    (DebounceMoves.demoBefore DebounceMoves.demoEven).calls s = [(.next 2, 2), (.next 4, 7)] := by
  rw [C186_before VirtualTime.heapqLaws (Clocked.typedHost_lawful 0) (Clocked.typed_grammar 0) (cleaning_computes (fun x : Nat => x) fun x => x % 2 == 0)
    (fun () => List.mem_cons_self ..) hr hm he (by rw [ht]; decide) (by rw [ht, hnow]; simp [Apart, valuesAt, wanted]), ht, hnow]
  decide +kernel

/-- C186: the two can be told apart in a test, so that `C186_filter` cannot be made an equation. -/
theorem C186_filter_order :
    shown (DebounceMoves.demoBehind DebounceMoves.demoEven) evenBehindHost (fun _ => 0) ([some .subscribe, typeBehind 2, typeBehind 3, some (.loop (.callAt 5)), some (.loop (.callAt 20))] ++
      List.replicate 38 none ++ [typeBehind 4] ++ List.replicate 60 none) = some (20, some [(.next 4, 7)]) ∧
    shown (DebounceMoves.demoBefore DebounceMoves.demoEven) evenBeforeHost (fun _ => 0) ([some .subscribe, typeBefore 2, typeBefore 3, some (.loop (.callAt 5)), some (.loop (.callAt 20))] ++
      List.replicate 23 none ++ [typeBefore 4] ++ List.replicate 60 none) = some (20, some [(.next 2, 2), (.next 4, 7)]) := by decide +kernel

end Examples
end HostedDebounce
end Aio
