import Verif.Props.C133_Query
import Verif.Props.C119_SearchBox
import Verif.Model.HostedBox
/-!
# C134: the search box on the `VirtualTimeEventLoop`

The theorems of C119 assume a loop that is not overloaded. On the `VirtualTimeEventLoop` this is so, whatever else runs on it; with searches that take a known time (`of_async`) it is then
determined which results come when.
-/

namespace Aio
open Spec Spec.Timed Spec.SearchBox Nested
open VirtualTime (Heap)

theorem Clocked.typedHost_lawful {α : Type} (t0 : Nat) : (Clocked.typedHost (α := α)).Lawful (Clocked.typed t0) where
  clock := Clocked.typed_lawful t0
  names {_ t} := nomatch t
  turn {_ t} := nomatch t
  outside := fun _ _ _ t => nomatch t
  pass := fun _ _ => ⟨_, rfl, fun t => nomatch t⟩

namespace Nested
variable {h : Heap} {SO LO TO SI LI TI ω α β : Type} {o : Clocked SO LO ω} {fam : ω → Nat → Clocked SI LI α} {disp : LI} {gone : SI → Prop} {honour : Bool} {H : Host SO LO TO} {I : Host SI LI TI}

/-- What is in front of `switch_latest` on the virtual loop does what it does alone on a loop that is not overloaded. -/
theorem hosted_outer [DecidableEq TO] [DecidableEq TI] (K : h.Laws) (hH : H.Lawful o) (hI : Host.Family I fam) (hD : Host.Disposable I fam disp honour gone)
    {op : Operator α β} [DecidableEq op.protected.compileSlow.SlowLab] {workers} (hw : ∀ w, w ∈ workers) {hops ls m}
    (hr : LTS.run (Hosted.step h hops ((o.latest fam disp honour).operate op.protected.slowProc) ((H.latest I).operate op.protected.slowProc workers)) Hosted.init ls = some m)
    {s} (hm : m.sub = some s) (hrest : m.vt.ready = []) :
    (∀ t, H.need s.1.outer t ≠ .soon) ∧
    ∃ ks, LTS.run o.step o.init ks = some s.1.outer ∧ o.Prompt (fun s => ∀ t, H.need s t ≠ .soon) ks ∧ ∀ l, Time.act l ∈ ks → H.Own l := by
  have hM : (H.latest I).Lawful (o.latest fam disp honour) := Host.latest_lawful hH hI hD
  have hl := Host.operate_lawful (p := op.protected.slowProc) hM hw
  obtain ⟨hn, ks, h1, h2, h3⟩ := Hosted.C117_schedule K hl hr hm
  have settled : ∀ {s : Nested SO (Switch.State ω) SI ω α × _}, (∀ t, ((H.latest I).operate op.protected.slowProc workers).need s t ≠ .soon) → ∀ t, H.need s.1.outer t ≠ .soon :=
    fun h3 t => h3 (.inl (.inl t))
  have own : ∀ l, Time.act l ∈ Clocked.sources ks → (H.latest I).Own l := by
    intro l hl
    have : Time.act (Sum.inl l) ∈ ks := by
      obtain ⟨x, hx, he⟩ := List.mem_filterMap.mp hl
      match x with
      | .pass d => cases he
      | .act (.inl l') => cases he; exact hx
      | .act (.inr _) => cases he
    rcases h3 _ this with h | ⟨s1, t, h⟩
    · exact .inl h
    · right
      cases t with
      | inl t => simp only [Host.operate, List.mem_map] at h; obtain ⟨x, hx, he⟩ := h; cases he; exact ⟨s1.1, t, hx⟩
      | inr n => simp only [Host.operate] at h; split at h <;> simp at h
  obtain ⟨o1, -, -⟩ := Host.latest_own own
  have hq : (o.latest fam disp honour).Prompt (fun s => ∀ t, H.need s.outer t ≠ .soon) (Clocked.sources ks) :=
    Clocked.Prompt.source hM.clock (busy := fun _ => True) h1 fun a d b s he ha => ⟨settled (h2 a d b s he ha), trivial⟩
  obtain ⟨ks', hsim⟩ := Host.latest_run (Clocked.operate_source hM.clock h1).1
  refine ⟨settled (Hosted.C117_rest K hl hr hm hrest).1, outers ks', outers_run hsim.run, ?_, ?_⟩
  · refine outers_prompt (rest := fun s => ∀ t, H.need s t ≠ .soon) (more := fun _ => True) hsim.run fun a d b x he ha => ?_
    obtain ⟨a', b', e1, e2⟩ := hsim.passes a d b x he ha
    exact ⟨hq a' d b' x e1 e2, trivial⟩
  · intro l hl
    obtain ⟨x, hx, he⟩ := List.mem_filterMap.mp hl
    match x with
    | .pass d => cases he
    | .act (.inner _ _) => cases he
    | .act (.own _) => cases he
    | .act (.outer l') =>
      cases he
      rcases hsim.labels _ hx with h | ⟨k, h⟩
      · exact o1 l h
      · cases h

end Nested

section
variable {h : Heap} {S L T SI LI TI α β ω γ δ : Type} {q : Clocked S L α} {H : Host S L T} {clean : Operator α β} {d : Nat} {fresh : Operator β ω} {pick : α → Option β} {eq : β → β → Bool} {search : β → ω}
variable {before : List clean.direct.compileSlow.SlowLab} {behind : List fresh.protected.compileSlow.SlowLab}

theorem Host.searches_lawful (hH : H.Lawful q) (hb : ∀ w, w ∈ before) (hb' : ∀ w, w ∈ behind) : (H.searches clean before fresh behind).Lawful (q.searches clean d fresh) :=
  Host.operate_lawful (Host.through_lawful (Host.operate_lawful hH hb) (Debounce.stage_lawful true d) (Debounce.host_lawful d)) hb'

/-- No task can go on: the operators have nothing to do. -/
theorem Host.searches_rest {s} (hs : ∀ t, (H.searches clean before fresh behind).need s t ≠ .soon) :
    clean.direct.slowProc.Quiescent s.1.1.2.ps ∧ fresh.protected.slowProc.Quiescent s.2.ps := by
  constructor
  · intro w
    have := hs (.inl (.inl (.inr w)))
    simp only [Host.searches, Host.operate, Host.through] at this
    cases hc : clean.direct.slowProc.step s.1.1.2.ps w with
    | none => rfl
    | some x => simp [hc] at this
  · intro w
    have := hs (.inr w)
    simp only [Host.searches, Host.operate, Host.through] at this
    cases hc : fresh.protected.slowProc.step s.2.ps w with
    | none => rfl
    | some x => simp [hc] at this

theorem Host.searches_kept {ks : List (Time (((L ⊕ clean.direct.compileSlow.SlowLab) ⊕ Debounce.Label β) ⊕ fresh.protected.compileSlow.SlowLab))}
    (ho : ∀ l, Time.act l ∈ ks → (H.searches clean before fresh behind).Own l) : Time.act (.inl (.inr .dispose)) ∉ ks := by
  intro hl
  rcases ho _ hl with h | ⟨s, t, h⟩
  · cases h
  · match t with
    | .inl (.inl (.inl t)) => simp [Host.searches, Host.operate, Host.through] at h
    | .inl (.inl (.inr w)) => simp only [Host.searches, Host.operate, Host.through] at h; split at h <;> simp at h
    | .inl (.inr none) => simp only [Host.searches, Host.operate, Host.through, Debounce.host] at h; split at h <;> simp at h
    | .inl (.inr (some k)) => simp only [Host.searches, Host.operate, Host.through, Debounce.host] at h; split at h <;> simp at h
    | .inr w => simp only [Host.searches, Host.operate] at h; split at h <;> simp at h

variable [DecidableEq T] [DecidableEq TI] [DecidableEq clean.direct.compileSlow.SlowLab] [DecidableEq fresh.protected.compileSlow.SlowLab]

set_option synthInstance.maxSize 1000 in
/-- C134: on the virtual loop, whatever else runs on it, the searches are made exactly as they should. -/
theorem C134_asked (K : h.Laws) (hH : H.Lawful q) (hg : ∀ ls s, LTS.run q.step q.init ls = some s → Grammar ((q.calls s).map (·.1)))
    (hc : clean.Computes fun s => ⟨s.vals.filterMap pick, s.fin⟩) (hf : fresh.Computes fun s => ⟨(changes eq s.vals).map search, s.fin⟩) (hb : ∀ w, w ∈ before) (hb' : ∀ w, w ∈ behind)
    {fam : ω → Nat → Clocked SI LI γ} {disp : LI} {gone : SI → Prop} {honour : Bool} {I : Host SI LI TI} (hI : Host.Family I fam) (hD : Host.Disposable I fam disp honour gone)
    {op : Operator γ δ} [DecidableEq op.protected.compileSlow.SlowLab] {workers} (hw : ∀ w, w ∈ workers) {hops ls m}
    (hr : LTS.run (Hosted.step h hops (((q.searches clean d fresh).latest fam disp honour).operate op.protected.slowProc)
      (((H.searches clean before fresh behind).latest I).operate op.protected.slowProc workers)) Hosted.init ls = some m)
    {s} (hm : m.sub = some s) (hrest : m.vt.ready = []) (hv : ∀ c ∈ q.calls s.1.outer.1.1.1, c.1.isTerminal = false)
    (ha : Apart d m.vt.time.toNat (wanted pick (valuesAt (q.calls s.1.outer.1.1.1)))) :
    s.1.outer.2.sent = (searches pick d m.vt.time.toNat eq search (valuesAt (q.calls s.1.outer.1.1.1))).map fun c => (.next c.1, c.2) := by
  have hS := Host.searches_lawful (d := d) hH hb hb'
  obtain ⟨h1, ks, h2, h3, h4⟩ := hosted_outer K hS hI hD hw hr hm hrest
  obtain ⟨h5, h6⟩ := Host.searches_rest h1
  have hn := (Hosted.C117_schedule K (Host.operate_lawful (p := op.protected.slowProc) (Host.latest_lawful hS hI hD) hw) hr hm).1
  have hn : (q.now s.1.outer.1.1.1 : Int) = m.vt.time := hn
  have hn : q.now s.1.outer.1.1.1 = m.vt.time.toNat := by omega
  rw [← hn] at ha ⊢
  exact C119_asked hH.clock hg hc hf h2 (fun a b c s he hs => Host.searches_rest (h3 a b c s he hs)) h5 h6 (Host.searches_kept h4) hv ha

set_option synthInstance.maxSize 1000 in
/-- C134: and each search is given up exactly when the next one is made; the observer gets the results of the searches that are not given up, each exactly when it is due. -/
theorem C134_results [DecidableEq (Operator.id (α := γ)).protected.compileSlow.SlowLab] (K : h.Laws) (hH : H.Lawful q) (hg : ∀ ls s, LTS.run q.step q.init ls = some s → Grammar ((q.calls s).map (·.1)))
    (hc : clean.Computes fun s => ⟨s.vals.filterMap pick, s.fin⟩) (hf : fresh.Computes fun s => ⟨(changes eq s.vals).map search, s.fin⟩) (hb : ∀ w, w ∈ before) (hb' : ∀ w, w ∈ behind)
    (dur : ω → Nat) (g : ω → γ) {workers} (hw : ∀ w, w ∈ workers) {hops ls m}
    (hr : LTS.run (Hosted.step h hops (((q.searches clean d fresh).latest (queries dur fun x => .ok (g x)) .dispose false).operate (Operator.id (α := γ)).protected.slowProc)
      (((H.searches clean before fresh behind).latest Query.host).operate (Operator.id (α := γ)).protected.slowProc workers)) Hosted.init ls = some m)
    {s} (hm : m.sub = some s) (hrest : m.vt.ready = []) (hv : ∀ c ∈ q.calls s.1.outer.1.1.1, c.1.isTerminal = false)
    (ha : Apart d m.vt.time.toNat (wanted pick (valuesAt (q.calls s.1.outer.1.1.1)))) :
    (s.1.inners.map fun i => (i.1, i.2.1)) = searches pick d m.vt.time.toNat eq search (valuesAt (q.calls s.1.outer.1.1.1)) ∧
    (∀ (i : Nat) x u r, s.1.inners[i]? = some (x, u, r) →
      r.since = ((searches pick d m.vt.time.toNat eq search (valuesAt (q.calls s.1.outer.1.1.1)))[i + 1]?).map (·.2) ∧ (r.since ≠ none → r.job.sub.src.pc = .finished)) ∧
    (Spec.Query.Clear dur m.vt.time.toNat (searches pick d m.vt.time.toNat eq search (valuesAt (q.calls s.1.outer.1.1.1))) →
      noDone s.2.sent = (Spec.Query.answers dur g m.vt.time.toNat (searches pick d m.vt.time.toNat eq search (valuesAt (q.calls s.1.outer.1.1.1)))).map fun c => (.next c.1, c.2)) := by
  have hI : Host.Family Query.host (queries dur fun x => .ok (g x)) := queries_family
  have hD : Host.Disposable Query.host (queries dur fun x => .ok (g x)) .dispose false (fun s => s.since ≠ none) := queries_disposable
  have hS := Host.searches_lawful (d := d) hH hb hb'
  have hsent : (q.searches clean d fresh).calls s.1.outer = _ := C134_asked K hH hg hc hf hb hb' hI hD hw hr hm hrest hv ha
  have hgr : ∀ ls s, LTS.run (q.searches clean d fresh).step (q.searches clean d fresh).init ls = some s → Grammar (((q.searches clean d fresh).calls s).map (·.1)) :=
    Clocked.operate_grammar (Clocked.through_lawful (Clocked.operate_lawful hH.clock _) (Debounce.stage_lawful true d)) hf.guarded.slow fun _ _ _ => trivial
  obtain ⟨h1, h2⟩ := C133_cancelled K dur (fun x => .ok (g x)) hS hgr id_computes rfl hw hr hm hrest
  rw [hsent, valuesAt_map] at h1 h2
  refine ⟨h1, h2, fun hcl => ?_⟩
  have h3 := C133_answers K dur g hS hgr hw hr hm hrest (by rw [hsent]; simp) (by rw [hsent, valuesAt_map]; exact hcl)
  rw [hsent, valuesAt_map] at h3
  exact h3

end

/-! ## the example in the README -/

section
variable {h : Heap} {α β γ : Type}

set_option synthInstance.maxSize 1000 in
/-- C134 for `pipe(subject, map(clean), filter(long), debounce(d), distinct_until_changed, map(lambda x: of_async(search(x))), switch_latest)` where `search(x)` takes `dur x` and returns `g x`:
which results the observer gets, and when, is determined by what was typed when. -/
theorem C134_readme {clean : α → β} {long : β → Bool} {eq : β → β → Bool} [DecidableEq (cleaning clean long).direct.compileSlow.SlowLab]
    [DecidableEq (asking eq fun x => x).protected.compileSlow.SlowLab] [DecidableEq (Operator.id (α := γ)).protected.compileSlow.SlowLab] (K : h.Laws) (t0 d : Nat) (dur : β → Nat) (g : β → γ)
    {before behind workers} (hb : ∀ w, w ∈ before) (hb' : ∀ w, w ∈ behind) (hw : ∀ w, w ∈ workers) {hops ls m}
    (hr : LTS.run (Hosted.step h hops
      ((((Clocked.typed t0).searches (cleaning clean long) d (asking eq fun x => x)).latest (queries dur fun x => .ok (g x)) .dispose false).operate (Operator.id (α := γ)).protected.slowProc)
      (((Clocked.typedHost.searches (cleaning clean long) before (asking eq fun x => x) behind).latest Query.host).operate (Operator.id (α := γ)).protected.slowProc workers)) Hosted.init ls = some m)
    {s} (hm : m.sub = some s) (hrest : m.vt.ready = []) {typed} (ht : valuesAt ((Clocked.typed (α := α) t0).calls s.1.outer.1.1.1) = typed)
    (ha : Apart d m.vt.time.toNat (wanted (fun x => if long (clean x) then some (clean x) else none) typed))
    (hcl : Spec.Query.Clear dur m.vt.time.toNat (searches (fun x => if long (clean x) then some (clean x) else none) d m.vt.time.toNat eq (fun x => x) typed)) :
    noDone s.2.sent = (Spec.Query.answers dur g m.vt.time.toNat
      (searches (fun x => if long (clean x) then some (clean x) else none) d m.vt.time.toNat eq (fun x => x) typed)).map fun c => (.next c.1, c.2) := by
  subst ht
  have hI : Host.Family Query.host (queries dur fun x => .ok (g x)) := queries_family
  have hD : Host.Disposable Query.host (queries dur fun x => .ok (g x)) .dispose false (fun s => s.since ≠ none) := queries_disposable
  obtain ⟨-, ks, h2, -⟩ := hosted_outer K (Host.searches_lawful (d := d) (Clocked.typedHost_lawful t0) hb hb') hI hD hw hr hm hrest
  have l1 := Clocked.operate_lawful (Clocked.typed_lawful (α := α) t0) (cleaning clean long).direct.slowProc
  have r3 := (Clocked.operate_source (Clocked.through_lawful l1 (Debounce.stage_lawful true d)) h2).1
  have hv := Clocked.typed_values t0 (Clocked.operate_source (Clocked.typed_lawful t0) (Clocked.clocks l1 (Debounce.stage_lawful true d) r3).1).1
  exact (C134_results K (Clocked.typedHost_lawful t0) (Clocked.typed_grammar t0) (cleaning_computes clean long) (asking_computes eq _) hb hb' dur g hw hr hm hrest hv ha).2.2 hcl

end

section Examples
set_option synthInstance.maxSize 1000

/-- The search box of C119 on the virtual loop; the search for 2 takes 6, the others 1. -/
abbrev hostedBox := (((Clocked.typed 0).searches demoClean 2 demoAsk).latest (queries (fun n => if n = 2 then 6 else 1) fun n => Except.ok (10 * n)) .dispose false).operate (Operator.id (α := Nat)).protected.slowProc
abbrev demoBefore : List demoClean.direct.compileSlow.SlowLab := [()]
abbrev demoBehind : List demoAsk.protected.compileSlow.SlowLab := [.inl (), .inr (.inl ()), .inr (.inr (.inl ())), .inr (.inr (.inr ()))]
abbrev hostedBoxHost := (((Clocked.typedHost (α := Nat)).searches demoClean demoBefore demoAsk demoBehind).latest (ω := Nat) (α := Nat) (Query.host (α := Nat))).operate
  (Operator.id (α := Nat)).protected.slowProc demoSafe
instance : DecidableEq demoClean.direct.compileSlow.SlowLab := inferInstanceAs (DecidableEq Unit)
instance : DecidableEq demoAsk.protected.compileSlow.SlowLab := inferInstanceAs (DecidableEq (Unit ⊕ Unit ⊕ Unit ⊕ Unit))
theorem demoBefore_all : ∀ w, w ∈ demoBefore := fun w => match w with | () => .head _
theorem demoBehind_all : ∀ w, w ∈ demoBehind := fun w => match w with
  | .inl () => .head _
  | .inr (.inl ()) => .tail _ (.head _)
  | .inr (.inr (.inl ())) => .tail _ (.tail _ (.head _))
  | .inr (.inr (.inr ())) => .tail _ (.tail _ (.tail _ (.head _)))

/-- 12 is typed at 0; the search for 2 is made at 2, and given up when the one for 3 is made at 5, because of 23 typed at 3 (30 is not wanted). -/
example (hops ls m) (hr : LTS.run (Hosted.step VirtualTime.heapq hops hostedBox hostedBoxHost) Hosted.init ls = some m) {s} (hm : m.sub = some s) (hrest : m.vt.ready = [])
    (ht : (Clocked.typed (α := Nat) 0).calls s.1.outer.1.1.1 = [(.next 12, 0), (.next 23, 3), (.next 30, 3)]) (hnow : m.vt.time = 9) : noDone s.2.sent = [(.next 30, 6)] := by
  have hs : searches (fun x => if decide (0 < x % 10) = true then some (x % 10) else none) 2 9 (fun a b => a == b) (fun x => x) [(12, 0), (23, 3), (30, 3)] = [(2, 2), (3, 5)] := by decide +kernel
  have := C134_readme (clean := fun x : Nat => x % 10) (long := fun x => decide (0 < x)) (eq := fun a b : Nat => a == b) VirtualTime.heapqLaws 0 2 (fun n => if n = 2 then 6 else 1)
    (fun n => 10 * n) demoBefore_all demoBehind_all demoSafe_all hr hm hrest (typed := [(12, 0), (23, 3), (30, 3)]) (by rw [ht]; rfl) (by rw [hnow]; simp [Apart, wanted])
    (by rw [hnow]; exact (congrArg (Spec.Query.Clear _ 9) hs).mpr (by simp [Spec.Query.Clear]))
  rw [hnow] at this
  rw [this, show (9 : Int).toNat = 9 from rfl, hs]
  rfl

abbrev hostedTyping (x : Nat) : Option (Hosted.Label (Nested.Label (((Nat ⊕ demoClean.direct.compileSlow.SlowLab) ⊕ Debounce.Label Nat) ⊕ demoAsk.protected.compileSlow.SlowLab)
    Query.Label Nat Nat ⊕ (Operator.id (α := Nat)).protected.compileSlow.SlowLab)) := some (.outside (.inl (.outer (.inl (.inl (.inl x))))))

example : shown hostedBox hostedBoxHost (fun _ => 0) ([some .subscribe, hostedTyping 12, some (.loop (.callAt 3)), some (.loop (.callAt 9))] ++ List.replicate 52 none ++
    [hostedTyping 23] ++ List.replicate 10 none ++ [hostedTyping 30] ++ List.replicate 89 none) = some (9, some [(.next 30, 6)]) := by decide +kernel

end Examples

end Aio
