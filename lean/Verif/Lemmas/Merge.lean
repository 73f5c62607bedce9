import Verif.Spec.Merge
import Verif.Lemmas.Create
/-! The invariant of merge_inner. -/

namespace Aio.Merge
open Spec
variable {ω α : Type}

/-- keys that hold a slot -/
def State.live (s : State ω) : List Nat :=
  match s.pc with
  | .subscribing m => m.subs ++ [m.key]
  | _ => s.model.subs

def State.queue (s : State ω) : List ω :=
  match s.pc with
  | .subscribing m => m.queue
  | _ => s.model.queue

def State.stopped (s : State ω) : Bool :=
  match s.pc with
  | .subscribing m => m.stopped
  | _ => s.model.stopped

def State.keys (s : State ω) : Nat :=
  match s.pc with
  | .subscribing m => m.key + 1
  | _ => s.model.key

def State.alive (s : State ω) : Bool :=
  match s.pc with
  | .waiting | .subscribing _ => true
  | _ => false

/-- keys that are about to be disposed -/
def State.doomed (s : State ω) : List Nat :=
  match s.pc with
  | .disposing ks => ks
  | _ => []

/-- completions of inner observables not yet handled -/
def ids (inbox : List (Msg ω)) : List Nat :=
  inbox.filterMap fun | .innerCompleted k => some k | _ => none

/-- calls of the source not yet handled -/
def outers (inbox : List (Msg ω)) : List (Notif ω) :=
  inbox.filterMap fun | .inner xs => some (.next xs) | .completed => some .completed | _ => none

def noErr (ns : List (Notif α)) : List (Notif α) :=
  ns.filter fun | .error _ => false | _ => true

/-- What the invariant needs to know about the past. -/
structure Hist (ω α : Type) where
  outer : List (Notif ω)
  inner : Nat → List (Notif α)
  stop : Prop
  noFail : Prop

def hist (ls : List (Label ω α)) : Hist ω α :=
  ⟨outerCalls ls, fun k => innerCalls k ls, Stopped ls, NoFailure ls⟩

def Hist.fin (h : Hist ω α) (k : Nat) : End := (story (h.inner k)).fin

/-- while the worker runs -/
structure Live (mx : Int) (h : Hist ω α) (s : State ω) (posts : List (Notif α)) : Prop where
  outer : (s.started ++ s.queue).map .next ++ (if s.stopped then [.completed] else []) ++
    outers s.inbox = noErr h.outer
  key : s.keys = s.started.length
  lt : ∀ k ∈ s.live, k < s.started.length
  nodup : s.live.Nodup
  idsNodup : (ids s.inbox).Nodup
  idsLive : ∀ k ∈ ids s.inbox, k ∈ s.live ∧ h.fin k = .done
  liveDone : ∀ k ∈ s.live, h.fin k = .done → k ∈ ids s.inbox
  gone : ∀ k < s.started.length, k ∉ s.live → h.fin k = .done
  slots : 0 < mx → (s.live.length : Int) ≤ mx ∧ (s.queue ≠ [] → (s.live.length : Int) = mx)
  unbounded : mx = 0 → s.queue = []
  busy : s.stopped → s.live ≠ []
  last : mx = 1 → ∀ k ∈ s.live, k + 1 = s.started.length
  nodisp : h.stop ↔ .dispose ∈ s.inbox
  nodone : .completed ∉ posts
  nodis : s.disposed = []

/-- when the worker is disposing or has ended -/
structure Dead (mx : Int) (h : Hist ω α) (s : State ω) (posts : List (Notif α)) : Prop where
  pre : s.started <+: (story h.outer).vals
  done : 0 ≤ mx → .completed ∈ posts →
    (story h.outer).fin = .done ∧ s.started = (story h.outer).vals ∧
      ∀ k < s.started.length, h.fin k = .done
  released : h.noFail → ∀ k < s.started.length, h.fin k = .done ∨ k ∈ s.disposed ∨ k ∈ s.doomed
  stop : h.noFail → s.pc = .halted → ¬ h.stop → .completed ∈ posts
  doomed : ∀ ks, s.pc = .disposing ks → h.stop ∧ .completed ∉ posts
  disNodup : (s.disposed ++ s.doomed).Nodup ∧ ∀ k ∈ s.disposed ++ s.doomed, k < s.started.length

structure Inv (mx : Int) (h : Hist ω α) (s : State ω) (posts : List (Notif α)) : Prop where
  fresh : ∀ k, s.started.length ≤ k → h.inner k = []
  act : 0 < mx → (((List.range s.started.length).filter fun k => h.fin k = .running).length : Int) ≤ mx
  seq : mx = 1 → ∀ k, k + 1 < s.started.length → h.fin k = .done
  live : s.alive = true → Live mx h s posts
  dead : s.alive = false → Dead mx h s posts

theorem length_le_of_subset {as bs : List Nat} (ha : as.Nodup) (h : ∀ k ∈ as, k ∈ bs) :
    as.length ≤ bs.length := by
  induction as generalizing bs with
  | nil => simp
  | cons a as ih =>
    simp only [List.nodup_cons] at ha
    have hm : a ∈ bs := h a (by simp)
    have := ih (bs := bs.erase a) ha.2 fun k hk =>
      (List.mem_erase_of_ne (by rintro rfl; exact ha.1 hk)).mpr (h k (by simp [hk]))
    rw [List.length_erase_of_mem hm] at this
    have : 0 < bs.length := List.length_pos_of_mem hm
    simp only [List.length_cons]; omega

/-- the slots bound the active inner observables -/
theorem Live.act {mx : Int} {h : Hist ω α} {s : State ω} {posts : List (Notif α)}
    (hl : Live mx h s posts) (hm : 0 < mx) :
    (((List.range s.started.length).filter fun k => h.fin k = .running).length : Int) ≤ mx := by
  have : ((List.range s.started.length).filter fun k => h.fin k = .running).length ≤
      s.live.length := by
    refine length_le_of_subset (List.nodup_range.filter _) fun k hk => ?_
    simp only [List.mem_filter, List.mem_range, decide_eq_true_eq] at hk
    by_cases hkl : k ∈ s.live
    · exact hkl
    · have := hl.gone k hk.1 hkl
      rw [hk.2] at this; cases this
  have := (hl.slots hm).1
  omega

/-- with one slot, everybody but the last is done -/
theorem Live.seqDone {h : Hist ω α} {s : State ω} {posts : List (Notif α)}
    (hl : Live 1 h s posts) :
    ∀ k, k + 1 < s.started.length → h.fin k = .done := by
  intro k hk
  refine hl.gone k (by omega) fun hm => ?_
  have := hl.last rfl k hm
  omega

theorem outers_append (a b : List (Msg ω)) : outers (a ++ b) = outers a ++ outers b :=
  List.filterMap_append ..
theorem ids_append (a b : List (Msg ω)) : ids (a ++ b) = ids a ++ ids b :=
  List.filterMap_append ..
theorem noErr_append (a b : List (Notif α)) : noErr (a ++ b) = noErr a ++ noErr b :=
  List.filter_append ..

theorem noErr_grammar {ns : List (Notif α)} (h : Grammar ns) : Grammar (noErr ns) ∧
    (story (noErr ns)).vals = (story ns).vals ∧
    ((story (noErr ns)).fin = .done ↔ (story ns).fin = .done) := by
  obtain ⟨⟨vs, f⟩, rfl⟩ := h
  have hv : noErr (vs.map (.next : α → Notif α)) = vs.map .next := by
    rw [noErr, List.filter_eq_self]; simp
  have he : noErr (f.events : List (Notif α)) = (match f with | .failed _ => [] | f => f.events) := by
    cases f <;> rfl
  rw [events_vals_map, noErr_append, hv, he]
  cases f with
  | running => exact ⟨⟨⟨vs, .running⟩, rfl⟩, rfl, Iff.rfl⟩
  | done => exact ⟨⟨⟨vs, .done⟩, rfl⟩, rfl, Iff.rfl⟩
  | failed e =>
    have := story_map_next_append vs ([] : List (Notif α))
    simp at this
    refine ⟨⟨⟨vs, .running⟩, rfl⟩, ?_, ?_⟩ <;> simp [story_map_next_append, this]

/-- what the worker can read off the source's calls -/
theorem outer_read {os : List ω} {st : Bool} {rest : List (Notif ω)} {oc : List (Notif ω)}
    (hg : Grammar oc) (h : os.map .next ++ (if st then [.completed] else []) ++ rest = noErr oc) :
    os <+: (story oc).vals ∧ (st = true → rest = [] ∧ (story oc).vals = os ∧ (story oc).fin = .done) := by
  obtain ⟨hg', hv, hf⟩ := noErr_grammar hg
  rw [← h] at hg' hv hf
  cases st with
  | false =>
    simp only [Bool.false_eq_true, if_false, List.append_nil, story_map_next_append] at hv
    rw [← hv]
    exact ⟨List.prefix_append .., by simp⟩
  | true =>
    simp only [if_true, List.append_assoc, List.cons_append, List.nil_append, story_map_next_append,
      story_completed, List.append_nil] at hv hf
    refine ⟨hv ▸ List.prefix_rfl, fun _ => ⟨?_, hv.symm, hf.mp trivial⟩⟩
    have := cut_of_grammar hg'
    simp only [cut, if_true, List.append_assoc, List.cons_append, List.nil_append,
      story_map_next_append, story_completed, List.append_nil, events_vals_map, End.events_done,
      List.append_cancel_left_eq, List.cons.injEq, true_and] at this
    exact this.symm

/-- the environment acts while the worker runs -/
theorem Live.env {mx : Int} {h h' : Hist ω α} {s : State ω} {posts o : List (Notif α)}
    {ms : List (Msg ω)} (hl : Live mx h s posts)
    (ho : noErr h'.outer = noErr h.outer ++ outers ms)
    (hf : ∀ j, h'.fin j = .done ↔ h.fin j = .done ∨ j ∈ ids ms)
    (hn : (ids ms).Nodup) (hi : ∀ j ∈ ids ms, j < s.started.length ∧ h.fin j ≠ .done)
    (hs : h'.stop ↔ h.stop ∨ .dispose ∈ ms) (hc : .completed ∉ o) :
    Live mx h' { s with inbox := s.inbox ++ ms } (posts ++ o) where
  outer := by
    rw [ho, ← hl.outer, outers_append]
    show (s.started ++ s.queue).map .next ++ (if s.stopped then [.completed] else []) ++
      (outers s.inbox ++ outers ms) = _
    simp only [List.append_assoc]
  key := hl.key
  lt := hl.lt
  nodup := hl.nodup
  idsNodup := by
    rw [ids_append, List.nodup_append]
    refine ⟨hl.idsNodup, hn, ?_⟩
    rintro a ha b hb rfl
    exact (hi a hb).2 (hl.idsLive a ha).2
  idsLive k hk := by
    rw [ids_append, List.mem_append] at hk
    rw [hf]
    rcases hk with hk | hk
    · exact ⟨(hl.idsLive k hk).1, .inl (hl.idsLive k hk).2⟩
    · refine ⟨?_, .inr hk⟩
      have := hi k hk
      exact Classical.byContradiction fun hn => this.2 (hl.gone k this.1 hn)
  liveDone k hk hd := by
    rw [ids_append, List.mem_append]
    rcases (hf k).mp hd with h1 | h1
    · exact .inl (hl.liveDone k hk h1)
    · exact .inr h1
  gone k hk hn := (hf k).mpr (.inl (hl.gone k hk hn))
  slots := hl.slots
  unbounded := hl.unbounded
  busy := hl.busy
  last := hl.last
  nodisp := by rw [hs, hl.nodisp, List.mem_append]
  nodone := by rw [List.mem_append]; exact fun h1 => h1.elim hl.nodone hc
  nodis := hl.nodis

/-- the environment acts when the worker no longer receives -/
theorem Dead.env {mx : Int} {h h' : Hist ω α} {s : State ω} {posts o : List (Notif α)}
    {ms : List (Msg ω)} (hl : Dead mx h s posts)
    (ho : (story h.outer).vals <+: (story h'.outer).vals)
    (ho' : (story h.outer).fin = .done → h'.outer = h.outer)
    (hf : ∀ j, h.fin j = .done → h'.fin j = .done)
    (hs : h.stop → h'.stop) (hn : h'.noFail → h.noFail) (hc : .completed ∉ o) :
    Dead mx h' { s with inbox := s.inbox ++ ms } (posts ++ o) where
  pre := hl.pre.trans ho
  done hm hp := by
    rw [List.mem_append] at hp
    have hp := hp.resolve_right hc
    obtain ⟨h1, h2, h3⟩ := hl.done hm hp
    rw [ho' h1]
    exact ⟨h1, h2, fun k hk => hf k (h3 k hk)⟩
  released hf' k hk := (hl.released (hn hf') k hk).imp_left (hf k)
  stop hf' hp hst := List.mem_append_left _ (hl.stop (hn hf') hp fun h => hst (hs h))
  doomed ks hk := by
    obtain ⟨h1, h2⟩ := hl.doomed ks hk
    refine ⟨hs h1, ?_⟩
    rw [List.mem_append]; exact fun h3 => h3.elim h2 hc
  disNodup := hl.disNodup

theorem Inv.env {mx : Int} {h h' : Hist ω α} {s : State ω} {posts o : List (Notif α)}
    {ms : List (Msg ω)} (hi : Inv mx h s posts)
    (ho : noErr h'.outer = noErr h.outer ++ outers ms)
    (hf : ∀ j, h'.fin j = .done ↔ h.fin j = .done ∨ j ∈ ids ms)
    (hn : (ids ms).Nodup) (hk : ∀ j ∈ ids ms, j < s.started.length ∧ h.fin j ≠ .done)
    (hs : h'.stop ↔ h.stop ∨ .dispose ∈ ms) (hc : .completed ∉ o)
    (ho1 : (story h.outer).vals <+: (story h'.outer).vals)
    (ho2 : (story h.outer).fin = .done → h'.outer = h.outer)
    (hnf : h'.noFail → h.noFail)
    (hfr : ∀ k, s.started.length ≤ k → h'.inner k = h.inner k)
    (hrun : ∀ k, h'.fin k = .running → h.fin k = .running) :
    Inv mx h' { s with inbox := s.inbox ++ ms } (posts ++ o) where
  fresh k hk := (hfr k hk).trans (hi.fresh k hk)
  act hm := by
    refine Int.le_trans ?_ (hi.act hm)
    have : ((List.range s.started.length).filter fun k => h'.fin k = .running).length ≤
      ((List.range s.started.length).filter fun k => h.fin k = .running).length := by
      refine length_le_of_subset (List.nodup_range.filter _) fun k hk => ?_
      simp only [List.mem_filter, List.mem_range, decide_eq_true_eq] at *
      exact ⟨hk.1, hrun k hk.2⟩
    exact Int.ofNat_le.mpr this
  seq hm k hk := (hf k).mpr (.inl (hi.seq hm k hk))
  live ha := (hi.live ha).env ho hf hn hk hs hc
  dead ha := (hi.dead ha).env ho1 ho2 (fun j hj => (hf j).mpr (.inl hj)) (fun h => hs.mpr (.inl h))
    hnf hc

/-! ### the worker -/

theorem fin_fresh {h : Hist ω α} {k : Nat} (hk : h.inner k = []) : h.fin k = .running := by
  rw [Hist.fin, hk]; rfl

/-- a live state with its bookkeeping -/
theorem Inv.ofLive {mx : Int} {h : Hist ω α} {s : State ω} {posts : List (Notif α)}
    (ha : s.alive = true) (hl : Live mx h s posts)
    (hfr : ∀ k, s.started.length ≤ k → h.inner k = []) : Inv mx h s posts where
  fresh := hfr
  act := hl.act
  seq hm := by subst hm; exact hl.seqDone
  live _ := hl
  dead hd := by rw [ha] at hd; cases hd

/-- the worker stops receiving -/
theorem Inv.ofDead {mx : Int} {h : Hist ω α} {s s' : State ω} {posts posts' : List (Notif α)}
    (hi : Inv mx h s posts) (ha : s'.alive = false) (hs : s'.started = s.started)
    (hd : Dead mx h s' posts') : Inv mx h s' posts' where
  fresh := hs ▸ hi.fresh
  act := hs ▸ hi.act
  seq := hs ▸ hi.seq
  live hl := by rw [ha] at hl; cases hl
  dead _ := hd

theorem Inv.receive {mx : Int} {h : Hist ω α} {s : State ω} {posts : List (Notif α)}
    {msg : Msg ω} {q : List (Msg ω)} (hg : Grammar h.outer) (hi : Inv mx h s posts)
    (hp : s.pc = .waiting) (hq : s.inbox = msg :: q) :
    Inv mx h (update (α := α) mx { s with inbox := q } msg).1
      (posts ++ (update mx { s with inbox := q } msg).2) := by
  obtain ⟨inbox, ⟨subs, queue, stopped, key⟩, pc, started, disposed⟩ := s
  dsimp only at hp hq
  subst hp hq
  have hl := hi.live rfl
  have hfr := hi.fresh
  obtain ⟨outer, hkey, lt, nodup, idsNodup, idsLive, liveDone, gone, slots, unbounded, busy, last,
    nodisp, nodone, nodis⟩ := hl
  dsimp only [State.queue, State.stopped, State.keys, State.live] at outer hkey lt nodup idsNodup idsLive liveDone
  dsimp only [State.queue, State.stopped, State.live] at gone slots unbounded busy last nodisp nodis hfr
  dsimp only
  subst nodis hkey
  have hnew : h.fin started.length ≠ .done := by
    rw [fin_fresh (hfr _ (Nat.le_refl _))]; simp
  obtain ⟨opre, ostop⟩ := outer_read hg outer
  cases msg with
  | inner xs =>
    have hst : stopped = false := by
      cases stopped with
      | false => rfl
      | true => have := (ostop rfl).1; simp [outers] at this
    subst hst
    simp only [update]
    split
    next hc =>
      have hqe : queue = [] := by
        rcases Int.lt_trichotomy mx 0 with h1 | h1 | h1
        · rcases hc with hc | hc
          · exact unbounded hc
          · omega
        · exact unbounded h1
        · refine Classical.byContradiction fun hne => ?_
          have := (slots h1).2 hne
          omega
      subst hqe
      refine Inv.ofLive rfl ?_ fun k hk => hfr k (by simp [State.subscribe] at hk; omega)
      simp only [State.subscribe, List.append_nil]
      constructor
      · simpa [outers, State.queue, State.stopped] using outer
      · simp [State.keys]
      · simp only [State.live, List.mem_append, List.mem_singleton, List.length_append,
          List.length_singleton]
        rintro k (hk | rfl)
        · have := lt k hk; omega
        · omega
      · simp only [State.live]
        rw [List.nodup_append]
        refine ⟨nodup, by simp, ?_⟩
        simp only [List.mem_singleton]
        rintro a ha b rfl rfl
        exact absurd (lt _ ha) (Nat.lt_irrefl _)
      · exact idsNodup
      · exact fun k hk => ⟨List.mem_append_left _ (idsLive k hk).1, (idsLive k hk).2⟩
      · simp only [State.live, List.mem_append, List.mem_singleton]
        rintro k (hk | rfl) hd
        · exact liveDone k hk hd
        · exact absurd hd hnew
      · simp only [State.live, List.mem_append, List.mem_singleton, List.length_append,
          List.length_singleton, not_or]
        intro k hk hn
        exact gone k (by omega) hn.1
      · simp only [State.live, State.queue, List.length_append, List.length_singleton]
        intro hm
        have := slots hm
        refine ⟨?_, by simp⟩
        rcases hc with hc | hc <;> omega
      · exact unbounded
      · simp [State.live]
      · simp only [State.live, List.mem_append, List.mem_singleton, List.length_append,
          List.length_singleton]
        rintro rfl k (hk | rfl)
        · have : subs.length = 0 := by omega
          rw [List.length_eq_zero_iff] at this
          subst this; simp at hk
        · rfl
      · simpa using nodisp
      · exact nodone
      · rfl
    next hc =>
      have hal : (State.continue ⟨q, ⟨subs, queue, false, started.length⟩, .waiting, started, []⟩
          ⟨subs, queue ++ [xs], false, started.length⟩) =
          ⟨q, ⟨subs, queue ++ [xs], false, started.length⟩, .waiting, started, []⟩ := by
        simp [State.continue]
      simp only [hal, List.append_nil]
      refine Inv.ofLive rfl ?_ hfr
      constructor
      · simpa [outers, State.queue, State.stopped] using outer
      · rfl
      · exact lt
      · exact nodup
      · exact idsNodup
      · exact idsLive
      · exact liveDone
      · exact gone
      · intro hm
        have := (slots hm).1
        refine ⟨this, fun _ => ?_⟩
        simp only [State.live]; omega
      · intro hm; exact absurd (.inl hm) hc
      · simp [State.stopped]
      · exact last
      · simpa using nodisp
      · exact nodone
      · rfl
  | innerCompleted k =>
    have hids : ids (.innerCompleted k :: q) = k :: ids q := rfl
    have hout : outers (.innerCompleted k :: q) = outers q := rfl
    rw [hids] at idsNodup idsLive liveDone
    rw [hout] at outer ostop
    obtain ⟨hk, hkd⟩ := idsLive k (by simp)
    have hlen : 0 < subs.length := List.length_pos_of_mem hk
    have hnd := List.nodup_cons.mp idsNodup
    have hel : (subs.erase k).length = subs.length - 1 := List.length_erase_of_mem hk
    have hidsL : ∀ j ∈ ids q, j ∈ subs.erase k ∧ h.fin j = .done := fun j hj => by
      obtain ⟨h1, h2⟩ := idsLive j (by simp [hj])
      refine ⟨(List.mem_erase_of_ne ?_).mpr h1, h2⟩
      rintro rfl; exact hnd.1 hj
    have hmem : ∀ j, j ∈ subs.erase k → j ∈ subs ∧ j ≠ k := fun j hj =>
      (nodup.mem_erase_iff).mp hj |>.symm
    have hgone : ∀ j < started.length, j ∉ subs.erase k → h.fin j = .done := fun j hj hn => by
      by_cases hjk : j = k
      · exact hjk ▸ hkd
      · exact gone j hj fun hm => hn ((List.mem_erase_of_ne hjk).mpr hm)
    have hld : ∀ j ∈ subs.erase k, h.fin j = .done → j ∈ ids q := fun j hj hd => by
      have := liveDone j (hmem j hj).1 hd
      simp only [List.mem_cons] at this
      exact this.resolve_left (hmem j hj).2
    simp only [update]
    cases queue with
    | cons x queue =>
      simp only [List.append_nil]
      refine Inv.ofLive rfl ?_ fun k hk => hfr k (by simp [State.subscribe] at hk; omega)
      simp only [State.subscribe]
      constructor
      · cases stopped <;> simpa [State.queue, State.stopped] using outer
      · simp [State.keys]
      · simp only [State.live, List.mem_append, List.mem_singleton, List.length_append,
          List.length_singleton]
        rintro j (hj | rfl)
        · have := lt j (hmem j hj).1; omega
        · omega
      · simp only [State.live]
        rw [List.nodup_append]
        refine ⟨nodup.erase _, by simp, ?_⟩
        simp only [List.mem_singleton]
        rintro a ha b rfl rfl
        exact absurd (lt _ (hmem _ ha).1) (Nat.lt_irrefl _)
      · exact hnd.2
      · exact fun j hj => ⟨List.mem_append_left _ (hidsL j hj).1, (hidsL j hj).2⟩
      · simp only [State.live, List.mem_append, List.mem_singleton]
        rintro j (hj | rfl) hd
        · exact hld j hj hd
        · exact absurd hd hnew
      · simp only [State.live, List.mem_append, List.mem_singleton, List.length_append,
          List.length_singleton, not_or]
        intro j hj hn
        exact hgone j (by omega) hn.1
      · simp only [State.live, State.queue, List.length_append, List.length_singleton]
        intro hm
        have := (slots hm).2 (by simp)
        omega
      · intro hm; cases unbounded hm
      · simp [State.live]
      · simp only [State.live, List.mem_append, List.mem_singleton, List.length_append,
          List.length_singleton]
        rintro rfl j (hj | rfl)
        · have := (slots (by omega)).1
          have : (subs.erase k).length = 0 := by omega
          rw [List.length_eq_zero_iff] at this
          rw [this] at hj; simp at hj
        · rfl
      · simpa using nodisp
      · exact nodone
      · rfl
    | nil =>
      dsimp only
      split
      next hne =>
        have hal : (State.continue ⟨q, ⟨subs, [], stopped, started.length⟩, .waiting, started, []⟩
            ⟨subs.erase k, [], stopped, started.length⟩) =
            ⟨q, ⟨subs.erase k, [], stopped, started.length⟩, .waiting, started, []⟩ := by
          simp only [State.continue, hne, and_false, if_false]
        simp only [hal, List.append_nil]
        refine Inv.ofLive rfl ?_ hfr
        constructor
        · cases stopped <;> simpa [State.queue, State.stopped] using outer
        · rfl
        · exact fun j hj => lt j (hmem j hj).1
        · exact nodup.erase _
        · exact hnd.2
        · exact hidsL
        · exact hld
        · exact hgone
        · intro hm
          have := (slots hm).1
          simp only [State.live, State.queue]
          exact ⟨by omega, by simp⟩
        · exact fun _ => rfl
        · exact fun _ => hne
        · exact fun hm j hj => last hm j (hmem j hj).1
        · simpa using nodisp
        · exact nodone
        · rfl
      next hne =>
        have hne : subs.erase k = [] := Classical.byContradiction fun h => hne h
        rw [hne] at hidsL hgone hld
        cases stopped with
        | true =>
          obtain ⟨-, h2, h3⟩ := ostop rfl
          rw [List.append_nil] at h2
          refine hi.ofDead rfl rfl ?_
          simp only [State.continue, if_true]
          have hall : ∀ j < started.length, h.fin j = .done := fun j hj => hgone j hj (by simp)
          constructor
          · rw [h2]; exact List.prefix_rfl
          · exact fun _ _ => ⟨h3, h2.symm, hall⟩
          · exact fun _ j hj => .inl (hall j hj)
          · exact fun _ _ _ => by simp
          · simp
          · simp [State.doomed]
        | false =>
          have hal : (State.continue ⟨q, ⟨subs, [], false, started.length⟩, .waiting, started, []⟩
              ⟨[], [], false, started.length⟩) =
              ⟨q, ⟨[], [], false, started.length⟩, .waiting, started, []⟩ := by
            simp [State.continue]
          simp only [hal, Bool.false_eq_true, if_false, List.append_nil]
          refine Inv.ofLive rfl ?_ hfr
          constructor
          · simpa [State.queue, State.stopped] using outer
          · rfl
          · simp [State.live]
          · simp [State.live]
          · exact hnd.2
          · exact hidsL
          · exact hld
          · exact hgone
          · intro hm
            simp only [State.live, State.queue]
            exact ⟨by simp; omega, by simp⟩
          · exact fun _ => rfl
          · simp [State.stopped]
          · simp [State.live]
          · simpa using nodisp
          · exact nodone
          · rfl
  | completed =>
    have hout : outers (.completed :: q : List (Msg ω)) = .completed :: outers q := rfl
    have hids : ids (.completed :: q : List (Msg ω)) = ids q := rfl
    rw [hout] at outer ostop
    rw [hids] at idsNodup idsLive liveDone
    have hst : stopped = false := by
      cases stopped with
      | false => rfl
      | true => have := (ostop rfl).1; simp at this
    subst hst
    have outer' : (started ++ queue).map .next ++ (if true then [.completed] else []) ++ outers q =
        noErr h.outer := by simpa using outer
    obtain ⟨-, ostop'⟩ := outer_read hg outer'
    obtain ⟨-, h2, h3⟩ := ostop' rfl
    simp only [update]
    by_cases hsub : subs = []
    · subst hsub
      simp only [if_true]
      refine hi.ofDead rfl rfl ?_
      have hall : ∀ j < started.length, h.fin j = .done := fun j hj => gone j hj (by simp)
      simp only [State.continue, if_true]
      constructor
      · rw [h2]; exact List.prefix_append ..
      · intro hm _
        have hqe : queue = [] := by
          rcases Int.lt_or_eq_of_le hm with h1 | h1
          · refine Classical.byContradiction fun hne => ?_
            have := (slots h1).2 hne
            simp at this; omega
          · exact unbounded h1.symm
        subst hqe
        exact ⟨h3, by rw [h2]; simp, hall⟩
      · exact fun _ j hj => .inl (hall j hj)
      · exact fun _ _ _ => by simp
      · simp
      · simp [State.doomed]
    · have hal : (State.continue ⟨q, ⟨subs, queue, false, started.length⟩, .waiting, started, []⟩
          ⟨subs, queue, true, started.length⟩) =
          ⟨q, ⟨subs, queue, true, started.length⟩, .waiting, started, []⟩ := by
        simp [State.continue, hsub]
      simp only [hal, if_neg hsub, List.append_nil]
      refine Inv.ofLive rfl ?_ hfr
      constructor
      · exact outer'
      · rfl
      · exact lt
      · exact nodup
      · exact idsNodup
      · exact idsLive
      · exact liveDone
      · exact gone
      · exact slots
      · exact unbounded
      · exact fun _ => hsub
      · exact last
      · simpa using nodisp
      · exact nodone
      · rfl
  | dispose =>
    have hstop : h.stop := nodisp.mpr (by simp)
    have hpre : started <+: (story h.outer).vals := (List.prefix_append started queue).trans opre
    simp only [update]
    by_cases hsub : subs = []
    · subst hsub
      simp only [if_true, List.append_nil]
      refine hi.ofDead rfl rfl ?_
      simp only [State.continue, Model.initial, if_true, and_self]
      constructor
      · exact hpre
      · exact fun _ h => absurd h nodone
      · exact fun _ j hj => .inl (gone j hj (by simp))
      · exact fun _ _ h => absurd hstop h
      · simp
      · simp [State.doomed]
    · simp only [if_neg hsub, List.append_nil]
      refine hi.ofDead rfl rfl ?_
      constructor
      · exact hpre
      · exact fun _ h => absurd h nodone
      · intro _ j hj
        by_cases hm : j ∈ subs
        · exact .inr (.inr hm)
        · exact .inl (gone j hj hm)
      · simp
      · exact fun _ _ => ⟨hstop, nodone⟩
      · exact ⟨by simpa [State.doomed] using nodup, by simpa [State.doomed] using lt⟩

theorem Inv.subscribed {mx : Int} {h : Hist ω α} {s : State ω} {posts : List (Notif α)}
    {m : Model ω} (hi : Inv mx h s posts) (hp : s.pc = .subscribing m) :
    Inv mx h (s.continue { m with subs := m.subs ++ [m.key], key := m.key + 1 }) posts := by
  obtain ⟨inbox, model, pc, started, disposed⟩ := s
  dsimp only at hp
  subst hp
  obtain ⟨outer, hkey, lt, nodup, idsNodup, idsLive, liveDone, gone, slots, unbounded, busy, last,
    nodisp, nodone, nodis⟩ := hi.live rfl
  have hal : State.continue ⟨inbox, model, .subscribing m, started, disposed⟩
      { m with subs := m.subs ++ [m.key], key := m.key + 1 } =
      ⟨inbox, { m with subs := m.subs ++ [m.key], key := m.key + 1 }, .waiting, started, disposed⟩ := by
    simp [State.continue]
  rw [hal]
  exact Inv.ofLive rfl ⟨outer, hkey, lt, nodup, idsNodup, idsLive, liveDone, gone, slots, unbounded,
    busy, last, nodisp, nodone, nodis⟩ hi.fresh

theorem Inv.subscribeFails {mx : Int} {h h' : Hist ω α} {s : State ω} {posts : List (Notif α)}
    {m : Model ω} (hg : Grammar h.outer) (hi : Inv mx h s posts) (hp : s.pc = .subscribing m)
    (h1 : h'.outer = h.outer) (h2 : h'.inner = h.inner) (h4 : ¬ h'.noFail) :
    Inv mx h' { s with pc := .halted } posts := by
  have hl := hi.live (by simp [State.alive, hp])
  have hpre := (List.prefix_append _ _).trans (outer_read hg hl.outer).1
  have hf : ∀ k, h'.fin k = h.fin k := fun k => by simp [Hist.fin, h2]
  refine ⟨fun k hk => h2 ▸ hi.fresh k hk, fun hm => ?_, fun hm k hk => ?_, by simp [State.alive], fun _ => ?_⟩
  · simpa only [hf] using hi.act hm
  · rw [hf]; exact hi.seq hm k hk
  · refine ⟨h1 ▸ hpre, fun _ h => absurd h hl.nodone, fun h => absurd h h4, fun h => absurd h h4,
      by simp, ?_⟩
    simp [State.doomed, hl.nodis]

theorem Inv.disposed {mx : Int} {h : Hist ω α} {s : State ω} {posts : List (Notif α)}
    {k k' : Nat} {rest : List Nat} (hi : Inv mx h s posts) (hp : s.pc = .disposing (k :: k' :: rest)) :
    Inv mx h { s with pc := .disposing (k' :: rest), disposed := s.disposed ++ [k] } posts := by
  have hd := hi.dead (by simp [State.alive, hp])
  refine hi.ofDead rfl rfl ⟨hd.pre, hd.done, fun hf j hj => ?_, by simp, fun _ _ => hd.doomed _ hp, ?_⟩
  · have := hd.released hf j hj
    simp only [State.doomed, hp, List.mem_cons, List.mem_append,
      List.not_mem_nil, or_false] at this ⊢
    rcases this with h1 | h1 | h1 | h1 | h1
    · exact .inl h1
    · exact .inr (.inl (.inl h1))
    · exact .inr (.inl (.inr h1))
    · exact .inr (.inr (.inl h1))
    · exact .inr (.inr (.inr h1))
  · have := hd.disNodup
    simpa [State.doomed, hp] using this

theorem Inv.disposedLast {mx : Int} {h : Hist ω α} {s : State ω} {posts : List (Notif α)}
    {k : Nat} (hi : Inv mx h s posts) (hp : s.pc = .disposing [k]) :
    Inv mx h (State.continue { s with disposed := s.disposed ++ [k] }
        { Model.initial with stopped := true }) posts := by
  have hd := hi.dead (by simp [State.alive, hp])
  refine hi.ofDead rfl rfl ?_
  simp only [State.continue, Model.initial, and_self, if_true]
  refine ⟨hd.pre, hd.done, fun hf j hj => ?_, fun _ _ hs => absurd (hd.doomed _ hp).1 hs, by simp, ?_⟩
  · have := hd.released hf j hj
    simp only [State.doomed, hp, List.mem_append, List.mem_singleton,
      List.not_mem_nil, or_false] at this ⊢
    omega
  · have := hd.disNodup
    simpa [State.doomed, hp] using this

theorem Inv.disposeFails {mx : Int} {h h' : Hist ω α} {s : State ω} {posts : List (Notif α)}
    {ks : List Nat} (hi : Inv mx h s posts) (hp : s.pc = .disposing ks)
    (h1 : h'.outer = h.outer) (h2 : h'.inner = h.inner) (h4 : ¬ h'.noFail) :
    Inv mx h' { s with pc := .halted } posts := by
  have hd := hi.dead (by simp [State.alive, hp])
  have hf : ∀ k, h'.fin k = h.fin k := fun k => by simp [Hist.fin, h2]
  refine ⟨fun k hk => h2 ▸ hi.fresh k hk, fun hm => ?_, fun hm k hk => ?_, by simp [State.alive], fun _ => ?_⟩
  · simpa only [hf] using hi.act hm
  · rw [hf]; exact hi.seq hm k hk
  · refine ⟨h1 ▸ hd.pre, fun _ h => absurd h (hd.doomed _ hp).2, fun h => absurd h h4,
      fun h => absurd h h4, by simp, ?_⟩
    have := hd.disNodup
    rw [List.nodup_append] at this
    refine ⟨by simpa [State.doomed] using this.1.1, fun k hk => this.2 k ?_⟩
    simp only [State.doomed, List.append_nil] at hk
    exact List.mem_append_left _ hk

/-! ### all schedules -/

theorem Lawful.of_append {a b : List (Label ω α)} (h : Lawful (a ++ b)) : Lawful a where
  outer := grammar_prefix (by rw [outerCalls, outerCalls, List.filterMap_append]; exact List.prefix_append ..) h.outer
  inner k := grammar_prefix (by rw [innerCalls, innerCalls, List.filterMap_append]; exact List.prefix_append ..) (h.inner k)

theorem outerCalls_snoc (ls : List (Label ω α)) (l : Label ω α) : outerCalls (ls ++ [l]) =
    outerCalls ls ++ (match l with | .outer n => [n] | _ => []) := by
  rw [outerCalls, List.filterMap_append]; cases l <;> rfl

theorem innerCalls_snoc (k : Nat) (ls : List (Label ω α)) (l : Label ω α) : innerCalls k (ls ++ [l]) =
    innerCalls k ls ++ (match l with | .inner j n => if j = k then [n] else [] | _ => []) := by
  rw [innerCalls, List.filterMap_append]
  cases l <;> try rfl
  rename_i j n
  by_cases h : j = k <;> simp [h, innerCalls]

theorem stopped_snoc (ls : List (Label ω α)) (l : Label ω α) : Stopped (ls ++ [l]) ↔
    Stopped ls ∨ (l = .cancel ∨ ∃ e, l = .outer (.error e)) := by
  simp only [Stopped, List.mem_append, List.mem_singleton]
  constructor
  · rintro ((h | h) | ⟨e, h | h⟩)
    · exact .inl (.inl h)
    · exact .inr (.inl h.symm)
    · exact .inl (.inr ⟨e, h⟩)
    · exact .inr (.inr ⟨e, h.symm⟩)
  · rintro ((h | ⟨e, h⟩) | h | ⟨e, h⟩)
    · exact .inl (.inl h)
    · exact .inr ⟨e, .inl h⟩
    · exact .inl (.inr h.symm)
    · exact .inr ⟨e, .inr h.symm⟩

theorem noFailure_snoc (ls : List (Label ω α)) (l : Label ω α) : NoFailure (ls ++ [l]) ↔
    NoFailure ls ∧ l ≠ .subscribeFails ∧ l ≠ .disposeFails := by
  simp only [NoFailure, List.mem_append, List.mem_singleton, not_or]
  constructor
  · rintro ⟨⟨h1, h2⟩, h3, h4⟩; exact ⟨⟨h1, h3⟩, fun h => h2 h.symm, fun h => h4 h.symm⟩
  · rintro ⟨⟨h1, h3⟩, h2, h4⟩; exact ⟨⟨h1, fun h => h2 h.symm⟩, h3, fun h => h4 h.symm⟩

/-- labels of the worker that do not fail do not change the history -/
theorem hist_quiet (ls : List (Label ω α)) (l : Label ω α)
    (hl : l = .receive ∨ l = .subscribed ∨ l = .disposed) : hist (ls ++ [l]) = hist ls := by
  simp only [hist, Hist.mk.injEq]
  refine ⟨?_, ?_, ?_, ?_⟩
  · rw [outerCalls_snoc]; rcases hl with rfl | rfl | rfl <;> simp
  · funext k; rw [innerCalls_snoc]; rcases hl with rfl | rfl | rfl <;> simp
  · rw [stopped_snoc]; rcases hl with rfl | rfl | rfl <;> simp
  · rw [noFailure_snoc]; rcases hl with rfl | rfl | rfl <;> simp

theorem inv_init (mx : Int) : Inv mx (hist ([] : List (Label ω α))) State.initial [] := by
  refine Inv.ofLive rfl ⟨?_, rfl, ?_, ?_, ?_, ?_, ?_, ?_, ?_, ?_, ?_, ?_, ?_, ?_, rfl⟩ (fun _ _ => rfl) <;>
    simp [State.initial, State.live, State.queue, State.stopped, Model.initial, ids, outers, hist,
      noErr, outerCalls, Stopped]
  omega

theorem inv_step {mx : Int} {ls : List (Label ω α)} {s s' : State ω} {posts o : List (Notif α)}
    {l : Label ω α} (hi : Inv mx (hist ls) s posts) (hs : step mx s l = some (s', o))
    (hw : Lawful (ls ++ [l])) : Inv mx (hist (ls ++ [l])) s' (posts ++ o) := by
  have hg : Grammar (hist ls).outer := hw.of_append.outer
  have houter := hw.outer
  have hinner := hw.inner
  rw [outerCalls_snoc] at houter
  have inbox0 : ∀ s : State ω, { s with inbox := s.inbox ++ [] } = s := by simp
  cases l with
  | outer n =>
    have hrun := grammar_snoc houter
    have hfin : ∀ k, (hist (ls ++ [.outer n])).fin k = (hist ls).fin k := fun k => by
      simp [Hist.fin, hist, innerCalls_snoc]
    have hin : ∀ k, (hist (ls ++ [.outer n])).inner k = (hist ls).inner k := fun k => by
      simp [hist, innerCalls_snoc]
    have hv : (story (outerCalls ls)).vals <+: (story (outerCalls ls ++ [n])).vals := by
      rw [story_append_of_running hrun]; exact List.prefix_append ..
    have hnf : NoFailure (ls ++ [.outer n]) → NoFailure ls := fun h => ((noFailure_snoc _ _).mp h).1
    cases n with
    | next xs =>
      simp only [step, Option.some.injEq, Prod.mk.injEq] at hs
      obtain ⟨rfl, rfl⟩ := hs
      refine hi.env ?_ (fun j => ?_) ?_ ?_ ?_ (by simp) ?_ ?_ hnf (fun k _ => hin k) (fun k => by rw [hfin]; exact fun h => h)
      · simp [hist, outerCalls_snoc, outers, noErr]
      · simp [hfin, ids]
      · simp [ids]
      · simp [ids]
      · simp [hist, stopped_snoc]
      · simpa [hist, outerCalls_snoc] using hv
      · intro h; simp only [hist] at h; rw [hrun] at h; cases h
    | error e =>
      simp only [step, Option.some.injEq, Prod.mk.injEq] at hs
      obtain ⟨rfl, rfl⟩ := hs
      refine hi.env ?_ (fun j => ?_) ?_ ?_ ?_ (by simp) ?_ ?_ hnf (fun k _ => hin k) (fun k => by rw [hfin]; exact fun h => h)
      · simp [hist, outerCalls_snoc, outers, noErr]
      · simp [hfin, ids]
      · simp [ids]
      · simp [ids]
      · simp [hist, stopped_snoc]
      · simpa [hist, outerCalls_snoc] using hv
      · intro h; simp only [hist] at h; rw [hrun] at h; cases h
    | completed =>
      simp only [step, Option.some.injEq, Prod.mk.injEq] at hs
      obtain ⟨rfl, rfl⟩ := hs
      refine hi.env ?_ (fun j => ?_) ?_ ?_ ?_ (by simp) ?_ ?_ hnf (fun k _ => hin k) (fun k => by rw [hfin]; exact fun h => h)
      · simp [hist, outerCalls_snoc, outers, noErr]
      · simp [hfin, ids]
      · simp [ids]
      · simp [ids]
      · simp [hist, stopped_snoc]
      · simpa [hist, outerCalls_snoc] using hv
      · intro h; simp only [hist] at h; rw [hrun] at h; cases h
  | inner key n =>
    have hrun : (hist ls).fin key = .running := by
      have := hinner key
      rw [innerCalls_snoc] at this
      simp only [if_true] at this
      exact grammar_snoc this
    have hne : ∀ k, k ≠ key → (hist (ls ++ [.inner key n])).inner k = (hist ls).inner k := fun k hk => by
      simp only [hist, innerCalls_snoc, if_neg (fun h => hk h.symm : ¬ key = k), List.append_nil]
    have hkey : (hist (ls ++ [.inner key n])).fin key = (story [n]).fin := by
      simp only [Hist.fin, hist, innerCalls_snoc, if_true]
      have h1 : (story (innerCalls key ls)).fin = .running := hrun
      rw [story_append_of_running h1]
    have hfne : ∀ k, k ≠ key → (hist (ls ++ [.inner key n])).fin k = (hist ls).fin k := fun k hk => by
      rw [Hist.fin, hne k hk]; rfl
    have hout : (hist (ls ++ [.inner key n])).outer = (hist ls).outer := by
      simp [hist, outerCalls_snoc]
    have hnf : NoFailure (ls ++ [.inner key n]) → NoFailure ls := fun h => ((noFailure_snoc _ _).mp h).1
    have hst : Stopped (ls ++ [.inner key n]) ↔ Stopped ls := by simp [stopped_snoc]
    simp only [step] at hs
    split at hs
    next hlt =>
      have hrn : ∀ k, (hist (ls ++ [.inner key n])).fin k = .running → (hist ls).fin k = .running := fun k h => by
        by_cases hk : k = key
        · rw [hk]; exact hrun
        · rwa [hfne k hk] at h
      have hinn : ∀ k, s.started.length ≤ k → (hist (ls ++ [.inner key n])).inner k = (hist ls).inner k :=
        fun k hk => hne k (by omega)
      have hd : ∀ j, (hist (ls ++ [.inner key n])).fin j = .done ↔
          (hist ls).fin j = .done ∨ (j = key ∧ n = .completed) := fun j => by
        by_cases hk : j = key
        · subst hk
          rw [hkey, hrun]
          cases n <;> simp
        · rw [hfne j hk]; simp [hk]
      cases n with
      | next v =>
        simp only [Option.some.injEq, Prod.mk.injEq] at hs
        obtain ⟨rfl, rfl⟩ := hs
        have := hi.env (ms := []) (o := [.next v]) (h' := hist (ls ++ [Label.inner key (.next v)])) (by simp [hout, outers])
          (fun j => by rw [hd]; simp [ids]) (by simp [ids]) (by simp [ids]) (by simpa [hist] using hst) (by simp)
          (by rw [hout]; exact List.prefix_rfl) (fun _ => hout) hnf hinn hrn
        rwa [inbox0] at this
      | error e =>
        simp only [Option.some.injEq, Prod.mk.injEq] at hs
        obtain ⟨rfl, rfl⟩ := hs
        have := hi.env (ms := []) (o := [.error e]) (h' := hist (ls ++ [Label.inner key (.error e)])) (by simp [hout, outers])
          (fun j => by rw [hd]; simp [ids]) (by simp [ids]) (by simp [ids]) (by simpa [hist] using hst) (by simp)
          (by rw [hout]; exact List.prefix_rfl) (fun _ => hout) hnf hinn hrn
        rwa [inbox0] at this
      | completed =>
        simp only [Option.some.injEq, Prod.mk.injEq] at hs
        obtain ⟨rfl, rfl⟩ := hs
        refine hi.env (by simp [hout, outers])
          (fun j => by rw [hd]; simp [ids]) (by simp [ids]) ?_ (by simpa [hist] using hst) (by simp)
          (by rw [hout]; exact List.prefix_rfl) (fun _ => hout) hnf hinn hrn
        simp only [ids, List.filterMap_cons, List.filterMap_nil, List.mem_singleton]
        rintro j rfl
        exact ⟨hlt, by rw [hrun]; simp⟩
    next => cases hs
  | cancel =>
    simp only [step, Option.some.injEq, Prod.mk.injEq] at hs
    obtain ⟨rfl, rfl⟩ := hs
    have hfin : ∀ k, (hist (ls ++ [.cancel])).fin k = (hist ls).fin k := fun k => by
      simp [Hist.fin, hist, innerCalls_snoc]
    refine hi.env ?_ (fun j => ?_) ?_ ?_ ?_ (by simp) ?_ ?_
      (fun h => ((noFailure_snoc _ _).mp h).1) (fun k _ => ?_) (fun k => by rw [hfin]; exact fun h => h)
    · simp [hist, outerCalls_snoc, outers]
    · simp [hfin, ids]
    · simp [ids]
    · simp [ids]
    · simp [hist, stopped_snoc]
    · simp [hist, outerCalls_snoc]
    · simp [hist, outerCalls_snoc]
    · simp [hist, innerCalls_snoc]
  | receive =>
    rw [hist_quiet _ _ (.inl rfl)]
    simp only [step] at hs
    split at hs
    next msg q hp hq =>
      simp only [Option.some.injEq] at hs
      have := hi.receive hg hp hq
      rw [hs] at this
      exact this
    next => cases hs
  | subscribed =>
    rw [hist_quiet _ _ (.inr (.inl rfl))]
    simp only [step] at hs
    split at hs
    next m hp =>
      simp only [Option.some.injEq, Prod.mk.injEq] at hs
      obtain ⟨rfl, rfl⟩ := hs
      rw [List.append_nil]
      exact hi.subscribed hp
    next => cases hs
  | subscribeFails =>
    simp only [step] at hs
    split at hs
    next m hp =>
      simp only [Option.some.injEq, Prod.mk.injEq] at hs
      obtain ⟨rfl, rfl⟩ := hs
      rw [List.append_nil]
      refine hi.subscribeFails hg hp ?_ ?_ ?_
      · simp [hist, outerCalls_snoc]
      · funext k; simp [hist, innerCalls_snoc]
      · simp [hist, noFailure_snoc]
    next => cases hs
  | disposed =>
    rw [hist_quiet _ _ (.inr (.inr rfl))]
    simp only [step] at hs
    split at hs
    next k k' rest hp =>
      simp only [Option.some.injEq, Prod.mk.injEq] at hs
      obtain ⟨rfl, rfl⟩ := hs
      rw [List.append_nil]
      exact hi.disposed hp
    next k hp =>
      simp only [Option.some.injEq, Prod.mk.injEq] at hs
      obtain ⟨rfl, rfl⟩ := hs
      rw [List.append_nil]
      exact hi.disposedLast hp
    next => cases hs
  | disposeFails =>
    simp only [step] at hs
    split at hs
    next m hp =>
      simp only [Option.some.injEq, Prod.mk.injEq] at hs
      obtain ⟨rfl, rfl⟩ := hs
      rw [List.append_nil]
      refine hi.disposeFails hp ?_ ?_ ?_
      · simp [hist, outerCalls_snoc]
      · funext k; simp [hist, innerCalls_snoc]
      · simp [hist, noFailure_snoc]
    next => cases hs

theorem inv_run {mx : Int} {ls : List (Label ω α)} {s : State ω} {posts : List (Notif α)}
    (hr : LTS.run (mergeInner mx).solo (State.initial, []) ls = some (s, posts)) (hw : Lawful ls) :
    Inv mx (hist ls) s posts := by
  refine LTS.inv_hist (fun ls (c : State ω × List (Notif α)) => Lawful ls → Inv mx (hist ls) c.1 c.2)
    (fun _ => inv_init mx) ?_ hr hw
  rintro ls ⟨s, posts⟩ l ⟨s', posts'⟩ ih hs hw
  simp only [Producer.solo, mergeInner, Option.map_eq_some_iff, Prod.mk.injEq] at hs
  obtain ⟨⟨t, o⟩, h1, rfl, rfl⟩ := hs
  exact inv_step (ih hw.of_append) h1 hw

/-- everything posted to the safe observer, apart from completion, is what arrived -/
theorem posts_run {mx : Int} {ls : List (Label ω α)} {s : State ω} {posts : List (Notif α)}
    (hr : LTS.run (mergeInner mx).solo (State.initial, []) ls = some (s, posts)) :
    noDone posts = arrivals ls := by
  refine LTS.inv_hist (fun ls (c : State ω × List (Notif α)) => noDone c.2 = arrivals ls) rfl ?_ hr
  rintro ls ⟨s, posts⟩ l ⟨s', posts'⟩ ih hs
  simp only [Producer.solo, mergeInner, Option.map_eq_some_iff, Prod.mk.injEq] at hs
  obtain ⟨⟨t, o⟩, h1, -, rfl⟩ := hs
  have hnd : noDone (posts ++ o) = noDone posts ++ noDone o := List.filter_append ..
  have har : arrivals (ls ++ [l]) = arrivals ls ++ arrivals [l] := List.filterMap_append ..
  simp only at ih ⊢
  rw [hnd, har, ih, List.append_cancel_left_eq]
  cases l with
  | outer n => cases n <;> (simp only [step, Option.some.injEq, Prod.mk.injEq] at h1; obtain ⟨-, rfl⟩ := h1; rfl)
  | inner k n =>
    simp only [step] at h1
    split at h1
    · cases n <;> (simp only [Option.some.injEq, Prod.mk.injEq] at h1; obtain ⟨-, rfl⟩ := h1; rfl)
    · cases h1
  | cancel => simp only [step, Option.some.injEq, Prod.mk.injEq] at h1; obtain ⟨-, rfl⟩ := h1; rfl
  | receive =>
    simp only [step] at h1
    split at h1
    · simp only [Option.some.injEq] at h1
      have : ∀ (s : State ω) (msg : Msg ω), noDone (update (α := α) mx s msg).2 = [] := by
        intro s msg
        cases msg with
        | inner xs => simp only [update]; split <;> rfl
        | innerCompleted k =>
          simp only [update]
          split
          · rfl
          · split
            · rfl
            · dsimp only; split <;> rfl
        | completed => simp only [update]; split <;> rfl
        | dispose => simp only [update]; split <;> rfl
      have := this { s with inbox := by assumption } (by assumption)
      rw [h1] at this
      exact this
    · cases h1
  | subscribed => simp only [step] at h1; split at h1 <;> simp at h1; obtain ⟨-, rfl⟩ := h1; rfl
  | subscribeFails => simp only [step] at h1; split at h1 <;> simp at h1; obtain ⟨-, rfl⟩ := h1; rfl
  | disposed =>
    simp only [step] at h1; split at h1 <;> simp at h1
    · obtain ⟨-, rfl⟩ := h1; rfl
    · obtain ⟨-, rfl⟩ := h1; rfl
  | disposeFails => simp only [step] at h1; split at h1 <;> simp at h1; obtain ⟨-, rfl⟩ := h1; rfl

theorem noDone_append (a b : List (Notif α)) : noDone (a ++ b) = noDone a ++ noDone b :=
  List.filter_append ..

theorem noDone_of_not_mem {ns : List (Notif α)} (h : .completed ∉ ns) : noDone ns = ns := by
  rw [noDone, List.filter_eq_self]
  intro n hn
  cases n <;> simp_all

theorem arrivals_noDone (ls : List (Label ω α)) : .completed ∉ arrivals ls := by
  simp only [arrivals, List.mem_filterMap, not_exists, not_and]
  rintro l - h
  split at h <;> simp at h

theorem arrivals_snoc (ls : List (Label ω α)) (l : Label ω α) :
    arrivals (ls ++ [l]) = arrivals ls ++ arrivals [l] := List.filterMap_append ..

theorem noDone_cut_snoc (ns : List (Notif α)) (h : .completed ∉ ns) :
    noDone (cut (ns ++ [.completed])) = cut ns := by
  by_cases hr : (story ns).fin = .running
  · have h1 : cut ns = ns := by rw [cut, Story.events, hr]; simpa using (running_eq_map hr).symm
    rw [cut_append_of_running hr, noDone_append, noDone_of_not_mem h, h1]
    simp [noDone]
  · rw [cut_append_of_ended hr]
    exact noDone_of_not_mem fun hm => h ((cut_prefix ns).subset hm)

end Aio.Merge
