import Verif.Model.Feedback
import Verif.Props.C98_100_SubjectOrder
/-!
# C145: a subscriber that sends to the subject from within its `asend`
-/

namespace Aio.Feedback
open Subject
variable {α : Type}

/-! ### specification -/

/-- A value, and what was made of it. -/
inductive Tree (α : Type) where
  | node (v : α) (kids : List (Tree α))

def Tree.root : Tree α → α
  | .node v _ => v

mutual
/-- A value comes before what was made of it. -/
def Tree.pre : Tree α → List α
  | .node v kids => v :: pres kids
def pres : List (Tree α) → List α
  | [] => []
  | t :: ts => t.pre ++ pres ts
end

mutual
/-- A value comes after everything that was made of it. -/
def Tree.post : Tree α → List α
  | .node v kids => posts kids ++ [v]
def posts : List (Tree α) → List α
  | [] => []
  | t :: ts => t.post ++ posts ts
end

mutual
/-- `g v` is made of `v`. -/
def Tree.Grown (g : α → List α) : Tree α → Prop
  | .node v kids => kids.map Tree.root = g v ∧ AllGrown g kids
def AllGrown (g : α → List α) : List (Tree α) → Prop
  | [] => True
  | t :: ts => t.Grown g ∧ AllGrown g ts
end

/-- What is made of `x` in `d` generations. -/
def level (g : α → List α) (x : α) : Nat → List α
  | 0 => [x]
  | d + 1 => (level g x d).flatMap g

/-- The first `d` generations, one after the other. -/
def levels (g : α → List α) (x : α) (d : Nat) : List α := (List.range d).flatMap (level g x)

/-- The observer sends the values `g v` when it gets the value `v`, and nothing when the stream ends. -/
def sends (g : α → List α) : Notif α → List (Notif α)
  | .next v => (g v).map .next
  | _ => []

/-! ### directly subscribed -/

private theorem steps_add {a : Nat} {f : Notif α → List (Notif α)} : ∀ {k l : Nat} {s s' s'' : State α}, steps a f k s = some s' → steps a f l s' = some s'' → steps a f (k + l) s = some s'' := by
  intro k
  induction k with
  | zero => intro l s s' s'' h h'; cases h; simpa using h'
  | succ k ih =>
    intro l s s' s'' h h'
    rw [Nat.add_right_comm]
    simp only [steps, Option.bind_eq_some_iff] at h ⊢
    obtain ⟨s1, h1, h2⟩ := h
    exact ⟨s1, h1, ih h2 h'⟩

/-- What a call that begins in `s` and is over in `s'` may have changed. -/
private structure Over (s s' : Subject.State α) (l : List (Nat × Notif α)) : Prop where
  observers : s'.observers = s.observers
  disposed : s'.isDisposed = s.isDisposed
  stopped : s'.isStopped = s.isStopped
  len : s.calls.length ≤ s'.calls.length
  calls : ∀ i : Nat, i < s.calls.length → s'.calls[i]? = s.calls[i]?
  log : s'.log.map (·.2) = s.log.map (·.2) ++ l

private theorem Over.refl (s : Subject.State α) : Over s s [] := ⟨rfl, rfl, rfl, Nat.le_refl _, fun _ _ => rfl, by simp⟩

private theorem Over.trans {s s' s'' : Subject.State α} {l l' : List (Nat × Notif α)} (h : Over s s' l) (h' : Over s' s'' l') : Over s s'' (l ++ l') where
  observers := h'.observers.trans h.observers
  disposed := h'.disposed.trans h.disposed
  stopped := h'.stopped.trans h.stopped
  len := Nat.le_trans h.len h'.len
  calls i hi := (h'.calls i (Nat.lt_of_lt_of_le hi h.len)).trans (h.calls i hi)
  log := by rw [h'.log, h.log, List.append_assoc]

/-- The same for the loop of call number `c`, whose own entry changes. -/
private structure In (c : Nat) (s s' : Subject.State α) (l : List (Nat × Notif α)) : Prop where
  observers : s'.observers = s.observers
  disposed : s'.isDisposed = s.isDisposed
  stopped : s'.isStopped = s.isStopped
  len : s.calls.length ≤ s'.calls.length
  calls : ∀ i : Nat, i < s.calls.length → i ≠ c → s'.calls[i]? = s.calls[i]?
  log : s'.log.map (·.2) = s.log.map (·.2) ++ l

private theorem In.trans {c : Nat} {s s' s'' : Subject.State α} {l l' : List (Nat × Notif α)} (h : In c s s' l) (h' : In c s' s'' l') : In c s s'' (l ++ l') where
  observers := h'.observers.trans h.observers
  disposed := h'.disposed.trans h.disposed
  stopped := h'.stopped.trans h.stopped
  len := Nat.le_trans h.len h'.len
  calls i hi hc := (h'.calls i (Nat.lt_of_lt_of_le hi h.len) hc).trans (h.calls i hi hc)
  log := by rw [h'.log, h.log, List.append_assoc]

private theorem Over.in {c : Nat} {s s' : Subject.State α} {l : List (Nat × Notif α)} (h : Over s s' l) : In c s s' l :=
  ⟨h.observers, h.disposed, h.stopped, h.len, fun i hi _ => h.calls i hi, h.log⟩

private theorem in_loop_nil (c : Nat) (n : Notif α) (s : Subject.State α) : In c s (s.loop c n []) [] := by
  refine ⟨rfl, rfl, rfl, by simp [State.loop], fun i hi hc => ?_, by simp [State.loop]⟩
  simp [State.loop, List.getElem?_set, Ne.symm hc]

private theorem in_loop_cons (c : Nat) (n : Notif α) (o : Nat) (r : List Nat) (s : Subject.State α) : In c s (s.loop c n (o :: r)) [(o, n)] := by
  refine ⟨rfl, rfl, rfl, by simp [State.loop], fun i hi hc => ?_, by simp [State.loop]⟩
  simp [State.loop, List.getElem?_set, Ne.symm hc]

private theorem enter_cons {a c : Nat} {f : Notif α → List (Notif α)} {s : Subject.State α} {n : Notif α} {o : Nat} {r : List Nat} {st : List (Nat × List (Notif α))} (hc : c < s.calls.length) :
    enter a f (s.loop c n (o :: r)) c st = ⟨s.loop c n (o :: r), (c, if o = a then f n else []) :: st⟩ := by
  simp [enter, State.loop, hc]

private theorem enter_nil {a c : Nat} {f : Notif α → List (Notif α)} {s : Subject.State α} {n : Notif α} {st : List (Nat × List (Notif α))} (hc : c < s.calls.length) :
    enter a f (s.loop c n []) c st = ⟨s.loop c n [], st⟩ := by
  simp [enter, State.loop, hc]

/-- Observers that send nothing. -/
private theorem plain {a c : Nat} {f : Notif α → List (Notif α)} {n : Notif α} {st : List (Nat × List (Notif α))} : ∀ (bs rest : List Nat) (s : Subject.State α), (a ∈ bs → f n = []) → c < s.calls.length →
    ∃ k s', steps a f k (enter a f (s.loop c n (bs ++ rest)) c st) = some (enter a f (s'.loop c n rest) c st) ∧ In c s s' (bs.map (·, n)) := by
  intro bs
  induction bs with
  | nil => intro rest s _ _; exact ⟨0, s, rfl, ⟨rfl, rfl, rfl, Nat.le_refl _, fun _ _ _ => rfl, by simp⟩⟩
  | cons b bs ih =>
    intro rest s ha hc
    have hb : (if b = a then f n else []) = [] := by
      by_cases h : b = a
      · rw [if_pos h]; exact ha (by simp [h])
      · rw [if_neg h]
    have hi := in_loop_cons c n b (bs ++ rest) s
    obtain ⟨k, s', h1, h2⟩ := ih rest (s.loop c n (b :: (bs ++ rest))) (fun h => ha (List.mem_cons_of_mem _ h)) (Nat.lt_of_lt_of_le hc hi.len)
    refine ⟨k + 1, s', ?_, by simpa using hi.trans h2⟩
    rw [List.cons_append, enter_cons hc]
    simp only [steps, step, hb]
    rw [show (s.loop c n (b :: (bs ++ rest))).calls[c]? = some (.running n b (bs ++ rest)) by simp [State.loop, hc]]
    exact h1

private theorem last_plain {a c : Nat} {f : Notif α → List (Notif α)} {n : Notif α} {st : List (Nat × List (Notif α))} (cs : List Nat) (s : Subject.State α) (ha : a ∈ cs → f n = []) (hc : c < s.calls.length) :
    ∃ k s', steps a f k (enter a f (s.loop c n cs) c st) = some ⟨s', st⟩ ∧ In c s s' (cs.map (·, n)) := by
  obtain ⟨k, s', h1, h2⟩ := plain (f := f) (n := n) (st := st) cs [] s ha hc
  rw [List.append_nil] at h1
  refine ⟨k, s'.loop c n [], by rw [h1, enter_nil (Nat.lt_of_lt_of_le hc h2.len)], by simpa using h2.trans (in_loop_nil c n s')⟩

mutual
/-- Who is told what, in the order of time. -/
def trace (bs : List Nat) (a : Nat) (cs : List Nat) : Tree α → List (Nat × Notif α)
  | .node v kids => bs.map (·, Notif.next v) ++ (a, Notif.next v) :: (traces bs a cs kids ++ cs.map (·, Notif.next v))
def traces (bs : List Nat) (a : Nat) (cs : List Nat) : List (Tree α) → List (Nat × Notif α)
  | [] => []
  | t :: ts => trace bs a cs t ++ traces bs a cs ts
end

mutual
private theorem run_tree {bs : List Nat} {a : Nat} {cs : List Nat} {g : α → List α} (hb : a ∉ bs) (hcs : a ∉ cs) : ∀ (t : Tree α), t.Grown g → ∀ (s : Subject.State α) st, s.observers = bs ++ a :: cs →
    s.isDisposed = false → s.isStopped = false → ∃ k s', steps a (sends g) k (call a (sends g) ⟨s, st⟩ (.next t.root)) = some ⟨s', st⟩ ∧ Over s s' (trace bs a cs t)
  | .node v kids, hg, s, st, ho, hd, hs => by
    rw [Tree.Grown] at hg
    have hbegin : s.begin (.next v) = State.loop { s with calls := s.calls ++ [.returned] } s.calls.length (.next v) (bs ++ a :: cs) := by simp [State.begin, hd, hs, ho]
    obtain ⟨k1, s1, h1, i1⟩ := plain (c := s.calls.length) (f := sends g) (n := .next v) (st := st) bs (a :: cs) { s with calls := s.calls ++ [.returned] } (fun h => absurd h hb) (by simp)
    have hl1 : s.calls.length < s1.calls.length := Nat.lt_of_lt_of_le (by simp) i1.len
    have i2 := in_loop_cons s.calls.length (.next v) a cs s1
    rw [enter_cons hl1, if_pos rfl, show sends g (.next v) = (g v).map .next from rfl, ← hg.1] at h1
    have hrun : (s1.loop s.calls.length (.next v) (a :: cs)).calls[s.calls.length]? = some (.running (.next v) a cs) := by simp [State.loop, hl1]
    obtain ⟨k2, s2, h2, o2⟩ := run_trees hb hcs kids hg.2 (s1.loop s.calls.length (.next v) (a :: cs)) s.calls.length st
      (by rw [i2.observers, i1.observers]; exact ho) (by rw [i2.disposed, i1.disposed]; exact hd) (by rw [i2.stopped, i1.stopped]; exact hs)
    have hl2 : s.calls.length < s2.calls.length := Nat.lt_of_lt_of_le hl1 (Nat.le_trans i2.len o2.len)
    obtain ⟨k3, s3, h3, i3⟩ := last_plain (c := s.calls.length) (f := sends g) (n := .next v) (st := st) cs s2 (fun h => absurd h hcs) hl2
    have h23 : steps a (sends g) (1 + k3) ⟨s2, (s.calls.length, []) :: st⟩ = some ⟨s3, st⟩ := by
      rw [Nat.add_comm]
      simp only [steps, step]
      rw [show s2.calls[s.calls.length]? = some (.running (.next v) a cs) from (o2.calls _ (Nat.lt_of_lt_of_le hl1 i2.len)).trans hrun]
      exact h3
    refine ⟨k1 + (k2 + (1 + k3)), s3, ?_, ?_⟩
    · refine steps_add (s' := ⟨s1.loop s.calls.length (.next v) (a :: cs), (s.calls.length, (kids.map Tree.root).map .next) :: st⟩) ?_ (steps_add h2 h23)
      simp only [call, Tree.root]
      rw [hbegin]
      exact h1
    · have hall := ((i1.trans i2).trans o2.in).trans i3
      refine ⟨hall.observers, hall.disposed, hall.stopped, Nat.le_trans (by simp) hall.len, fun i hi => ?_, ?_⟩
      · rw [hall.calls i (by simp; omega) (by omega)]
        simp [List.getElem?_append_left hi]
      · rw [hall.log]; simp [trace]
private theorem run_trees {bs : List Nat} {a : Nat} {cs : List Nat} {g : α → List α} (hb : a ∉ bs) (hcs : a ∉ cs) : ∀ (ts : List (Tree α)), AllGrown g ts → ∀ (s : Subject.State α) c st, s.observers = bs ++ a :: cs →
    s.isDisposed = false → s.isStopped = false →
    ∃ k s', steps a (sends g) k ⟨s, (c, (ts.map Tree.root).map .next) :: st⟩ = some ⟨s', (c, []) :: st⟩ ∧ Over s s' (traces bs a cs ts)
  | [], _, s, c, st, _, _, _ => ⟨0, s, rfl, Over.refl s⟩
  | t :: ts, hg, s, c, st, ho, hd, hs => by
    rw [AllGrown] at hg
    obtain ⟨k1, s1, h1, o1⟩ := run_tree hb hcs t hg.1 s ((c, (ts.map Tree.root).map .next) :: st) ho hd hs
    obtain ⟨k2, s2, h2, o2⟩ := run_trees hb hcs ts hg.2 s1 c st (by rw [o1.observers, ho]) (by rw [o1.disposed, hd]) (by rw [o1.stopped, hs])
    refine ⟨1 + k1 + k2, s2, steps_add ?_ h2, by simpa [traces] using o1.trans o2⟩
    rw [Nat.add_comm]
    simpa only [steps, step, List.map_cons, Option.bind_some] using h1
end

/-- What `o` is told. -/
private def toldTo (o : Nat) (l : List (Nat × Notif α)) : List (Notif α) := l.filterMap fun x => if x.1 = o then some x.2 else none

private theorem toldTo_append (o : Nat) (l l' : List (Nat × Notif α)) : toldTo o (l ++ l') = toldTo o l ++ toldTo o l' := by simp [toldTo]

private theorem toldTo_map {o : Nat} {n : Notif α} : ∀ {bs : List Nat}, bs.Nodup → toldTo o (bs.map (·, n)) = if o ∈ bs then [n] else []
  | [], _ => rfl
  | b :: bs, h => by
    have ih := toldTo_map (o := o) (n := n) (List.nodup_cons.mp h).2
    have hn := (List.nodup_cons.mp h).1
    simp only [toldTo, List.map_cons, List.filterMap_cons] at ih ⊢
    by_cases hb : b = o
    · subst hb
      rw [if_pos rfl, ih, if_neg hn]
      simp
    · rw [if_neg hb, ih]
      simp [Ne.symm hb]

mutual
private theorem told_tree {bs : List Nat} {a : Nat} {cs : List Nat} (hnd : (bs ++ a :: cs).Nodup) (o : Nat) : ∀ t : Tree α, toldTo o (trace bs a cs t) =
    (if o ∈ cs then t.post else if o ∈ bs ∨ o = a then t.pre else []).map .next
  | .node v kids => by
    obtain ⟨h1, h2, h3⟩ := List.nodup_append.mp hnd
    obtain ⟨h4, h5⟩ := List.nodup_cons.mp h2
    have ih := told_trees hnd o kids
    rw [trace, toldTo_append, show ((a, Notif.next v) :: (traces bs a cs kids ++ cs.map (·, Notif.next v))) = [a].map (·, Notif.next v) ++ (traces bs a cs kids ++ cs.map (·, Notif.next v)) from rfl, toldTo_append, toldTo_append,
      toldTo_map h1, toldTo_map h5, toldTo_map (by simp), ih, Tree.pre, Tree.post]
    by_cases hc : o ∈ cs
    · have hb : o ∉ bs := fun h => h3 o h o (by simp [hc]) rfl
      have ha : o ≠ a := fun h => h4 (h ▸ hc)
      simp [hc, hb, ha]
    · by_cases ha : o = a
      · subst ha
        have hb : o ∉ bs := fun h => h3 o h o (by simp) rfl
        simp [hc, hb]
      · by_cases hb : o ∈ bs <;> simp [hc, ha, hb]
private theorem told_trees {bs : List Nat} {a : Nat} {cs : List Nat} (hnd : (bs ++ a :: cs).Nodup) (o : Nat) : ∀ ts : List (Tree α), toldTo o (traces bs a cs ts) =
    (if o ∈ cs then posts ts else if o ∈ bs ∨ o = a then pres ts else []).map .next
  | [] => by simp [traces, toldTo, posts, pres]
  | t :: ts => by
    rw [traces, toldTo_append, told_tree hnd o t, told_trees hnd o ts, ← List.map_append, posts, pres]
    split
    · rfl
    · split <;> simp
end

private theorem heard_eq (o : Nat) (s : Subject.State α) : heardBy o s = toldTo o (s.log.map (·.2)) := by simp [heardBy, toldTo, List.filterMap_map, Function.comp_def]

/-- The exact order. The subscriber `a` sends `g v` from within `asend(v)`; `t` is everything that this makes of one value that somebody sends. When that call of `asend` is over, `a` and those who subscribed before it have been told each
value before what was made of it; those who subscribed after `a` have been told it afterwards. The task has nothing else to do (`step` is a function, so this is its only execution). -/
theorem C145_exact {bs : List Nat} {a : Nat} {cs : List Nat} {g : α → List α} {t : Tree α} {s : Subject.State α} (hnd : (bs ++ a :: cs).Nodup) (hg : t.Grown g) (ho : s.observers = bs ++ a :: cs)
    (hd : s.isDisposed = false) (hs : s.isStopped = false) :
    ∃ k s', steps a (sends g) k (call a (sends g) ⟨s, []⟩ (.next t.root)) = some s' ∧ step a (sends g) s' = none ∧ s'.stack = [] ∧
      ∀ o, heardBy o s'.subj = heardBy o s ++ (if o ∈ cs then t.post else if o ∈ bs ∨ o = a then t.pre else []).map .next := by
  obtain ⟨h1, h2, h3⟩ := List.nodup_append.mp hnd
  obtain ⟨k, s', hk, hov⟩ := run_tree (fun h => h3 a h a (by simp) rfl) (List.nodup_cons.mp h2).1 t hg s [] ho hd hs
  refine ⟨k, ⟨s', []⟩, hk, rfl, rfl, fun o => ?_⟩
  rw [heard_eq, heard_eq, hov.log, toldTo_append, told_tree hnd]

/-- Three subscribers; the second sends two smaller numbers for each number. -/
example : (steps 2 (sends fun v : Nat => [v / 2, v / 4].filter (· > 1)) 15 (call 2 (sends fun v : Nat => [v / 2, v / 4].filter (· > 1)) ⟨{ Subject.init with observers := [1, 2, 3] }, []⟩ (.next 8))).map
    (fun s => (s.stack, heardBy 1 s.subj, heardBy 2 s.subj, heardBy 3 s.subj)) =
    some ([], [.next 8, .next 4, .next 2, .next 2], [.next 8, .next 4, .next 2, .next 2], [.next 2, .next 4, .next 2, .next 8]) := by decide

example : (Tree.node 8 [.node 4 [.node 2 []], .node 2 []]).Grown (fun v : Nat => [v / 2, v / 4].filter (· > 1)) := by simp [Tree.Grown, AllGrown, Tree.root]

/-- The claim is false: whoever subscribed after `a` gets the value only after all that was made of it. -/
theorem C145_violated {bs : List Nat} {a : Nat} {cs : List Nat} {g : α → List α} {v : α} {kids : List (Tree α)} {s : Subject.State α} {o : Nat} (hnd : (bs ++ a :: cs).Nodup)
    (hg : (Tree.node v kids).Grown g) (ho : s.observers = bs ++ a :: cs) (hd : s.isDisposed = false) (hs : s.isStopped = false) (hoc : o ∈ cs) :
    ∃ k s', steps a (sends g) k (call a (sends g) ⟨s, []⟩ (.next v)) = some s' ∧ s'.stack = [] ∧ heardBy a s'.subj = heardBy a s ++ .next v :: (pres kids).map .next ∧
      heardBy o s'.subj = heardBy o s ++ (posts kids).map .next ++ [.next v] := by
  obtain ⟨k, s', h1, _, h2, h3⟩ := C145_exact hnd hg ho hd hs
  obtain ⟨_, h4, h5⟩ := List.nodup_append.mp hnd
  refine ⟨k, s', h1, h2, ?_, ?_⟩
  · rw [h3, if_neg (List.nodup_cons.mp h4).1, if_pos (.inr rfl)]; rfl
  · rw [h3, if_pos hoc]; simp [Tree.post]

/-- And if `a` closes the subject from within `asend(v)`, whoever subscribed after `a` gets the value after the completion. -/
theorem C145_violated_close {bs : List Nat} {a : Nat} {cs : List Nat} {f : Notif α → List (Notif α)} {v : α} {s : Subject.State α} {o : Nat} (hnd : (bs ++ a :: cs).Nodup) (hf : f (.next v) = [.completed])
    (hf' : f .completed = []) (ho : s.observers = bs ++ a :: cs) (hd : s.isDisposed = false) (hs : s.isStopped = false) (hoc : o ∈ cs) :
    ∃ k s', steps a f k (call a f ⟨s, []⟩ (.next v)) = some s' ∧ s'.stack = [] ∧ heardBy o s'.subj = heardBy o s ++ [.completed, .next v] := by
  obtain ⟨n1, n2, n3⟩ := List.nodup_append.mp hnd
  obtain ⟨n4, n5⟩ := List.nodup_cons.mp n2
  have hb : a ∉ bs := fun h => n3 a h a (by simp) rfl
  have hbegin : s.begin (.next v) = State.loop { s with calls := s.calls ++ [.returned] } s.calls.length (.next v) (bs ++ a :: cs) := by simp [State.begin, hd, hs, ho]
  obtain ⟨k1, s1, h1, i1⟩ := plain (c := s.calls.length) (f := f) (n := .next v) (st := []) bs (a :: cs) { s with calls := s.calls ++ [.returned] } (fun h => absurd h hb) (by simp)
  have hl1 : s.calls.length < s1.calls.length := Nat.lt_of_lt_of_le (by simp) i1.len
  have i2 := in_loop_cons s.calls.length (.next v) a cs s1
  rw [enter_cons hl1, if_pos rfl, hf] at h1
  generalize hs2 : s1.loop s.calls.length (.next v) (a :: cs) = s2 at h1 i2
  have hl2 : s.calls.length < s2.calls.length := Nat.lt_of_lt_of_le hl1 i2.len
  have hrun : s2.calls[s.calls.length]? = some (.running (.next v) a cs) := by rw [← hs2]; simp [State.loop, hl1]
  have ho2 : s2.observers = bs ++ a :: cs := by rw [i2.observers, i1.observers]; exact ho
  have hbegin2 : s2.begin .completed = State.loop { s2 with isStopped := true, calls := s2.calls ++ [.returned] } s2.calls.length .completed (bs ++ a :: cs) := by
    simp [State.begin, i2.disposed, i1.disposed, hd, i2.stopped, i1.stopped, hs, ho2]
  obtain ⟨k3, s3, h3, i3⟩ := last_plain (c := s2.calls.length) (f := f) (n := .completed) (st := [(s.calls.length, [])]) (bs ++ a :: cs) { s2 with isStopped := true, calls := s2.calls ++ [.returned] } (fun _ => hf') (by simp)
  have hrun3 : s3.calls[s.calls.length]? = some (.running (.next v) a cs) := by
    rw [i3.calls _ (by simp; omega) (by omega)]
    simpa [List.getElem?_append_left hl2] using hrun
  have hl3 : s.calls.length < s3.calls.length := Nat.lt_of_lt_of_le (Nat.lt_of_lt_of_le hl2 (by simp)) i3.len
  obtain ⟨k4, s4, h4, i4⟩ := last_plain (c := s.calls.length) (f := f) (n := .next v) (st := []) cs s3 (fun h => absurd h n4) hl3
  refine ⟨k1 + (1 + k3 + (1 + k4)), ⟨s4, []⟩, ?_, rfl, ?_⟩
  · have ha : steps a f k1 (call a f ⟨s, []⟩ (.next v)) = some ⟨s2, [(s.calls.length, [.completed])]⟩ := by
      simp only [call]; rw [hbegin]; exact h1
    have hb2 : steps a f (1 + k3) ⟨s2, [(s.calls.length, [.completed])]⟩ = some ⟨s3, [(s.calls.length, [])]⟩ := by
      rw [Nat.add_comm]
      simp only [steps, step, call, Option.bind_some]
      rw [hbegin2]
      exact h3
    have hc : steps a f (1 + k4) ⟨s3, [(s.calls.length, [])]⟩ = some ⟨s4, []⟩ := by
      rw [Nat.add_comm]
      simp only [steps, step]
      rw [hrun3]
      exact h4
    exact steps_add ha (steps_add hb2 hc)
  · have hob : o ∉ bs := fun h => n3 o h o (by simp [hoc]) rfl
    have hoa : a ≠ o := fun h => n4 (h ▸ hoc)
    rw [heard_eq, heard_eq, i4.log, i3.log, i2.log, i1.log]
    simp only [toldTo_append]
    rw [toldTo_map n1, toldTo_map n5, toldTo_map hnd, if_neg hob, if_pos hoc, if_pos (by simp [hoc])]
    simp [toldTo, hoa]

example : (steps 1 (fun n : Notif Nat => if n = .next 7 then [.completed] else []) 5 (call 1 (fun n => if n = .next 7 then [.completed] else []) ⟨{ Subject.init with observers := [1, 2] }, []⟩ (.next 7))).map
    (fun s => (s.stack, heardBy 1 s.subj, heardBy 2 s.subj)) = some ([], [.next 7, .completed], [.completed, .next 7]) := by decide

/-! ### behind a mailbox -/

private theorem finish_spec {c : Nat} {n : Notif α} : ∀ (rest : List Nat) (s : Subject.State α), In c s (finish c n rest s) (rest.map (·, n))
  | [], s => in_loop_nil c n s
  | o :: rest, s => by simpa [finish] using (in_loop_cons c n o rest s).trans (finish_spec rest _)

private theorem broadcast_log (s : Subject.State α) (n : Notif α) (hd : s.isDisposed = false) (hs : s.isStopped = false) :
    (broadcast s n).log.map (·.2) = s.log.map (·.2) ++ s.observers.map (·, n) ∧ (broadcast s n).observers = s.observers ∧ (broadcast s n).isDisposed = false ∧ (broadcast s n).isStopped = n.isTerminal := by
  have key : ∀ (s1 : Subject.State α) (os : List Nat), s.begin n = s1.loop s.calls.length n os → s1.calls.length = s.calls.length + 1 →
      In s.calls.length s1 (broadcast s n) (os.map (·, n)) := by
    intro s1 os he hl
    cases os with
    | nil =>
      have : broadcast s n = s1.loop s.calls.length n [] := by simp [broadcast, he, State.loop, hl]
      rw [this]
      exact in_loop_nil _ _ _
    | cons o rest =>
      have : broadcast s n = finish s.calls.length n rest (s1.loop s.calls.length n (o :: rest)) := by simp [broadcast, he, State.loop, hl]
      rw [this]
      exact (in_loop_cons _ n o rest s1).trans (finish_spec rest _)
  cases n with
  | next v =>
    have h := key { s with calls := s.calls ++ [.returned] } s.observers (by simp [State.begin, hd, hs]) (by simp)
    exact ⟨h.log, h.observers, h.disposed.trans hd, h.stopped.trans hs⟩
  | error e =>
    have h := key { s with isStopped := true, calls := s.calls ++ [.returned] } s.observers (by simp [State.begin, hd, hs]) (by simp)
    exact ⟨h.log, h.observers, h.disposed.trans hd, h.stopped⟩
  | completed =>
    have h := key { s with isStopped := true, calls := s.calls ++ [.returned] } s.observers (by simp [State.begin, hd, hs]) (by simp)
    exact ⟨h.log, h.observers, h.disposed.trans hd, h.stopped⟩

private theorem broadcast_stopped (s : Subject.State α) (n : Notif α) (hd : s.isDisposed = false) (hs : s.isStopped = true) : broadcast s n = { s with calls := s.calls ++ [.returned] } := by
  simp [broadcast, State.begin, hd, hs]

/-- All have been told `h`. -/
private structure Told (os : List Nat) (h : List (Notif α)) (s : Subject.State α) : Prop where
  observers : s.observers = os
  disposed : s.isDisposed = false
  stopped : s.isStopped = h.any Notif.isTerminal
  log : ∀ o ∈ os, heardBy o s = h
  grammar : Spec.Grammar h

private theorem open_snoc : ∀ {h : List (Notif α)}, h.any Notif.isTerminal = false → ∀ n, Spec.Grammar (h ++ [n])
  | [], _, n => by cases n <;> exact Spec.grammar_iff_cut.mpr rfl
  | m :: h, hn, n => by
    rw [List.any_cons, Bool.or_eq_false_iff] at hn
    have ih := Spec.grammar_iff_cut.mp (open_snoc hn.2 n)
    cases m with
    | next v => exact Spec.grammar_iff_cut.mpr (by rw [List.cons_append, Spec.cut_next, ih])
    | error e => cases hn.1
    | completed => cases hn.1

private theorem told_broadcast {os : List Nat} (hnd : os.Nodup) {h : List (Notif α)} {s : Subject.State α} (ht : Told os h s) (n : Notif α) :
    Told os (if h.any Notif.isTerminal then h else h ++ [n]) (broadcast s n) := by
  cases hs : s.isStopped with
  | true =>
    rw [broadcast_stopped s n ht.disposed hs, if_pos (ht.stopped.symm.trans hs)]
    exact ⟨ht.observers, ht.disposed, ht.stopped, ht.log, ht.grammar⟩
  | false =>
    obtain ⟨h1, h2, h3, h4⟩ := broadcast_log s n ht.disposed hs
    have hn : h.any Notif.isTerminal = false := ht.stopped.symm.trans hs
    rw [if_neg (by simp [hn])]
    refine ⟨h2.trans ht.observers, h3, by rw [h4]; simp [hn], fun o ho => ?_, ?_⟩
    · rw [heard_eq, h1, toldTo_append, ← heard_eq, ht.log o ho, ht.observers, toldTo_map hnd, if_pos ho]
    · exact open_snoc hn n

private theorem told_init {s0 : Subject.State α} (hd : s0.isDisposed = false) (hs : s0.isStopped = false) (hl : s0.log = []) : Told s0.observers [] s0 :=
  ⟨rfl, hd, hs, fun _ _ => by simp [heardBy, hl], Spec.grammar_iff_cut.mpr rfl⟩

private theorem told_fold {os : List Nat} (hnd : os.Nodup) : ∀ (ns : List (Notif α)) {h : List (Notif α)} {s : Subject.State α}, Told os h s → ∃ h', Told os h' (ns.foldl broadcast s)
  | [], h, _, ht => ⟨h, ht⟩
  | n :: ns, _, _, ht => told_fold hnd ns (told_broadcast hnd ht n)

private theorem told_run {a : Nat} {f : Notif α → List (Notif α)} {s0 : Subject.State α} (hnd : s0.observers.Nodup) (hd : s0.isDisposed = false) (hs : s0.isStopped = false) (hl : s0.log = []) {ls : List (Label α)}
    {s : Boxed α} (hr : LTS.run (boxedStep a f) ⟨s0, 0⟩ ls = some s) : ∃ h, Told s0.observers h s.subj := by
  refine LTS.inv (fun s : Boxed α => ∃ h, Told s0.observers h s.subj) ⟨[], told_init hd hs hl⟩ ?_ hr
  rintro s l s' ⟨h, ht⟩ hstep
  cases l with
  | send n =>
    cases hstep
    exact ⟨_, told_broadcast hnd ht n⟩
  | take =>
    simp only [boxedStep] at hstep
    split at hstep
    · cases hstep
    · split at hstep
      · cases hstep
      · cases hstep
        exact told_fold hnd _ ht

/-- Part of C145: behind a mailbox. Whatever `a` sends, and whatever others send in between: all subscribers are told the same, in the same order, and nothing after a terminal event. -/
theorem C145_same_partial {a : Nat} {f : Notif α → List (Notif α)} {s0 : Subject.State α} (hnd : s0.observers.Nodup) (hd : s0.isDisposed = false) (hs : s0.isStopped = false) (hl : s0.log = []) {ls : List (Label α)}
    {s : Boxed α} (hr : LTS.run (boxedStep a f) ⟨s0, 0⟩ ls = some s) :
    (∀ o ∈ s0.observers, ∀ o' ∈ s0.observers, heardBy o s.subj = heardBy o' s.subj) ∧ ∀ o ∈ s0.observers, Spec.Grammar (heardBy o s.subj) := by
  obtain ⟨h, ht⟩ := told_run hnd hd hs hl hr
  exact ⟨fun o ho o' ho' => (ht.log o ho).trans (ht.log o' ho').symm, fun o ho => (ht.log o ho).symm ▸ ht.grammar⟩

/-! #### one generation after the other -/

theorem levels_snoc (g : α → List α) (x : α) (d : Nat) : levels g x (d + 1) = levels g x d ++ level g x d := by
  simp [levels, List.range_succ]

theorem levels_succ (g : α → List α) (x : α) (d : Nat) : levels g x (d + 1) = x :: (levels g x d).flatMap g := by
  induction d with
  | zero => rfl
  | succ d ih =>
    have h : (levels g x (d + 1)).flatMap g = (levels g x d ++ level g x d).flatMap g := by rw [levels_snoc]
    rw [levels_snoc g x (d + 1), h, ih]
    simp [level]

private theorem told_values {os : List Nat} (hnd : os.Nodup) : ∀ (ws vs : List α) {s : Subject.State α}, Told os (vs.map .next) s → Told os ((vs ++ ws).map .next) ((ws.map .next).foldl broadcast s)
  | [], vs, s, ht => by simpa using ht
  | w :: ws, vs, s, ht => by
    have h := told_broadcast hnd ht (.next w)
    rw [if_neg (by simp [Notif.isTerminal])] at h
    have := told_values hnd ws (vs ++ [w]) (by simpa using h)
    simpa using this

private theorem prefix_flatMap {g : α → List α} {l l' : List α} (h : l <+: l') : l.flatMap g <+: l'.flatMap g := by
  obtain ⟨r, rfl⟩ := h
  exact ⟨r.flatMap g, by simp⟩

/-- Part of C145: behind a mailbox, one value sent. After `k` calls of `a`'s `asend` all subscribers have been told a part of the values, one generation after the other, and all of them if there is nothing left to do. -/
theorem C145_level_order_partial {a : Nat} {g : α → List α} {x : α} {s0 : Subject.State α} (hnd : s0.observers.Nodup) (hd : s0.isDisposed = false) (hs : s0.isStopped = false) (hl : s0.log = []) (ha : a ∈ s0.observers)
    {k : Nat} {s : Boxed α} (hr : LTS.run (boxedStep a (sends g)) ⟨s0, 0⟩ (.send (.next x) :: List.replicate k .take) = some s) :
    ∃ vs, (∀ o ∈ s0.observers, heardBy o s.subj = vs.map .next) ∧ vs <+: levels g x (k + 1) ∧ (boxedStep a (sends g) s .take = none → ∀ d, k < d → vs = levels g x d) := by
  have key : ∃ vs, Told s0.observers (vs.map .next) s.subj ∧ s.taken = k ∧ k ≤ vs.length ∧ vs = x :: (vs.take k).flatMap g ∧ vs <+: levels g x (k + 1) := by
    induction k generalizing s with
    | zero =>
      simp only [List.replicate, LTS.run, boxedStep, Option.bind_some, Option.some.injEq] at hr
      subst hr
      exact ⟨[x], by simpa using told_broadcast hnd (told_init hd hs hl) (.next x), rfl, Nat.zero_le _, rfl, by simp [levels, level]⟩
    | succ k ih =>
      rw [List.replicate_succ', ← List.cons_append] at hr
      obtain ⟨s1, h1, h2⟩ := LTS.run_append.mp hr
      obtain ⟨vs, ht, hk, hle, he, hp⟩ := ih h1
      obtain ⟨s2, h3, h4⟩ := LTS.run_cons.mp h2
      cases h4
      simp only [boxedStep, show posted a s1.subj = vs.map .next from ht.log a ha, hk, List.getElem?_map] at h3
      cases hv : vs[k]? with
      | none => rw [hv] at h3; cases h3
      | some v =>
        rw [hv] at h3
        simp only [Option.map_some] at h3
        rw [if_neg (by simp [← List.map_take, Notif.isTerminal])] at h3
        cases h3
        have hlt : k < vs.length := (List.getElem?_eq_some_iff.mp hv).1
        have hvs : vs ++ g v = x :: (vs.take (k + 1)).flatMap g := by
          rw [List.take_add_one, hv]
          simp only [Option.toList, List.flatMap_append]
          rw [← List.cons_append, ← he]
          simp
        refine ⟨vs ++ g v, told_values hnd (g v) vs ht, rfl, by simp; omega, ?_, ?_⟩
        · rw [List.take_append_of_le_length (by omega)]
          exact hvs
        · rw [levels_succ, hvs]
          exact List.cons_prefix_cons.mpr ⟨rfl, prefix_flatMap ((List.take_prefix _ _).trans hp)⟩
  obtain ⟨vs, ht, hk, hle, he, hp⟩ := key
  refine ⟨vs, ht.log, hp, fun hq => ?_⟩
  have hlen : k = vs.length := by
    apply Classical.byContradiction
    intro hne
    have hlt : k < vs.length := by omega
    simp only [boxedStep, show posted a s.subj = vs.map .next from ht.log a ha, hk, List.getElem?_map, List.getElem?_eq_getElem hlt, Option.map_some] at hq
    rw [if_neg (by simp [← List.map_take, Notif.isTerminal])] at hq
    cases hq
  have hall : ∀ d, levels g x d <+: vs := by
    intro d
    induction d with
    | zero => simp [levels]
    | succ d ih =>
      rw [levels_succ, he, hlen, List.take_length]
      exact List.cons_prefix_cons.mpr ⟨rfl, prefix_flatMap ih⟩
  have hmono : ∀ m d, levels g x d <+: levels g x (d + m) := by
    intro m d
    induction m with
    | zero => exact List.prefix_refl _
    | succ m ih =>
      refine ih.trans ?_
      rw [← Nat.add_assoc, levels_snoc]
      exact List.prefix_append _ _
  intro d hd'
  obtain ⟨m, rfl⟩ : ∃ m, d = k + 1 + m := ⟨d - (k + 1), by omega⟩
  exact List.IsPrefix.eq_of_length_le (hp.trans (hmono m _)) (hall _).length_le

/-- The three subscribers of above, the second one behind a mailbox. -/
example : (LTS.run (boxedStep 2 (sends fun v : Nat => [v / 2, v / 4].filter (· > 1))) ⟨{ Subject.init with observers := [1, 2, 3] }, 0⟩ [.send (.next 8), .take, .take, .take, .take]).map
    (fun s => (heardBy 1 s.subj, heardBy 3 s.subj)) = some ([.next 8, .next 4, .next 2, .next 2], [.next 8, .next 4, .next 2, .next 2]) := by decide

example : levels (fun v : Nat => [v / 2, v / 4].filter (· > 1)) 8 5 = [8, 4, 2, 2] := by decide

end Aio.Feedback
