import Verif.Lemmas.Operators
/-!
# Operators that post to a safe observer
-/
namespace Aio
open Spec

variable {α β γ σ ο τ ρ : Type}

@[simp] theorem up_post_asend (v : β) (s : τ × Unit) :
    (Observer.up (τ := τ) Observer.post).asend v s = ⟨.ok (), s, [.next v]⟩ := rfl
@[simp] theorem up_post_athrow (e : Err) (s : τ × Unit) :
    (Observer.up (τ := τ) (Observer.post (α := β))).athrow e s = ⟨.ok (), s, [.error e]⟩ := rfl
@[simp] theorem up_post_aclose (s : τ × Unit) :
    (Observer.up (τ := τ) (Observer.post (α := β))).aclose s = ⟨.ok (), s, [.completed]⟩ := rfl

/-- Outputs of a step function. -/
def stepOut (step : τ → Notif α → τ × List (Notif β)) : τ → List (Notif α) → List (Notif β)
  | _, [] => []
  | t, n :: ns => (step t n).2 ++ stepOut step (step t n).1 ns

/-- A front described by a step function. -/
theorem front_intro {w : Wrap α β} {G : Story α → Story β}
    (step : w.τ → Notif α → w.τ × List (Notif β))
    (h1 : ∀ n t, (w.obs Observer.post).accept n (t, ()) = ⟨.ok (), ((step t n).1, ()), (step t n).2⟩)
    (h2 : ∀ ns, cut (stepOut step w.init ns) = (G (story ns)).events) : Front w G := by
  refine ⟨fun n s => ⟨(), by rw [h1 n s.1]⟩, fun ns => ?_⟩
  rw [← h2]
  congr 1
  have : ∀ t, ((Agent.ofObserver (w.obs Observer.post) (w.init, ())).run (t, ()) ns).2 =
      stepOut step t ns := by
    induction ns with
    | nil => intro t; rfl
    | cons n ns ih =>
      intro t
      have hr : (Agent.ofObserver (w.obs Observer.post) (w.init, ())).recv (t, ()) n =
          (((step t n).1, ()), (step t n).2) := by simp only [Agent.ofObserver, h1]
      simp only [Agent.run_cons, hr, ih, stepOut]
  exact this _

@[simp] theorem cut_map_next_append (q : List α) (r : List (Notif α)) :
    cut (q.map .next ++ r) = q.map .next ++ cut r := by
  simp [cut, story_map_next_append, Story.events]

/-! ### skip -/

def skipStep (t : Int) : Notif α → Int × List (Notif α)
  | .next v => if t ≤ 0 then (t, [.next v]) else (t - 1, [])
  | m => (t, [m])

theorem skipStep_out (t : Int) (ns : List (Notif α)) :
    cut (stepOut skipStep t ns) = (Spec.skip t (story ns)).events := by
  induction ns generalizing t with
  | nil => simp [Spec.skip, stepOut]
  | cons m ns ih =>
    rw [stepOut]
    cases m with
    | error e => simp [Spec.skip, skipStep]
    | completed => simp [Spec.skip, skipStep]
    | next v =>
      by_cases ht : t ≤ 0
      · have ht' : t.toNat = 0 := by omega
        have ih := ih t
        simp only [Spec.skip, ht', List.drop_zero, Story.events] at ih
        simp [ht, Spec.skip, skipStep, ht', Story.events, ih]
      · obtain ⟨k, ht', hk⟩ : ∃ k, t.toNat = k + 1 ∧ (t - 1).toNat = k := ⟨t.toNat - 1, by omega, by omega⟩
        have ih := ih (t - 1)
        simp only [Spec.skip, hk] at ih
        simp [ht, Spec.skip, skipStep, ht', ih]

theorem skip_front (n : Int) : Front (skipW n : Wrap α α) (Spec.skip n) := by
  refine front_intro skipStep ?_ (skipStep_out n)
  rintro (v | e | _) t
  · simp only [Observer.accept_next, Py.bind_eq, Py.andThen, Py.getL_run, skipStep]
    split <;> simp
  · simp [skipStep]
  · simp [skipStep]

theorem skip_acts (n : Int) : (skip n : Operator α α).Acts (Spec.skip n) := (skip_front n).acts
theorem skip_actsRaw (n : Int) : (skip n : Operator α α).ActsRaw (Spec.skip n) := (skip_front n).actsRaw

/-! ### take -/

def takeStep (t : Int) : Notif α → Int × List (Notif α)
  | .next v =>
    if t > 0 then (t - 1, if t - 1 = 0 then [.next v, .completed] else [.next v]) else (t, [])
  | m => (t, [m])

theorem takeStep_out (t : Int) (ns : List (Notif α)) :
    cut (stepOut takeStep t ns) = (Spec.take t (story ns)).events := by
  have hn : ¬ (0 < t ∧ t ≤ 0) := by omega
  induction ns generalizing t with
  | nil => simp [Spec.take, hn, stepOut]
  | cons m ns ih =>
    rw [stepOut]
    cases m with
    | error e => simp [Spec.take, takeStep, hn]
    | completed => simp [Spec.take, takeStep, hn]
    | next v =>
      by_cases ht : 0 < t
      · by_cases h1 : t = 1
        · subst h1
          have h2 : (1 : Int) ≤ ((story ns).vals.length : Int) + 1 := by omega
          simp [Spec.take, takeStep, h2, Story.events]
        · obtain ⟨k, ht', hk⟩ : ∃ k, t.toNat = k + 1 ∧ (t - 1).toNat = k := ⟨t.toNat - 1, by omega, by omega⟩
          have ih := ih (t - 1) (by omega)
          have h1' : t - 1 ≠ 0 := by omega
          have h2 : (0 < t - 1 ∧ t - 1 ≤ ((story ns).vals.length : Int)) ↔
              t ≤ ((story ns).vals.length : Int) + 1 := by omega
          simp only [Spec.take, Story.events, h2, hk] at ih
          simp [ht, Spec.take, takeStep, ht', Story.events, h1', ih]
      · have ht' : t.toNat = 0 := by omega
        have ih := ih t hn
        simp only [Spec.take, ht', Story.events, ht, false_and, if_false] at ih
        simp [ht, Spec.take, takeStep, ht', Story.events, ih]

theorem take_front (n : Int) : Front (takeW n : Wrap α α) (Spec.take n) := by
  refine front_intro takeStep ?_ (takeStep_out n)
  rintro (v | e | _) (t : Int)
  · simp only [Observer.accept_next, Py.bind_eq, Py.andThen, Py.getL_run, takeStep]
    by_cases h : t > 0
    · by_cases h2 : t - 1 = 0 <;> simp [h, h2, Py.andThen]
    · simp [h]
  · simp [takeStep]
  · simp [takeStep]

theorem take_acts (n : Int) : (takeOp n : Operator α α).Acts (Spec.take n) := (take_front n).acts
theorem take_actsRaw (n : Int) : (takeOp n : Operator α α).ActsRaw (Spec.take n) :=
  (take_front n).actsRaw

/-! ### take_last -/

theorem forEach_post (q : List α) (s : τ × Unit) :
    Py.forEach q (Observer.up (τ := τ) Observer.post).asend s =
      ⟨.ok (), s, q.map Notif.next⟩ := by
  induction q with
  | nil => rfl
  | cons x q ih => simp [Py.forEach, Py.andThen, ih]

def takeLastStep (n : Int) (q : List α) : Notif α → List α × List (Notif α)
  | .next v => (if ((q ++ [v]).length : Int) > n then (q ++ [v]).tail else q ++ [v], [])
  | .error e => (q, [.error e])
  | .completed => (q, q.map .next ++ [.completed])

/-- The queue holds the last `n` values seen. -/
theorem takeLastStep_out (n : Int) (seen : List α) (ns : List (Notif α)) :
    cut (stepOut (takeLastStep n) (seen.drop (seen.length - n.toNat)) ns) =
      (Spec.takeLast n ⟨seen ++ (story ns).vals, (story ns).fin⟩).events := by
  induction ns generalizing seen with
  | nil => simp [Spec.takeLast, stepOut]
  | cons m ns ih =>
    rw [stepOut]
    cases m with
    | error e => simp [Spec.takeLast, takeLastStep]
    | completed =>
      simp [Spec.takeLast, takeLastStep, Story.events, End.events, -List.map_drop]
    | next v =>
      have ih := ih (seen ++ [v])
      simp only [story_next, takeLastStep, List.nil_append]
      have hq : (if (((seen.drop (seen.length - n.toNat)) ++ [v]).length : Int) > n
          then ((seen.drop (seen.length - n.toNat)) ++ [v]).tail
          else seen.drop (seen.length - n.toNat) ++ [v]) =
          (seen ++ [v]).drop ((seen ++ [v]).length - n.toNat) := by
        generalize hqq : seen.drop (seen.length - n.toNat) = q
        have hl : q.length = min seen.length n.toNat := by
          rw [← hqq]; simp; omega
        split
        · rename_i hlt
          simp at hlt
          by_cases h0 : n.toNat = 0
          · have : q = [] := List.eq_nil_of_length_eq_zero (by omega)
            subst this; simp [h0]
          · have h1 : q ≠ [] := by
              intro h; subst h
              simp only [List.length_nil] at hlt hl; omega
            rw [List.tail_append_of_ne_nil h1, ← hqq]
            rw [List.drop_append_of_le_length (by simp; omega), List.tail_drop]
            congr 2
            simp
            omega
        · rename_i hlt
          simp at hlt
          have h1 : seen.length - n.toNat = 0 := by omega
          have h2 : seen.length + 1 - n.toNat = 0 := by omega
          simp [← hqq, h1, h2]
      rw [hq]
      simpa using ih

theorem takeLast_front (n : Int) : Front (takeLastW n : Wrap α α) (Spec.takeLast n) := by
  refine front_intro (takeLastStep n) ?_ fun ns => by simpa using takeLastStep_out n [] ns
  rintro (v | e | _) (t : List α)
  · simp only [Observer.accept_next, Py.bind_eq, Py.andThen, Py.getL_run, Py.setL_run, takeLastStep]
    split <;> simp
  · simp [takeLastStep]
  · simp [Py.andThen, forEach_post, takeLastStep]

theorem takeLast_acts (n : Int) : (takeLast n : Operator α α).Acts (Spec.takeLast n) :=
  (takeLast_front n).acts
theorem takeLast_actsRaw (n : Int) : (takeLast n : Operator α α).ActsRaw (Spec.takeLast n) :=
  (takeLast_front n).actsRaw

/-! ### skip_last -/

def skipLastStep (isNone : α → Bool) (n : Int) (q : List α) : Notif α → List α × List (Notif α)
  | .next v =>
    if ((q ++ [v]).length : Int) > n then
      ((q ++ [v]).tail, (((q ++ [v]).head?.toList.filter fun v => !isNone v)).map .next)
    else (q ++ [v], [])
  | m => (q, [m])

theorem skipLastStep_out (isNone : α → Bool) (n : Int) (seen : List α) (ns : List (Notif α)) :
    cut (stepOut (skipLastStep isNone n) (seen.drop (seen.length - n.toNat)) ns) =
      ((((seen ++ (story ns).vals).take ((seen ++ (story ns).vals).length - n.toNat)).drop
        (seen.length - n.toNat)).filter fun v => !isNone v).map .next ++ (story ns).fin.events := by
  induction ns generalizing seen with
  | nil => simp [stepOut]
  | cons m ns ih =>
    rw [stepOut]
    cases m with
    | error e => simp [skipLastStep]
    | completed => simp [skipLastStep]
    | next v =>
      have ih := ih (seen ++ [v])
      simp only [story_next, skipLastStep]
      generalize hqq : seen.drop (seen.length - n.toNat) = q
      have hl : q.length = min seen.length n.toNat := by
        rw [← hqq]; simp; omega
      by_cases hlt : ((q ++ [v]).length : Int) > n
      · simp only [hlt, if_true]
        simp only [List.length_append, List.length_singleton] at hlt ih
        have hk : seen.length + 1 - n.toNat = (seen.length - n.toNat) + 1 := by omega
        have hd : (q ++ [v]) = (seen ++ [v]).drop (seen.length - n.toNat) := by
          rw [← hqq, List.drop_append_of_le_length (by omega)]
        have ht : (q ++ [v]).tail = (seen ++ [v]).drop (seen.length + 1 - n.toNat) := by
          rw [hd, List.tail_drop, hk]
        rw [ht, cut_map_next_append, ih, hd]
        simp only [List.append_assoc, List.singleton_append, List.length_append,
          List.length_cons, hk]
        have hlen : seen.length + 1 + (story ns).vals.length - n.toNat =
            seen.length + ((story ns).vals.length + 1) - n.toNat := by omega
        rw [hlen]
        generalize hK : seen.length + ((story ns).vals.length + 1) - n.toNat = K
        generalize hL : seen.length - n.toNat = L at *
        have hLK : L < K := by omega
        have hLs : L < (seen ++ v :: (story ns).vals).length := by simp; omega
        have h1 : (List.drop L (seen ++ [v])).head?.toList =
            [(seen ++ v :: (story ns).vals)[L]] := by
          have : (seen ++ v :: (story ns).vals) = (seen ++ [v]) ++ (story ns).vals := by simp
          have hh : L < (seen ++ [v]).length := by simp; omega
          simp only [List.head?_drop, List.getElem?_eq_getElem hh, Option.toList_some]
          simp only [this]
          rw [List.getElem_append_left hh]
        have h2 : List.drop L (List.take K (seen ++ v :: (story ns).vals)) =
            (seen ++ v :: (story ns).vals)[L] ::
              List.drop (L+1) (List.take K (seen ++ v :: (story ns).vals)) := by
          have hlt : L < (List.take K (seen ++ v :: (story ns).vals)).length := by
            simp at hLs ⊢; omega
          rw [List.drop_eq_getElem_cons hlt, List.getElem_take]
        rw [h1, h2]
        simp only [List.filter_cons]
        split <;> simp
      · simp only [hlt, if_false]
        simp only [List.length_append, List.length_singleton] at hlt ih
        have h1 : seen.length - n.toNat = 0 := by omega
        have h2 : seen.length + 1 - n.toNat = 0 := by omega
        rw [h1] at hqq ⊢
        rw [h2] at ih
        simp only [List.drop_zero] at hqq ih
        rw [List.nil_append, ← hqq, ih]
        simp [Nat.add_assoc, Nat.add_comm]

theorem skipLast_front (isNone : α → Bool) (n : Int) :
    Front (skipLastW isNone n : Wrap α α) fun s =>
      ⟨(Spec.skipLast n s).vals.filter fun v => !isNone v, s.fin⟩ := by
  refine front_intro (skipLastStep isNone n) ?_ ?_
  · rintro (v | e | _) (t : List α)
    · simp only [Observer.accept_next, Py.bind_eq, Py.andThen, Py.getL_run, Py.setL_run, skipLastStep]
      by_cases h : ((t ++ [v]).length : Int) > n
      · simp only [h, if_true]
        cases t with
        | nil => cases hv : isNone v <;> simp [hv, Py.andThen]
        | cons a t => cases hv : isNone a <;> simp [hv, Py.andThen]
      · simp only [h, if_false]
        simp [Py.andThen]
    · simp [skipLastStep]
    · simp [skipLastStep]
  · intro ns
    have := skipLastStep_out isNone n [] ns
    simpa [Spec.skipLast, Story.events] using this

theorem skipLast_acts (isNone : α → Bool) (n : Int) : (skipLast isNone n : Operator α α).Acts
    fun s => ⟨(Spec.skipLast n s).vals.filter fun v => !isNone v, s.fin⟩ :=
  (skipLast_front isNone n).acts
theorem skipLast_actsRaw (isNone : α → Bool) (n : Int) : (skipLast isNone n : Operator α α).ActsRaw
    fun s => ⟨(Spec.skipLast n s).vals.filter fun v => !isNone v, s.fin⟩ :=
  (skipLast_front isNone n).actsRaw

/-! ### zip_seq -/

/-- Pairing with a sequence from position `k` on. -/
def zipFrom (it : Iterable β) : Nat → List α → End → Story (α × β)
  | _, [], fin => ⟨[], fin⟩
  | k, x :: xs, fin =>
    match it k with
    | .item y => ⟨(x, y) :: (zipFrom it (k + 1) xs fin).vals, (zipFrom it (k + 1) xs fin).fin⟩
    | .stop => ⟨[], .done⟩
    | .raises e => ⟨[], .failed e⟩

def zipStep (it : Iterable β) (k : Nat) : Notif α → Nat × List (Notif (α × β))
  | .next x => (k + 1, match it k with
    | .item y => [.next (x, y)]
    | .stop => [.completed]
    | .raises e => [.error e])
  | .error e => (k, [.error e])
  | .completed => (k, [.completed])

theorem zipStep_out (it : Iterable β) (k : Nat) (ns : List (Notif α)) :
    cut (stepOut (zipStep it) k ns) = (zipFrom it k (story ns).vals (story ns).fin).events := by
  induction ns generalizing k with
  | nil => simp [zipFrom, stepOut]
  | cons m ns ih =>
    rw [stepOut]
    cases m with
    | error e => simp [zipFrom, zipStep]
    | completed => simp [zipFrom, zipStep]
    | next v =>
      cases h : it k with
      | item y => simp [zipFrom, zipStep, h, ih, Story.events]
      | stop => simp [zipFrom, zipStep, h]
      | raises e => simp [zipFrom, zipStep, h]

theorem zipSeq_front {it : Iterable β} (hc : ∀ k, it k ≠ .raises .cancelled) :
    Front (zipSeqW it : Wrap α (α × β)) fun s => zipFrom it 0 s.vals s.fin := by
  refine front_intro (zipStep it) ?_ (zipStep_out it 0)
  rintro (v | e | _) (k : Nat)
  · have hk := hc k
    simp only [Observer.accept_next, Py.bind_eq, Py.andThen, Py.getL_run, zipStep, Py.tryExcept]
    cases h : it k with
    | item y => simp
    | stop => simp
    | raises e =>
      have : e ≠ .cancelled := fun he => hk (by rw [h, he])
      cases e <;> simp_all
  · simp [zipStep]
  · simp [zipStep]

theorem zipSeq_acts {it : Iterable β} (hc : ∀ k, it k ≠ .raises .cancelled) :
    (zipSeq it : Operator α (α × β)).Acts fun s => zipFrom it 0 s.vals s.fin :=
  (zipSeq_front hc).acts
theorem zipSeq_actsRaw {it : Iterable β} (hc : ∀ k, it k ≠ .raises .cancelled) :
    (zipSeq it : Operator α (α × β)).ActsRaw fun s => zipFrom it 0 s.vals s.fin :=
  (zipSeq_front hc).actsRaw

theorem zipFrom_items (f : Nat → β) (k : Nat) (xs : List α) (fin : End) :
    zipFrom (fun k => .item (f k)) k xs fin = ⟨(xs.zipIdx k).map fun p => (p.1, f p.2), fin⟩ := by
  induction xs generalizing k with
  | nil => rfl
  | cons x xs ih => simp [zipFrom, ih]

/-! ### distinct_until_changed -/

theorem loopAgent_fn {obv : Observer σ ο α} (h : NoRaise obv) (s : σ) (ns : List (Notif α)) :
    (loopAgent obv s).fn ns = (Agent.ofObserver obv s).fn ns := by
  have : ∀ s1, ((loopAgent obv s).run (true, s1) ns).2 = ((Agent.ofObserver obv s).run s1 ns).2 := by
    induction ns with
    | nil => intro; rfl
    | cons n ns ih =>
      intro s1
      obtain ⟨u, hu⟩ := h n s1
      rcases hr : obv.accept n s1 with ⟨v, s2, o⟩
      rw [hr] at hu
      simp only at hu
      subst hu
      have h1 : (loopAgent obv s).recv (true, s1) n = ((true, s2), o) := by simp [loopAgent, hr]
      have h2 : (Agent.ofObserver obv s).recv s1 n = (s2, o) := by simp [Agent.ofObserver, hr]
      simp only [Agent.run_cons, h1, h2, ih]
  exact this _

/-- `w` behind a plain agent, which may die. -/
def LoopFront (w : Wrap α β) (G : Story α → Story β) : Prop :=
  ∀ ns, cut ((loopAgent (w.obs Observer.post) (w.init, ())).fn ns) = (G (story ns)).events

theorem LoopFront.story {w : Wrap α β} {G} (hw : LoopFront w G) (ns : List (Notif α)) :
    Spec.story ((loopAgent (w.obs Observer.post) (w.init, ())).fn ns) = G (Spec.story ns) := by
  have := congrArg Spec.story (hw ns)
  simpa [cut] using this

theorem Front.loop {w : Wrap α β} {G} (hw : Front w G) : LoopFront w G :=
  fun ns => by rw [loopAgent_fn hw.1, hw.2]

theorem loop_front {w : Wrap α β} {G} {c : Chain β γ} {F} (hw : LoopFront w G) (h : Guarded c F) :
    ∃ (St Lab : Type) (p : Proc St Lab (Notif α) (Notif γ)),
      (Chain.loop (.wrap w (.safe c))).compile = .more Observer.post () p ∧
      p.Implements (fun ns => (F (G (story ns))).events) ∧ p.Terminates := by
  obtain ⟨St, Lab, p, hp, h1, h2⟩ := Code.guard_spec h
  rw [Chain.compile, Chain.compile, Chain.compile, hp]
  refine ⟨_, _, _, rfl, ?_, Proc.seq_terminates (Proc.mailbox_terminates _) h2⟩
  refine (Proc.seq_implements (Proc.mailbox_implements _) h1 (fun _ _ h => h1.mono h2 h)).congr ?_
  intro ns
  simp only [hw.story]

theorem LoopFront.acts {w : Wrap α β} {G} (hw : LoopFront w G) :
    Operator.Acts ⟨fun c => .loop (.wrap w (.safe c))⟩ G := by
  intro γ c F h
  obtain ⟨St, Lab, p, hp, h1, h2⟩ := loop_front hw h
  rw [Guarded, hp]
  exact ⟨_, h1, h2, fun ns => by simp [safeOut_post, cut]⟩

theorem LoopFront.actsRaw {w : Wrap α β} {G} (hw : LoopFront w G) :
    Operator.ActsRaw ⟨fun c => .loop (.wrap w (.safe c))⟩ G := by
  intro γ c F h
  obtain ⟨St, Lab, p, hp, h1, h2⟩ := loop_front hw h
  rw [hp]
  exact ⟨_, h1, h2, fun ns => by simp⟩

theorem loop_dead {obv : Observer σ ο α} {s0 s : σ} (ns : List (Notif α)) : ((loopAgent obv s0).run (false, s) ns).2 = [] := by
  induction ns with
  | nil => rfl
  | cons n ns ih =>
    have h1 : (loopAgent obv s0).recv (false, s) n = ((false, s), []) := by simp [loopAgent]
    simp only [Agent.run_cons, h1, ih, List.append_nil]

/-- the value before, if there is one -/
def prevOf : Notif α → Option α
  | .next l => some l
  | _ => none

theorem distinct_run (eq : α → α → Except Err Bool) (t : Notif α) (ns : List (Notif α)) :
    cut ((loopAgent ((distinctW eq).obs Observer.post) ((distinctW eq).init, ())).run (true, (t, ())) ns).2 =
      (distinctTry eq (prevOf t) (story ns).vals (story ns).fin).events := by
  induction ns generalizing t with
  | nil => rfl
  | cons n ns ih =>
    cases n with
    | error e =>
      have h1 : (loopAgent ((distinctW eq).obs Observer.post) ((distinctW eq).init, ())).recv (true, (t, ())) (.error e) =
          ((true, (.error e, ())), [.error e]) := by simp [loopAgent, Py.andThen]
      rw [Agent.run_cons, h1]
      simp [distinctTry, Story.events, End.events]
    | completed =>
      have h1 : (loopAgent ((distinctW eq).obs Observer.post) ((distinctW eq).init, ())).recv (true, (t, ())) .completed =
          ((true, (.completed, ())), [.completed]) := by simp [loopAgent, Py.andThen]
      rw [Agent.run_cons, h1]
      simp [distinctTry, Story.events, End.events]
    | next v =>
      have hm : ((prevOf t).map (eq v)).getD (.ok false) = sameAs eq v t := by cases t <;> rfl
      rw [story_next, distinctTry, hm]
      rcases hq : sameAs eq v t with e | b
      · have h1 : (loopAgent ((distinctW eq).obs Observer.post) ((distinctW eq).init, ())).recv (true, (t, ())) (.next v) =
            ((false, (t, ())), []) := by simp [loopAgent, Py.andThen, Py.call, hq]
        rw [Agent.run_cons, h1, loop_dead]
        rfl
      · cases b
        · have h1 : (loopAgent ((distinctW eq).obs Observer.post) ((distinctW eq).init, ())).recv (true, (t, ())) (.next v) =
              ((true, (.next v, ())), [.next v]) := by simp [loopAgent, Py.andThen, Py.call, hq, Py.tryExcept]
          have := ih (.next v)
          rw [Agent.run_cons, h1]
          exact congrArg (Notif.next v :: ·) this
        · have h1 : (loopAgent ((distinctW eq).obs Observer.post) ((distinctW eq).init, ())).recv (true, (t, ())) (.next v) =
              ((true, (.next v, ())), []) := by simp [loopAgent, Py.andThen, Py.call, hq]
          have := ih (.next v)
          rw [Agent.run_cons, h1]
          exact this

theorem distinctTry_front (eq : α → α → Except Err Bool) :
    LoopFront (distinctW eq) (fun s => distinctTry eq none s.vals s.fin) :=
  fun ns => distinct_run eq .completed ns

theorem distinctTry_some (eq : α → α → Bool) (l : α) (xs : List α) (fin : End) :
    distinctTry (fun a b => .ok (eq a b)) (some l) xs fin =
      ⟨((xs.zip (l :: xs)).filter fun p => !eq p.1 p.2).map Prod.fst, fin⟩ := by
  induction xs generalizing l with
  | nil => rfl
  | cons x xs ih => cases h : eq x l <;> simp [distinctTry, h, ih]

theorem distinctTry_ok (eq : α → α → Bool) (s : Story α) :
    distinctTry (fun a b => .ok (eq a b)) none s.vals s.fin = Spec.distinct eq s := by
  obtain ⟨vs, fin⟩ := s
  cases vs with
  | nil => rfl
  | cons x xs => simp [distinctTry, distinctTry_some, Spec.distinct, changes]

theorem distinctTry_acts (eq : α → α → Except Err Bool) :
    (distinctUntilChanged eq).Acts (fun s => distinctTry eq none s.vals s.fin) := (distinctTry_front eq).acts

theorem distinct_acts (eq : α → α → Bool) : (distinctUntilChanged fun a b => .ok (eq a b)).Acts (Spec.distinct eq) := by
  have := distinctTry_acts fun a b => .ok (eq a b)
  simpa only [distinctTry_ok] using this
theorem distinct_actsRaw (eq : α → α → Bool) :
    (distinctUntilChanged fun a b => .ok (eq a b)).ActsRaw (Spec.distinct eq) := by
  have : (distinctUntilChanged fun a b => .ok (eq a b)).ActsRaw _ := (distinctTry_front fun a b => .ok (eq a b)).actsRaw
  simpa only [distinctTry_ok] using this

/-! ### scan with an accumulator that does not raise -/

theorem scan_pure (f : ρ → α → ρ) (s0 : ρ) :
    PureWrap (scanW (fun s x => .ok (f s x)) s0) fun s x => .ok (f s x, some (f s x)) := by
  refine ⟨?_, fun _ _ => rfl, fun _ => rfl⟩
  intro σ ο O v t s
  simp only [Py.bind_eq, Py.andThen, Py.getL_run, Py.tryElse, Py.call_run]
  simp [Observer.up]

theorem transduce_scan (f : ρ → α → ρ) (s : ρ) (xs : List α) (fin : End) :
    transduce (fun s x => .ok (f s x, some (f s x))) s xs fin = ⟨accumulate f s xs, fin⟩ := by
  induction xs generalizing s with
  | nil => rfl
  | cons x xs ih => simp [transduce, accumulate, ih]

theorem scan_acts (f : ρ → α → ρ) (s0 : ρ) :
    (scan (fun s x => .ok (f s x)) s0).Acts (Spec.scan f s0) :=
  (scan_pure f s0).transparent.acts.congr fun s => transduce_scan f s0 s.vals s.fin

end Aio
