import Verif.Lemmas.Fronts
import Verif.Spec.Delivery
/-!
# Whole chains: schedule independence, and direct (unguarded) sources
-/
namespace Aio
open Spec

variable {α β γ σ ο τ ρ : Type}

/-! ### every chain computes a function, whatever its code is -/

/-- The processes behind the first mailbox compute a function and cannot run forever. -/
def Code.Det : Code α γ → Prop
  | .final _ _ => True
  | .more _ _ p => ∃ f, p.Implements f ∧ p.Terminates

theorem Chain.det (c : Chain α γ) : c.compile.Det := by
  induction c with
  | done => trivial
  | wrap w c ih =>
    rw [Chain.compile]
    cases h : c.compile with
    | final obs s0 => trivial
    | more obs s0 p => rw [h] at ih; exact ih
  | safe c ih =>
    rw [Chain.compile]
    cases h : c.compile with
    | final obs s0 => exact ⟨_, Proc.mailbox_implements _, Proc.mailbox_terminates _⟩
    | more obs s0 p =>
      rw [h] at ih
      obtain ⟨f, h1, h2⟩ := ih
      exact ⟨_, Proc.seq_implements (Proc.mailbox_implements _) h1 (fun _ _ h => h1.mono h2 h),
        Proc.seq_terminates (Proc.mailbox_terminates _) h2⟩
  | loop c ih =>
    rw [Chain.compile]
    cases h : c.compile with
    | final obs s0 => exact ⟨_, Proc.mailbox_implements _, Proc.mailbox_terminates _⟩
    | more obs s0 p =>
      rw [h] at ih
      obtain ⟨f, h1, h2⟩ := ih
      exact ⟨_, Proc.seq_implements (Proc.mailbox_implements _) h1 (fun _ _ h => h1.mono h2 h),
        Proc.seq_terminates (Proc.mailbox_terminates _) h2⟩

theorem Chain.implements (c : Chain α γ) : ∃ f, c.proc.Implements f ∧ c.proc.Terminates := by
  have := c.det
  unfold Chain.proc
  cases h : c.compile with
  | final obs s0 => exact ⟨_, Proc.direct_implements _, Proc.direct_terminates _⟩
  | more obs s0 p =>
    rw [h] at this
    obtain ⟨f, h1, h2⟩ := this
    exact ⟨_, Proc.seq_implements (Proc.direct_implements _) h1 (fun _ _ h => h1.mono h2 h),
      Proc.seq_terminates (Proc.direct_terminates _) h2⟩

/-! ### sources that call the operator directly -/

/-- Calling the pipeline's observer never raises. -/
def Code.Calm : Code α γ → Prop
  | .final obs _ => NoRaise obs
  | .more obs _ _ => NoRaise obs

theorem noRaise_post : NoRaise (Observer.post (α := α)) := fun n s => ⟨(), by simp⟩

theorem Code.guard_calm (c : Code α γ) : c.guard.Calm := by cases c <;> exact noRaise_post
theorem Code.agent_calm (c : Code α γ) : c.agent.Calm := by cases c <;> exact noRaise_post

/-- The operator raises only if its downstream does. -/
def Operator.Calm (op : Operator α β) : Prop :=
  ∀ (γ : Type) (c : Chain β γ), c.compile.Calm → (op.app c).compile.Calm

theorem Operator.Calm.compose {op1 : Operator α β} {op2 : Operator β γ} (h1 : op1.Calm)
    (h2 : op2.Calm) : (op1.compose op2).Calm := fun _ c h => h1 _ _ (h2 _ c h)

theorem Operator.calm_id : (Operator.id : Operator α α).Calm := fun _ _ h => h

theorem PureWrap.calm {w : Wrap α β} {f} (h : PureWrap w f) (hf : ∀ t v, ∃ r, f t v = .ok r) :
    w.op.Calm := by
  have key : ∀ {σ ο : Type} (O : Observer σ ο β), NoRaise O → NoRaise (w.obs O) := by
    intro σ ο O hO n s
    cases n with
    | next v =>
      obtain ⟨⟨t', y⟩, hr⟩ := hf s.1 v
      have := h.asend O v s.1 s.2
      rw [hr] at this
      simp only [Observer.accept_next]
      rw [show s = (s.1, s.2) from rfl, this]
      cases y with
      | none => exact ⟨(), rfl⟩
      | some y => exact hO (.next y) s.2
    | error e => simp only [Observer.accept_error, h.athrow]; exact hO (.error e) s.2
    | completed => simp only [Observer.accept_completed, h.aclose]; exact hO .completed s.2
  intro γ c hc
  show (Chain.wrap w c).compile.Calm
  rw [Chain.compile]
  cases h : c.compile with
  | final obs s0 => rw [h] at hc; exact key _ hc
  | more obs s0 p => rw [h] at hc; exact key _ hc

theorem transform_calm {anext : {σ ο : Type} → (β → Py σ ο Unit) → α → Py σ ο Unit}
    (g : α → Option β)
    (h : ∀ {σ ο : Type} (next : β → Py σ ο Unit) x s, anext next x s =
      match g x with
      | none => ⟨.ok (), s, []⟩
      | some y => next y s) :
    (transform anext).op.Calm := by
  have : PureWrap (transform anext) (fun _ x => .ok ((), g x)) := by
    refine ⟨?_, fun _ _ => rfl, fun _ => rfl⟩
    intro σ ο O v t s
    simp only [h]
    cases g v <;> rfl
  exact this.calm fun t v => ⟨_, rfl⟩

theorem Front.calm {w : Wrap α β} {G} (h : Front w G) : w.safeOp.Calm := by
  intro γ c _
  show (Chain.wrap w (.safe c)).compile.Calm
  rw [Chain.compile, Chain.compile]
  cases c.compile <;> exact h.1

theorem loop_calm (w : Wrap α β) : Operator.Calm ⟨fun c => .loop (.wrap w (.safe c))⟩ := by
  intro γ c _
  show (Chain.loop (.wrap w (.safe c))).compile.Calm
  rw [Chain.compile]
  exact Code.agent_calm _

/-- For a producer that obeys the grammar, calling directly is the same as calling through a safe
observer, if nothing raises. -/
theorem Code.Den.raw {c : Code α γ} {F} (h : c.Den F) (hc : c.Calm) :
    ∃ f, c.RawDen f ∧ ∀ ns, Grammar ns → f ns = (F (story ns)).events := by
  cases c with
  | final obs s0 =>
    refine ⟨_, fun _ => rfl, ?_⟩
    intro ns hg
    rw [← h ns, safeOut_noRaise hc, cut_of_grammar hg]
  | more obs s0 p =>
    obtain ⟨f, h1, h2, h3⟩ := h
    refine ⟨_, ⟨f, h1, h2, fun _ => rfl⟩, ?_⟩
    intro ns hg
    rw [← h3 ns, safeOut_noRaise hc, cut_of_grammar hg]

/-! ### calm operators -/

theorem map_calm (f : α → β) : (map fun x => .ok (f x)).Calm :=
  transform_calm (fun x => some (f x)) fun next x s => by simp [Py.andThen]
theorem mapAsync_calm (f : α → β) : (mapAsync fun x => .ok (f x)).Calm := map_calm f
theorem starmap_calm (f : α → γ → β) : (starmap fun x y => .ok (f x y)).Calm :=
  transform_calm (fun x => some (f x.1 x.2)) fun next x s => by simp [Py.andThen]
theorem starmapAsync_calm (f : α → γ → β) : (starmapAsync fun x y => .ok (f x y)).Calm :=
  starmap_calm f
theorem choose_calm (f : α → Option β) : (choose fun x => .ok (f x)).Calm :=
  transform_calm f fun next x s => by
    simp only [Py.bind_eq, Py.andThen, Py.call_run]
    cases f x <;> simp
theorem chooseAsync_calm (f : α → Option β) : (chooseAsync fun x => .ok (f x)).Calm :=
  transform_calm f fun next x s => by
    simp only [Py.bind_eq, Py.andThen, Py.call_run]
    cases f x with
    | none => simp [Py.forEach]
    | some y =>
      simp only [Option.toList, Py.forEach, Py.andThen]
      rcases next y s with ⟨_ | _, s', o⟩ <;> simp
theorem filter_calm (p : α → Bool) : (filter fun x => .ok (p x)).Calm :=
  transform_calm (fun x => if p x then some x else none) fun next x s => by
    simp only [Py.bind_eq, Py.andThen, Py.call_run]
    cases p x <;> simp
theorem filterAsync_calm (p : α → Bool) : (filterAsync fun x => .ok (p x)).Calm := filter_calm p
theorem starfilter_calm (p : α → γ → Bool) : (starfilter fun x y => .ok (p x y)).Calm :=
  transform_calm (fun x => if p x.1 x.2 then some x else none) fun next x s => by
    simp only [Py.bind_eq, Py.andThen, Py.call_run]
    cases p x.1 x.2 <;> simp
theorem scan_calm (f : ρ → α → ρ) (s0 : ρ) : (scan (fun s x => .ok (f s x)) s0).Calm :=
  (scan_pure f s0).calm fun _ _ => ⟨_, rfl⟩
theorem skip_calm (n : Int) : (skip n : Operator α α).Calm := (skip_front n).calm
theorem take_calm (n : Int) : (takeOp n : Operator α α).Calm := (take_front n).calm
theorem takeLast_calm (n : Int) : (takeLast n : Operator α α).Calm := (takeLast_front n).calm
theorem skipLast_calm (isNone : α → Bool) (n : Int) : (skipLast isNone n).Calm :=
  (skipLast_front isNone n).calm
theorem distinct_calm (eq : α → α → Except Err Bool) : (distinctUntilChanged eq).Calm := loop_calm _
theorem zipSeq_calm {it : Iterable β} (hc : ∀ k, it k ≠ .raises .cancelled) :
    (zipSeq it : Operator α (α × β)).Calm := (zipSeq_front hc).calm

/-! ### from `Acts` to `Computes` -/

theorem Operator.Acts.delivers {op : Operator α β} {G} (h : op.Acts G) :
    Delivers op.protected.proc (fun _ => True) G :=
  ⟨fun es s out he _ => (h.protected.1 es s out he).1,
   fun es s out he _ => (h.protected.1 es s out he).2, h.protected.2⟩

theorem Operator.ActsRaw.delivers {op : Operator α β} {G} (h : op.ActsRaw G) :
    Delivers op.direct.proc (fun _ => True) G :=
  ⟨fun es s out he _ => (h.direct.1 es s out he).1,
   fun es s out he _ => (h.direct.1 es s out he).2, h.direct.2⟩

theorem Operator.Acts.computes {op : Operator α β} {G} (h : op.Acts G) (hc : op.Calm) :
    op.Computes G := by
  refine ⟨h.delivers, ?_⟩
  have hd : op.direct.compile.Den ((fun s => s) ∘ G) := h _ _ _ guarded_done
  obtain ⟨f, h1, h2⟩ := hd.raw (hc _ _ noRaise_post)
  have h3 := h1.implements
  refine ⟨fun es s out he hg => ?_, fun es s out he hg hq => ?_, h3.2⟩
  · have := (h3.1 es s out he).1; rw [h2 _ hg] at this; exact this
  · have := (h3.1 es s out he).2 hq; rw [h2 _ hg] at this; exact this

/-! ### compositions -/

theorem tryEach_keep (p : α → Bool) (xs : List α) (fin : End) :
    tryEach (keepIf fun x => .ok (p x)) xs fin = ⟨xs.filter p, fin⟩ := by
  induction xs with
  | nil => rfl
  | cons x xs ih => cases h : p x <;> simp [tryEach, keepIf, Except.map, h] <;> simp [ih]

theorem infinite_calm : ∀ k, infinite k ≠ .raises .cancelled := fun _ => by simp [infinite]

theorem zip_infinite_acts : (zipSeq infinite : Operator α (α × Nat)).Acts
    fun s => ⟨s.vals.zipIdx, s.fin⟩ :=
  (zipSeq_acts infinite_calm).congr fun s => by
    have := zipFrom_items (fun k => k) 0 s.vals s.fin
    simpa [infinite] using this

theorem mapi_acts (f : α → Nat → β) :
    (mapi fun x i => .ok (f x i)).Acts fun s => ⟨s.vals.mapIdx fun i x => f x i, s.fin⟩ :=
  (zip_infinite_acts.compose (starmap_acts (f := fun x i => .ok (f x i)))).congr fun s => by
    have := tryEach_ok (fun x : α × Nat => some (f x.1 x.2)) s.vals.zipIdx s.fin
    simp only [Function.comp, Except.map]
    rw [this]
    simp [List.mapIdx_eq_zipIdx_map]

theorem mapiAsync_acts (f : α → Nat → β) :
    (mapiAsync fun x i => .ok (f x i)).Acts fun s => ⟨s.vals.mapIdx fun i x => f x i, s.fin⟩ :=
  mapi_acts f

theorem filteri_acts (p : α → Nat → Bool) :
    (filteri fun x i => .ok (p x i)).Acts fun s =>
      ⟨(s.vals.zipIdx.filter fun q => p q.1 q.2).map Prod.fst, s.fin⟩ :=
  ((zip_infinite_acts.compose (starfilter_acts (p := fun x i => .ok (p x i)))).compose
    (map_acts (f := fun q : α × Nat => .ok q.1))).congr fun s => by
    simp only [Function.comp, Except.map, tryEach_keep (fun x : α × Nat => p x.1 x.2)]
    rw [tryEach_ok fun x : α × Nat => some x.1]
    simp

theorem reduce_acts (f : ρ → α → ρ) (s0 : ρ) :
    (reduce (fun s x => .ok (f s x)) s0).Acts fun s => Spec.takeLast 1 (Spec.scan f s0 s) :=
  (scan_acts f s0).compose (takeLast_acts 1)

theorem mapi_calm (f : α → Nat → β) : (mapi fun x i => .ok (f x i)).Calm :=
  (zipSeq_calm infinite_calm).compose (starmap_calm f)
theorem mapiAsync_calm (f : α → Nat → β) : (mapiAsync fun x i => .ok (f x i)).Calm := mapi_calm f
theorem filteri_calm (p : α → Nat → Bool) : (filteri fun x i => .ok (p x i)).Calm :=
  ((zipSeq_calm infinite_calm).compose (starfilter_calm p)).compose (map_calm _)
theorem reduce_calm (f : ρ → α → ρ) (s0 : ρ) : (reduce (fun s x => .ok (f s x)) s0).Calm :=
  (scan_calm f s0).compose (takeLast_calm 1)

end Aio
