import Verif.Props.C27_30_Map
/-!
# C105: pipelines can be rewritten by the usual laws

Two operators are interchangeable if no subscriber can tell a pipeline with one from the same pipeline with the other: whatever
operators come before and after, whatever the source does, and whatever the schedules are.
-/

namespace Aio
open Spec
variable {α β γ δ ρ : Type}

/-! ## vocabulary -/

/-- No observer can tell the pipelines apart: on the same calls of the source a complete run of one and a complete run of the other
deliver the same, and a run that is still under way has delivered an initial part of that. -/
def SameOutput (c d : Chain α γ) (dom : List (Notif α) → Prop) : Prop :=
  ∀ es s out es' s' out', c.proc.exec c.proc.init es = some (s, out) → d.proc.exec d.proc.init es' = some (s', out') →
    Proc.inputs es = Proc.inputs es' → dom (Proc.inputs es) →
    (d.proc.Quiescent s' → out <+: out') ∧ (c.proc.Quiescent s → out' <+: out)

/-- `op` can be replaced by `op'` in any pipeline of operators that are functions of the stream, behind a source that delivers
through a safe observer. -/
def Operator.SameBehindSafe (op op' : Operator α β) : Prop :=
  ∀ {δ γ : Type} (pre : Operator δ α) (post : Operator β γ) (P : Story δ → Story α) (Q : Story β → Story γ),
    pre.Acts P → post.Acts Q →
    SameOutput (pre.compose (op.compose post)).protected (pre.compose (op'.compose post)).protected fun _ => True

/-- The same also behind a source that calls the operators directly and keeps the Rx grammar. `Calm`: the operator does not raise by
itself. -/
structure Operator.Same (op op' : Operator α β) : Prop where
  safe : op.SameBehindSafe op'
  direct : ∀ {δ γ : Type} (pre : Operator δ α) (post : Operator β γ) (P : Story δ → Story α) (Q : Story β → Story γ),
    pre.Acts P → pre.Calm → post.Acts Q → post.Calm →
    SameOutput (pre.compose (op.compose post)).direct (pre.compose (op'.compose post)).direct Grammar

/-! ## operators that act as the same function are interchangeable -/

theorem SameOutput.of_delivers {c d : Chain α γ} {dom : List (Notif α) → Prop} {G : Story α → Story γ} (hc : Delivers c.proc dom G)
    (hd : Delivers d.proc dom G) : SameOutput c d dom := by
  intro es s out es' s' out' h h' hi hdom
  refine ⟨fun hq => ?_, fun hq => ?_⟩
  · rw [hd.all _ _ _ h' (hi ▸ hdom) hq, ← hi]; exact hc.prefix_ _ _ _ h hdom
  · rw [hc.all _ _ _ h hdom hq, hi]; exact hd.prefix_ _ _ _ h' (hi ▸ hdom)

theorem Operator.Acts.sameBehindSafe {op op' : Operator α β} {G} (h : op.Acts G) (h' : op'.Acts G) : op.SameBehindSafe op' :=
  fun _ _ _ _ hp hq => .of_delivers (hp.compose (h.compose hq)).delivers (hp.compose (h'.compose hq)).delivers

theorem Operator.Acts.same {op op' : Operator α β} {G G'} (h : op.Acts G) (h' : op'.Acts G') (hg : ∀ s, G s = G' s) (c : op.Calm) (c' : op'.Calm) :
    op.Same op' := by
  obtain rfl : G = G' := funext hg
  exact ⟨h.sameBehindSafe h', fun _ _ _ _ hp cp hq cq => .of_delivers ((hp.compose (h.compose hq)).computes (cp.compose (c.compose cq))).direct
    ((hp.compose (h'.compose hq)).computes (cp.compose (c'.compose cq))).direct⟩

private theorem map_total (f : α → β) : (map fun x => .ok (f x)).Acts (mapped f) :=
  (map_acts (f := fun x => .ok (f x))).congr fun s => by
    have := tryEach_ok (fun x => some (f x)) s.vals s.fin
    simpa [Except.map, mapped] using this

private theorem filter_total (p : α → Bool) : (filter fun x => .ok (p x)).Acts (kept p) :=
  (filter_acts (p := fun x => .ok (p x))).congr fun s => tryEach_keep p s.vals s.fin

private theorem choose_total (f : α → Option β) : (choose fun x => .ok (f x)).Acts (chosen f) :=
  (choose_acts (f := fun x => .ok (f x))).congr fun s => tryEach_ok f s.vals s.fin

/-! ## the laws -/

/-- Only the order of the elements and what is made of them matters, not the number of operators. -/
theorem C105_map_map (f : α → β) (g : β → γ) :
    ((map fun x => .ok (f x)).compose (map fun x => .ok (g x))).Same (map fun x => .ok (g (f x))) :=
  ((map_total f).compose (map_total g)).same (map_total _) (fun s => by simp [mapped]) ((map_calm f).compose (map_calm g)) (map_calm _)

/-- The same if the functions raise; the exception of the first element on which one raises is the one reported. -/
theorem C105_map_map_raising (f : α → Except Err β) (g : β → Except Err γ) :
    ((map f).compose (map g)).SameBehindSafe (map fun x => (f x).bind g) := by
  have key : ∀ xs fin, tryEach (fun x => (g x).map some) (tryEach (fun x => (f x).map some) xs fin).vals (tryEach (fun x => (f x).map some) xs fin).fin =
      tryEach (fun x => ((f x).bind g).map some) xs fin := by
    intro xs fin
    induction xs with
    | nil => rfl
    | cons x xs ih =>
      conv => rhs; rw [tryEach]
      conv => lhs; rw [show tryEach (fun x => (f x).map some) (x :: xs) fin = match (f x).map some with
        | .error e => ⟨[], raised e⟩
        | .ok none => tryEach (fun x => (f x).map some) xs fin
        | .ok (some y) => ⟨y :: (tryEach (fun x => (f x).map some) xs fin).vals, (tryEach (fun x => (f x).map some) xs fin).fin⟩ from rfl]
      cases hf : f x with
      | error e => rfl
      | ok y =>
        show tryEach (fun x => (g x).map some) (y :: (tryEach (fun x => (f x).map some) xs fin).vals) (tryEach (fun x => (f x).map some) xs fin).fin = _
        conv => lhs; rw [tryEach]
        rw [ih]
        show _ = (match (g y).map some with
          | .error e => (⟨[], raised e⟩ : Story γ)
          | .ok none => _
          | .ok (some y) => _)
        cases g y <;> rfl
  intro δ γ' pre post P Q hp hq
  exact (((map_acts (f := f)).compose (map_acts (f := g))).congr fun s => key s.vals s.fin).sameBehindSafe map_acts pre post P Q hp hq

theorem C105_map_id : (map fun x : α => .ok x).Same Operator.id :=
  (map_total fun x => x).same Operator.acts_id (fun s => by simp [mapped]) (map_calm _) Operator.calm_id

theorem C105_filter_filter (p q : α → Bool) :
    ((filter fun x => .ok (p x)).compose (filter fun x => .ok (q x))).Same (filter fun x => .ok (p x && q x)) :=
  ((filter_total p).compose (filter_total q)).same (filter_total _) (fun s => by simp [kept, List.filter_filter, Bool.and_comm])
    ((filter_calm p).compose (filter_calm q)) (filter_calm _)

theorem C105_map_filter (f : α → β) (p : β → Bool) :
    ((map fun x => .ok (f x)).compose (filter fun x => .ok (p x))).Same ((filter fun x => .ok (p (f x))).compose (map fun x => .ok (f x))) :=
  ((map_total f).compose (filter_total p)).same ((filter_total _).compose (map_total f))
    (fun s => by simp [kept, mapped, List.filter_map, Function.comp_def]) ((map_calm f).compose (filter_calm p)) ((filter_calm _).compose (map_calm f))

theorem C105_filter_map (p : α → Bool) (f : α → β) :
    ((filter fun x => .ok (p x)).compose (map fun x => .ok (f x))).Same (choose fun x => .ok (if p x then some (f x) else none)) :=
  ((filter_total p).compose (map_total f)).same (choose_total _)
    (fun s => by
      simp only [Function.comp, kept, mapped, chosen]
      congr 1
      induction s.vals with
      | nil => rfl
      | cons x xs ih => cases h : p x <;> simp [h, ih])
    ((filter_calm p).compose (map_calm f)) (choose_calm _)

theorem C105_choose_choose (f : α → Option β) (g : β → Option γ) :
    ((choose fun x => .ok (f x)).compose (choose fun x => .ok (g x))).Same (choose fun x => .ok ((f x).bind g)) :=
  ((choose_total f).compose (choose_total g)).same (choose_total _) (fun s => by simp [chosen, List.filterMap_filterMap])
    ((choose_calm f).compose (choose_calm g)) (choose_calm _)

theorem C105_map_scan (f : α → β) (g : ρ → β → ρ) (s0 : ρ) :
    ((map fun x => .ok (f x)).compose (scan (fun s x => .ok (g s x)) s0)).Same (scan (fun s x => .ok (g s (f x))) s0) :=
  ((map_total f).compose (scan_acts g s0)).same (scan_acts _ s0)
    (fun s => by
      have : ∀ (xs : List α) r, accumulate g r (xs.map f) = accumulate (fun s x => g s (f x)) r xs := by
        intro xs
        induction xs with
        | nil => intro r; rfl
        | cons x xs ih => intro r; simp [accumulate, ih]
      simp [Spec.scan, mapped, this])
    ((map_calm f).compose (scan_calm g s0)) (scan_calm _ s0)

theorem C105_map_mapi (f : α → β) (g : β → Nat → γ) :
    ((map fun x => .ok (f x)).compose (mapi fun x i => .ok (g x i))).Same (mapi fun x i => .ok (g (f x) i)) :=
  ((map_total f).compose (mapi_acts g)).same (mapi_acts _) (fun s => by simp [mapped, List.mapIdx_eq_zipIdx_map, List.zipIdx_map, Function.comp_def])
    ((map_calm f).compose (mapi_calm g)) (mapi_calm _)

theorem C105_map_skip (f : α → β) (n : Int) :
    ((map fun x => .ok (f x)).compose (skip n)).Same ((skip n).compose (map fun x => .ok (f x))) :=
  ((map_total f).compose (skip_acts n)).same ((skip_acts n).compose (map_total f)) (fun s => by simp [mapped, Spec.skip])
    ((map_calm f).compose (skip_calm n)) ((skip_calm n).compose (map_calm f))

theorem C105_map_take (f : α → β) (n : Int) :
    ((map fun x => .ok (f x)).compose (takeOp n)).Same ((takeOp n).compose (map fun x => .ok (f x))) :=
  ((map_total f).compose (take_acts n)).same ((take_acts n).compose (map_total f)) (fun s => by simp [mapped, Spec.take])
    ((map_calm f).compose (take_calm n)) ((take_calm n).compose (map_calm f))

theorem C105_map_take_last (f : α → β) (n : Int) :
    ((map fun x => .ok (f x)).compose (takeLast n)).Same ((takeLast n).compose (map fun x => .ok (f x))) :=
  ((map_total f).compose (takeLast_acts n)).same ((takeLast_acts n).compose (map_total f))
    (fun s => by rcases s with ⟨vs, _ | _ | _⟩ <;> simp [mapped, Spec.takeLast])
    ((map_calm f).compose (takeLast_calm n)) ((takeLast_calm n).compose (map_calm f))

theorem C105_skip_skip (m n : Nat) : ((skip m).compose (skip n)).Same (skip (m + n : Nat) : Operator α α) :=
  ((skip_acts m).compose (skip_acts n)).same (skip_acts _) (fun s => by simp only [Function.comp, Spec.skip, Int.toNat_natCast, List.drop_drop])
    ((skip_calm m).compose (skip_calm n)) (skip_calm _)

theorem C105_skip_none : (skip 0 : Operator α α).Same Operator.id :=
  (skip_acts 0).same Operator.acts_id (fun s => by simp [Spec.skip]) (skip_calm 0) Operator.calm_id

/-- For counts other than 0 (`take(0)` does not complete the stream, so the law would fail: `C105_take_zero_differs`). -/
theorem C105_take_take {m n : Nat} (hm : 0 < m) (hn : 0 < n) : ((takeOp m).compose (takeOp n)).Same (takeOp (min m n : Nat) : Operator α α) :=
  ((take_acts m).compose (take_acts n)).same (take_acts _)
    (fun s => by
      have h0 : 0 < min m n := by omega
      simp only [Function.comp, Spec.take, Int.toNat_natCast, List.take_take, List.length_take, Story.mk.injEq]
      refine ⟨by rw [Nat.min_comm], ?_⟩
      by_cases h1 : n ≤ min m s.vals.length
      · rw [if_pos ⟨by omega, by omega⟩, if_pos ⟨by omega, by omega⟩]
      · rw [if_neg (by omega)]
        by_cases h2 : m ≤ s.vals.length
        · rw [if_pos ⟨by omega, by omega⟩, if_pos ⟨by omega, by omega⟩]
        · rw [if_neg (by omega), if_neg (by omega)])
    ((take_calm m).compose (take_calm n)) (take_calm _)

/-- `source[m:m+n]` by `skip` and `take` in either order. -/
theorem C105_skip_take (m : Nat) {n : Nat} (hn : 0 < n) : ((skip m).compose (takeOp n)).Same ((takeOp (m + n : Nat)).compose (skip m) : Operator α α) :=
  ((skip_acts m).compose (take_acts n)).same ((take_acts _).compose (skip_acts m))
    (fun s => by
      simp only [Function.comp, Spec.take, Spec.skip, Int.toNat_natCast, List.length_drop, Story.mk.injEq]
      refine ⟨by rw [List.drop_take]; congr 1; omega, ?_⟩
      by_cases h : m + n ≤ s.vals.length
      · rw [if_pos ⟨by omega, by omega⟩, if_pos ⟨by omega, by omega⟩]
      · rw [if_neg (by omega), if_neg (by omega)])
    ((skip_calm m).compose (take_calm n)) ((take_calm _).compose (skip_calm m))

theorem C105_take_last_take_last (m n : Nat) : ((takeLast m).compose (takeLast n)).Same (takeLast (min m n : Nat) : Operator α α) :=
  ((takeLast_acts m).compose (takeLast_acts n)).same (takeLast_acts _)
    (fun s => by
      rcases s with ⟨vs, _ | _ | _⟩ <;> simp only [Function.comp, Spec.takeLast]
      simp only [Int.toNat_natCast, List.drop_drop, List.length_drop]
      congr 2; omega)
    ((takeLast_calm m).compose (takeLast_calm n)) (takeLast_calm _)

private theorem filter_all (xs : List α) : xs.filter (fun _ => true) = xs := List.filter_eq_self.mpr fun _ _ => rfl

/-- For elements that are never `None` (which `skip_last` drops, C46). -/
theorem C105_skip_last_skip_last (m n : Nat) (α : Type) :
    ((skipLast (fun _ : α => false) m).compose (skipLast (fun _ => false) n)).Same (skipLast (fun _ => false) (m + n : Nat)) :=
  ((skipLast_acts _ m).compose (skipLast_acts _ n)).same (skipLast_acts _ _)
    (fun s => by
      simp only [Function.comp, Spec.skipLast, Int.toNat_natCast, Bool.not_false, filter_all, List.take_take, List.length_take]
      congr 2; omega)
    ((skipLast_calm _ m).compose (skipLast_calm _ n)) (skipLast_calm _ _)

/-- The elements of `xs` that differ from the one before; `l` comes before `xs`. -/
private def after (eq : α → α → Bool) (l : α) : List α → List α
  | [] => []
  | x :: xs => if eq x l then after eq x xs else x :: after eq x xs

private theorem changes_cons (eq : α → α → Bool) (x : α) (xs : List α) : changes eq (x :: xs) = x :: after eq x xs := by
  rw [changes]
  congr 1
  induction xs generalizing x with
  | nil => rfl
  | cons y ys ih =>
    rw [after, List.zip_cons_cons, List.filter_cons]
    cases h : eq y x <;> simp [← ih y]

private theorem after_after {eq : α → α → Bool} (refl : ∀ a, eq a a = true) (symm : ∀ a b, eq a b = true → eq b a = true)
    (trans : ∀ a b c, eq a b = true → eq b c = true → eq a c = true) (l l' : α) (xs : List α) (h : eq l l' = true) :
    after eq l' (after eq l xs) = after eq l xs := by
  induction xs generalizing l l' with
  | nil => rfl
  | cons x xs ih =>
    rw [after]
    cases hx : eq x l with
    | true => exact ih x l' (trans _ _ _ hx h)
    | false =>
      have hx' : eq x l' = false := by
        cases hb : eq x l' with
        | false => rfl
        | true => rw [trans _ _ _ hb (symm _ _ h)] at hx; cases hx
      simp only [Bool.false_eq_true, if_false]
      rw [after, hx']
      simp only [Bool.false_eq_true, if_false]
      rw [ih x x (refl x)]

/-- For a comparison that is an equivalence. -/
theorem C105_distinct_twice {eq : α → α → Bool} (refl : ∀ a, eq a a = true) (symm : ∀ a b, eq a b = true → eq b a = true)
    (trans : ∀ a b c, eq a b = true → eq b c = true → eq a c = true) :
    ((distinctUntilChanged fun a b => .ok (eq a b)).compose (distinctUntilChanged fun a b => .ok (eq a b))).Same
      (distinctUntilChanged fun a b => .ok (eq a b)) :=
  ((distinct_acts eq).compose (distinct_acts eq)).same (distinct_acts eq)
    (fun s => by
      simp only [Function.comp, distinct, Story.mk.injEq, and_true]
      cases s.vals with
      | nil => rfl
      | cons x xs =>
        rw [changes_cons, changes_cons, after_after refl symm trans x x xs (refl x)])
    ((distinct_calm _).compose (distinct_calm _)) (distinct_calm _)

/-! ## the notion is strict: operators that compute different streams are not interchangeable -/

theorem Operator.Same.functions {op op' : Operator α β} {G G' : Story α → Story β} (h : op.Same op') (ho : op.Computes G) (ho' : op'.Computes G')
    (s : Story α) : (G s).events = (G' s).events := by
  have run : ∀ (o : Operator α β) {H}, o.Computes H → ∃ es t out, o.direct.proc.exec o.direct.proc.init es = some (t, out) ∧
      Proc.inputs es = s.events ∧ o.direct.proc.Quiescent t ∧ out = (H s).events := by
    intro o H hH
    have h0 : ∃ t out, o.direct.proc.exec o.direct.proc.init (s.events.map .feed) = some (t, out) := by
      generalize o.direct.proc.init = t
      induction s.events generalizing t with
      | nil => exact ⟨_, _, rfl⟩
      | cons n ns ih =>
        obtain ⟨t', out, h⟩ := ih (o.direct.proc.feed t n).1
        exact ⟨t', (o.direct.proc.feed t n).2 ++ out, by simp only [List.map_cons, Proc.exec, h]⟩
    obtain ⟨t, out, h1⟩ := h0
    obtain ⟨f, hf, ht⟩ := o.direct.implements
    obtain ⟨ls, t', o', h2, h3, -⟩ := Proc.eventually hf ht h1
    have hi : Proc.inputs (s.events.map Proc.Ev.feed ++ ls.map Proc.Ev.step) = s.events := by
      simp
    refine ⟨_, _, _, h2, hi, h3, ?_⟩
    rw [hH.direct.all _ _ _ h2 (by rw [hi]; exact ⟨s, rfl⟩) h3, hi, story_events]
  obtain ⟨es, t, out, h1, h2, h3, rfl⟩ := run op ho
  obtain ⟨es', t', out', h1', h2', h3', rfl⟩ := run op' ho'
  have := h.direct (Operator.id) (Operator.id) _ _ Operator.acts_id Operator.calm_id Operator.acts_id Operator.calm_id _ _ _ _ _ _ h1 h1'
    (h2.trans h2'.symm) ⟨s, h2⟩
  exact (this.1 h3').eq_of_length_le (this.2 h3).length_le

/-- `take(1) | take(0)` completes after the first element, `take(0)` with the source. -/
theorem C105_take_zero_differs : ¬ ((takeOp 1).compose (takeOp 0)).Same (takeOp 0 : Operator Nat Nat) := fun h => by
  have := h.functions (((take_acts 1).compose (take_acts 0)).computes ((take_calm 1).compose (take_calm 0)))
    ((take_acts 0).computes (take_calm 0)) ⟨[7], .running⟩
  exact absurd this (by decide)

/-- Not every order of operators is the same. -/
theorem C105_skip_filter_differs :
    ¬ ((skip 1).compose (filter fun x => .ok (x != 0))).Same ((filter fun x => .ok (x != 0)).compose (skip 1) : Operator Nat Nat) := fun h => by
  have := h.functions (((skip_acts 1).compose (filter_total _)).computes ((skip_calm 1).compose (filter_calm _)))
    (((filter_total _).compose (skip_acts 1)).computes ((filter_calm _).compose (skip_calm 1))) ⟨[0, 7], .done⟩
  exact absurd this (by decide)

/-! ## examples -/

-- the laws at work in the middle of a pipeline: `skip(1) | map | map | take(2)` against `skip(1) | map | take(2)`
example : SameOutput ((skip 1).compose (((map fun x : Nat => .ok (x + 1)).compose (map fun x => .ok (x * 2))).compose (takeOp 2))).direct
    ((skip 1).compose ((map fun x : Nat => .ok ((x + 1) * 2)).compose (takeOp 2))).direct Grammar :=
  (C105_map_map _ _).direct _ _ _ _ (skip_acts 1) (skip_calm 1) (take_acts 2) (take_calm 2)
example : ((distinctUntilChanged fun a b : Nat => .ok (a == b)).compose (distinctUntilChanged fun a b => .ok (a == b))).Same
    (distinctUntilChanged fun a b => .ok (a == b)) :=
  C105_distinct_twice (by simp) (by simp) (by simp)

end Aio
