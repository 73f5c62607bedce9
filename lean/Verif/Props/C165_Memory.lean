import Verif.Lemmas.Fronts
/-!
# C165: what `take_last` and `skip_last` remember
-/

namespace Aio
variable {α σ ο : Type}

/-! ### vocabulary -/

/-- The values among the calls. -/
def received (ns : List (Notif α)) : List α := ns.filterMap fun | .next v => some v | _ => none

/-- The last `n` elements, all if there are not so many. -/
def lastOf (n : Nat) (xs : List α) : List α := xs.drop (xs.length - n)

/-- The memory of an operator's observer, after the calls `ns`, in front of an observer `o` that may do anything. -/
def memory (w : Wrap α α) (o : Observer σ ο α) (s : σ) (ns : List (Notif α)) : w.τ :=
  (ns.foldl (fun t n => ((w.obs o).accept n t).st) (w.init, s)).1

/-! ### lemmas -/

private theorem received_snoc (ns : List (Notif α)) (n : Notif α) : received (ns ++ [n]) =
    received ns ++ (match n with | .next v => [v] | _ => []) := by
  rw [received, List.filterMap_append]; cases n <;> rfl

private theorem lastOf_length (n : Nat) (xs : List α) : (lastOf n xs).length = min n xs.length := by
  simp [lastOf]; omega

private theorem lastOf_snoc (n : Int) (xs : List α) (v : α) :
    (if ((lastOf n.toNat xs ++ [v]).length : Int) > n then (lastOf n.toNat xs ++ [v]).tail else lastOf n.toNat xs ++ [v]) =
      lastOf n.toNat (xs ++ [v]) := by
  have hl := lastOf_length n.toNat xs
  generalize hq : lastOf n.toNat xs = q at hl
  unfold lastOf at hq ⊢
  split
  · rename_i hlt
    simp at hlt
    by_cases h0 : n.toNat = 0
    · have : q = [] := List.eq_nil_of_length_eq_zero (by omega)
      subst this; simp [h0]
    · have h1 : q ≠ [] := by
        intro h; subst h
        simp only [List.length_nil] at hlt hl; omega
      rw [List.tail_append_of_ne_nil h1, ← hq]
      rw [List.drop_append_of_le_length (by simp; omega), List.tail_drop]
      congr 2
      simp
      omega
  · rename_i hlt
    simp at hlt
    have h1 : xs.length - n.toNat = 0 := by omega
    have h2 : xs.length + 1 - n.toNat = 0 := by omega
    simp [← hq, h1, h2]

private theorem memory_snoc (w : Wrap α α) (o : Observer σ ο α) (s : σ) (ns : List (Notif α)) (n : Notif α) :
    ∃ s', memory w o s (ns ++ [n]) = ((w.obs o).accept n (memory w o s ns, s')).st.1 := by
  refine ⟨(ns.foldl (fun t n => ((w.obs o).accept n t).st) (w.init, s)).2, ?_⟩
  rw [memory, List.foldl_append]; rfl

private theorem up_st {τ : Type} (o : Observer σ ο α) (n : Notif α) (t : τ) (s : σ) :
    ((Observer.up (τ := τ) o).accept n (t, s)).st.1 = t := by
  cases n <;> rfl

private theorem andThen_keeps {τ β γ : Type} {m : Py (τ × σ) ο β} {k : β → Py (τ × σ) ο γ} {t : τ} {s : σ}
    (hm : ∀ s, (m (t, s)).st.1 = t) (hk : ∀ b s, (k b (t, s)).st.1 = t) : (Py.andThen m k (t, s)).st.1 = t := by
  have h := hm s
  rw [Py.andThen]
  rcases hr : m (t, s) with ⟨v, st, out⟩
  rw [hr] at h
  obtain ⟨t', s'⟩ := st
  cases h
  cases v with
  | error e => rfl
  | ok b => exact hk b s'

private theorem forEach_keeps {τ : Type} (o : Observer σ ο α) (q : List α) (t : τ) (s : σ) :
    (Py.forEach q (Observer.up (τ := τ) o).asend (t, s)).st.1 = t := by
  induction q generalizing s with
  | nil => rfl
  | cons v q ih => exact andThen_keeps (fun _ => rfl) fun _ s => ih s

/-! ### the claims -/

/-- `take_last(n)` remembers the last `n` values it was sent and no others, whatever the observer behind it does (it may raise), and
also after the stream has ended. -/
theorem C165_take_last (n : Int) (o : Observer σ ο α) (s : σ) (ns : List (Notif α)) :
    memory (takeLastW n) o s ns = lastOf n.toNat (received ns) := by
  generalize hl : ns.length = m
  induction m generalizing ns with
  | zero => rw [List.eq_nil_of_length_eq_zero hl]; simp [memory, received, lastOf]
  | succ m ih =>
    rcases List.eq_nil_or_concat ns with rfl | ⟨ns, x, rfl⟩
    · simp at hl
    simp only [List.concat_eq_append] at *
    obtain ⟨s', hs⟩ := memory_snoc (takeLastW n) o s ns x
    rw [hs, ih ns (by simpa using hl), received_snoc]
    cases x with
    | next v =>
      show _ = lastOf n.toNat (received ns ++ [v])
      rw [← lastOf_snoc]
      simp only [Observer.accept, Py.bind_eq, Py.andThen, Py.getL_run, Py.setL_run]
      split <;> rfl
    | error e => simp [Observer.accept]; rfl
    | completed =>
      simp only [Observer.accept, List.append_nil]
      refine andThen_keeps (fun _ => rfl) fun q s => ?_
      exact andThen_keeps (fun s => forEach_keeps o q _ s) fun _ _ => rfl

/-- So does `skip_last(n)`. -/
theorem C165_skip_last (isNone : α → Bool) (n : Int) (o : Observer σ ο α) (s : σ) (ns : List (Notif α)) :
    memory (skipLastW isNone n) o s ns = lastOf n.toNat (received ns) := by
  generalize hl : ns.length = m
  induction m generalizing ns with
  | zero => rw [List.eq_nil_of_length_eq_zero hl]; simp [memory, received, lastOf]
  | succ m ih =>
    rcases List.eq_nil_or_concat ns with rfl | ⟨ns, x, rfl⟩
    · simp at hl
    simp only [List.concat_eq_append] at *
    obtain ⟨s', hs⟩ := memory_snoc (skipLastW isNone n) o s ns x
    rw [hs, ih ns (by simpa using hl), received_snoc]
    cases x with
    | next v =>
      show _ = lastOf n.toNat (received ns ++ [v])
      rw [← lastOf_snoc]
      generalize lastOf n.toNat (received ns) = q
      simp only [Observer.accept, Py.bind_eq, Py.andThen, Py.getL_run, Py.setL_run]
      by_cases h : ((q ++ [v]).length : Int) > n
      · simp only [h, if_true]
        cases q with
        | nil => cases hv : isNone v <;> simp [hv, Py.andThen] <;> rfl
        | cons a q => cases hv : isNone a <;> simp [hv, Py.andThen] <;> rfl
      · simp only [h, if_false]
        rfl
    | error e => simp [Observer.accept]; rfl
    | completed => simp [Observer.accept]; rfl

/-- A bound: neither ever remembers more than `n` values, or than it was sent. -/
theorem C165_bound (isNone : α → Bool) (n : Int) (o : Observer σ ο α) (s : σ) (ns : List (Notif α)) :
    (memory (takeLastW n) o s ns).length = min n.toNat (received ns).length ∧
    (memory (skipLastW isNone n) o s ns).length = min n.toNat (received ns).length := by
  rw [C165_take_last, C165_skip_last]
  exact ⟨lastOf_length _ _, lastOf_length _ _⟩

/-- Five values, `n = 2`, in front of an observer that raises whenever it is called. -/
example : memory (takeLastW 2) (⟨fun _ => Py.raise .typeError, fun _ => Py.raise .typeError, Py.raise .typeError⟩ : Observer Unit Nat Nat) ()
    [.next 1, .next 2, .next 3, .completed, .next 4] = [3, 4] := by
  rw [C165_take_last]; rfl

example : memory (skipLastW (fun _ => false) 2) (⟨fun _ => Py.raise .typeError, fun _ => Py.raise .typeError, Py.raise .typeError⟩ : Observer Unit Nat Nat) ()
    [.next 1, .next 2, .next 3, .error .typeError, .next 4] = [3, 4] := by
  rw [C165_skip_last]; rfl

/-- A negative `n` remembers nothing. -/
example (ns : List (Notif α)) (o : Observer σ ο α) (s : σ) : (memory (takeLastW (-3)) o s ns).length = 0 :=
  (C165_bound (fun _ => false) (-3) o s ns).1.trans (Nat.zero_min _)

end Aio
