/-!
# Facts about lists
-/

namespace Aio

theorem get_push {β : Type} {l : List β} {x y : β} {c : Nat} :
    (l ++ [x])[c]? = some y ↔ l[c]? = some y ∨ (c = l.length ∧ x = y) := by
  rcases Nat.lt_trichotomy c l.length with h | h | h
  · rw [List.getElem?_append_left h]
    exact ⟨.inl, fun h1 => h1.resolve_right (by omega)⟩
  · subst h; simp
  · have h1 : (l ++ [x])[c]? = none := List.getElem?_eq_none (by simp; omega)
    have h2 : l[c]? = none := List.getElem?_eq_none (by omega)
    rw [h1, h2]; simp; omega

theorem get_set {β : Type} {l : List β} {x y : β} {c c0 : Nat} (h : c0 < l.length) :
    (l.set c0 x)[c]? = some y ↔ (c = c0 ∧ x = y) ∨ (c ≠ c0 ∧ l[c]? = some y) := by
  by_cases hc : c = c0
  · subst hc; rw [List.getElem?_set_self h]; simp
  · rw [List.getElem?_set_ne (Ne.symm hc)]; simp [hc]

theorem get_map {β γ : Type} {l : List β} {f : β → γ} {y : γ} {c : Nat} :
    (l.map f)[c]? = some y ↔ ∃ x, l[c]? = some x ∧ f x = y := by
  rw [List.getElem?_map, Option.map_eq_some_iff]

theorem prefix_get {β : Type} {a b : List β} {c : Nat} {x : β} (h : a[c]? = some x) : (a ++ b)[c]? = some x := by
  rw [List.getElem?_append_left (List.getElem?_eq_some_iff.mp h).1, h]

/-- Two strictly increasing lists with the same elements are equal. -/
theorem sorted_ext : ∀ {l m : List Nat}, l.Pairwise (· < ·) → m.Pairwise (· < ·) → (∀ x, x ∈ l ↔ x ∈ m) → l = m
  | [], [], _, _, _ => rfl
  | [], y :: m, _, _, h => by have := (h y).mpr (by simp); cases this
  | x :: l, [], _, _, h => by have := (h x).mp (by simp); cases this
  | x :: l, y :: m, hl, hm, h => by
    have hl' := List.pairwise_cons.mp hl
    have hm' := List.pairwise_cons.mp hm
    have hxy : x = y := by
      have h1 := (h x).mp (by simp)
      have h2 := (h y).mpr (by simp)
      rcases List.mem_cons.mp h1 with h1 | h1
      · exact h1
      rcases List.mem_cons.mp h2 with h2 | h2
      · exact h2.symm
      have := hl'.1 y h2; have := hm'.1 x h1; omega
    subst hxy
    congr 1
    refine sorted_ext hl'.2 hm'.2 fun z => ?_
    constructor
    · intro hz
      have := (h z).mp (List.mem_cons_of_mem _ hz)
      rcases List.mem_cons.mp this with rfl | h3
      · have := hl'.1 z hz; omega
      · exact h3
    · intro hz
      have := (h z).mpr (List.mem_cons_of_mem _ hz)
      rcases List.mem_cons.mp this with rfl | h3
      · have := hm'.1 z hz; omega
      · exact h3

/-- A list of numbers with one element that has a property. -/
theorem filter_range_one {p : Nat → Bool} {n c : Nat} (h : ∀ x, x < n → (p x = true ↔ x = c)) (hc : c < n) :
    (List.range n).filter p = [c] := by
  refine sorted_ext (List.pairwise_lt_range.sublist List.filter_sublist) (List.pairwise_singleton _ _) fun x => ?_
  simp only [List.mem_filter, List.mem_range, List.mem_singleton]
  constructor
  · rintro ⟨h1, h2⟩; exact (h x h1).mp h2
  · rintro rfl; exact ⟨hc, (h x hc).mpr rfl⟩

/-- Two lists related position by position. -/
inductive All2 {β γ : Type} (R : β → γ → Prop) : List β → List γ → Prop where
  | nil : All2 R [] []
  | cons {x : β} {y : γ} {a : List β} {b : List γ} : R x y → All2 R a b → All2 R (x :: a) (y :: b)

theorem All2.snoc {β γ : Type} {R : β → γ → Prop} {a : List β} {b : List γ} (h : All2 R a b) {x : β} {y : γ}
    (hxy : R x y) : All2 R (a ++ [x]) (b ++ [y]) := by
  induction h with
  | nil => exact .cons hxy .nil
  | cons h _ ih => exact .cons h ih

theorem All2.imp {β γ : Type} {R R' : β → γ → Prop} {a : List β} {b : List γ} (h : All2 R a b)
    (hR : ∀ x y, R x y → R' x y) : All2 R' a b := by
  induction h with
  | nil => exact .nil
  | cons h _ ih => exact .cons (hR _ _ h) ih

theorem All2.get {β γ : Type} {R : β → γ → Prop} {a : List β} {b : List γ} (h : All2 R a b) :
    ∀ {k : Nat} {y : γ}, b[k]? = some y → ∃ x, a[k]? = some x ∧ R x y := by
  induction h with
  | nil => simp
  | cons h _ ih =>
    intro k y hk
    cases k with
    | zero => simp at hk; subst hk; exact ⟨_, rfl, h⟩
    | succ k => simpa using ih (by simpa using hk)

theorem All2.length {β γ : Type} {R : β → γ → Prop} {a : List β} {b : List γ} (h : All2 R a b) :
    a.length = b.length := by
  induction h with
  | nil => rfl
  | cons _ _ ih => simp [ih]

end Aio
