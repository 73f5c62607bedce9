import Verif.Model.Heapq
/-!
# `heapq` obeys the laws of a heap
-/

namespace Aio.VirtualTime.Heapq

theorem swap_length {l : List T} {i j : Nat} : (swap l i j).length = l.length := by simp [swap]

theorem swap_perm {l : List T} {i j : Nat} (hi : i < l.length) (hj : j < l.length) : (swap l i j).Perm l := by
  have h1 : l.getD i (0, 0) = l[i] := by simp [List.getD, hi]
  have h2 : l.getD j (0, 0) = l[j] := by simp [List.getD, hj]
  rw [swap, h1, h2]
  exact List.set_set_perm hi hj

theorem swap_key {l : List T} {i j : Nat} (hi : i < l.length) (hj : j < l.length) (k : Nat) :
    key (swap l i j) k = if k = j then key l i else if k = i then key l j else key l k := by
  simp only [key, swap, List.getD, List.getElem?_set, List.length_set]
  by_cases h1 : k = j
  · subst h1; simp [hj]
  · rw [if_neg (fun h => h1 h.symm), if_neg h1]
    by_cases h2 : k = i
    · subst h2; simp [hi]
    · rw [if_neg (fun h => h2 h.symm), if_neg h2]

/-- Below. -/
inductive Desc (s : Nat) : Nat → Prop where
  | refl : Desc s s
  | left {p} : Desc s p → Desc s (2 * p + 1)
  | right {p} : Desc s p → Desc s (2 * p + 2)

theorem Desc.le {s p : Nat} (h : Desc s p) : s ≤ p := by
  induction h with
  | refl => exact Nat.le_refl _
  | left _ ih => omega
  | right _ ih => omega

theorem Desc.parent {s p : Nat} (h : Desc s p) (hp : s < p) : Desc s ((p - 1) / 2) := by
  cases h with
  | refl => omega
  | left h => rename_i q; have : (2 * q + 1 - 1) / 2 = q := by omega
              rw [this]; exact h
  | right h => rename_i q; have : (2 * q + 2 - 1) / 2 = q := by omega
               rw [this]; exact h

/-- Every element whose parent is at `start` or after is no less than its parent. -/
def HeapFrom (start : Nat) (l : List T) : Prop :=
  ∀ j, 0 < j → j < l.length → start ≤ (j - 1) / 2 → key l ((j - 1) / 2) ≤ key l j

theorem siftdown_spec : ∀ (fuel : Nat) (l : List T) (start pos : Nat), pos ≤ fuel → pos < l.length → Desc start pos →
    (∀ j, 0 < j → j < l.length → start ≤ (j - 1) / 2 → j ≠ pos → key l ((j - 1) / 2) ≤ key l j) →
    (start < pos → ∀ j, 0 < j → j < l.length → (j - 1) / 2 = pos → key l ((pos - 1) / 2) ≤ key l j) →
    HeapFrom start (siftdown fuel l start pos) ∧ (siftdown fuel l start pos).Perm l := by
  intro fuel
  induction fuel with
  | zero =>
    intro l start pos hf hl hd hA hB
    have : pos = 0 := by omega
    subst this
    exact ⟨fun j h1 h2 h3 => hA j h1 h2 h3 (by omega), List.Perm.refl _⟩
  | succ fuel ih =>
    intro l start pos hf hl hd hA hB
    rw [siftdown]
    split
    · rename_i hlt
      have hdp := hd.parent hlt
      have hsp := hdp.le
      dsimp only
      split
      · rename_i hk
        have hpl : (pos - 1) / 2 < l.length := by omega
        have hperm := swap_perm hl hpl
        have hK := swap_key hl hpl
        have hne : (pos - 1) / 2 ≠ pos := by omega
        have := ih (swap l pos ((pos - 1) / 2)) start ((pos - 1) / 2) (by omega) (by rw [swap_length]; exact hpl) hdp ?_ ?_
        · exact ⟨this.1, this.2.trans hperm⟩
        · intro j h1 h2 h3 h4
          rw [swap_length] at h2
          rw [hK, hK]
          by_cases hj : j = pos
          · subst hj
            rw [if_pos rfl, if_neg h4, if_pos rfl]; omega
          · rw [if_neg (c := j = (pos - 1) / 2) h4, if_neg (c := j = pos) hj]
            by_cases hp1 : (j - 1) / 2 = (pos - 1) / 2
            · rw [if_pos hp1]
              have := hA j h1 h2 h3 hj
              rw [hp1] at this; omega
            · rw [if_neg hp1]
              by_cases hp2 : (j - 1) / 2 = pos
              · rw [if_pos hp2]; exact hB hlt j h1 h2 hp2
              · rw [if_neg hp2]; exact hA j h1 h2 h3 hj
        · intro hsl j h1 h2 h3
          rw [swap_length] at h2
          have hdpp := (hdp.parent hsl).le
          have hg := hA ((pos - 1) / 2) (by omega) hpl hdpp hne
          rw [hK, hK, if_neg (by omega), if_neg (by omega), if_neg (c := j = (pos - 1) / 2) (by omega)]
          by_cases hj : j = pos
          · rw [if_pos hj]; exact hg
          · rw [if_neg hj]
            have := hA j h1 h2 (by omega) hj
            rw [h3] at this; omega
      · rename_i hk
        refine ⟨fun j h1 h2 h3 => ?_, List.Perm.refl _⟩
        by_cases hj : j = pos
        · subst hj; omega
        · exact hA j h1 h2 h3 hj
    · rename_i hlt
      have hps : pos = start := by have := hd.le; omega
      refine ⟨fun j h1 h2 h3 => hA j h1 h2 h3 (by omega), List.Perm.refl _⟩

theorem smaller_spec {l : List T} {c : Nat} (hc : c < l.length) : smaller l c < l.length ∧
    (smaller l c = c ∨ smaller l c = c + 1) ∧ key l (smaller l c) ≤ key l c ∧
    (c + 1 < l.length → key l (smaller l c) ≤ key l (c + 1)) := by
  unfold smaller
  split
  · rename_i h; exact ⟨h.1, .inr rfl, by omega, fun _ => Int.le_refl _⟩
  · rename_i h; refine ⟨hc, .inl rfl, Int.le_refl _, fun h2 => ?_⟩
    have : key l c < key l (c + 1) := Decidable.byContradiction fun h3 => h ⟨h2, h3⟩
    omega

theorem bubble_spec : ∀ (fuel : Nat) (l : List T) (start pos : Nat), l.length ≤ fuel + pos → pos < l.length →
    Desc start pos →
    (∀ j, 0 < j → j < l.length → start ≤ (j - 1) / 2 → j ≠ pos → (j - 1) / 2 ≠ pos → key l ((j - 1) / 2) ≤ key l j) →
    (start < pos → ∀ j, 0 < j → j < l.length → (j - 1) / 2 = pos → key l ((pos - 1) / 2) ≤ key l j) →
    let r := bubble fuel l pos
    r.1.Perm l ∧ r.2 < l.length ∧ Desc start r.2 ∧ l.length ≤ 2 * r.2 + 1 ∧
    ∀ j, 0 < j → j < l.length → start ≤ (j - 1) / 2 → j ≠ r.2 → key r.1 ((j - 1) / 2) ≤ key r.1 j := by
  intro fuel
  induction fuel with
  | zero => intro l start pos hf hl; omega
  | succ fuel ih =>
    intro l start pos hf hl hd hA hB
    rw [bubble]
    split
    · rename_i hc
      obtain ⟨h1, h2, h3, h4⟩ := smaller_spec hc
      generalize smaller l (2 * pos + 1) = c at h1 h2 h3 h4
      dsimp only
      have hperm := swap_perm hl h1
      have hK := swap_key hl h1
      have hdc : Desc start c := by
        rcases h2 with rfl | rfl
        · exact hd.left
        · exact hd.right
      have hcp : (c - 1) / 2 = pos := by omega
      have hne : c ≠ pos := by omega
      have := ih (swap l pos c) start c (by rw [swap_length]; omega) (by rw [swap_length]; exact h1) hdc ?_ ?_
      · rw [swap_length] at this
        obtain ⟨i1, i2, i3, i4, i5⟩ := this
        exact ⟨i1.trans hperm, i2, i3, i4, i5⟩
      · intro j j1 j2 j3 j4 j5
        rw [swap_length] at j2
        rw [hK, hK, if_neg j5, if_neg j4]
        by_cases hp : (j - 1) / 2 = pos
        · rw [if_pos hp]
          have hj : j ≠ pos := by omega
          rw [if_neg hj]
          have : j = 2 * pos + 1 ∨ j = 2 * pos + 2 := by omega
          rcases this with rfl | rfl
          · exact h3
          · exact h4 j2
        · rw [if_neg hp]
          by_cases hj : j = pos
          · rw [if_pos hj]
            subst hj
            exact hB (by omega) c (by omega) h1 hcp
          · rw [if_neg hj]; exact hA j j1 j2 j3 hj hp
      · intro hsl j j1 j2 j3
        rw [swap_length] at j2
        rw [hK, hK, hcp, if_neg (Ne.symm hne), if_pos rfl, if_neg (c := j = c) (by omega), if_neg (c := j = pos) (by omega)]
        have := hA j j1 j2 (by omega) (by omega) (by omega)
        rw [j3] at this; exact this
    · rename_i hc
      refine ⟨List.Perm.refl _, hl, hd, by omega, ?_⟩
      intro j j1 j2 j3 j4
      exact hA j j1 j2 j3 j4 (by omega)

theorem siftup_spec {l : List T} {pos : Nat} (hl : pos < l.length) (h : HeapFrom (pos + 1) l) :
    HeapFrom pos (siftup l pos) ∧ (siftup l pos).Perm l := by
  obtain ⟨h1, h2, h3, h4, h5⟩ := bubble_spec l.length l pos pos (by omega) hl .refl
    (fun j j1 j2 j3 _ j5 => h j j1 j2 (by omega)) (fun hh => absurd hh (Nat.lt_irrefl _))
  have hlen := h1.length_eq
  have := siftdown_spec _ (bubble l.length l pos).1 pos _ (Nat.le_refl _) (by rw [hlen]; exact h2) h3
    (fun j j1 j2 => h5 j j1 (by rw [← hlen]; exact j2)) (fun _ j _ j2 _ => by omega)
  exact ⟨this.1, this.2.trans h1⟩

/-- Appending an element does not change the keys of the others. -/
theorem key_append {l : List T} {x : T} {j : Nat} (hj : j < l.length) : key (l ++ [x]) j = key l j := by
  simp [key, List.getD, List.getElem?_append_left hj]

theorem push_spec {l : List T} (x : T) (h : HeapFrom 0 l) : HeapFrom 0 (push l x) ∧ (push l x).Perm (x :: l) := by
  have hd : ∀ n, Desc 0 n := by
    intro n
    induction n using Nat.strongRecOn with
    | ind n ih =>
      rcases Nat.eq_zero_or_pos n with rfl | hn
      · exact .refl
      · have := ih ((n - 1) / 2) (by omega)
        rcases Nat.mod_two_eq_zero_or_one n with hm | hm
        · have he : n = 2 * ((n - 1) / 2) + 2 := by omega
          rw [he]; exact this.right
        · have he : n = 2 * ((n - 1) / 2) + 1 := by omega
          rw [he]; exact this.left
  have := siftdown_spec l.length (l ++ [x]) 0 l.length (Nat.le_refl _) (by simp) (hd _) ?_ ?_
  · exact ⟨this.1, this.2.trans (List.perm_append_singleton _ _)⟩
  · intro j j1 j2 j3 j4
    simp only [List.length_append, List.length_singleton] at j2
    rw [key_append (by omega), key_append (by omega)]
    exact h j j1 (by omega) j3
  · intro _ j j1 j2 j3
    simp only [List.length_append, List.length_singleton] at j2
    omega

theorem set_key {l : List T} {x : T} {j : Nat} (hj : j ≠ 0) : key (l.set 0 x) j = key l j := by
  simp [key, List.getD, List.getElem?_set, Ne.symm hj]

theorem pop_spec {x : T} {xs : List T} (h : HeapFrom 0 (x :: xs)) :
    HeapFrom 0 (pop (x :: xs)) ∧ (pop (x :: xs)).Perm xs := by
  rcases List.eq_nil_or_concat xs with rfl | ⟨ys, y, rfl⟩
  · exact ⟨fun j _ h2 => by simp [pop] at h2, by simp [pop]⟩
  · rw [List.concat_eq_append] at h ⊢
    have hp : pop (x :: (ys ++ [y])) = siftup (((x :: ys) : List T).set 0 y) 0 := by
      have h1 : x :: (ys ++ [y]) = (x :: ys) ++ [y] := rfl
      rw [h1, pop, List.getLast?_concat, List.dropLast_concat]; rfl
    rw [hp]
    have := siftup_spec (l := (x :: ys).set 0 y) (pos := 0) (by simp) ?_
    · refine ⟨this.1, this.2.trans ?_⟩
      simp only [List.set_cons_zero]
      exact (List.perm_append_singleton _ _).symm
    · intro j j1 j2 j3
      have hlen : ((x :: ys).set 0 y).length = ys.length + 1 := by simp
      rw [hlen] at j2
      rw [set_key (by omega), set_key (by omega)]
      have := h j j1 (by simp; omega) (Nat.zero_le _)
      have h1 : x :: (ys ++ [y]) = (x :: ys) ++ [y] := rfl
      rw [h1, key_append (by simp; omega), key_append (by simp; omega)] at this
      exact this

theorem heapify_spec (l : List T) : HeapFrom 0 (heapify l) ∧ (heapify l).Perm l := by
  have key : ∀ (n : Nat) (m : List T), m.Perm l → n ≤ l.length / 2 → HeapFrom n m →
      HeapFrom 0 ((List.range n).reverse.foldl siftup m) ∧ ((List.range n).reverse.foldl siftup m).Perm l := by
    intro n
    induction n with
    | zero => intro m hp _ hm; exact ⟨hm, hp⟩
    | succ n ih =>
      intro m hp hn hm
      rw [List.range_succ, List.reverse_append, List.reverse_singleton, List.singleton_append, List.foldl_cons]
      have := siftup_spec (l := m) (pos := n) (by rw [hp.length_eq]; omega) hm
      exact ih _ (this.2.trans hp) (by omega) this.1
  refine key (l.length / 2) l (List.Perm.refl _) (Nat.le_refl _) ?_
  intro j j1 j2 j3; omega

theorem min_spec {x : T} {xs : List T} (h : HeapFrom 0 (x :: xs)) : ∀ y ∈ xs, x.2 ≤ y.2 := by
  have key0 : ∀ j, j < (x :: xs).length → x.2 ≤ key (x :: xs) j := by
    intro j
    induction j using Nat.strongRecOn with
    | ind j ih =>
      intro hj
      rcases Nat.eq_zero_or_pos j with rfl | hp
      · exact Int.le_refl _
      · have h1 := ih ((j - 1) / 2) (by omega) (by omega)
        have h2 := h j hp hj (Nat.zero_le _)
        omega
  intro y hy
  obtain ⟨j, hj⟩ := List.getElem?_of_mem hy
  have hlt := (List.getElem?_eq_some_iff.mp hj).1
  have := key0 (j + 1) (by simp; omega)
  simpa [key, List.getD, hj] using this

end Heapq

/-- CPython's `heapq` is a heap. -/
def heapqLaws : heapq.Laws where
  isHeap := Heapq.HeapFrom 0
  nil := fun j _ h => by simp at h
  min := Heapq.min_spec
  pop := Heapq.pop_spec
  push := Heapq.push_spec
  heapify := Heapq.heapify_spec

end Aio.VirtualTime
