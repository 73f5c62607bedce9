import Verif.Model.SeqIter
/-!
# C79: `zip_seq` starts at the beginning of the sequence for every subscription
-/

namespace Aio.Spec
variable {α β : Type}

/-- What a subscription to `zip_seq(items)` makes of its values: the first with the first item, and so on; the
completion once there is no item left. -/
def zipped (items : List β) (vs : List α) : List (Notif (α × β)) :=
  vs.mapIdx fun i v => match items[i]? with
    | some y => .next (v, y)
    | none => .completed

/-- The values that subscription `k` was sent. -/
def sentTo (k : Nat) (ls : List (SeqIter.Label α)) : List α :=
  ls.filterMap fun | .send k' v => if k' = k then some v else none | .subscribe => none

end Aio.Spec

namespace Aio.SeqIter
variable {α β : Type}

/-- The invariant with a container: every subscription has an iterator of its own, at the position of its next value (or
at the end). -/
private structure Inv (q : Seq β) (s : State α β) (ls : List (Label α)) : Prop where
  len : s.posts.length = s.enum.length
  bound : ∀ k i : Nat, s.enum[k]? = some i → i < s.pos.length
  inj : ∀ k k' i : Nat, s.enum[k]? = some i → s.enum[k']? = some i → k = k'
  at_ : ∀ k i : Nat, s.enum[k]? = some i → s.pos[i]? = some (min (Spec.sentTo k ls).length q.items.length)
  new : ∀ k : Nat, s.enum[k]? = none → Spec.sentTo k ls = []
  posts : ∀ (k : Nat) (l : List (Notif (α × β))), s.posts[k]? = some l → l = Spec.zipped q.items (Spec.sentTo k ls)

private theorem sentTo_snoc (k : Nat) (ls : List (Label α)) (l : Label α) :
    Spec.sentTo k (ls ++ [l]) = Spec.sentTo k ls ++ (match l with | .send k' v => if k' = k then [v] else [] | .subscribe => []) := by
  rw [Spec.sentTo, List.filterMap_append, ← Spec.sentTo]
  congr 1
  cases l with
  | subscribe => rfl
  | send k' v => by_cases h : k' = k <;> simp [h]

private theorem zipped_snoc (items : List β) (vs : List α) (v : α) :
    Spec.zipped items (vs ++ [v]) = Spec.zipped items vs ++ [match items[vs.length]? with | some y => .next (v, y) | none => .completed] := by
  simp [Spec.zipped, List.mapIdx_append]

private theorem inv_step {q : Seq β} (hq : q.fresh = true) {s s' : State α β} {ls : List (Label α)} {l : Label α}
    (h : Inv q s ls) (hs : step q s l = some s') : Inv q s' (ls ++ [l]) := by
  cases l with
  | subscribe =>
    simp only [step, hq, if_true, Option.some.injEq] at hs
    subst hs
    have e : ∀ k, Spec.sentTo k (ls ++ [.subscribe]) = Spec.sentTo k ls := by intro k; rw [sentTo_snoc]; simp
    have cases_ : ∀ k i : Nat, (s.enum ++ [s.pos.length])[k]? = some i → s.enum[k]? = some i ∨ (k = s.enum.length ∧ i = s.pos.length) := by
      intro k i hk
      rcases Nat.lt_or_ge k s.enum.length with hlt | hge
      · rw [List.getElem?_append_left hlt] at hk; exact .inl hk
      · rw [List.getElem?_append_right hge] at hk
        rcases Nat.lt_or_ge s.enum.length k with h1 | h1
        · rw [List.getElem?_eq_none (by simp; omega)] at hk; exact nomatch hk
        · have : k - s.enum.length = 0 := by omega
          rw [this] at hk; simp at hk; exact .inr ⟨by omega, hk.symm⟩
    refine ⟨by simp [h.len], ?_, ?_, ?_, ?_, ?_⟩
    · intro k i hk
      simp only [List.length_append, List.length_singleton]
      rcases cases_ k i hk with hk' | ⟨-, rfl⟩
      · have := h.bound k i hk'; omega
      · omega
    · intro k k' i hk hk'
      rcases cases_ k i hk with h1 | ⟨h1, h2⟩ <;> rcases cases_ k' i hk' with h3 | ⟨h3, h4⟩
      · exact h.inj k k' i h1 h3
      · have := h.bound k i h1; omega
      · have := h.bound k' i h3; omega
      · omega
    · intro k i hk
      rw [e]
      rcases cases_ k i hk with h1 | ⟨h1, h2⟩
      · dsimp only
        rw [List.getElem?_append_left (h.bound k i h1)]; exact h.at_ k i h1
      · subst h2
        have : Spec.sentTo k ls = [] := h.new k (by rw [h1]; simp)
        dsimp only
        rw [List.getElem?_append_right (Nat.le_refl _), this]; simp
    · intro k hk
      rw [e]
      refine h.new k ?_
      dsimp only at hk
      rw [List.getElem?_eq_none_iff] at hk ⊢
      simp at hk; omega
    · intro k l hk
      rw [e]
      dsimp only at hk
      rcases Nat.lt_or_ge k s.posts.length with hlt | hge
      · rw [List.getElem?_append_left hlt] at hk; exact h.posts k l hk
      · have hn : Spec.sentTo k ls = [] := h.new k (by rw [List.getElem?_eq_none_iff]; have := h.len; omega)
        rw [List.getElem?_append_right hge] at hk
        rw [hn]
        have := List.mem_of_getElem? hk
        simp at this
        rw [this]; rfl
  | send k v =>
    simp only [step] at hs
    split at hs
    · exact nomatch hs
    rename_i i hi
    rw [h.at_ k i hi] at hs
    simp only at hs
    have lt := h.bound k i hi
    have eo : ∀ k', k' ≠ k → Spec.sentTo k' (ls ++ [.send k v]) = Spec.sentTo k' ls := by
      intro k' hk; rw [sentTo_snoc]; simp [Ne.symm hk]
    have es : Spec.sentTo k (ls ++ [.send k v]) = Spec.sentTo k ls ++ [v] := by rw [sentTo_snoc]; simp
    have key : ∀ (n : Notif (α × β)) (s' : State α β), s'.enum = s.enum → s'.posts = s.posts.modify k (· ++ [n]) →
        (s'.pos[i]? = some (min ((Spec.sentTo k ls).length + 1) q.items.length)) → s'.pos.length = s.pos.length →
        (∀ j : Nat, j ≠ i → s'.pos[j]? = s.pos[j]?) →
        n = (match q.items[(Spec.sentTo k ls).length]? with | some y => .next (v, y) | none => .completed) →
        Inv q s' (ls ++ [.send k v]) := by
      intro n s' he hp hpi hpl hpo hn
      refine ⟨by rw [hp, he, List.length_modify]; exact h.len, ?_, ?_, ?_, ?_, ?_⟩
      · rw [he, hpl]; exact h.bound
      · rw [he]; exact h.inj
      · rw [he]
        intro k' i' hk'
        by_cases hkk : k' = k
        · subst hkk
          rw [hi] at hk'; obtain rfl := Option.some.inj hk'
          rw [es, hpi]; simp
        · rw [eo k' hkk, hpo i' ?_]
          · exact h.at_ k' i' hk'
          · rintro rfl; exact hkk (h.inj _ _ _ hk' hi)
      · rw [he]
        intro k' hk'
        have : k' ≠ k := by rintro rfl; rw [hi] at hk'; exact nomatch hk'
        rw [eo k' this]; exact h.new k' hk'
      · rw [hp]
        intro k' l hl
        rw [List.getElem?_modify] at hl
        by_cases hkk : k = k'
        · subst hkk
          simp only [if_true] at hl
          cases hpk : s.posts[k]? with
          | none => rw [hpk] at hl; exact nomatch hl
          | some l0 =>
            rw [hpk] at hl
            have hl := Option.some.inj hl
            rw [← hl, es, zipped_snoc, h.posts k l0 hpk, hn]
        · simp only [hkk, if_false] at hl
          rw [eo k' (Ne.symm hkk)]
          refine h.posts k' l ?_
          rw [← hl]; cases s.posts[k']? <;> rfl
    have hpos := h.at_ k i hi
    split at hs
    · rename_i y hy
      obtain rfl := Option.some.inj hs
      have hlt := (List.getElem?_eq_some_iff.mp hy).1
      refine key (.next (v, y)) _ rfl rfl ?_ (List.length_set ..) ?_ ?_
      · dsimp only; rw [List.getElem?_set_self lt]; congr 1; omega
      · intro j hj; dsimp only; rw [List.getElem?_set_ne (Ne.symm hj)]
      · rw [show (Spec.sentTo k ls).length = min (Spec.sentTo k ls).length q.items.length by omega, hy]
    · rename_i hy
      obtain rfl := Option.some.inj hs
      rw [List.getElem?_eq_none_iff] at hy
      refine key .completed _ rfl rfl ?_ rfl (fun _ _ => rfl) ?_
      · dsimp only; rw [hpos]; congr 1; omega
      · rw [List.getElem?_eq_none (by omega)]

/-- C79, for a container (a list, a range, ...): whatever the order of subscriptions and values, the calls made by each
subscription pair its own values with the items from the first one on. -/
theorem C79_container_partial {q : Seq β} (hq : q.fresh = true) {ls : List (Label α)} {s : State α β}
    (hr : LTS.run (step q) init ls = some s) (k : Nat) (l : List (Notif (α × β))) (hk : s.posts[k]? = some l) :
    l = Spec.zipped q.items (Spec.sentTo k ls) := by
  have h0 : Inv q (init : State α β) [] := ⟨rfl, nofun, nofun, nofun, fun _ _ => rfl, nofun⟩
  exact (LTS.inv_hist (fun ls s => Inv q s ls) h0 (fun _ _ _ _ h hs => inv_step hq h hs) hr).posts k l hk

example : (LTS.run (step ⟨['a', 'b'], true⟩) init [.subscribe, .send 0 1, .subscribe, .send 1 5, .send 0 2, .send 0 3]).map (·.posts) =
    some [[.next (1, 'a'), .next (2, 'b'), .completed], [.next (5, 'a')]] := by decide

/-- C79 is false for a sequence that is an iterator: two subscriptions, both sent one value: the second gets the second
item. The claim for all sequences would be this statement without the witness's negation:
`∀ q ls s k l, run ... = some s → s.posts[k]? = some l → l = zipped q.items (sentTo k ls)`. -/
theorem C79_violated : ∃ (q : Seq Char) (ls : List (Label Nat)) (s : State Nat Char) (l : List (Notif (Nat × Char))),
    LTS.run (step q) init ls = some s ∧ s.posts[1]? = some l ∧ l ≠ Spec.zipped q.items (Spec.sentTo 1 ls) := by
  refine ⟨⟨['a', 'b'], false⟩, [.subscribe, .subscribe, .send 0 1, .send 1 1], ?_⟩
  simp [LTS.run, step, init, Spec.sentTo, Spec.zipped, List.modify]

/-- With an iterator of one item, a second subscription to the same `zip_seq` completes at its first value. -/
theorem C79_violated_empty (y : β) (v w : α) : ∃ s : State α β,
    LTS.run (step ⟨[y], false⟩) init [.subscribe, .send 0 v, .subscribe, .send 1 w] = some s ∧ s.posts = [[.next (v, y)], [.completed]] := by
  simp [LTS.run, step, init, List.modify]

end Aio.SeqIter
