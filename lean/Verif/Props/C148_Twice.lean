import Verif.Model.Twice
import Verif.Props.C17_19_Iterator
/-!
# C148: `async with await xs.subscribe_async(obv)` around `async for x in obv`

C148 (full statement, README.md:148-163): the loop yields the values of `xs`, each once.
-/

namespace Aio.Spec

/-- `l` is an interleaving of `a` and `b`. -/
inductive Shuffle {α : Type} : List α → List α → List α → Prop where
  | nil : Shuffle [] [] []
  | left (x) {a b l} : Shuffle a b l → Shuffle (x :: a) b (x :: l)
  | right (x) {a b l} : Shuffle a b l → Shuffle a (x :: b) (x :: l)

end Aio.Spec

namespace Aio.Twice
open Spec
open Iterator (made yielded valuesOf)
variable {α β : Type}

theorem _root_.Aio.Spec.Shuffle.snoc_left {a b l : List α} (h : Shuffle a b l) (x : α) : Shuffle (a ++ [x]) b (l ++ [x]) := by
  induction h with
  | nil => exact .left x .nil
  | left y _ ih => exact .left y ih
  | right y _ ih => exact .right y ih

theorem _root_.Aio.Spec.Shuffle.snoc_right {a b l : List α} (h : Shuffle a b l) (x : α) : Shuffle a (b ++ [x]) (l ++ [x]) := by
  induction h with
  | nil => exact .right x .nil
  | left y _ ih => exact .left y ih
  | right y _ ih => exact .right y ih

theorem _root_.Aio.Spec.Shuffle.symm {a b l : List α} (h : Shuffle a b l) : Shuffle b a l := by
  induction h with
  | nil => exact .nil
  | left y _ ih => exact .right y ih
  | right y _ ih => exact .left y ih

theorem _root_.Aio.Spec.Shuffle.filterMap {a b l : List α} (h : Shuffle a b l) (f : α → Option β) : Shuffle (a.filterMap f) (b.filterMap f) (l.filterMap f) := by
  induction h with
  | nil => exact .nil
  | left y _ ih => simp only [List.filterMap_cons]; cases f y <;> first | exact ih | exact .left _ ih
  | right y _ ih => simp only [List.filterMap_cons]; cases f y <;> first | exact ih | exact .right _ ih

theorem _root_.Aio.Spec.Shuffle.mem {a b l : List α} (h : Shuffle a b l) {x : α} : x ∈ l ↔ x ∈ a ∨ x ∈ b := by
  induction h with
  | nil => simp
  | left y _ ih => simp [ih, or_assoc]
  | right y _ ih => simp [ih]; grind

theorem _root_.Aio.Spec.Shuffle.of_prefix {a b l l' : List α} (h : Shuffle a b l) (hp : l' <+: l) : ∃ a' b', a' <+: a ∧ b' <+: b ∧ Shuffle a' b' l' := by
  induction h generalizing l' with
  | nil => rw [List.prefix_nil.mp hp]; exact ⟨[], [], List.prefix_rfl, List.prefix_rfl, .nil⟩
  | left y _ ih =>
    cases l' with
    | nil => exact ⟨[], [], List.nil_prefix, List.nil_prefix, .nil⟩
    | cons z l' =>
      obtain ⟨rfl, hq⟩ := List.cons_prefix_cons.mp hp
      obtain ⟨a', b', h1, h2, h3⟩ := ih hq
      exact ⟨z :: a', b', List.cons_prefix_cons.mpr ⟨rfl, h1⟩, h2, .left _ h3⟩
  | right y _ ih =>
    cases l' with
    | nil => exact ⟨[], [], List.nil_prefix, List.nil_prefix, .nil⟩
    | cons z l' =>
      obtain ⟨rfl, hq⟩ := List.cons_prefix_cons.mp hp
      obtain ⟨a', b', h1, h2, h3⟩ := ih hq
      exact ⟨a', z :: b', h1, List.cons_prefix_cons.mpr ⟨rfl, h2⟩, .right _ h3⟩

/-- One worker: `cs` are the numbers of its calls, `hs` those of its calls that have been handed over, with their events; `sent`: all calls. -/
private structure Side (ns : List (Notif α)) (sent : List (Notif α)) (w : Worker α) (cs : List Nat) (hs : List (Nat × Notif α)) : Prop where
  made : ∃ d, ns = d ++ w.todo ∧ cs.map (fun c => sent[c]?) = d.map some
  cur : w.cur = cs.getLast?
  nodup : cs.Nodup
  handed : ∃ r, cs = hs.map (·.1) ++ r ∧ r.length ≤ 1

private structure Inv (ns : List (Notif α)) (it : Iterator.State α) (a b : Worker α) : Prop where
  inv : ∃ ls ca cb ha hb, LTS.run Iterator.step Iterator.init ls = some it ∧ Side ns (made ls) a ca ha ∧ Side ns (made ls) b cb hb ∧
    (∀ c, c < (made ls).length → c ∈ ca ∨ c ∈ cb) ∧ (∀ c ∈ ca, c ∉ cb) ∧ Shuffle ha hb it.handed

private theorem Inv.symm {ns : List (Notif α)} {it : Iterator.State α} {a b : Worker α} (h : Inv ns it a b) : Inv ns it b a := by
  obtain ⟨ls, ca, cb, ha, hb, hr, h1, h2, h3, h4, h5⟩ := h.inv
  exact ⟨ls, cb, ca, hb, ha, hr, h2, h1, fun c hc => (h3 c hc).symm, fun c hc hc' => h4 c hc' hc, h5.symm⟩

private theorem absorb {r : List (Nat × Notif α)} : ∀ {ca cb : List Nat} {ha hb handed : List (Nat × Notif α)},
    (∃ r, ca = ha.map (·.1) ++ r ∧ r.length ≤ 1) → (∃ r, cb = hb.map (·.1) ++ r ∧ r.length ≤ 1) → Shuffle ha hb handed → ((handed ++ r).map (·.1)).Nodup →
    (∀ x ∈ r, x.1 ∈ ca ∨ x.1 ∈ cb) →
    ∃ ha' hb', (∃ r, ca = ha'.map (·.1) ++ r ∧ r.length ≤ 1) ∧ (∃ r, cb = hb'.map (·.1) ++ r ∧ r.length ≤ 1) ∧ Shuffle ha' hb' (handed ++ r) := by
  induction r with
  | nil => intro ca cb ha hb handed h1 h2 h3 _ _; exact ⟨ha, hb, h1, h2, by simpa using h3⟩
  | cons x r ih =>
    intro ca cb ha hb handed h1 h2 h3 hn hm
    rw [show handed ++ x :: r = (handed ++ [x]) ++ r by simp] at hn ⊢
    have hx : x.1 ∉ handed.map (·.1) := by
      rw [List.append_assoc, List.map_append, List.nodup_append] at hn
      intro hc; exact hn.2.2 _ hc x.1 (by simp) rfl
    have hxa : x.1 ∉ ha.map (·.1) := fun h => hx (by
      obtain ⟨y, hy, he⟩ := List.mem_map.mp h
      exact List.mem_map.mpr ⟨y, h3.mem.mpr (.inl hy), he⟩)
    have hxb : x.1 ∉ hb.map (·.1) := fun h => hx (by
      obtain ⟨y, hy, he⟩ := List.mem_map.mp h
      exact List.mem_map.mpr ⟨y, h3.mem.mpr (.inr hy), he⟩)
    have one : ∀ {cs : List Nat} {hs : List (Nat × Notif α)}, (∃ r, cs = hs.map (·.1) ++ r ∧ r.length ≤ 1) → x.1 ∈ cs → x.1 ∉ hs.map (·.1) → cs = (hs ++ [x]).map (·.1) := by
      intro cs hs ⟨r, h1, h2⟩ h3 h4
      rw [h1] at h3 ⊢
      rcases List.mem_append.mp h3 with h3 | h3
      · exact absurd h3 h4
      · match r, h2 with
        | [y], _ => simp at h3; simp [h3]
        | [], _ => simp at h3
        | _ :: _ :: _, h2 => simp at h2
    rcases hm x (.head _) with h | h
    · exact ih (ha := ha ++ [x]) ⟨[], by simpa using one h1 h hxa, by simp⟩ h2 (h3.snoc_left x) hn fun y hy => hm y (.tail _ hy)
    · exact ih (hb := hb ++ [x]) h1 ⟨[], by simpa using one h2 h hxb, by simp⟩ (h3.snoc_right x) hn fun y hy => hm y (.tail _ hy)

/-- What is known of the iterator after a step. -/
private theorem iter_facts {ls : List (Iterator.Label α)} {it : Iterator.State α} (hr : LTS.run Iterator.step Iterator.init ls = some it) :
    it.calls.length = (made ls).length ∧ (it.handed.map (·.1)).Nodup ∧ (∀ x ∈ it.handed, x.1 < (made ls).length) ∧ ∀ c : Nat, it.calls[c]? = some .returned → c ∈ it.handed.map (·.1) := by
  obtain ⟨m, t, rest, vs, k, h⟩ := Iterator.inv_run hr
  refine ⟨h.len, (List.nodup_append.mp h.nodup).2.1, fun x hx => ?_, fun c hc => (h.fits c _ hc).1⟩
  rw [← h.len]
  exact h.bound _ (List.mem_append_right _ (List.mem_map_of_mem hx))

/-- A step of the iterator that makes no call. -/
private theorem inv_loop {ns : List (Notif α)} {it it' : Iterator.State α} {a b : Worker α} (h : Inv ns it a b) {l : Iterator.Label α} (hl : ∀ n, l ≠ .call n)
    (hs : Iterator.step it l = some it') : Inv ns it' a b := by
  obtain ⟨ls, ca, cb, ha, hb, hr, h1, h2, h3, h4, h5⟩ := h.inv
  have hr' : LTS.run Iterator.step Iterator.init (ls ++ [l]) = some it' := LTS.run_append.mpr ⟨_, hr, LTS.run_cons.mpr ⟨_, hs, rfl⟩⟩
  have hm : made (ls ++ [l]) = made ls := by
    rw [Iterator.made_snoc]
    cases l with
    | call n => exact absurd rfl (hl n)
    | _ => simp
  obtain ⟨g1, g2, g3, -⟩ := iter_facts hr'
  rw [hm] at g3
  obtain ⟨r, hh⟩ := Iterator.handed_step hs
  obtain ⟨ha', hb', k1, k2, k3⟩ := absorb (r := r) h1.handed h2.handed h5 (hh ▸ g2) fun x hx => h3 _ (g3 x (by rw [hh]; exact List.mem_append_right _ hx))
  exact ⟨ls ++ [l], ca, cb, ha', hb', hr', by rw [hm]; exact ⟨h1.made, h1.cur, h1.nodup, k1⟩, by rw [hm]; exact ⟨h2.made, h2.cur, h2.nodup, k2⟩, by rw [hm]; exact h3, h4, by rw [hh]; exact k3⟩

private theorem sent_snoc {sent : List (Notif α)} {n : Notif α} {cs : List Nat} {d : List (Notif α)} (h : cs.map (fun c => sent[c]?) = d.map some) :
    cs.map (fun c => (sent ++ [n])[c]?) = d.map some := by
  rw [← h]
  refine List.map_congr_left fun c hc => ?_
  have : sent[c]? ∈ d.map some := h ▸ List.mem_map_of_mem (f := fun c => sent[c]?) hc
  obtain ⟨x, -, hx⟩ := List.mem_map.mp this
  rw [← hx, Iterator.get_append_old hx.symm]

/-- A worker makes a call: all its calls before have been handed over. -/
private theorem all_handed {it : Iterator.State α} {w : Worker α} {cs os : List Nat} {hs ho : List (Nat × Notif α)} (hfree : free it w = true)
    (hret : ∀ c : Nat, it.calls[c]? = some .returned → c ∈ it.handed.map (·.1)) (hcur : w.cur = cs.getLast?) (hh : ∃ r, cs = hs.map (·.1) ++ r ∧ r.length ≤ 1)
    (ho' : ∃ r, os = ho.map (·.1) ++ r ∧ r.length ≤ 1) (hdisj : ∀ c ∈ cs, c ∉ os) (hn : cs.Nodup) (hsh : ∀ x, x ∈ it.handed ↔ x ∈ hs ∨ x ∈ ho) : cs = hs.map (·.1) := by
  obtain ⟨r, h1, h2⟩ := hh
  match r, h2 with
  | [], _ => simpa using h1
  | [c], _ =>
    exfalso
    have hc : w.cur = some c := by rw [hcur, h1]; simp
    have : it.calls[c]? = some .returned := by
      simp only [free, hc] at hfree
      split at hfree
      · assumption
      · cases hfree
    obtain ⟨x, hx, rfl⟩ := List.mem_map.mp (hret c this)
    rcases (hsh x).mp hx with hx | hx
    · rw [h1, List.nodup_append] at hn
      exact hn.2.2 _ (List.mem_map_of_mem hx) x.1 (.head _) rfl
    · obtain ⟨r', h3, -⟩ := ho'
      exact hdisj x.1 (by rw [h1]; simp) (by rw [h3]; exact List.mem_append_left _ (List.mem_map_of_mem hx))
  | _ :: _ :: _, h2 => simp at h2

private theorem Side.bound {ns sent : List (Notif α)} {w : Worker α} {cs hs} (h : Side ns sent w cs hs) {c : Nat} (hc : c ∈ cs) : c < sent.length := by
  obtain ⟨d, -, h2⟩ := h.made
  have : sent[c]? ∈ d.map some := h2 ▸ List.mem_map_of_mem (f := fun c => sent[c]?) hc
  obtain ⟨x, -, hx⟩ := List.mem_map.mp this
  exact (List.getElem?_eq_some_iff.mp hx.symm).1

private theorem inv_next {ns : List (Notif α)} {it it' : Iterator.State α} {a b a' : Worker α} (h : Inv ns it a b) (hs : next it a = some (it', a')) : Inv ns it' a' b := by
  obtain ⟨ls, ca, cb, ha, hb, hr, h1, h2, h3, h4, h5⟩ := h.inv
  unfold next at hs
  split at hs
  · cases hs
  · next n todo htodo =>
    split at hs
    · next hfree =>
      obtain ⟨it2, hst, he⟩ := Option.map_eq_some_iff.mp hs
      cases he
      have hr' : LTS.run Iterator.step Iterator.init (ls ++ [.call n]) = some it' := LTS.run_append.mpr ⟨_, hr, LTS.run_cons.mpr ⟨_, hst, rfl⟩⟩
      have hm : made (ls ++ [.call n]) = made ls ++ [n] := by rw [Iterator.made_snoc]
      obtain ⟨f1, -, -, f4⟩ := iter_facts hr
      have hall := all_handed hfree f4 h1.cur h1.handed h2.handed h4 h1.nodup fun x => h5.mem
      obtain ⟨g1, g2, g3, -⟩ := iter_facts hr'
      rw [hm] at g3
      obtain ⟨r, hh⟩ := Iterator.handed_step hst
      have hcov : ∀ c, c < (made ls ++ [n]).length → c ∈ ca ++ [(made ls).length] ∨ c ∈ cb := by
        intro c hc
        rw [List.length_append, List.length_singleton] at hc
        rcases Nat.lt_or_ge c (made ls).length with hlt | hge
        · rcases h3 c hlt with h | h
          · exact .inl (List.mem_append_left _ h)
          · exact .inr h
        · exact .inl (by rw [show c = (made ls).length by omega]; simp)
      obtain ⟨ha', hb', k1, k2, k3⟩ := absorb (r := r) (ca := ca ++ [(made ls).length]) ⟨[(made ls).length], by rw [hall], by simp⟩ h2.handed h5 (hh ▸ g2)
        fun x hx => hcov _ (g3 x (by rw [hh]; exact List.mem_append_right _ hx))
      refine ⟨ls ++ [.call n], ca ++ [(made ls).length], cb, ha', hb', hr', ?_, ?_, by rw [hm]; exact hcov, ?_, by rw [hh]; exact k3⟩
      · rw [hm]
        obtain ⟨d, d1, d2⟩ := h1.made
        refine ⟨⟨d ++ [n], by rw [d1, htodo]; simp, ?_⟩, by rw [f1]; simp, ?_, k1⟩
        · rw [List.map_append, sent_snoc d2]; simp
        · rw [List.nodup_append]
          exact ⟨h1.nodup, by simp, fun x hx y hy => by
            have := h1.bound hx
            simp only [List.mem_singleton] at hy
            omega⟩
      · rw [hm]
        obtain ⟨d, d1, d2⟩ := h2.made
        exact ⟨⟨d, d1, sent_snoc d2⟩, h2.cur, h2.nodup, k2⟩
      · intro c hc hc'
        rcases List.mem_append.mp hc with hc | hc
        · exact h4 c hc hc'
        · have := h2.bound hc'
          simp only [List.mem_singleton] at hc
          omega
    · cases hs

private theorem inv_run {ns : List (Notif α)} {ls : List (Label α)} {s : State α} (hr : LTS.run step (init ns) ls = some s) : Inv ns s.it s.outer s.inner := by
  refine LTS.inv (step := step) (fun s => Inv ns s.it s.outer s.inner) (s0 := init ns) ?_ ?_ hr
  · exact ⟨[], [], [], [], [], rfl, ⟨⟨[], rfl, rfl⟩, rfl, .nil, ⟨[], rfl, by simp⟩⟩, ⟨⟨[], rfl, rfl⟩, rfl, .nil, ⟨[], rfl, by simp⟩⟩, by simp [made], by simp, .nil⟩
  · intro s l s' h hs
    cases l with
    | outer =>
      obtain ⟨⟨it, w⟩, h1, rfl⟩ := Option.map_eq_some_iff.mp hs
      exact inv_next h h1
    | inner =>
      simp only [step] at hs
      split at hs
      · cases hs
      · obtain ⟨⟨it, w⟩, h1, rfl⟩ := Option.map_eq_some_iff.mp hs
        exact (inv_next h.symm h1).symm
    | loop l =>
      cases l with
      | call n => cases hs
      | _ =>
        obtain ⟨it, h1, rfl⟩ := Option.map_eq_some_iff.mp hs
        exact inv_loop h (by simp) h1

private theorem Side.told {ns sent : List (Notif α)} {w : Worker α} {cs hs} (h : Side ns sent w cs hs) (hh : ∀ x ∈ hs, sent[x.1]? = some x.2) : hs.map (·.2) <+: ns := by
  obtain ⟨d, h1, h2⟩ := h.made
  obtain ⟨r, h3, -⟩ := h.handed
  rw [h3, List.map_append] at h2
  have h4 : (hs.map (·.1)).map (fun c => sent[c]?) = (hs.map (·.2)).map some := by
    rw [List.map_map, List.map_map]
    exact List.map_congr_left fun x hx => hh x hx
  rw [h4] at h2
  have h5 : (hs.map (·.2)).map some <+: d.map some := ⟨_, h2⟩
  rw [h1]
  exact ((List.prefix_map_iff_of_injective (fun a b h => by cases h; rfl)).mp h5).trans (List.prefix_append _ _)

private theorem prefix_values {xs : List α} {l : List (Notif α)} (h : l <+: xs.map .next ++ [.completed]) : valuesOf l <+: xs ∧ (.completed ∈ l → valuesOf l = xs) ∧ ∀ e, .error e ∉ l := by
  have hx : valuesOf (xs.map .next ++ [.completed]) = xs := by rw [Iterator.valuesOf_next]; simp [valuesOf]
  refine ⟨?_, fun hc => ?_, fun e he => ?_⟩
  · obtain ⟨r, hr⟩ := h
    exact ⟨valuesOf r, by rw [← hx, ← hr, valuesOf, valuesOf, valuesOf, List.filterMap_append]⟩
  · rcases List.prefix_concat_iff.mp h with h | h
    · rw [h, hx]
    · have := h.subset hc
      simp at this
  · have := h.subset he
    simp at this

/-- C148, the part that holds. Whatever the schedule: what the loop has got so far is an interleaving of an initial part of the values of `xs` with another one; and if it has ended, one of the two is all of `xs`.
Missing: the other one is empty. -/
theorem C148_partial (xs : List α) {ls : List (Label α)} {s : State α} (hr : LTS.run step (init (xs.map .next ++ [.completed])) ls = some s) :
    (∀ e, .raised e ∉ s.it.taken) ∧
    ∃ us ws, us <+: xs ∧ ws <+: xs ∧ Shuffle us ws (yielded s.it.taken) ∧ (.stop ∈ s.it.taken → us = xs ∨ ws = xs) := by
  obtain ⟨il, ca, cb, ha, hb, hr', h1, h2, h3, h4, h5⟩ := (inv_run hr).inv
  obtain ⟨m, t, rest, vs, k, h⟩ := Iterator.inv_run hr'
  have ta := prefix_values (h1.told fun x hx => h.handed x (h5.mem.mpr (.inl hx)))
  have tb := prefix_values (h2.told fun x hx => h.handed x (h5.mem.mpr (.inr hx)))
  have hmem : ∀ {n}, n ∈ s.it.handed.map (·.2) → n ∈ ha.map (·.2) ∨ n ∈ hb.map (·.2) := by
    intro n hn
    obtain ⟨x, hx, rfl⟩ := List.mem_map.mp hn
    exact (h5.mem.mp hx).imp (fun h => List.mem_map_of_mem h) (fun h => List.mem_map_of_mem h)
  have hsh : Shuffle (valuesOf (ha.map (·.2))) (valuesOf (hb.map (·.2))) (valuesOf (s.it.handed.map (·.2))) := by
    have := h5.filterMap (fun x : Nat × Notif α => match x.2 with | .next v => some v | _ => none)
    simp only [valuesOf, List.filterMap_map]
    exact this
  have hend : ∀ {x}, x ∈ s.it.taken → (∀ v, x ≠ .value v) → ∃ n, x = Iterator.Took.of n ∧ n.isTerminal = true ∧ m.push = some n := by
    intro x hx hv
    obtain ⟨n, g1, g2⟩ := h.took
    rw [g1] at hx
    rcases List.mem_append.mp hx with hx | hx
    · obtain ⟨v, -, rfl⟩ := List.mem_map.mp hx
      exact absurd rfl (hv v)
    · obtain ⟨hk, rfl⟩ := List.mem_replicate.mp hx
      exact ⟨n, rfl, (g2.resolve_left hk).2, (g2.resolve_left hk).1⟩
  refine ⟨fun e he => ?_, ?_⟩
  · obtain ⟨n, g1, g2, g3⟩ := hend he (by simp)
    have hn : n = .error e := by
      cases n <;> simp [Iterator.Took.of] at g1
      rw [g1]
    have := hmem (n := .error e) (by rw [h.vals, g3, hn]; simp)
    exact this.elim (ta.2.2 e) (tb.2.2 e)
  · by_cases hst : .stop ∈ s.it.taken
    · obtain ⟨n, g1, g2, g3⟩ := hend hst (by simp)
      have hn : n = .completed := by cases n <;> simp [Iterator.Took.of] at g1 ⊢
      have hc := hmem (n := .completed) (by rw [h.vals, g3, hn]; simp)
      have hv : valuesOf (s.it.handed.map (·.2)) = yielded s.it.taken := by
        rw [h.yielded, h.vals, g3, hn, Iterator.valuesOf_next]; simp [valuesOf]
      exact ⟨_, _, ta.1, tb.1, hv ▸ hsh, fun _ => hc.imp ta.2.1 tb.2.1⟩
    · have hp : yielded s.it.taken <+: valuesOf (s.it.handed.map (·.2)) := by
        rw [h.yielded, h.vals, Iterator.valuesOf_next]; exact List.prefix_append _ _
      obtain ⟨us, ws, k1, k2, k3⟩ := hsh.of_prefix hp
      exact ⟨us, ws, k1.trans ta.1, k2.trans tb.1, k3, fun h => absurd h hst⟩

/-- The program of README.md:154-162, with workers that take turns: so it is with every source that waits between its values (a timer, an async iterable, ...). For `from_iterable` it is so if `receive` of the mailbox lets
others go first even if a message is there, which the package `expression` decides. -/
private def readme : List (Label Nat) :=
  [.outer, .loop .anext, .inner, .loop .subscribed] ++
  [.loop .run, .loop .run, .outer, .loop .anext, .loop .run, .loop .run, .inner, .loop .anext] ++
  [.loop .run, .loop .run, .outer, .loop .anext, .loop .run, .loop .run, .inner, .loop .anext] ++
  [.loop .run, .loop .run, .outer, .loop .anext, .loop .run, .loop .run, .inner, .loop .anext]

/-- C148 is false: every value may come twice. -/
theorem C148_violated : ∃ (ls : List (Label Nat)) (s : State Nat), LTS.run step (init ([1, 2, 3].map .next ++ [.completed])) ls = some s ∧
    s.it.taken = [.value 1, .value 1, .value 2, .value 2, .value 3, .value 3, .stop] := by
  have h : (LTS.run step (init ([1, 2, 3].map .next ++ [.completed])) readme).map (·.it.taken) = some [.value 1, .value 1, .value 2, .value 2, .value 3, .value 3, .stop] := by decide
  obtain ⟨s, h1, h2⟩ := Option.map_eq_some_iff.mp h
  exact ⟨readme, s, h1, h2⟩

/-- If the outer worker always has its next event at hand, the other one never gets its turn (and waits for ever). -/
private def lucky : List (Label Nat) :=
  [.outer, .loop .anext, .inner, .loop .subscribed, .loop .run, .outer, .loop .run, .loop .anext, .loop .run, .outer, .loop .run, .loop .anext, .loop .run, .outer, .loop .run, .loop .anext]

example : (LTS.run step (init ([1, 2, 3].map .next ++ [.completed])) lucky).map (·.it.taken) = some [.value 1, .value 2, .value 3, .stop] := by decide
example : Shuffle [1, 2, 3] [1, 2] [1, 1, 2, 2, 3] := .left 1 (.right 1 (.left 2 (.right 2 (.left 3 .nil))))

end Aio.Twice
