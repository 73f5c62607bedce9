import Verif.Lemmas.Debounce
/-!
# The invariant of `debounce` holds
-/

namespace Aio.Debounce
variable {α : Type}
open Aio.Spec.Debounce
variable {seconds : Nat} {arr : List (Notif α × Nat)} {s : State α} {Q R : List (Item α)} {L : Int}

theorem Prompt.event (h : Prompt seconds arr s Q R) (hi : Inv seconds arr s Q R L) (n : Notif α) (extra : List (Item α))
    (hx : ∀ it ∈ extra, it.t = s.now ∧ it.n.isTerminal = true) :
    Prompt seconds (arr ++ [(n, s.now)])
      { s with nextIndex := s.nextIndex + 1, inbox := s.inbox ++ [(n, (s.nextIndex : Int))], timers := s.timers ++ [(n, .fresh)] }
      Q (R ++ extra) := by
  refine ⟨h.post, ?_, ?_, ?_, ?_, ?_⟩
  · intro it hit
    rcases List.mem_append.mp hit with hit | hit
    · exact h.pending it hit
    · exact (hx it hit).1
  · intro k n' hk
    rcases get_push.mp hk with hk | ⟨rfl, he⟩
    · exact prefix_get (h.fresh k n' hk)
    · cases he; simp [hi.len]
  · intro k n' w hk
    rcases get_push.mp hk with hk | ⟨_, he⟩
    · obtain ⟨h1, t, h2, h3⟩ := h.wake k n' w hk; exact ⟨h1, t, prefix_get h2, h3⟩
    · cases he
  · intro it hit v tk hv hk
    rw [← List.append_assoc] at hit
    rcases List.mem_append.mp hit with hit | hit
    · obtain ⟨⟨t, h1, _⟩, _, _⟩ := hi.item it hit v hv
      have h2 := prefix_get (b := [(n, s.now)]) h1
      rw [h2] at hk; cases hk
      exact h.item it hit v tk hv h1
    · have := (hx it hit).2; rw [hv] at this; cases this
  · intro k v tk hk ha
    rcases get_push.mp hk with hk | ⟨_, he⟩
    · obtain ⟨t, h1⟩ := hi.same k _ _ hk
      have h2 := prefix_get (b := [(n, s.now)]) h1
      rw [h2] at ha; cases ha
      rcases h.done k v tk hk h1 with ⟨it, hit, h3⟩ | ⟨j, w, tj, h3, h4, h5⟩
      · exact .inl ⟨it, by rw [← List.append_assoc]; exact List.mem_append_left _ hit, h3⟩
      · exact .inr ⟨j, w, tj, h3, prefix_get h4, h5⟩
    · cases he

theorem Prompt.set_timer (h : Prompt seconds arr s Q R) (extra : List (Item α)) (i : List (Notif α × Int)) {k : Nat} {n : Notif α} {x0 x : Timer}
    (hk : s.timers[k]? = some (n, x0)) (hf : x ≠ .fresh)
    (hw : ∀ w, x = .sleeping w → s.now ≤ w ∧ ∃ t : Nat, arr[k]? = some (n, t) ∧ t + seconds = w)
    (hx : ∀ it ∈ extra, it.t = s.now ∧ ∀ (v : α) (tk : Nat), it.n = .next v → arr[it.k]? = some (.next v, tk) → tk + seconds = s.now)
    (hd : x = .done → ∀ (v : α) (tk : Nat), n = .next v → arr[k]? = some (.next v, tk) →
      (∃ it ∈ extra, it.k = k ∧ it.n = .next v) ∨ ∃ (j : Nat) (w : α) (tj : Nat), k < j ∧ arr[j]? = some (.next w, tj) ∧ tj ≤ tk + seconds) :
    Prompt seconds arr { s with timers := s.timers.set k (n, x), inbox := i } Q (R ++ extra) := by
  have hlt := (List.getElem?_eq_some_iff.mp hk).1
  refine ⟨h.post, ?_, ?_, ?_, ?_, ?_⟩
  · intro it hit
    rcases List.mem_append.mp hit with hit | hit
    · exact h.pending it hit
    · exact (hx it hit).1
  · intro k' n' hk'
    rcases (get_set hlt).mp hk' with ⟨rfl, he⟩ | ⟨_, hk'⟩
    · cases he; exact absurd rfl hf
    · exact h.fresh k' n' hk'
  · intro k' n' w hk'
    rcases (get_set hlt).mp hk' with ⟨rfl, he⟩ | ⟨_, hk'⟩
    · cases he; exact hw w rfl
    · exact h.wake k' n' w hk'
  · intro it hit v tk hv ha
    rw [← List.append_assoc] at hit
    rcases List.mem_append.mp hit with hit | hit
    · exact h.item it hit v tk hv ha
    · rw [(hx it hit).1]; exact (hx it hit).2 v tk hv ha
  · intro k' v tk hk' ha
    have hmem : ∀ it ∈ Q ++ R, it ∈ Q ++ (R ++ extra) := by
      intro it hit; rw [← List.append_assoc]; exact List.mem_append_left _ hit
    rcases (get_set hlt).mp hk' with ⟨rfl, he⟩ | ⟨_, hk'⟩
    · cases he
      rcases hd rfl v tk rfl ha with ⟨it, hit, h1⟩ | h1
      · exact .inl ⟨it, by rw [← List.append_assoc]; exact List.mem_append_right _ hit, h1⟩
      · exact .inr h1
    · rcases h.done k' v tk hk' ha with ⟨it, hit, h1⟩ | h1
      · exact .inl ⟨it, hmem it hit, h1⟩
      · exact .inr h1

/-- The invariant. -/
def Good (seconds : Nat) (ls : List (Label α)) (s : State α) : Prop :=
  ∃ Q R L, Inv seconds (arrivals ls) s Q R L ∧
    (LTS.run (promptStep seconds) init ls = some s → Prompt seconds (arrivals ls) s Q R)

theorem good {ls : List (Label α)} {s : State α} (h : LTS.run (step seconds) init ls = some s) : Good seconds ls s := by
  refine LTS.inv_reach (fun ls s => Good seconds ls s) (s0 := init) ?_ ?_ h
  · refine ⟨[], [], -1, ⟨.nil, rfl, ⟨by simp [arrivals, arrivalsFrom], .inl rfl⟩, rfl, rfl, by simp [init], by simp [init], by simp [arrivals, arrivalsFrom],
      by simp, by simp, by simp, by simp [arrivals, arrivalsFrom], ?_, by simp [init], by simp, by simp⟩, fun _ => ⟨.nil, by simp, by simp [init], by simp [init], by simp, by simp [init]⟩⟩
    intro A B it he; simp at he
  · intro ls s l s' hr ⟨Q, R, L, hi, hp⟩ hs
    have hnow := run_clock hr
    cases l
    case event n =>
      simp only [step, Option.some.injEq] at hs; subst hs
      unfold Good
      rw [arrivals_event, ← hnow]
      cases hn : n.isTerminal with
      | false =>
        cases n <;> simp only [Notif.isTerminal, reduceCtorEq] at hn
        rename_i v
        refine ⟨Q, R, _, hi.event_value v, fun hp' => ?_⟩
        have := (hp (prompt_snoc hr hp').1).event hi (.next v) [] (by simp)
        simpa using this
      | true =>
        refine ⟨Q, _, L, hi.event_term hn, fun hp' => ?_⟩
        exact (hp (prompt_snoc hr hp').1).event hi n _ (by simpa using hn)
    case start k =>
      simp only [step] at hs
      cases hk : s.timers[k]? with
      | none => simp [hk] at hs
      | some p =>
        obtain ⟨n, x⟩ := p
        cases x <;> simp only [hk, reduceCtorEq, Option.some.injEq] at hs
        subst hs
        unfold Good
        rw [arrivals_other _ (by simp)]
        refine ⟨Q, R, L, hi.set_timer hk (by simp) ?_ (by simp), fun hp' => ?_⟩
        · intro w hw; cases hw
          obtain ⟨t, ht⟩ := hi.same k n _ hk
          exact ⟨t, ht, Nat.add_le_add_right (hi.past k n t ht) _⟩
        · have hp := hp (prompt_snoc hr hp').1
          have := hp.set_timer [] s.inbox hk (x := .sleeping (s.now + seconds)) (by simp) ?_ (by simp) (by simp)
          · simpa using this
          · intro w hw; cases hw
            exact ⟨Nat.le_add_right _ _, s.now, hp.fresh k n hk, rfl⟩
    case wake k =>
      simp only [step] at hs
      cases hk : s.timers[k]? with
      | none => simp [hk] at hs
      | some p =>
        obtain ⟨n, x⟩ := p
        cases x <;> simp only [hk, reduceCtorEq, Option.ite_none_right_eq_some, Option.some.injEq] at hs
        rename_i w
        obtain ⟨hle, rfl⟩ := hs
        unfold Good
        rw [arrivals_other _ (by simp)]
        obtain ⟨tk, htk, hwk⟩ := hi.wake k n w hk
        cases hn : n.isTerminal with
        | true =>
          have h1 := (hi.set_timer hk (x := .done) (by simp) (by simp) (fun _ v hv => by subst hv; cases hn)).push_term hn k (k : Int) 0 (.inr ⟨k, n, tk, htk, hn⟩)
          refine ⟨Q, _, L, h1, fun hp' => ?_⟩
          refine (hp (prompt_snoc hr hp').1).set_timer _ _ hk (by simp) (by simp) ?_ ?_
          · intro it hit; simp at hit; subst hit
            exact ⟨rfl, fun v t hv => by subst hv; cases hn⟩
          · intro _ v t hv; subst hv; cases hn
        | false =>
          cases n <;> simp only [Notif.isTerminal, reduceCtorEq] at hn
          rename_i v
          have hkL := hi.last.1 k v tk htk
          by_cases hL : L = k
          · refine ⟨Q, _, L, hi.wake_emit hk hle hL, fun hp' => ?_⟩
            have hp := hp (prompt_snoc hr hp').1
            obtain ⟨h1, t', h2, h3⟩ := hp.wake k _ w hk
            refine hp.set_timer _ _ hk (by simp) (by simp) ?_ ?_
            · intro it hit; simp at hit; subst hit
              refine ⟨rfl, fun v' t hv ha => ?_⟩
              dsimp only at ha; rw [h2] at ha; cases ha; omega
            · intro _ v' t hv _; cases hv
              exact .inl ⟨_, by simp; rfl, rfl, rfl⟩
          · have hL' : (k : Int) < L := by omega
            have hnewer : ∃ (j : Nat) (w : α) (tj : Nat), k < j ∧ (arrivals ls)[j]? = some (.next w, tj) := by
              rcases hi.last.2 with h1 | ⟨j, w', tj, h1, h2⟩
              · omega
              · exact ⟨j, w', tj, by omega, h2⟩
            have h1 := (hi.set_timer hk (x := .done) (by simp) (by simp) (fun _ v' _ => hnewer)).push_stale (v := v) hL'
            refine ⟨Q, R, L, h1, fun hp' => ?_⟩
            have hp := hp (prompt_snoc hr hp').1
            obtain ⟨g1, t', g2, g3⟩ := hp.wake k _ w hk
            have := hp.set_timer [] (s.inbox ++ [(Notif.next v, (k : Int))]) hk (x := .done) (by simp) (by simp) (by simp) ?_
            · simpa using this
            · intro _ v' t hv ha; cases hv
              rw [g2] at ha; cases ha
              obtain ⟨j, w', tj, h3, h4⟩ := hnewer
              exact .inr ⟨j, w', tj, h3, h4, by have := hi.past j _ tj h4; omega⟩
    case receive =>
      simp only [step] at hs
      cases hm : s.inbox with
      | nil => simp [hm] at hs
      | cons m rest =>
        simp only [hm, Option.some.injEq] at hs; subst hs
        unfold Good
        rw [arrivals_other _ (by simp)]
        obtain ⟨A, B, rfl, hA, hi'⟩ := hi.receive hm
        refine ⟨Q ++ A, B, L, hi', fun hp' => ?_⟩
        have hp := hp (prompt_snoc hr hp').1
        have happ : Q ++ A ++ B = Q ++ (A ++ B) := by simp
        refine ⟨?_, fun it hit => hp.pending it (by simp [hit]), hp.fresh, hp.wake, by rw [happ]; exact hp.item, by rw [happ]; exact hp.done⟩
        cases ho : (handle s.current m).2 with
        | none =>
          rw [ho] at hA; simp at hA; subst hA
          simpa using hp.post
        | some n =>
          rw [ho] at hA; simp at hA
          obtain ⟨it, rfl, rfl⟩ := hA
          simpa using hp.post.snoc ⟨rfl, hp.pending it (by simp)⟩
    case dispose =>
      simp only [step, Option.some.injEq] at hs; subst hs
      unfold Good
      rw [arrivals_other _ (by simp)]
      have h1 := hi.push_term (n := .completed) rfl 0 0 1 (.inl (by omega))
      refine ⟨Q, R ++ [⟨.completed, 0, s.now⟩], L, h1, fun hp' => ?_⟩
      have hp := hp (prompt_snoc hr hp').1
      refine ⟨hp.post, ?_, hp.fresh, hp.wake, ?_, ?_⟩
      · intro it hit
        rcases List.mem_append.mp hit with hit | hit
        · exact hp.pending it hit
        · simp at hit; subst hit; rfl
      · intro it hit v tk hv ha
        rw [← List.append_assoc] at hit
        rcases List.mem_append.mp hit with hit | hit
        · exact hp.item it hit v tk hv ha
        · simp at hit; subst hit; cases hv
      · intro k v tk hk ha
        rcases hp.done k v tk hk ha with ⟨it, hit, h1⟩ | h1
        · exact .inl ⟨it, by rw [← List.append_assoc]; exact List.mem_append_left _ hit, h1⟩
        · exact .inr h1
    case tick d =>
      simp only [step, Option.some.injEq] at hs; subst hs
      unfold Good
      rw [arrivals_other _ (by simp)]
      refine ⟨Q, R, L, hi.tick d, fun hp' => ?_⟩
      obtain ⟨hrp, hpr⟩ := prompt_snoc hr hp'
      have hp := hp hrp
      simp only [prompt, Bool.and_eq_true, List.isEmpty_iff, List.all_eq_true] at hpr
      have hR : R = [] := by
        have := hi.proc; rw [hpr.1] at this; simp [process] at this; exact this.2
      subst hR
      refine ⟨hp.post, by simp, ?_, ?_, hp.item, hp.done⟩
      · intro k n hk
        have := hpr.2 _ (List.mem_of_getElem? hk); cases this
      · intro k n w hk
        have h1 := hpr.2 _ (List.mem_of_getElem? hk)
        exact ⟨by simpa using h1, (hp.wake k n w hk).2⟩

end Aio.Debounce
