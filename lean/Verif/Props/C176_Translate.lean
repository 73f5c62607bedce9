import Verif.Props.C175_HostedRetry
/-!
# C176: one error for another with `catch`

In full: `pipe(source, catch(lambda error: fail(g(error))))` sends the values of the source, and when it fails with `e`, the observer gets the error `g(e)`, once, at that time, and the
program goes on. It does not: the error of the observable that the handler returned is handed to the same handler again (the `athrow` of transform.py:410-412 is that of every source,
the first one and those of the handler), which returns `fail(g(g(e)))`, and so on.
-/

namespace Aio.Caught
open Spec Spec.Timed Catch
open VirtualTime (Heap)
variable {S L T α : Type} {h : Heap} {src : Nat → Clocked S L α} {H : Host S L T} {g : Err → Err} {t0 : Nat}

theorem error_unique {ns : List (Notif α × Nat)} (hg : Grammar (ns.map (·.1))) {e e' : Err} {t t' : Nat} (h1 : (.error e, t) ∈ ns) (h2 : (.error e', t') ∈ ns) : e = e' := by
  have a1 := failed_of_mem hg (List.mem_map.mpr ⟨_, h1, rfl⟩)
  have a2 := failed_of_mem hg (List.mem_map.mpr ⟨_, h2, rfl⟩)
  rw [a1] at a2
  cases a2; rfl

/-- On any loop: if the source has failed with `e`, the source after it is `fail(g(e))`, the one after that `fail(g(g(e)))`, and so on: the handler is called with its own errors. -/
theorem C176_again (hs : Hosts H src) {ks s} (h1 : LTS.run (translated src g t0).step (translated src g t0).init ks = some s)
    {t si e te} (h0 : s.srcs[0]? = some (.source, t, si)) (he : (.error e, te) ∈ (attempts src .source t).calls si) :
    ∀ (k : Nat) ys u sj, s.srcs[k + 1]? = some (ys, u, sj) → ys = .fail (Nat.repeat g (k + 1) e) := by
  have hf := attempts_proper hs
  obtain ⟨-, hd⟩ := C115_handled hf h1
  obtain ⟨hist, hp, -⟩ := past hf h1
  have gr : ∀ (k : Nat) xs t si, s.srcs[k]? = some (xs, t, si) → Grammar (((attempts src xs t).calls si).map (·.1)) := by
    intro k xs t si hk
    obtain ⟨⟨li, hl, -⟩, -⟩ := hp.sources k xs t si hk
    exact hf.grammar xs t li si hl
  intro k
  induction k with
  | zero =>
    intro ys u sj hk
    obtain ⟨e', te', a1, a2, -⟩ := hd 0 _ _ _ _ _ _ h0 hk
    rw [error_unique (gr _ _ _ _ h0) a1 he] at a2
    cases a2; rfl
  | succ k ih =>
    intro ys u sj hk
    obtain ⟨⟨xs, v, sk⟩, hx⟩ : ∃ i, s.srcs[k + 1]? = some i := ⟨_, List.getElem?_eq_getElem (by have := (List.getElem?_eq_some_iff.mp hk).1; omega)⟩
    obtain rfl := ih _ _ _ hx
    obtain ⟨e', te', a1, a2, -⟩ := hd (k + 1) _ _ _ _ _ _ hx hk
    obtain ⟨⟨li, hl, -⟩, -⟩ := hp.sources _ _ _ _ hx
    obtain ⟨s₁, ls₁, rfl, h2, -⟩ := right_run hl
    have a1 : (.error e', te') ∈ (failAt (α := α) v (Nat.repeat g (k + 1) e)).calls s₁ := a1
    rcases failAt_inv h2 with h3 | ⟨w, h3, -⟩ <;> rw [h3] at a1
    · cases a1
    · obtain ⟨rfl, -⟩ : e' = Nat.repeat g (k + 1) e ∧ te' = w := by simpa using a1
      cases a2; rfl

/-- When the source has failed, a task can go on. -/
theorem translating (hs : Hosts H src) {ks s} (h1 : LTS.run (translated src g t0).step (translated src g t0).init ks = some s)
    (ho : ∀ l, Time.act l ∈ ks → (attemptHost (C := Unit) (α := α) H).Own l) (hn : ∀ t, (attemptHost (C := Unit) (α := α) H).need s t ≠ .soon)
    {xs t si e te} (hk : s.srcs[0]? = some (xs, t, si)) (he : (.error e, te) ∈ (attempts src xs t).calls si) : False := by
  have hf := attempts_proper hs
  have P := Host.caught_parts (I := H.sum (OneShot.host (α := α))) hf ⟨ks, h1, ho⟩
  have hnof : NoFailure ks := fun j hj => by obtain ⟨j', h | h⟩ := (Host.caught_own ho).2 _ hj <;> cases h
  have hnext : ∀ (k : Nat) xs t si e te, s.srcs[k]? = some (xs, t, si) → (.error e, te) ∈ (attempts src xs t).calls si → k + 1 < s.srcs.length := by
    intro k xs t si e te hk he
    rcases C115_continues hf h1 hnof (Host.caught_idle hn) hk he with h | ⟨e', h⟩
    · exact h
    · cases h
  obtain ⟨s0, h0⟩ := (C115_handled hf h1).1
  obtain ⟨rfl, rfl, rfl⟩ : xs = .source ∧ t = t0 ∧ si = s0 := by simpa [hk] using h0
  have hlong := hnext _ _ _ _ _ _ hk he
  obtain ⟨⟨ys, u, sj⟩, hj⟩ : ∃ i, s.srcs[s.srcs.length - 2 + 1]? = some i := ⟨_, List.getElem?_eq_getElem (by omega)⟩
  obtain rfl := C176_again hs h1 hk he _ _ _ _ hj
  obtain ⟨g1, -⟩ := P.source _ _ _ _ hj
  obtain ⟨s₂, rfl, g2⟩ := Host.right_reach g1
  have := hn (.inl (s.srcs.length - 2 + 1, .inr ()))
  simp only [Host.caught, hj] at this
  obtain ⟨v, hv⟩ := failAt_rest g2 this
  have := hnext _ _ _ _ _ v hj hv
  omega

/-- C176 is false: from the time `te` on at which the source has failed, whatever else runs on the loop, there is always a callback that is due, and it remains `te`; the observer has got
the values and nothing else. -/
theorem C176_violated [DecidableEq T] (K : h.Laws) (hs : Hosts H src) {hops ls m}
    (hr : LTS.run (Hosted.step h hops (translated src g t0) (attemptHost (C := Unit) (α := α) H)) Hosted.init ls = some m) {s} (hm : m.sub = some s)
    {xs t si e te} (hk : s.srcs[0]? = some (xs, t, si)) (he : (.error e, te) ∈ (attempts src xs t).calls si) :
    m.vt.time = te ∧ m.vt.ready ≠ [] ∧ s.sent = noErrors ((attempts src xs t).calls si) := by
  have hI := attempts_family hs
  have hf := attempts_proper hs
  obtain ⟨a1, a2⟩ := frozen K hs (fun h1 ho hn _ _ _ _ _ hk he => translating hs h1 ho hn hk he) hr hm hk he
  refine ⟨a1, a2, ?_⟩
  obtain ⟨-, ks, h1, -⟩ := C174_schedule K hI hf hr hm
  obtain ⟨hist, hp, -⟩ := past hf h1
  obtain ⟨s0, h0⟩ := (C115_handled hf h1).1
  obtain ⟨rfl, rfl, rfl⟩ : xs = .source ∧ t = t0 ∧ si = s0 := by simpa [hk] using h0
  have hag := C176_again hs h1 hk he
  rw [C174_in_order K hI hf hr hm]
  obtain ⟨i, rest, hrest⟩ : ∃ i rest, s.srcs = i :: rest := by
    cases hsr : s.srcs with
    | nil => rw [hsr] at hk; cases hk
    | cons i rest => exact ⟨i, rest, rfl⟩
  have hi : i = (.source, t, si) := by simpa [hrest] using hk
  rw [hrest, List.flatMap_cons, hi]
  rw [List.flatMap_eq_nil_iff.mpr, List.append_nil]
  rintro ⟨ys, u, sj⟩ hmem
  obtain ⟨k, hkk⟩ := List.getElem?_of_mem hmem
  have hkk' : s.srcs[k + 1]? = some (ys, u, sj) := by rw [hrest]; simpa using hkk
  obtain rfl := hag k _ _ _ hkk'
  obtain ⟨⟨li, hl, -⟩, -⟩ := hp.sources _ _ _ _ hkk'
  obtain ⟨s₁, ls₁, rfl, h2, -⟩ := right_run hl
  show noErrors ((failAt (α := α) u (Nat.repeat g (k + 1) e)).calls s₁) = []
  rcases failAt_inv h2 with h3 | ⟨w, h3, -⟩ <;> rw [h3] <;> rfl

/-- C176, the part that holds: as long as the source has not failed, the observer has got what the source has sent, at the times at which it was sent, and no other source was subscribed.
Missing: that the error is delivered, and that the time passes after it. -/
theorem C176_partial [DecidableEq T] (K : h.Laws) (hs : Hosts H src) {hops ls m}
    (hr : LTS.run (Hosted.step h hops (translated src g t0) (attemptHost (C := Unit) (α := α) H)) Hosted.init ls = some m) {s} (hm : m.sub = some s) :
    ∃ si, s.srcs[0]? = some (.source, t0, .inl si) ∧ ((∀ e te, (.error e, te) ∉ (src t0).calls si) → s.srcs.length = 1 ∧ s.sent = (src t0).calls si) := by
  have hI := attempts_family hs
  have hf := attempts_proper hs
  obtain ⟨-, ks, h1, -⟩ := C174_schedule K hI hf hr hm
  obtain ⟨hist, hp, -⟩ := past hf h1
  obtain ⟨⟨s0, h0⟩, hd⟩ := C115_handled hf h1
  obtain ⟨⟨li, hl, -⟩, -⟩ := hp.sources _ _ _ _ h0
  obtain ⟨s₁, ls₁, rfl, h2, -⟩ := left_run hl
  refine ⟨s₁, h0, fun hne => ?_⟩
  have hlen : s.srcs.length = 1 := by
    have h3 := (List.getElem?_eq_some_iff.mp h0).1
    rcases Nat.lt_or_ge 1 s.srcs.length with hlt | hge
    · obtain ⟨⟨ys, u, sj⟩, hj⟩ : ∃ i, s.srcs[0 + 1]? = some i := ⟨_, List.getElem?_eq_getElem hlt⟩
      obtain ⟨e, te, a1, -⟩ := hd 0 _ _ _ _ _ _ h0 hj
      exact absurd a1 (hne e te)
    · omega
  refine ⟨hlen, ?_⟩
  rw [C174_in_order K hI hf hr hm]
  obtain ⟨i, hi⟩ := List.length_eq_one_iff.mp hlen
  rw [hi] at h0 ⊢
  obtain rfl : i = (.source, t0, .inl s₁) := by simpa using h0
  simp only [List.flatMap_cons, List.flatMap_nil, List.append_nil]
  show noErrors ((src t0).calls s₁) = _
  rw [noErrors, List.filter_eq_self]
  rintro ⟨n, u⟩ hmem
  cases n with
  | error e => exact absurd hmem (hne e u)
  | next _ => rfl
  | completed => rfl

/-! ## Examples -/

section Examples

/-- `of_async(work)` where `work` raises error 1 after 2, and a handler that returns `fail` with the next error; other code sleeps until 9. -/
def nextError : Err → Err
  | .user n => .user (n + 1)
  | e => e

def translatingRun (k : Nat) : Option (Int × Bool × Option (List (Attempt × Nat) × List (Notif Nat × Nat))) :=
  (Hosted.play (fun _ => 1) (translated brokenJob nextError 0) (attemptHost (C := Unit) (Job.host (α := Nat))) Hosted.init
    ([some .subscribe, some (.loop (.callAt 9))] ++ List.replicate k none)).map fun m => (m.vt.time, m.vt.ready.isEmpty, m.sub.map fun s => (births s, s.sent))

set_option synthInstance.maxSize 1000 in
/-- The job fails at 2; the handler has been called thrice, nothing was sent, and it is still 2. -/
example : translatingRun 70 = some (2, false, some ([(.source, 0), (.fail (.user 2), 2), (.fail (.user 3), 2), (.fail (.user 4), 2)], [])) := by decide +kernel

set_option synthInstance.maxSize 1000 in
/-- `C176_partial`: before, one source. -/
example : translatingRun 10 = some (2, false, some ([(.source, 0)], [])) := by decide +kernel

example {hops ls m} (hr : LTS.run (Hosted.step VirtualTime.heapq hops (translated brokenJob nextError 0) (attemptHost (C := Unit) (Job.host (α := Nat)))) Hosted.init ls = some m) {s} (hm : m.sub = some s)
    {xs t si e te} (hk : s.srcs[0]? = some (xs, t, si)) (he : (.error e, te) ∈ (attempts brokenJob xs t).calls si) : m.vt.time = te ∧ m.vt.ready ≠ [] :=
  have h := C176_violated VirtualTime.heapqLaws brokenJob_hosts hr hm hk he
  ⟨h.1, h.2.1⟩

end Examples
end Aio.Caught
