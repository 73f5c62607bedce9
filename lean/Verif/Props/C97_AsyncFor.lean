import Verif.Lemmas.AsyncFor
import Verif.Props.C96_EndToEnd
/-!
# C97: `async for` over a pipeline
-/

namespace Aio.Spec
variable {γ : Type}

/-- The first `k` answers of `__anext__` over a stream that may go on: its values, then its end again and again. -/
def answers (t : Story γ) (k : Nat) : List (Iterator.Took γ) :=
  (t.vals.map Iterator.Took.value ++ List.replicate (k - t.vals.length) (match t.fin with
    | .failed e => Iterator.Took.raised e
    | _ => Iterator.Took.stop)).take k

end Aio.Spec

namespace Aio.AsyncFor
open Spec
variable {α γ : Type} {c : Chain α γ} {dom : List (Notif α) → Prop} {G : Story α → Story γ}

/-- What the source has posted. -/
def posted (ls : List (Label c)) : List (Notif α) := ls.filterMap fun | .post n => some n | _ => none

/-- How often the loop has called `__anext__`. -/
def asked (ls : List (Label c)) : Nat := (ls.filter fun | .anext => true | _ => false).length

/-- Neither the loop nor the source: a task that is under way goes on. -/
def Internal : Label c → Prop
  | .anext => False
  | .post _ => False
  | _ => True

/-- No task that is under way can go on. -/
def Rest (s : State c) : Prop := ∀ l, Internal l → step s l = none

private structure Inv (ls : List (Label c)) (s : State c) : Prop where
  pipe : ∃ es, c.slowProc.exec c.slowProc.init es = some (s.ps, s.outs) ∧ Proc.inputs es = posted ls
  iter : ∃ ils, LTS.run Iterator.step Iterator.init ils = some s.it ∧ Iterator.Sequential ils ∧ Iterator.made ils = s.outs ∧
    (ils.filter Iterator.isAnext).length = asked ls

private theorem posted_snoc (ls : List (Label c)) (l : Label c) : posted (ls ++ [l]) = posted ls ++ (match l with | .post n => [n] | _ => []) := by
  rw [posted, List.filterMap_append]; cases l <;> rfl

private def asks : Label c → Nat
  | .anext => 1
  | _ => 0

private def pulls : Iterator.Label γ → Nat
  | .anext => 1
  | _ => 0

private theorem asked_snoc (ls : List (Label c)) (l : Label c) : asked (ls ++ [l]) = asked ls + asks l := by
  rw [asked, List.filter_append, List.length_append]; cases l <;> rfl

private theorem idle_iff {it : Iterator.State γ} : idle it = true ↔ ∀ x ∈ it.calls, x = .returned := by
  rw [idle, List.all_eq_true]
  refine ⟨fun h x hx => ?_, fun h x hx => ?_⟩
  · have := h x hx
    cases x <;> simp_all
  · rw [h x hx]

private theorem move_inv {s s' : State c} {ps o} (h : move s ps o = some s') :
    (o = [] ∧ s' = { s with ps }) ∨
    ∃ n it, o = [n] ∧ (∀ x ∈ s.it.calls, x = .returned) ∧ Iterator.step s.it (.call n) = some it ∧ s' = ⟨ps, it, s.outs ++ [n]⟩ := by
  unfold move at h
  split at h
  · cases h; exact .inl ⟨rfl, rfl⟩
  · next n =>
    split at h
    · next hi =>
      rw [Option.map_eq_some_iff] at h
      obtain ⟨it, h1, rfl⟩ := h
      exact .inr ⟨n, it, rfl, idle_iff.mp hi, h1, rfl⟩
    · cases h
  · cases h

private theorem inv_move {ls : List (Label c)} {s s' : State c} {ps o es} {l : Label c} (h : Inv ls s) (hm : move s ps o = some s')
    (hex : c.slowProc.exec c.slowProc.init es = some (ps, s.outs ++ o)) (hin : Proc.inputs es = posted (ls ++ [l]))
    (hl : l ≠ .anext) : Inv (ls ++ [l]) s' := by
  obtain ⟨ils, h1, h2, h3, h4⟩ := h.iter
  have ha : asked (ls ++ [l]) = asked ls := by rw [asked_snoc]; cases l <;> first | rfl | exact absurd rfl hl
  rcases move_inv hm with ⟨rfl, rfl⟩ | ⟨n, it, rfl, hi, hst, rfl⟩
  · refine ⟨⟨es, by simpa using hex, hin⟩, ⟨ils, h1, h2, h3, ha ▸ h4⟩⟩
  · refine ⟨⟨es, hex, hin⟩, ⟨ils ++ [.call n], LTS.run_append.mpr ⟨_, h1, LTS.run_cons.mpr ⟨_, hst, rfl⟩⟩,
      Iterator.sequential_snoc h1 h2 (fun _ _ => hi), ?_, ?_⟩⟩
    · rw [Iterator.made_snoc, h3]
    · rw [ha, List.filter_append, List.length_append, h4]; rfl

private theorem inv_step (ls : List (Label c)) (s : State c) (l : Label c) (s' : State c) (h : Inv ls s) (hs : step s l = some s') :
    Inv (ls ++ [l]) s' := by
  have iter : ∀ (il : Iterator.Label γ) it, (∀ n, il ≠ .call n) → posted (ls ++ [l]) = posted ls →
      pulls il = asks l → Iterator.step s.it il = some it →
      Inv (ls ++ [l]) { s with it } := by
    intro il it hc hp ha hst
    obtain ⟨ils, h1, h2, h3, h4⟩ := h.iter
    obtain ⟨es, h5, h6⟩ := h.pipe
    refine ⟨⟨es, h5, by rw [hp, h6]⟩, ⟨ils ++ [il], LTS.run_append.mpr ⟨_, h1, LTS.run_cons.mpr ⟨_, hst, rfl⟩⟩,
      Iterator.sequential_snoc h1 h2 (fun n he => absurd he (hc n)), ?_, ?_⟩⟩
    · rw [Iterator.made_snoc, h3]
      cases il <;> simp <;> exact absurd rfl (hc _)
    · rw [asked_snoc, List.filter_append, List.length_append, h4, ← ha]
      cases il <;> rfl
  cases l with
  | anext =>
    simp only [step, Option.map_eq_some_iff] at hs
    obtain ⟨it, h1, rfl⟩ := hs
    exact iter .anext it (by simp) (by simp [posted_snoc]) rfl h1
  | subscribed =>
    simp only [step, Option.map_eq_some_iff] at hs
    obtain ⟨it, h1, rfl⟩ := hs
    exact iter .subscribed it (by simp) (by simp [posted_snoc]) rfl h1
  | resume =>
    simp only [step, Option.map_eq_some_iff] at hs
    obtain ⟨it, h1, rfl⟩ := hs
    exact iter .run it (by simp) (by simp [posted_snoc]) rfl h1
  | post n =>
    simp only [step] at hs
    split at hs
    · cases hs
    · obtain ⟨es, h5, h6⟩ := h.pipe
      refine inv_move (es := es ++ [.feed n]) h hs ?_ ?_ (by simp)
      · exact Proc.exec_append _ h5 (by simp [Proc.exec])
      · simp [posted_snoc, h6]
  | worker l =>
    simp only [step] at hs
    split at hs
    · cases hs
    · next ps o hst =>
      obtain ⟨es, h5, h6⟩ := h.pipe
      refine inv_move (es := es ++ [.step l]) h hs ?_ ?_ (by simp)
      · exact Proc.exec_append _ h5 (by simp [Proc.exec, hst])
      · simp [posted_snoc, h6]

private theorem inv_run {ls : List (Label c)} {s : State c} (hr : LTS.run step (init c) ls = some s) : Inv ls s :=
  LTS.inv_hist (step := step) Inv ⟨⟨[], rfl, rfl⟩, ⟨[], rfl, by intro p n q s h; simp at h, rfl, rfl⟩⟩ inv_step hr

/-- Nobody is in the middle of a segment of the iterator. -/
theorem turn_free {ls : List (Label c)} {s : State c} (hr : LTS.run step (init c) ls = some s) : Iterator.isTurn s.it.ready = false := by
  obtain ⟨-, ⟨ils, h1, h2, -, -⟩⟩ := inv_run hr
  exact (Iterator.sequential_steps h1 h2).2.1

/-- What the iterator has been told, and what it has made of it. -/
private theorem told (hG : Delivers c.proc dom G) {ls : List (Label c)} {s : State c} (hr : LTS.run step (init c) ls = some s)
    (hd : dom (posted ls)) : ∃ (u : Story γ) (m : Iterator.Mode γ) (vs : List γ) (k : Nat), s.outs = u.events ∧
      (u.fin ≠ .running → u = G (story (posted ls))) ∧ s.outs <+: (G (story (posted ls))).events ∧
      s.outs = vs.map .next ++ m.push.toList ∧ s.it.push = m.push ∧
      ∃ n, s.it.taken = vs.map .value ++ List.replicate k (Iterator.Took.of n) ∧ (k = 0 ∨ m.push = some n ∧ n.isTerminal = true) := by
  obtain ⟨⟨es, h5, h6⟩, ⟨ils, h1, h2, h3, h4⟩⟩ := inv_run hr
  have hpre := hG.slow.prefix_ es _ _ h5 (by rw [h6]; exact hd)
  rw [h6] at hpre
  obtain ⟨u, hu, hut⟩ := EndToEnd.prefix_events hpre
  obtain ⟨m, t, rest, vs, k, h⟩ := Iterator.inv_run h1
  have hs := (Iterator.sequential_inv h1 h2).2
  exact ⟨u, m, vs, k, hu, hut, hpre, by rw [← h3, ← hs, h.vals], h.push, h.took⟩

private theorem events_inj {u v : Story γ} (h : u.events = v.events) : u = v := by
  have := congrArg story h
  simpa using this

/-- An end among the calls is the end of the stream. -/
private theorem ended {u : Story γ} {vs : List γ} {n : Notif γ} (h : u.events = vs.map .next ++ [n]) (hn : n.isTerminal = true) :
    u.vals = vs ∧ u.fin ≠ .running ∧ Iterator.Took.of n = (match u.fin with | .failed e => .raised e | _ => .stop) := by
  cases n with
  | next v => cases hn
  | error e =>
    have : u = ⟨vs, .failed e⟩ := events_inj (by rw [h]; rfl)
    subst this; exact ⟨rfl, by simp, rfl⟩
  | completed =>
    have : u = ⟨vs, .done⟩ := events_inj (by rw [h]; rfl)
    subst this; exact ⟨rfl, by simp, rfl⟩

private theorem vals_prefix {t : Story γ} {vs : List γ} {r : List (Notif γ)} (h : vs.map .next ++ r <+: t.events) : vs <+: t.vals := by
  obtain ⟨ws, fin⟩ := t
  induction vs generalizing ws with
  | nil => exact List.nil_prefix
  | cons v vs ih =>
    cases ws with
    | nil =>
      exfalso
      cases fin <;> simp [Story.events] at h
    | cons w ws =>
      rw [show (Story.events ⟨w :: ws, fin⟩ : List (Notif γ)) = .next w :: Story.events ⟨ws, fin⟩ from rfl, List.map_cons, List.cons_append,
        List.cons_prefix_cons] at h
      obtain ⟨h1, h2⟩ := h
      cases h1
      exact List.cons_prefix_cons.mpr ⟨rfl, ih ws h2⟩

/-- C97. Whatever the source posts and whatever the schedule: what the calls of `__anext__` have returned so far are the first
values of what the pipeline makes of the source's stream; once a call ended with `StopAsyncIteration` or an error, the loop
has got all of them, and that is how the stream ended. -/
theorem C97_yields (hG : Delivers c.proc dom G) {ls : List (Label c)} {s : State c} (hr : LTS.run step (init c) ls = some s)
    (hd : dom (posted ls)) :
    s.it.taken = answers (G (story (posted ls))) s.it.taken.length ∧
    ((∃ x ∈ s.it.taken, ∀ v, x ≠ .value v) → (G (story (posted ls))).fin ≠ .running) := by
  obtain ⟨u, m, vs, k, h1, h2, h3, h4, h5, n, h6, h7⟩ := told hG hr hd
  rcases h7 with rfl | ⟨h7, h8⟩
  · have hv : vs <+: (G (story (posted ls))).vals := vals_prefix (h4 ▸ h3)
    refine ⟨?_, ?_⟩
    · obtain ⟨r, hr⟩ := hv
      rw [h6]
      simp only [answers, ← hr, List.replicate_zero, List.append_nil, List.length_map, List.map_append, List.append_assoc]
      rw [List.take_left' (by simp)]
    · rintro ⟨x, hx, hv⟩
      rw [h6] at hx
      simp only [List.replicate_zero, List.append_nil, List.mem_map] at hx
      obtain ⟨v, -, rfl⟩ := hx
      exact absurd rfl (hv v)
  · rw [h7] at h4
    obtain ⟨e1, e2, e3⟩ := ended (h1.symm.trans h4) h8
    have hu := h2 e2
    rw [← hu]
    refine ⟨?_, fun _ => e2⟩
    rw [h6]
    simp only [answers, e1, e3, List.length_append, List.length_map, List.length_replicate]
    rw [show vs.length + k - vs.length = k by omega, List.take_of_length_le (by simp)]

/-- C97. In a state in which no task can go on, the loop waits only if it has got everything the stream has to give so far. -/
theorem C97_no_deadlock (hG : Delivers c.proc dom G) {ls : List (Label c)} {s : State c} (hr : LTS.run step (init c) ls = some s)
    (hd : dom (posted ls)) (hrest : Rest s) : s.it.consumer ≠ .subscribing ∧
    (s.it.consumer = .waiting → G (story (posted ls)) = ⟨Iterator.yielded s.it.taken, .running⟩) := by
  obtain ⟨⟨es, h5, h6⟩, ⟨ils, h1, h2, h3, -⟩⟩ := inv_run hr
  obtain ⟨hnt, hit, hrun, -⟩ := Iterator.sequential_steps h1 h2
  refine ⟨fun hk => ?_, fun hk => ?_⟩
  · have := hrest .subscribed trivial
    simp [step, Iterator.step, hit, hk] at this
  · have hrd : s.it.ready = [] := hrun (by have := hrest .resume trivial; simpa [step] using this)
    have hret := Iterator.C19_sequential_partial h1 h2 hk hrd
    have hquiet : c.slowProc.Quiescent s.ps := by
      intro l
      have hl := hrest (.worker l) trivial
      simp only [step] at hl
      cases hst : c.slowProc.step s.ps l with
      | none => rfl
      | some r =>
        obtain ⟨ps, o⟩ := r
        rw [hst] at hl
        have hlen := c.oneAtATime.step _ _ _ _ hst
        exfalso
        match o, hlen with
        | [], _ => simp [move] at hl
        | [n], _ => simp [move, idle_iff.mpr hret, Iterator.step] at hl
        | _ :: _ :: _, hlen => simp at hlen
    have hall := hG.slow.all es _ _ h5 (by rw [h6]; exact hd) hquiet
    rw [h6] at hall
    obtain ⟨hpush, -, -⟩ := Iterator.C19_next_call_wakes_partial h1 hk hrd .completed
    obtain ⟨u, m, vs, k, g1, g2, g3, g4, g5, n, g6, g7⟩ := told hG hr hd
    rw [← g5, hpush] at g4 g7
    have hk0 : k = 0 := by
      rcases g7 with g7 | ⟨g7, -⟩
      · exact g7
      · cases g7
    subst hk0
    have : Iterator.yielded s.it.taken = vs := by
      rw [g6, Iterator.yielded_value]; simp [Iterator.yielded]
    rw [this]
    refine events_inj ?_
    rw [← hall, g4]; rfl

/-- C97. The tasks that are under way cannot go on for ever without another call of `__anext__` and without another post. -/
theorem C97_terminates {ls : List (Label c)} {s : State c} (hr : LTS.run step (init c) ls = some s) :
    Acc (fun s' s : State c => ∃ l, Internal l ∧ step s l = some s') s := by
  have hT : c.slowProc.Terminates := by obtain ⟨f, -, -, h⟩ := c.same.procs; exact h
  suffices h : ∀ ps, Acc (fun s' s => ∃ l o, c.slowProc.step s l = some (s', o)) ps → ∀ n ls (s : State c),
      LTS.run step (init c) ls = some s → s.ps = ps → Iterator.todo s.it = n →
      Acc (fun s' s : State c => ∃ l, Internal l ∧ step s l = some s') s from h _ (hT s.ps) _ ls s hr rfl rfl
  intro ps hps
  induction hps with
  | intro ps _ ihp =>
    intro n
    induction n using Nat.strongRecOn with
    | ind n ihn =>
      intro ls s hr hps hn
      constructor
      rintro s' ⟨l, hl, hs⟩
      have hr' : LTS.run step (init c) (ls ++ [l]) = some s' := LTS.run_append.mpr ⟨s, hr, LTS.run_cons.mpr ⟨s', hs, rfl⟩⟩
      obtain ⟨ils, h1, h2, -, -⟩ := (inv_run hr).iter
      obtain ⟨-, -, -, hdec⟩ := Iterator.sequential_steps h1 h2
      cases l with
      | anext => exact hl.elim
      | post n => exact hl.elim
      | subscribed =>
        simp only [step, Option.map_eq_some_iff] at hs
        obtain ⟨it, hst, rfl⟩ := hs
        exact ihn _ (hn ▸ hdec it (.inr hst)) _ _ hr' hps rfl
      | resume =>
        simp only [step, Option.map_eq_some_iff] at hs
        obtain ⟨it, hst, rfl⟩ := hs
        exact ihn _ (hn ▸ hdec it (.inl hst)) _ _ hr' hps rfl
      | worker l =>
        simp only [step] at hs
        split at hs
        · cases hs
        · next t o hst =>
          have : s'.ps = t := by
            rcases move_inv hs with ⟨-, rfl⟩ | ⟨n, it, -, -, -, rfl⟩ <;> rfl
          exact ihp t ⟨l, o, hps ▸ hst⟩ _ _ s' hr' this rfl

private theorem to_rest {ls : List (Label c)} {s : State c} (hr : LTS.run step (init c) ls = some s) :
    ∃ ls' s', (∀ l ∈ ls', Internal l) ∧ LTS.run step s ls' = some s' ∧ Rest s' := by
  induction C97_terminates hr generalizing ls with
  | intro s _ ih =>
    by_cases h : Rest s
    · exact ⟨[], s, by simp, rfl, h⟩
    · simp only [Rest, Classical.not_forall] at h
      obtain ⟨l, hl, hs⟩ := h
      obtain ⟨s1, hs1⟩ := Option.ne_none_iff_exists'.mp hs
      obtain ⟨ls', s', h1, h2, h3⟩ := ih s1 ⟨l, hl, hs1⟩ (ls := ls ++ [l]) (LTS.run_append.mpr ⟨s, hr, LTS.run_cons.mpr ⟨s1, hs1, rfl⟩⟩)
      exact ⟨l :: ls', s', fun x hx => (List.mem_cons.mp hx).elim (fun h => h ▸ hl) (h1 x),
        LTS.run_cons.mpr ⟨s1, hs1, h2⟩, h3⟩

private theorem internal_posted {ls ls' : List (Label c)} (h : ∀ l ∈ ls', Internal l) : posted (ls ++ ls') = posted ls ∧ asked (ls ++ ls') = asked ls := by
  induction ls' generalizing ls with
  | nil => simp
  | cons l ls' ih =>
    have h1 := ih (ls := ls ++ [l]) (fun x hx => h x (by simp [hx]))
    have hl := h l (by simp)
    rw [List.append_assoc] at h1
    refine ⟨h1.1.trans ?_, h1.2.trans ?_⟩
    · rw [posted_snoc]; cases l <;> first | exact hl.elim | simp
    · rw [asked_snoc]; cases l <;> first | exact hl.elim | rfl

/-- C97. Every call of `__anext__` comes to its end: whatever has happened so far, the tasks that are under way get to a point
at which all calls of `__anext__` have returned, the `k`-th one with the `k`-th value of the stream or with its end - unless the
loop has asked for more than the stream has to give so far. -/
theorem C97_answers (hG : Delivers c.proc dom G) {ls : List (Label c)} {s : State c} (hr : LTS.run step (init c) ls = some s)
    (hd : dom (posted ls)) (hmore : (G (story (posted ls))).fin = .running → asked ls ≤ (G (story (posted ls))).vals.length) :
    ∃ ls' s', (∀ l ∈ ls', Internal l) ∧ LTS.run step s ls' = some s' ∧ s'.it.taken = answers (G (story (posted ls))) (asked ls) := by
  obtain ⟨ls', s', h1, h2, h3⟩ := to_rest hr
  have hr' := LTS.run_append.mpr ⟨s, hr, h2⟩
  obtain ⟨hp, ha⟩ := internal_posted (ls := ls) h1
  refine ⟨ls', s', h1, h2, ?_⟩
  have hy := (C97_yields hG hr' (by rw [hp]; exact hd)).1
  obtain ⟨hsub, hwait⟩ := C97_no_deadlock hG hr' (by rw [hp]; exact hd) h3
  obtain ⟨ils, g1, -, -, g4⟩ := (inv_run hr').iter
  have hcount := Iterator.anexts_inv g1
  rw [g4, ha] at hcount
  rw [hp] at hy hwait
  have hidle : Iterator.inside s'.it.consumer = 0 := by
    cases hk : s'.it.consumer with
    | subscribing => exact absurd hk hsub
    | waiting =>
      exfalso
      have hG' := hwait hk
      rw [hG'] at hmore
      have := hmore rfl
      rw [hcount, hk] at this
      simp only [Iterator.inside] at this
      have hlen : (Iterator.yielded s'.it.taken).length ≤ s'.it.taken.length := by
        unfold Iterator.yielded; exact List.length_filterMap_le _ _
      omega
    | _ => rfl
  rw [hcount, hidle]
  exact hy

/-- C97 for `async for y in to_async_iterable(pipe(from_iterable(xs), op))`: once the source's task has run, asking once more
than there are values gets all the values that the pipeline makes of the list, in order, and then the end. -/
theorem C97_list {op : Operator α γ} (hG : Delivers op.protected.proc (fun _ => True) G) (xs : List α) {ys : List γ}
    (hy : G ⟨xs, .done⟩ = ⟨ys, .done⟩) {ls : List (Label op.protected)} {s : State op.protected}
    (hr : LTS.run step (init op.protected) ls = some s) (hp : posted ls = (ofSeqWorker xs none false).out) (ha : asked ls = ys.length + 1) :
    ∃ ls' s', (∀ l ∈ ls', Internal l) ∧ LTS.run step s ls' = some s' ∧ s'.it.taken = ys.map .value ++ [.stop] := by
  have hw : story (posted ls) = ⟨xs, .done⟩ := by
    rw [hp, ofSeqWorker_posts]; exact story_events ⟨xs, .done⟩
  obtain ⟨ls', s', h1, h2, h3⟩ := C97_answers hG hr trivial (by rw [hw, hy]; intro h; cases h)
  refine ⟨ls', s', h1, h2, ?_⟩
  rw [h3, hw, hy, ha]
  simp only [answers]
  rw [show ys.length + 1 - ys.length = 1 by omega, List.take_of_length_le (by simp)]
  rfl

/-- C97, a function that raises: the loop ends with its exception. -/
theorem C97_raising_function {β : Type} (f : α → Except Err β) (zs qs : List α) (x : α) (e : Err) (hf : FirstRaise f zs x e) (he : e ≠ .cancelled)
    {ls : List (Label (map f).protected)} {s : State (map f).protected} (hr : LTS.run step (init (map f).protected) ls = some s)
    (hp : posted ls = (ofSeqWorker (zs ++ x :: qs) none false).out) {r : Iterator.Took β} (h : r ∈ s.it.taken) (hv : ∀ v, r ≠ .value v) :
    r = .raised e := by
  have hw : story (posted ls) = ⟨zs ++ x :: qs, .done⟩ := by
    rw [hp, ofSeqWorker_posts]; exact story_events ⟨_, .done⟩
  have := (C97_yields (map_acts (f := f)).delivers hr trivial).1
  rw [hw, map_raise f zs qs x e .done hf, raised_failed he] at this
  rw [this] at h
  have h := List.mem_of_mem_take h
  rcases List.mem_append.mp h with h | h
  · obtain ⟨v, -, rfl⟩ := List.mem_map.mp h
    exact absurd rfl (hv v)
  · exact (List.mem_replicate.mp h).2

/-- `map(x + 10) | take(2)` behind a safe observer -/
abbrev demo : Chain Nat Nat := EndToEnd.demo.protected
private abbrev u : Label demo := .worker (.inl ())
private abbrev v : Label demo := .worker (.inr (.inl ()))
private abbrev w : Label demo := .worker (.inr (.inr ()))

-- the loop asks for more when it has got something; the last worker waits until it does
private def demoRun : List (Label demo) :=
  [.anext, .post (.next 1), .post (.next 2), .post (.next 3), .post .completed, .subscribed, u, u, u, u, v, v, v, v, v, w, w, .resume, w, .resume,
    w, .anext, .resume, w, w, .anext]

example : (LTS.run step (init demo) demoRun).map (fun s => (s.it.taken, asked demoRun)) =
    some ([.value 11, .value 12, .stop], 3) := by decide
-- the source has posted a list
example : posted demoRun = (ofSeqWorker [1, 2, 3] none false).out := by decide
-- the worker of `take` cannot make its second call before the loop has taken the first value
example : (LTS.run step (init demo) [.anext, .post (.next 1), .post (.next 2), u, u, u, u, v, v, v, v, w, w, w, w]).isNone = true := by decide
-- the hypothesis of `C97_list` for this pipeline
example (x y : Nat) (xs : List Nat) : ∃ G, Delivers demo.proc (fun _ => True) G ∧ G ⟨x :: y :: xs, .done⟩ = ⟨[x + 10, y + 10], .done⟩ := by
  have hG : EndToEnd.demo.Computes (Spec.take 2 ∘ mapped (· + 10)) :=
    C07_compose _ _ _ _ (map_acts.congr fun s => by
      have := tryEach_ok (fun x : Nat => some (x + 10)) s.vals s.fin
      simpa [Except.map, mapped] using this) (take_acts 2) (map_calm _) (take_calm 2)
  exact ⟨_, hG.guarded, by simp [Spec.take, mapped]⟩

end Aio.AsyncFor
