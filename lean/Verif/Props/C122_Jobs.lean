import Verif.Lemmas.Behind
import Verif.Spec.Jobs
import Verif.Lemmas.Jobs
import Verif.Props.C121_Pool
import Verif.Props.C112_114_Timers
/-!
# C122: jobs behind `merge_inner(k)`
-/

namespace Aio
open Spec Spec.Timed Spec.Pool Spec.Jobs Nested
variable {SO LO ω α : Type}

namespace Jobs

/-! ## counting -/

theorem done_succ (t : Nat) (js : List (Nat × Nat)) : done (t + 1) js = done t js + (js.filter (running t)).length := by
  induction js with
  | nil => rfl
  | cons j js ih =>
    obtain ⟨u, d⟩ := j
    simp only [done, List.map_cons, List.sum_cons] at ih ⊢
    rw [ih, List.filter_cons]
    have : min d (t + 1 - u) = min d (t - u) + if running t (u, d) = true then 1 else 0 := by
      by_cases h : running t (u, d) = true
      · rw [if_pos h]
        simp only [running, Bool.and_eq_true, decide_eq_true_eq] at h
        omega
      · rw [if_neg h]
        simp only [running, Bool.and_eq_true, decide_eq_true_eq] at h
        omega
    rw [this]
    split
    · simp; omega
    · omega

theorem done_le (t : Nat) (js : List (Nat × Nat)) : done t js ≤ (js.map (·.2)).sum := by
  induction js with
  | nil => exact Nat.le_refl _
  | cons j js ih => simp only [done, List.map_cons, List.sum_cons] at ih ⊢; omega

theorem done_all {t : Nat} {js : List (Nat × Nat)} (h : ∀ j ∈ js, j.1 + j.2 ≤ t) : done t js = (js.map (·.2)).sum := by
  induction js with
  | nil => rfl
  | cons j js ih =>
    have h1 := h j (by simp)
    have h2 := ih fun j hj => h j (by simp [hj])
    simp only [done, List.map_cons, List.sum_cons] at h2 ⊢
    omega

theorem done_none {t : Nat} {js : List (Nat × Nat)} (h : ∀ j ∈ js, t ≤ j.1) : done t js = 0 := by
  induction js with
  | nil => rfl
  | cons j js ih =>
    have h1 := h j (by simp)
    have h2 := ih fun j hj => h j (by simp [hj])
    simp only [done, List.map_cons, List.sum_cons] at h2 ⊢
    omega

/-- If at least `k` jobs are in progress all the time. -/
theorem done_ge {k t0 : Nat} {js : List (Nat × Nat)} (n : Nat) (h : ∀ t, t0 ≤ t → t < t0 + n → k ≤ (js.filter (running t)).length) :
    k * n ≤ done (t0 + n) js := by
  induction n with
  | zero => simp
  | succ n ih =>
    have h1 := ih fun t h1 h2 => h t h1 (by omega)
    have h2 := h (t0 + n) (by omega) (by omega)
    rw [← Nat.add_assoc, done_succ, Nat.mul_succ]
    omega

/-- If at most `k` jobs are in progress all the time. -/
theorem done_bound {k t0 : Nat} {js : List (Nat × Nat)} (n : Nat) (h0 : ∀ j ∈ js, t0 ≤ j.1) (h : ∀ t, t0 ≤ t → t < t0 + n → (js.filter (running t)).length ≤ k) :
    done (t0 + n) js ≤ k * n := by
  induction n with
  | zero => rw [Nat.add_zero, done_none h0]; omega
  | succ n ih =>
    have h1 := ih fun t h1 h2 => h t h1 (by omega)
    have h2 := h (t0 + n) (by omega) (by omega)
    rw [← Nat.add_assoc, done_succ, Nat.mul_succ]
    omega

/-! ## what has returned when -/

section
variable {o : Clocked SO LO ω} {dur : ω → Nat} {res : ω → Except Err α}

theorem completedBy_job {x : ω} {u : Nat} {li si} (hr : LTS.run (jobs dur res x u).step (jobs dur res x u).init li = some si) {t : Nat} (ht : t < si.now)
    (hc : res x ≠ .error .cancelled) : completedBy t ((jobs dur res x u).calls si) = returned dur res t (x, u) := by
  obtain ⟨h1, h2⟩ := Job.exact_ hr
  have hfull : completedBy t ((asyncResult (res x)).map fun n => (n, u + dur x)) = returned dur res t (x, u) := by
    simp only [returned]
    cases hx : res x with
    | ok v => simp [asyncResult, completedBy]
    | error e =>
      rw [hx] at hc
      cases e with
      | cancelled => exact absurd rfl hc
      | _ => rfl
  by_cases hlt : u + dur x < si.now
  · rw [show (jobs dur res x u).calls si = _ from h2 hlt]; exact hfull
  · have hf : returned dur res t (x, u) = false := by
      simp only [returned]
      split
      · simp; omega
      · rfl
    rw [hf, completedBy, List.any_eq_false]
    rintro ⟨n, c⟩ hm
    obtain ⟨n', -, he⟩ := List.mem_map.mp (h1.subset hm)
    obtain ⟨rfl, rfl⟩ := Prod.mk.inj he
    cases n' with
    | completed => simp; omega
    | _ => simp

variable (ho : o.Lawful) (hg : ∀ ls s, LTS.run o.step o.init ls = some s → Grammar ((o.calls s).map (·.1)))
include ho hg

theorem completions_jobs {mx : Int} {ls s} (hr : LTS.run (o.merged (jobs dur res) mx).step (o.merged (jobs dur res) mx).init ls = some s)
    (hn : ∀ x ∈ subs s, res x.1 ≠ .error .cancelled) {t : Nat} (ht : t < o.now s.outer) (i : Nat) :
    completions t ((histories (jobs dur res) s).take i) = (((subs s).take i).filter (returned dur res t)).length := by
  obtain ⟨h, hpast⟩ := past ho (jobs_proper dur res ho hg).inner (merge_starts mx) hr
  have key : ∀ j ∈ s.inners, completedBy t ((jobs dur res j.1 j.2.1).calls j.2.2) = returned dur res t (j.1, j.2.1) := by
    rintro ⟨x, u, si⟩ hj
    obtain ⟨m, hm⟩ := List.getElem?_of_mem hj
    obtain ⟨⟨li, hli, -⟩, hnow⟩ := hpast.sources m x u si hm
    have hnow : si.now = o.now s.outer := hnow
    exact completedBy_job hli (by omega) (hn (x, u) (List.mem_map.mpr ⟨_, hj, rfl⟩))
  rw [completions, histories, subs, ← List.map_take, ← List.map_take, List.filter_map, List.filter_map, List.length_map, List.length_map]
  refine congrArg List.length (List.filter_congr fun j hj => ?_)
  exact key j (List.mem_of_mem_take hj)

/-- C122: before now, an event is sent for each job that has been begun, when this job is over, and nothing else is sent. -/
theorem C122_results {mx : Int} {ls s} (hr : LTS.run (o.merged (jobs dur res) mx).step (o.merged (jobs dur res) mx).init ls = some s)
    (he : ∀ e t, (.error e, t) ∉ o.calls s.outer) (hn : ∀ x ∈ subs s, res x.1 ≠ .error .cancelled) :
    ((noDone s.posts).filter fun c => c.2 < o.now s.outer).Perm
      (((subs s).map fun i => (result res i.1, i.2 + dur i.1)).filter fun c => c.2 < o.now s.outer) := by
  have hpr := jobs_proper dur res ho hg
  obtain ⟨-, hperm, -⟩ := C112_arrive hpr hr
  obtain ⟨h, hpast⟩ := past ho hpr.inner (merge_starts mx) hr
  have h0 : (errors (o.calls s.outer) : List (Notif α × Nat)) = [] := by
    rw [errors, List.filterMap_eq_nil_iff]
    rintro ⟨n, t⟩ hm
    cases n with
    | error e => exact absurd hm (he e t)
    | _ => rfl
  rw [h0, List.nil_append] at hperm
  refine (hperm.filter _).trans (List.Perm.of_eq ?_)
  rw [List.filter_flatMap, List.map_eq_flatMap, List.filter_flatMap, subs, List.flatMap_map]
  rw [List.flatMap_def, List.flatMap_def]
  refine congrArg List.flatten (List.map_congr_left fun j hj => ?_)
  obtain ⟨x, u, si⟩ := j
  obtain ⟨m, hm⟩ := List.getElem?_of_mem hj
  obtain ⟨⟨li, hli, -⟩, hnow⟩ := hpast.sources m x u si hm
  have hnow : si.now = o.now s.outer := hnow
  have hc := hn (x, u) (List.mem_map.mpr ⟨_, hj, rfl⟩)
  obtain ⟨h1, h2⟩ := Job.exact_ hli
  dsimp only at hc ⊢
  have hfull : noDone ((asyncResult (res x)).map fun n => (n, u + dur x)) = [(result res x, u + dur x)] := by
    simp only [result]
    cases hx : res x with
    | ok v => rfl
    | error e =>
      rw [hx] at hc
      cases e with
      | cancelled => exact absurd rfl hc
      | _ => rfl
  by_cases hlt : u + dur x < si.now
  · rw [show (jobs dur res x u).calls si = _ from h2 hlt, hfull]
  · rw [List.filter_eq_nil_iff.mpr, List.filter_eq_nil_iff.mpr]
    · intro c hc
      simp at hc
      subst hc
      simp; omega
    · intro c hc
      obtain ⟨n', -, he⟩ := List.mem_map.mp (h1.subset (List.mem_filter.mp hc).1)
      rw [← he]
      simp; omega

/-- C122, `merge_inner(0)` (`flat_map`): all jobs at the same time, each from when its value is sent. -/
theorem C122_parallel {ls s} (hr : LTS.run (o.merged (jobs dur res) 0).step (o.merged (jobs dur res) 0).init ls = some s)
    (hp : (o.merged (jobs dur res) 0).Prompt (fun s => Merge.Settled s.prod) ls) (hc : Calm o ls s) (hq : Merge.Settled s.prod)
    (hn : ∀ x ∈ valuesAt (o.calls s.outer), res x.1 ≠ .error .cancelled) :
    ((noDone s.posts).filter fun c => c.2 < o.now s.outer).Perm
      (((valuesAt (o.calls s.outer)).map fun i => (result res i.1, i.2 + dur i.1)).filter fun c => c.2 < o.now s.outer) := by
  have hsub := C112_subscribed (jobs_proper dur res ho hg) hr hp hc hq
  rw [← hsub] at hn ⊢
  exact C122_results ho hg hr hc.noError hn

/-- C122: with `k` slots a job is begun when its value has been sent and all but at most `k - 1` of those before it have returned. -/
theorem C122_begun {k : Nat} (hk : 0 < k) {ls s} (hr : LTS.run (o.merged (jobs dur res) k).step (o.merged (jobs dur res) k).init ls = some s)
    (hp : (o.merged (jobs dur res) k).Prompt (fun s => Merge.Settled s.prod) ls) (hc : Calm o ls s) (hq : Merge.Settled s.prod)
    (hn : ∀ x ∈ valuesAt (o.calls s.outer), res x.1 ≠ .error .cancelled) {t : Nat} (ht : t < o.now s.outer) (i : Nat) :
    (∃ x u, (subs s)[i]? = some (x, u) ∧ u ≤ t) ↔
      (∃ x a, (valuesAt (o.calls s.outer))[i]? = some (x, a) ∧ a ≤ t) ∧ i < k + (((subs s).take i).filter (returned dur res t)).length := by
  have hpr := jobs_proper dur res ho hg
  have hn' : ∀ x ∈ subs s, res x.1 ≠ .error .cancelled := by
    intro x hx
    have h1 := (C121_order hpr hr).subset (List.mem_map.mpr ⟨x, hx, rfl⟩)
    obtain ⟨y, hy, he⟩ := List.mem_map.mp h1
    rw [← he]
    exact hn y hy
  rw [C121_begun hpr hk hr hp hc hq, completions_jobs ho hg hr hn' ht]

/-! ## jobs in progress -/

omit ho hg in
theorem split_running {t : Nat} {L : List (ω × Nat)} (hL : ∀ i ∈ L, i.2 ≤ t) (hok : ∀ i ∈ L, ∃ v, res i.1 = .ok v) :
    ((begun dur L).filter (running t)).length + (L.filter (returned dur res t)).length = L.length := by
  induction L with
  | nil => rfl
  | cons i L ih =>
    have h1 := ih (fun j hj => hL j (by simp [hj])) fun j hj => hok j (by simp [hj])
    have h2 := hL i (by simp)
    obtain ⟨v, hv⟩ := hok i (by simp)
    simp only [begun, List.map_cons, List.filter_cons, List.length_cons] at h1 ⊢
    by_cases h : i.2 + dur i.1 ≤ t
    · have e1 : running t (i.2, dur i.1) = false := by simp [running]; omega
      have e2 : returned dur res t i = true := by simp [returned, hv, h]
      rw [e1, e2]
      simp
      omega
    · have e1 : running t (i.2, dur i.1) = true := by simp [running]; omega
      have e2 : returned dur res t i = false := by simp [returned, hv]; omega
      rw [e1, e2]
      simp
      omega

omit ho hg in
theorem running_later {t : Nat} {L : List (ω × Nat)} (hL : ∀ i ∈ L, t < i.2) : (begun dur L).filter (running t) = [] := by
  rw [List.filter_eq_nil_iff]
  intro j hj
  obtain ⟨i, hi, rfl⟩ := List.mem_map.mp hj
  have := hL i hi
  simp [running]; omega

omit ho hg in
theorem take_upto {ι : Type} {L : List (ι × Nat)} (hi : InTime L) (t : Nat) :
    (∀ x ∈ L.take (upto t L).length, x.2 ≤ t) ∧ ∀ x ∈ L.drop (upto t L).length, t < x.2 := by
  induction L with
  | nil => exact ⟨fun _ h => (by cases h), fun _ h => (by cases h)⟩
  | cons c L ih =>
    obtain ⟨h1, h2⟩ := List.pairwise_cons.mp hi
    rw [upto_cons]
    by_cases hc : c.2 ≤ t
    · rw [if_pos hc]
      obtain ⟨g1, g2⟩ := ih h2
      refine ⟨fun x hx => ?_, fun x hx => g2 x (by simpa using hx)⟩
      rcases List.mem_cons.mp (by simpa using hx) with rfl | hx
      · exact hc
      · exact g1 x hx
    · rw [if_neg hc, upto_none fun d hd => by have := h1 d hd; omega]
      refine ⟨fun x hx => (by simp at hx), fun x hx => ?_⟩
      rcases List.mem_cons.mp (by simpa using hx) with rfl | hx
      · omega
      · have := h1 x hx; omega

theorem counts {k : Nat} (hk : 0 < k) {ls s} (hr : LTS.run (o.merged (jobs dur res) k).step (o.merged (jobs dur res) k).init ls = some s)
    (hp : (o.merged (jobs dur res) k).Prompt (fun s => Merge.Settled s.prod) ls) (hc : Calm o ls s) (hq : Merge.Settled s.prod)
    (hok : ∀ x ∈ valuesAt (o.calls s.outer), ∃ v, res x.1 = .ok v) {t : Nat} (ht : t < o.now s.outer) :
    (∀ x ∈ subs s, ∃ v, res x.1 = .ok v) ∧
    ((begun dur (subs s)).filter (running t)).length = ((begun dur ((subs s).take (upto t (subs s)).length)).filter (running t)).length ∧
    ((begun dur (subs s)).filter (running t)).length ≤ k ∧
    ((upto t (subs s)).length < (upto t (valuesAt (o.calls s.outer))).length → k = ((begun dur (subs s)).filter (running t)).length) := by
  have hpr := jobs_proper dur res ho hg
  have hok' : ∀ x ∈ subs s, ∃ v, res x.1 = .ok v := by
    intro x hx
    have h1 := (C121_order hpr hr).subset (List.mem_map.mpr ⟨x, hx, rfl⟩)
    obtain ⟨y, hy, he⟩ := List.mem_map.mp h1
    rw [← he]
    exact hok y hy
  have hn' : ∀ x ∈ subs s, res x.1 ≠ .error .cancelled := by
    intro x hx he
    obtain ⟨v, hv⟩ := hok' x hx
    rw [hv] at he; cases he
  obtain ⟨hsi, -⟩ := subs_after hpr (merge_starts k) hr
  obtain ⟨g1, g2⟩ := take_upto hsi t
  have hcount := C121_count hpr hk hr hp hc hq t
  obtain ⟨-, -, -, h4⟩ := pool_upto hpr hk hr hp hc hq t
  rw [h4, completions_jobs ho hg hr hn' ht] at hcount
  have hle : (upto t (subs s)).length ≤ (subs s).length := by
    rw [upto, List.length_map]; exact List.length_filter_le ..
  generalize hb : (upto t (subs s)).length = b at *
  have hsplit := split_running (dur := dur) (res := res) g1 fun x hx => hok' x (List.mem_of_mem_take hx)
  have hrun : ((begun dur (subs s)).filter (running t)).length = ((begun dur ((subs s).take b)).filter (running t)).length := by
    conv => lhs; rw [← List.take_append_drop b (subs s)]
    rw [begun, List.map_append, List.filter_append, List.length_append]
    have := running_later (dur := dur) g2
    rw [begun] at this
    rw [this]
    rfl
  rw [List.length_take, Nat.min_eq_left hle] at hsplit
  refine ⟨hok', hrun, ?_, fun hlt => ?_⟩
  · omega
  · omega

/-- C122: never more than `k` jobs are in progress. -/
theorem C122_at_most {k : Nat} (hk : 0 < k) {ls s} (hr : LTS.run (o.merged (jobs dur res) k).step (o.merged (jobs dur res) k).init ls = some s)
    (hp : (o.merged (jobs dur res) k).Prompt (fun s => Merge.Settled s.prod) ls) (hc : Calm o ls s) (hq : Merge.Settled s.prod)
    (hok : ∀ x ∈ valuesAt (o.calls s.outer), ∃ v, res x.1 = .ok v) {t : Nat} (ht : t < o.now s.outer) :
    ((begun dur (subs s)).filter (running t)).length ≤ k :=
  (counts ho hg hk hr hp hc hq hok ht).2.2.1

/-- C122: while a job waits, `k` of those before it are in progress: no slot is idle. -/
theorem C122_no_idle_slot {k : Nat} (hk : 0 < k) {ls s} (hr : LTS.run (o.merged (jobs dur res) k).step (o.merged (jobs dur res) k).init ls = some s)
    (hp : (o.merged (jobs dur res) k).Prompt (fun s => Merge.Settled s.prod) ls) (hc : Calm o ls s) (hq : Merge.Settled s.prod)
    (hok : ∀ x ∈ valuesAt (o.calls s.outer), ∃ v, res x.1 = .ok v) {t : Nat} (ht : t < o.now s.outer) {i : Nat}
    (hsent : ∃ x a, (valuesAt (o.calls s.outer))[i]? = some (x, a) ∧ a ≤ t) (hwait : ∀ x u, (subs s)[i]? = some (x, u) → t < u) :
    ((begun dur ((subs s).take i)).filter (running t)).length = k := by
  have hpr := jobs_proper dur res ho hg
  obtain ⟨hsi, -⟩ := subs_after hpr (merge_starts k) hr
  obtain ⟨h, hpast⟩ := past hpr.source hpr.inner (merge_starts k) hr
  obtain ⟨lo, hlo, -⟩ := hpast.source
  have hvi := inTime_values (hpr.source.inTime hlo).1
  obtain ⟨h1, h2, h3, h4⟩ := counts ho hg hk hr hp hc hq hok ht
  have e1 : i < (upto t (valuesAt (o.calls s.outer))).length := by
    rw [index_upto hvi]
    obtain ⟨x, a, e1, e2⟩ := hsent
    exact ⟨_, e1, e2⟩
  have e2 : (upto t (subs s)).length ≤ i := by
    apply Classical.byContradiction
    intro hn
    obtain ⟨x, e3, e4⟩ := (index_upto hsi t i).mp (by omega)
    have := hwait x.1 x.2 e3
    omega
  have e3 := h4 (by omega)
  have e4 : ((begun dur ((subs s).take (upto t (subs s)).length)).filter (running t)).length ≤ ((begun dur ((subs s).take i)).filter (running t)).length := by
    refine (List.Sublist.filter _ (List.Sublist.map _ ?_)).length_le
    exact (List.take_prefix_take_left e2).sublist
  have e5 : ((begun dur ((subs s).take i)).filter (running t)).length ≤ ((begun dur (subs s)).filter (running t)).length :=
    (List.Sublist.filter _ (List.Sublist.map _ (List.take_sublist ..))).length_le
  omega

/-- C122, jobs that are all sent at the time `t0`: a job waits for at most a `k`-th of what those before it take. -/
theorem C122_wait {k : Nat} (hk : 0 < k) {ls s} (hr : LTS.run (o.merged (jobs dur res) k).step (o.merged (jobs dur res) k).init ls = some s)
    (hp : (o.merged (jobs dur res) k).Prompt (fun s => Merge.Settled s.prod) ls) (hc : Calm o ls s) (hq : Merge.Settled s.prod)
    (hok : ∀ x ∈ valuesAt (o.calls s.outer), ∃ v, res x.1 = .ok v) {t0 : Nat} (hb : ∀ x ∈ valuesAt (o.calls s.outer), x.2 = t0)
    {i : Nat} {x : ω} {u : Nat} (hi : (subs s)[i]? = some (x, u)) :
    k * (u - t0) ≤ (((subs s).take i).map fun j => dur j.1).sum := by
  have hpr := jobs_proper dur res ho hg
  obtain ⟨h, hpast⟩ := past hpr.source hpr.inner (merge_starts k) hr
  have hu : u ≤ o.now s.outer := by
    obtain ⟨⟨x', u', si⟩, hm, he⟩ := List.mem_map.mp (List.mem_of_getElem? hi)
    cases he
    exact hpast.times.2 _ hm
  have hsent : ∃ a, (valuesAt (o.calls s.outer))[i]? = some (x, a) := by
    obtain ⟨r, hr'⟩ := C121_order hpr hr
    have e1 : ((subs s).map (·.1))[i]? = some x := by rw [List.getElem?_map, hi]; rfl
    have e2 : ((valuesAt (o.calls s.outer)).map (·.1))[i]? = some x := by
      rw [← hr', List.getElem?_append_left (List.getElem?_eq_some_iff.mp e1).1]; exact e1
    rw [List.getElem?_map, Option.map_eq_some_iff] at e2
    obtain ⟨⟨y, a⟩, e3, e4⟩ := e2
    dsimp only at e4
    subst e4
    exact ⟨a, e3⟩
  obtain ⟨a, ha⟩ := hsent
  have hat : a = t0 := hb _ (List.mem_of_getElem? ha)
  subst hat
  have key := done_ge (k := k) (t0 := a) (js := begun dur ((subs s).take i)) (u - a) fun t h1 h2 => by
    refine Nat.le_of_eq (C122_no_idle_slot ho hg hk hr hp hc hq hok (by omega) ⟨x, a, ha, h1⟩ fun x' u' h' => ?_).symm
    rw [hi] at h'
    cases h'
    omega
  have := done_le (a + (u - a)) (begun dur ((subs s).take i))
  rw [begun, List.map_map] at this
  exact Nat.le_trans key this

omit ho hg in
theorem sent_all {β : Type} {cs : List (Notif β × Nat)} (hi : InTime cs) (hg : Grammar (cs.map (·.1))) {t : Nat} (hd : completedBy t cs = true) : ∀ c ∈ cs, c.2 ≤ t := by
  induction cs with
  | nil => exact fun _ h => (by cases h)
  | cons c cs ih =>
    obtain ⟨h1, h2⟩ := List.pairwise_cons.mp hi
    obtain ⟨n, a⟩ := c
    cases n with
    | next v =>
      have hd' : completedBy t cs = true := by simpa [completedBy] using hd
      have ih := ih h2 (Behind.grammar_tail hg) hd'
      intro c hc
      rcases List.mem_cons.mp hc with rfl | hc
      · obtain ⟨d, hd1, -⟩ := List.any_eq_true.mp hd'
        have := h1 d hd1
        have := ih d hd1
        dsimp only at *
        omega
      · exact ih c hc
    | completed =>
      have hnil : cs = [] := List.map_eq_nil_iff.mp (Behind.grammar_end hg rfl)
      subst hnil
      simpa [completedBy] using hd
    | error e =>
      have hnil : cs = [] := List.map_eq_nil_iff.mp (Behind.grammar_end hg rfl)
      subst hnil
      simp [completedBy] at hd

/-- C122: the result completes when the source has completed and all jobs have been begun and have returned. -/
theorem C122_completed {k : Nat} (hk : 0 < k) {ls s} (hr : LTS.run (o.merged (jobs dur res) k).step (o.merged (jobs dur res) k).init ls = some s)
    (hp : (o.merged (jobs dur res) k).Prompt (fun s => Merge.Settled s.prod) ls) (hc : Calm o ls s) (hq : Merge.Settled s.prod)
    (hok : ∀ x ∈ valuesAt (o.calls s.outer), ∃ v, res x.1 = .ok v) {t : Nat} (ht : t < o.now s.outer) :
    .completed ∈ upto t s.posts ↔ completedBy t (o.calls s.outer) = true ∧ (subs s).length = (valuesAt (o.calls s.outer)).length ∧
      ∀ i ∈ subs s, i.2 + dur i.1 ≤ t := by
  have hpr := jobs_proper dur res ho hg
  obtain ⟨h, hpast⟩ := past hpr.source hpr.inner (merge_starts k) hr
  obtain ⟨lo, hlo, -⟩ := hpast.source
  obtain ⟨hok', -⟩ := counts ho hg hk hr hp hc hq hok ht
  obtain ⟨h1, -, h3, -⟩ := pool_upto hpr hk hr hp hc hq t
  have hle : (upto t (subs s)).length ≤ (subs s).length := by
    rw [upto, List.length_map]; exact List.length_filter_le ..
  have hle' : (subs s).length ≤ (valuesAt (o.calls s.outer)).length := by
    simpa using (C121_order hpr hr).length_le
  have hn' : ∀ x ∈ subs s, res x.1 ≠ .error .cancelled := by
    intro x hx he
    obtain ⟨v, hv⟩ := hok' x hx
    rw [hv] at he; cases he
  have key : ∀ i ∈ s.inners, (story (upto t ((jobs dur res i.1 i.2.1).calls i.2.2))).fin = .done ↔ i.2.1 + dur i.1 ≤ t := by
    rintro ⟨x, u, si⟩ hj
    obtain ⟨m, hm⟩ := List.getElem?_of_mem hj
    obtain ⟨⟨li, hli, -⟩, hnow⟩ := hpast.sources m x u si hm
    have hnow : si.now = o.now s.outer := hnow
    dsimp only
    rw [fin_done ((hpr.inner x u).1.inTime hli).1 (hpr.innerGrammar x u li si hli),
      completedBy_job hli (by omega) (hn' (x, u) (List.mem_map.mpr ⟨_, hj, rfl⟩))]
    obtain ⟨v, hv⟩ := hok' (x, u) (List.mem_map.mpr ⟨_, hj, rfl⟩)
    dsimp only at hv
    simp [returned, hv]
  have hall : (∀ i ∈ s.inners, (story (upto t ((jobs dur res i.1 i.2.1).calls i.2.2))).fin = .done) ↔ ∀ i ∈ subs s, i.2 + dur i.1 ≤ t := by
    constructor
    · intro hd i hi
      obtain ⟨j, hj, rfl⟩ := List.mem_map.mp hi
      exact (key j hj).mp (hd j hj)
    · intro hd j hj
      exact (key j hj).mpr (hd (j.1, j.2.1) (List.mem_map.mpr ⟨j, hj, rfl⟩))
  rw [C112_completed hpr (by omega) hr hp hc hq t, fin_done (hpr.source.inTime hlo).1 (hg _ _ hlo), hall]
  refine and_congr_right fun hd => ⟨fun hf => ⟨?_, hf⟩, fun hf => hf.2⟩
  -- the source has completed, so that all of its values have been sent
  have hv : upto t (valuesAt (o.calls s.outer)) = (valuesAt (o.calls s.outer)).map (·.1) := by
    exact upto_all fun c hc => sent_all (hpr.source.inTime hlo).1 (hg _ _ hlo) hd _ (mem_values.mp hc)
  rw [hv, List.length_map] at h1 h3
  rcases h3 with h3 | h3
  · omega
  · have hcs := completions_jobs ho hg hr hn' ht (subs s).length
    rw [List.take_of_length_le (by rw [histories, subs, List.length_map, List.length_map]; exact Nat.le_refl _), List.take_length,
      List.filter_eq_self.mpr fun i hi => ?_] at hcs
    · omega
    · obtain ⟨v, hv⟩ := hok' i hi
      simp [returned, hv, hf i hi]

omit ho hg in
theorem sum_split {ι : Type} (f : ι → Nat) {l : List ι} {i : Nat} {x : ι} (h : l[i]? = some x) : ((l.take i).map f).sum + f x ≤ (l.map f).sum := by
  have := List.take_append_drop i l
  conv => rhs; rw [← this]
  rw [List.map_append, List.sum_append]
  obtain ⟨hi, rfl⟩ := List.getElem?_eq_some_iff.mp h
  rw [List.drop_eq_getElem_cons hi, List.map_cons, List.sum_cons]
  omega

omit ho hg in
theorem sum_prefix {ι : Type} (f : ι → Nat) {l m : List ι} (h : l <+: m) : (l.map f).sum ≤ (m.map f).sum := by
  obtain ⟨r, rfl⟩ := h
  rw [List.map_append, List.sum_append]
  omega

/-- C122, jobs that are all sent at the time `t0`: `k` slots cannot be done before a `k`-th of what the jobs take. -/
theorem C122_soonest {k : Nat} (hk : 0 < k) {ls s} (hr : LTS.run (o.merged (jobs dur res) k).step (o.merged (jobs dur res) k).init ls = some s)
    (hp : (o.merged (jobs dur res) k).Prompt (fun s => Merge.Settled s.prod) ls) (hc : Calm o ls s) (hq : Merge.Settled s.prod)
    (hok : ∀ x ∈ valuesAt (o.calls s.outer), ∃ v, res x.1 = .ok v) {t0 : Nat} (hb : ∀ x ∈ valuesAt (o.calls s.outer), x.2 = t0)
    {t : Nat} (ht : t < o.now s.outer) (hd : .completed ∈ upto t s.posts) :
    ((valuesAt (o.calls s.outer)).map fun x => dur x.1).sum ≤ k * (t - t0) := by
  have hpr := jobs_proper dur res ho hg
  obtain ⟨-, hlen, hall⟩ := (C122_completed ho hg hk hr hp hc hq hok ht).mp hd
  have hsame : (subs s).map (·.1) = (valuesAt (o.calls s.outer)).map (·.1) :=
    (C121_order hpr hr).eq_of_length (by simp [hlen])
  have hsum : ((valuesAt (o.calls s.outer)).map fun x => dur x.1) = (begun dur (subs s)).map (·.2) := by
    rw [begun, List.map_map]
    have := congrArg (List.map dur) hsame
    rw [List.map_map, List.map_map] at this
    exact this.symm
  rw [hsum]
  by_cases hne : (subs s) = []
  · rw [hne]; simp [begun]
  have h0 : ∀ i ∈ subs s, t0 ≤ i.2 := by
    intro i hi
    obtain ⟨m, hm⟩ := List.getElem?_of_mem hi
    obtain ⟨⟨x, a, e1, e2⟩, -⟩ := (C121_begun hpr hk hr hp hc hq i.2 m).mp ⟨i.1, i.2, hm, Nat.le_refl _⟩
    have := hb _ (List.mem_of_getElem? e1)
    dsimp only at this
    omega
  have h1 : t0 ≤ t := by
    obtain ⟨i, hi⟩ := List.exists_mem_of_ne_nil _ hne
    have := h0 i hi
    have := hall i hi
    omega
  have key := done_bound (k := k) (t0 := t0) (js := begun dur (subs s)) (t - t0)
    (fun j hj => by obtain ⟨i, hi, rfl⟩ := List.mem_map.mp hj; exact h0 i hi)
    fun u h2 h3 => C122_at_most ho hg hk hr hp hc hq hok (by omega)
  rw [show t0 + (t - t0) = t by omega, done_all] at key
  · exact key
  · intro j hj
    obtain ⟨i, hi, rfl⟩ := List.mem_map.mp hj
    exact hall i hi

/-- C122, jobs that are all sent at the time `t0`: by the time that a `k`-th of what the jobs take and `(k - 1) / k` of the longest have passed,
all are done and the result completes. -/
theorem C122_latest {k : Nat} (hk : 0 < k) {ls s} (hr : LTS.run (o.merged (jobs dur res) k).step (o.merged (jobs dur res) k).init ls = some s)
    (hp : (o.merged (jobs dur res) k).Prompt (fun s => Merge.Settled s.prod) ls) (hc : Calm o ls s) (hq : Merge.Settled s.prod)
    (hok : ∀ x ∈ valuesAt (o.calls s.outer), ∃ v, res x.1 = .ok v) {t0 : Nat} (hb : ∀ x ∈ valuesAt (o.calls s.outer), x.2 = t0)
    {longest : Nat} (hlong : ∀ x ∈ valuesAt (o.calls s.outer), dur x.1 ≤ longest) {t : Nat} (h0 : t0 ≤ t) (ht : t < o.now s.outer)
    (hdone : completedBy t (o.calls s.outer) = true)
    (htime : ((valuesAt (o.calls s.outer)).map fun x => dur x.1).sum + (k - 1) * longest ≤ k * (t - t0)) :
    .completed ∈ upto t s.posts := by
  have hpr := jobs_proper dur res ho hg
  have hord := C121_order hpr hr
  have hsum : ((subs s).map fun x => dur x.1).sum ≤ ((valuesAt (o.calls s.outer)).map fun x => dur x.1).sum := by
    have := sum_prefix dur hord
    rw [List.map_map, List.map_map] at this
    exact this
  -- all have been begun
  have hbeg : ∀ (i : Nat) (x : ω) (a : Nat), (valuesAt (o.calls s.outer))[i]? = some (x, a) → ∃ y u, (subs s)[i]? = some (y, u) ∧ u ≤ t := by
    intro i x a hi
    apply Classical.byContradiction
    intro hn
    have ha : a = t0 := hb _ (List.mem_of_getElem? hi)
    subst ha
    have key := done_ge (k := k) (t0 := a) (js := begun dur ((subs s).take i)) (t + 1 - a) fun v h1 h2 => by
      refine Nat.le_of_eq (C122_no_idle_slot ho hg hk hr hp hc hq hok (by omega) ⟨x, a, hi, h1⟩ fun x' u' h' => ?_).symm
      apply Classical.byContradiction
      intro hle
      exact hn ⟨x', u', h', by omega⟩
    have h1 := done_le (a + (t + 1 - a)) (begun dur ((subs s).take i))
    rw [begun, List.map_map] at h1
    have h2 := sum_prefix (fun x : ω × Nat => dur x.1) (List.take_prefix i (subs s))
    have h3 : k * (t + 1 - a) = k * (t - a) + k := by rw [show t + 1 - a = (t - a) + 1 by omega, Nat.mul_succ]
    have h4 : (List.map ((fun x => x.2) ∘ fun i => (i.2, dur i.1)) (List.take i (subs s))).sum = (List.map (fun x => dur x.1) (List.take i (subs s))).sum := rfl
    simp only [begun] at key
    omega
  refine (C122_completed ho hg hk hr hp hc hq hok ht).mpr ⟨hdone, ?_, fun i hi => ?_⟩
  · have h1 : (subs s).length ≤ (valuesAt (o.calls s.outer)).length := by simpa using hord.length_le
    apply Classical.byContradiction
    intro hn
    have h2 : (subs s).length < (valuesAt (o.calls s.outer)).length := by omega
    obtain ⟨y, u, e, -⟩ := hbeg (subs s).length _ _ (List.getElem?_eq_getElem h2)
    rw [List.getElem?_eq_none (Nat.le_refl _)] at e
    cases e
  · obtain ⟨m, hm⟩ := List.getElem?_of_mem hi
    obtain ⟨x, u⟩ := i
    have hw := C122_wait ho hg hk hr hp hc hq hok hb hm
    have hsp := sum_split (fun x : ω × Nat => dur x.1) hm
    have hl : dur x ≤ longest := by
      have h1 := hord.subset (List.mem_map.mpr ⟨_, hi, rfl⟩)
      obtain ⟨y, hy, he⟩ := List.mem_map.mp h1
      have := hlong y hy
      rw [he] at this
      exact this
    have h2 : (k - 1) * dur x ≤ (k - 1) * longest := Nat.mul_le_mul_left _ hl
    have h3 : k * dur x = (k - 1) * dur x + dur x := by
      obtain ⟨j, rfl⟩ : ∃ j, k = j + 1 := ⟨k - 1, by omega⟩
      rw [Nat.add_sub_cancel, Nat.succ_mul]
    dsimp only at hsp ⊢
    have h4 : k * (u - t0 + dur x) ≤ k * (t - t0) := by rw [Nat.mul_add]; omega
    have := Nat.le_of_mul_le_mul_left h4 hk
    omega

end

/-! ## Examples -/

section Examples
local notation "out" => Time.act (Nested.Label.outer (some ()))
local notation "recv" => Time.act (Nested.Label.own Merge.Label.receive)
local notation "subd" => Time.act (Nested.Label.own Merge.Label.subscribed)
local notation "inn" => fun k l => Time.act (Nested.Label.inner k l)

/-- Jobs that take 3, 1 and 2, in two slots: they are done by the earliest time possible. -/
abbrev demoJobs := (ofSeqAt 5 [3, 1, (2 : Nat)]).merged (jobs id fun x => .ok (10 * x)) 2
abbrev demoJobsRun : List (Time (Nested.Label (Option Unit) Job.Label Nat Nat)) :=
  [out, recv, subd, recv, subd, recv, recv, inn 0 .start, inn 1 .start, .pass 1, inn 1 .wake, inn 1 .receive, inn 1 .ret, inn 1 .receive, inn 1 .ret, inn 1 .ret,
   recv, subd, inn 2 .start, .pass 2, inn 0 .wake, inn 0 .receive, inn 0 .ret, inn 0 .receive, inn 0 .ret, inn 0 .ret, recv,
   inn 2 .wake, inn 2 .receive, inn 2 .ret, inn 2 .receive, inn 2 .ret, inn 2 .ret, recv, .pass 3]

example : ∃ s, LTS.run demoJobs.step demoJobs.init demoJobsRun = some s ∧ demoJobs.Prompt (fun s => Merge.Settled s.prod) demoJobsRun ∧
    Calm (ofSeqAt 5 [3, 1, (2 : Nat)]) demoJobsRun s ∧ Merge.Settled s.prod ∧ subs s = [(3, 5), (1, 5), (2, 6)] ∧
    valuesAt ((ofSeqAt 5 [3, 1, (2 : Nat)]).calls s.outer) = [(3, 5), (1, 5), (2, 5)] ∧ completedBy 5 ((ofSeqAt 5 [3, 1, (2 : Nat)]).calls s.outer) = true ∧
    demoJobs.now s = 11 ∧ s.posts = [(.next 10, 6), (.next 30, 8), (.next 20, 8), (.completed, 8)] ∧
    (3 + 1 + 2) + (2 - 1) * 3 ≤ 2 * (10 - 5) ∧ 3 + 1 + 2 = 2 * (8 - 5) := by
  obtain ⟨s, hs, h⟩ := run_any (c := demoJobs) (ls := demoJobsRun)
    (P := fun s => settled s.prod && subs s == [(3, 5), (1, 5), (2, 6)] &&
      (ofSeqAt 5 [3, 1, (2 : Nat)]).calls s.outer == [(.next 3, 5), (.next 1, 5), (.next 2, 5), (.completed, 5)] && demoJobs.now s == 11 &&
      s.posts == [(.next 10, 6), (.next 30, 8), (.next 20, 8), (.completed, 8)]) (by decide +kernel)
  simp only [Bool.and_eq_true, beq_iff_eq] at h
  obtain ⟨⟨⟨⟨h1, h2⟩, h3⟩, h4⟩, h5⟩ := h
  exact ⟨s, hs, Clocked.Prompt.of_rests (idle := fun s : Nested _ _ _ _ _ => settled s.prod) (fun _ => settled_of) (by decide +kernel),
    ⟨by simp [NoFailure], by simp, by rw [h3]; simp⟩, settled_of h1, h2, by rw [h3]; rfl, by rw [h3]; rfl, h4, h5, by decide, by decide⟩

/-- The second job fails: it keeps its slot, and the third begins only when the first has returned. -/
abbrev failJobs := (ofSeqAt 5 [3, 1, (2 : Nat)]).merged (jobs id fun x => if x = 1 then .error (.user 7) else .ok (10 * x)) 2
abbrev failJobsRun : List (Time (Nested.Label (Option Unit) Job.Label Nat Nat)) :=
  [out, recv, subd, recv, subd, recv, recv, inn 0 .start, inn 1 .start, .pass 1, inn 1 .wake, inn 1 .receive, inn 1 .ret, inn 1 .ret,
   .pass 2, inn 0 .wake, inn 0 .receive, inn 0 .ret, inn 0 .receive, inn 0 .ret, inn 0 .ret, recv, subd, inn 2 .start, .pass 1]

example : ∃ s, LTS.run failJobs.step failJobs.init failJobsRun = some s ∧ failJobs.Prompt (fun s => Merge.Settled s.prod) failJobsRun ∧
    Calm (ofSeqAt 5 [3, 1, (2 : Nat)]) failJobsRun s ∧ Merge.Settled s.prod ∧ subs s = [(3, 5), (1, 5), (2, 8)] ∧ failJobs.now s = 9 ∧
    s.posts = [(.error (.user 7), 6), (.next 30, 8)] := by
  obtain ⟨s, hs, h⟩ := run_any (c := failJobs) (ls := failJobsRun)
    (P := fun s => settled s.prod && subs s == [(3, 5), (1, 5), (2, 8)] &&
      (ofSeqAt 5 [3, 1, (2 : Nat)]).calls s.outer == [(.next 3, 5), (.next 1, 5), (.next 2, 5), (.completed, 5)] && failJobs.now s == 9 &&
      s.posts == [(.error (.user 7), 6), (.next 30, 8)]) (by decide +kernel)
  simp only [Bool.and_eq_true, beq_iff_eq] at h
  obtain ⟨⟨⟨⟨h1, h2⟩, h3⟩, h4⟩, h5⟩ := h
  exact ⟨s, hs, Clocked.Prompt.of_rests (idle := fun s : Nested _ _ _ _ _ => settled s.prod) (fun _ => settled_of) (by decide +kernel),
    ⟨by simp [NoFailure], by simp, by rw [h3]; simp⟩, settled_of h1, h2, h4, h5⟩

end Examples
end Jobs
end Aio
