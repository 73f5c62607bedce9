import Verif.Props.C127_WorkScan
import Verif.Props.C109_111_Timed
import Verif.Props.C45_52_Filtering
/-!
# C128: operators behind async functions that take their time, and `reduce_async`
-/

namespace Aio
open Spec Spec.Timed Spec.Queue
variable {S L P W α β γ δ ρ : Type}

namespace Work
variable {σ : Type} {o : Handler σ α β} {s0 : σ} {gone : Nat}

theorem stage_lawful : (stage o s0 gone).Lawful := by
  refine ⟨fun t => ⟨rfl, rfl⟩, ?_, ?_, ?_⟩
  · intro s n t h
    simp only [stage, step, Option.some.injEq] at h
    subst h
    exact ⟨rfl, rfl⟩
  · intro s d t h
    simp only [stage, step] at h
    split at h
    · cases h
    · cases h
      exact ⟨rfl, rfl⟩
  · intro s l t hl h
    cases l with
    | event n => cases hl
    | tick d => cases hl
    | receive =>
      simp only [stage, step] at h
      split at h <;> cases h
      exact ⟨rfl, [], (List.append_nil _).symm⟩
    | wake =>
      simp only [stage, step] at h
      split at h
      · split at h <;> cases h
        exact ⟨rfl, [], (List.append_nil _).symm⟩
      · cases h
    | go =>
      simp only [stage, step] at h
      split at h <;> cases h
      case h_5 n k _ => exact ⟨rfl, [n], rfl⟩
      all_goals exact ⟨rfl, [], (List.append_nil _).symm⟩

theorem upto_before {ι : Type} {n t : Nat} {a b : List (Notif ι × Nat)} (h : before n a = before n b) (ht : t < n) : upto t a = upto t b := by
  have key : ∀ c : List (Notif ι × Nat), upto t c = upto t (before n c) := by
    intro c
    rw [upto, upto, before, List.filter_filter]
    congr 1
    exact List.filter_congr fun x _ => by
      by_cases hx : x.2 ≤ t
      · have : x.2 < n := by omega
        simp [hx, this]
      · simp [hx]
  rw [key a, key b, h]

theorem Grammar.snoc_next {v : β} {ns : List (Notif β)} (h : Grammar ns) : Grammar (.next v :: ns) := by
  obtain ⟨s, rfl⟩ := h
  exact ⟨⟨v :: s.vals, s.fin⟩, rfl⟩

theorem handle_grammar {w : α → Nat × Except Err (Option β)} {m : Nat → β → Nat × Option Err} : ∀ (cs : List (Notif α × Nat)) (i free : Nat),
    Grammar ((handle w m gone i free cs).map (·.1)) := by
  have hnil : Grammar ([] : List (Notif β)) := ⟨⟨[], .running⟩, rfl⟩
  have herr : ∀ e : Err, Grammar [(Notif.error e : Notif β)] := fun e => ⟨⟨[], .failed e⟩, rfl⟩
  intro cs
  induction cs with
  | nil => intros; exact hnil
  | cons c cs ih =>
    intro i free
    obtain ⟨n, a⟩ := c
    cases n with
    | error e => exact herr e
    | completed => exact ⟨⟨[], .done⟩, rfl⟩
    | next v =>
      rw [handle]
      split
      · split
        · exact hnil
        · exact herr _
      · exact ih ..
      · rw [List.map_cons]
        refine Grammar.snoc_next ?_
        split
        · exact ih ..
        · split
          · exact hnil
          · exact herr _

theorem grammar_prefix {a b : List (Notif β)} (h : a <+: b) (hb : Grammar b) : Grammar a := by
  obtain ⟨s, rfl⟩ := hb
  obtain ⟨vs, fin⟩ := s
  induction vs generalizing a with
  | nil =>
    cases a with
    | nil => exact ⟨⟨[], .running⟩, rfl⟩
    | cons x a =>
      cases fin with
      | running => simp [Story.events, End.events] at h
      | done =>
        obtain ⟨r, hr⟩ := h
        simp [Story.events, End.events] at hr
        obtain ⟨rfl, rfl, -⟩ := hr
        exact ⟨⟨[], .done⟩, rfl⟩
      | failed e =>
        obtain ⟨r, hr⟩ := h
        simp [Story.events, End.events] at hr
        obtain ⟨rfl, rfl, -⟩ := hr
        exact ⟨⟨[], .failed e⟩, rfl⟩
  | cons v vs ih =>
    cases a with
    | nil => exact ⟨⟨[], .running⟩, rfl⟩
    | cons x a =>
      obtain ⟨rfl, h'⟩ := List.cons_prefix_cons.mp h
      exact Grammar.snoc_next (ih h')

/-- C128: any operator that takes no time itself, behind async functions that take time: at any time in the past its observer had got exactly what the operator makes of the results
that were there by then. -/
theorem C128_behind {q : Clocked S L α} (hq : q.Lawful) {ops : Ops α β} {p : Proc P W (Notif β) (Notif δ)} {G : Story β → Story δ}
    (hG : Delivers p Grammar G) (h0 : (G ⟨[], .running⟩).events = []) {ls s}
    (hr : LTS.run ((q.through (stage (ops.handler (Handler.final fun _ _ => (0, none))) 0 gone)).operate p).step
      ((q.through (stage (ops.handler (Handler.final fun _ _ => (0, none))) 0 gone)).operate p).init ls = some s)
    (hp : ((q.through (stage (ops.handler (Handler.final fun _ _ => (0, none))) 0 gone)).operate p).Prompt (fun s => p.Quiescent s.2.ps) ls) :
    InTime (((q.through (stage (ops.handler (Handler.final fun _ _ => (0, none))) 0 gone)).operate p).calls s) ∧
    ∀ t < q.now s.1.1, upto t (((q.through (stage (ops.handler (Handler.final fun _ _ => (0, none))) 0 gone)).operate p).calls s) =
      (G (story (upto t (handle ops.work (fun _ _ => (0, none)) gone 0 0 (q.calls s.1.1))))).events := by
  have hl := Clocked.through_lawful hq (stage_lawful (o := ops.handler (Handler.final fun _ _ => (0, none))) (s0 := 0) (gone := gone))
  obtain ⟨h1, h2, -⟩ := C109_operator hl hG h0 (fun ls s h =>
    grammar_prefix ((C124_exact hq h).1.map _) (handle_grammar _ _ _)) hr hp
  refine ⟨h1, fun t ht => ?_⟩
  rw [h2 t ht, upto_before (C124_exact hq (Clocked.operate_source hl hr).1).2 ht]

theorem fold_grammar {w : α → Nat × Except Err (Option γ)} {f : ρ → γ → Nat × Except Err ρ} (hf : ∀ c y, ∃ d c', f c y = (d, .ok c'))
    {w' : ρ → Nat × Except Err (Option β)} {m : Nat → β → Nat × Option Err} : ∀ (cs : List (Notif α × Nat)) (c : ρ) (i free : Nat),
    Grammar ((fold w f w' m gone c i free cs).map (·.1)) := by
  have hnil : Grammar ([] : List (Notif β)) := ⟨⟨[], .running⟩, rfl⟩
  have herr : ∀ e : Err, Grammar [(Notif.error e : Notif β)] := fun e => ⟨⟨[], .failed e⟩, rfl⟩
  intro cs
  induction cs with
  | nil => intros; exact hnil
  | cons x cs ih =>
    intro c i free
    obtain ⟨n, a⟩ := x
    cases n with
    | error e => exact herr e
    | completed => exact ⟨⟨[], .done⟩, rfl⟩
    | next v =>
      rw [fold]
      split
      · split
        · exact hnil
        · exact herr _
      · exact ih ..
      · rename_i y _
        obtain ⟨d, c', h⟩ := hf c y
        rw [h]
        dsimp only
        split
        · split
          · exact hnil
          · exact herr _
        · exact ih ..
        · rw [List.map_cons]
          refine Grammar.snoc_next ?_
          split
          · exact ih ..
          · split
            · exact hnil
            · exact herr _

/-- `pipe(source, ..., reduce_async(f, s0))` behind `safe_observer`: `scan_async`, then `take_last(1)`. transform.py:528-537. -/
abbrev reduced (q : Clocked S L α) (ops : Ops α γ) (f : ρ → γ → Nat × Except Err ρ) (s0 : ρ) (gone : Nat) :=
  (q.through (stage (ops.scanned f Ops.nil (Handler.final fun _ _ => (0, none))) (s0, 0) gone)).operate (takeLast 1 : Operator ρ ρ).direct.slowProc

abbrev Calm (q : Clocked S L α) (ops : Ops α γ) (f : ρ → γ → Nat × Except Err ρ) (s0 : ρ) (gone : Nat) (ls : List (Time ((L ⊕ Label α) ⊕ (takeLast 1 : Operator ρ ρ).direct.compileSlow.SlowLab))) :=
  (reduced q ops f s0 gone).Prompt (fun s => (takeLast 1 : Operator ρ ρ).direct.slowProc.Quiescent s.2.ps) ls

theorem reduced_upto {q : Clocked S L α} (hq : q.Lawful) {ops : Ops α γ} {f : ρ → γ → Nat × Except Err ρ} (hf : ∀ c y, ∃ d c', f c y = (d, .ok c')) {s0 : ρ} {ls s}
    (hr : LTS.run (reduced q ops f s0 gone).step (reduced q ops f s0 gone).init ls = some s) (hp : Calm q ops f s0 gone ls) :
    InTime ((reduced q ops f s0 gone).calls s) ∧
    ∀ t < q.now s.1.1, upto t ((reduced q ops f s0 gone).calls s) =
      (Spec.takeLast 1 (story (upto t (fold ops.work f Ops.nil.work (fun _ _ => (0, none)) gone s0 0 0 (q.calls s.1.1))))).events := by
  have hl := Clocked.through_lawful hq (stage_lawful (o := ops.scanned f Ops.nil (Handler.final fun _ _ => (0, none))) (s0 := (s0, 0)) (gone := gone))
  obtain ⟨h1, h2, -⟩ := C109_operator hl (C48_take_last 1).direct.slow rfl (fun ls s h =>
    grammar_prefix ((C127_exact hq h).1.map _) (fold_grammar hf _ _ _ _)) hr hp
  refine ⟨h1, fun t ht => ?_⟩
  rw [h2 t ht, upto_before (C127_exact hq (Clocked.operate_source hl hr).1).2 ht]

/-! ## `reduce_async`, when nothing raises -/

/-- The totals of values, with their times. -/
def totals (d : ρ → γ → Nat) (g : ρ → γ → ρ) : ρ → Nat → List (γ × Nat) → List (Notif ρ × Nat)
  | _, _, [] => []
  | c, free, (y, a) :: vs => (.next (g c y), max a free + d c y) :: totals d g (g c y) (max a free + d c y) vs

theorem fold_totals {d : ρ → γ → Nat} {g : ρ → γ → ρ} {m : Nat → ρ → Nat × Option Err} (hm : ∀ i c, m i c = (0, none)) (rest : List (Notif γ × Nat)) :
    ∀ (vs : List (γ × Nat)) (c : ρ) (i free : Nat),
    fold Ops.nil.work (fun c y => (d c y, .ok (g c y))) Ops.nil.work m gone c i free (vs.map (fun x => (.next x.1, x.2)) ++ rest) =
      totals d g c free vs ++ fold Ops.nil.work (fun c y => (d c y, .ok (g c y))) Ops.nil.work m gone ((vs.map (·.1)).foldl g c) (i + vs.length)
        (busyUntil d g c free vs) rest := by
  intro vs
  induction vs with
  | nil => intros; rfl
  | cons x vs ih =>
    intro c i free
    obtain ⟨y, a⟩ := x
    rw [List.map_cons, List.cons_append, fold]
    simp only [Ops.work, hm, Nat.add_zero]
    have := ih (g c y) (i + 1) (max a free + d c y)
    simp only [Ops.work] at this
    rw [this]
    simp [totals, busyUntil, Nat.add_assoc, Nat.add_comm 1]

theorem busy_ge {d : ρ → γ → Nat} {g : ρ → γ → ρ} : ∀ (vs : List (γ × Nat)) (c : ρ) (free : Nat), free ≤ busyUntil d g c free vs := by
  intro vs
  induction vs with
  | nil => intros; exact Nat.le_refl _
  | cons x vs ih => intro c free; exact Nat.le_trans (by omega) (ih ..)

theorem totals_upto {d : ρ → γ → Nat} {g : ρ → γ → ρ} : ∀ (vs : List (γ × Nat)) (c : ρ) (free t : Nat),
    (∃ us : List ρ, upto t (totals d g c free vs) = us.map .next) ∧
    (busyUntil d g c free vs ≤ t → upto t (totals d g c free vs) = (accumulate g c (vs.map (·.1))).map .next) := by
  intro vs
  induction vs with
  | nil => intros; exact ⟨⟨[], rfl⟩, fun _ => rfl⟩
  | cons x vs ih =>
    intro c free t
    obtain ⟨y, a⟩ := x
    obtain ⟨⟨us, h1⟩, h2⟩ := ih (g c y) (max a free + d c y) t
    rw [totals, upto_cons]
    refine ⟨?_, fun h => ?_⟩
    · split
      · exact ⟨g c y :: us, by rw [h1]; rfl⟩
      · exact ⟨us, h1⟩
    · have := busy_ge (d := d) (g := g) vs (g c y) (max a free + d c y)
      rw [if_pos (Nat.le_trans this h), h2 h]
      rfl

theorem story_values (us : List ρ) (ns : List (Notif ρ)) : story (us.map .next ++ ns) = ⟨us ++ (story ns).vals, (story ns).fin⟩ := by
  induction us with
  | nil => rfl
  | cons u us ih => simp [story, ih]

theorem accumulate_last {g : ρ → γ → ρ} : ∀ (ys : List γ) (c : ρ) (y : γ), (accumulate g c (y :: ys)).drop ((accumulate g c (y :: ys)).length - 1) = [(y :: ys).foldl g c] := by
  intro ys
  induction ys with
  | nil => intros; rfl
  | cons z ys ih =>
    intro c y
    have := ih (g c y) z
    rw [accumulate, List.foldl_cons, ← this]
    have hlen : (accumulate g (g c y) (z :: ys)).length = (accumulate g (g (g c y) z) ys).length + 1 := rfl
    rw [List.length_cons, hlen]
    simp only [Nat.add_sub_cancel]
    rfl

variable {q : Clocked S L γ} {d : ρ → γ → Nat} {g : ρ → γ → ρ} {s0 : ρ}

/-- C128: `reduce_async` of an accumulator that takes time: while the source has not ended, nothing is told. -/
theorem C128_reduce_running (hq : q.Lawful) {ls s} (hr : LTS.run (reduced q Ops.nil (fun c y => (d c y, .ok (g c y))) s0 gone).step
      (reduced q Ops.nil (fun c y => (d c y, .ok (g c y))) s0 gone).init ls = some s) (hp : Calm q Ops.nil (fun c y => (d c y, .ok (g c y))) s0 gone ls)
    {vs : List (γ × Nat)} (hc : q.calls s.1.1 = vs.map fun x => (.next x.1, x.2)) :
    ∀ t < q.now s.1.1, upto t ((reduced q Ops.nil (fun c y => (d c y, .ok (g c y))) s0 gone).calls s) = [] := by
  intro t ht
  rw [(reduced_upto hq (fun _ _ => ⟨_, _, rfl⟩) hr hp).2 t ht, hc]
  have h := fold_totals (d := d) (g := g) (m := fun _ _ => (0, none)) (gone := gone) (fun _ _ => rfl) [] vs s0 0 0
  rw [List.append_nil] at h
  rw [h, fold, List.append_nil]
  obtain ⟨us, hu⟩ := (totals_upto (d := d) (g := g) vs s0 0 t).1
  rw [hu]
  have := story_values us []
  rw [List.append_nil] at this
  rw [this]
  rfl

/-- C128: when the source has completed, the observer is told of the total of all values and of the completion exactly when the accumulator has worked on all of them, one after the other,
and `gone` has passed; of nothing before, and of the completion alone if there was no value. -/
theorem C128_reduce (hq : q.Lawful) {ls s} (hr : LTS.run (reduced q Ops.nil (fun c y => (d c y, .ok (g c y))) s0 gone).step
      (reduced q Ops.nil (fun c y => (d c y, .ok (g c y))) s0 gone).init ls = some s) (hp : Calm q Ops.nil (fun c y => (d c y, .ok (g c y))) s0 gone ls)
    {vs : List (γ × Nat)} {a : Nat} {more : List (Notif γ × Nat)} (hc : q.calls s.1.1 = vs.map (fun x => (.next x.1, x.2)) ++ (.completed, a) :: more) :
    ∀ t < q.now s.1.1, upto t ((reduced q Ops.nil (fun c y => (d c y, .ok (g c y))) s0 gone).calls s) =
      if t < max a (busyUntil d g s0 0 vs) + gone then []
      else if vs = [] then [.completed] else [.next ((vs.map (·.1)).foldl g s0), .completed] := by
  intro t ht
  rw [(reduced_upto hq (fun _ _ => ⟨_, _, rfl⟩) hr hp).2 t ht, hc, fold_totals (d := d) (g := g) (m := fun _ _ => (0, none)) (gone := gone) (fun _ _ => rfl),
    fold, upto_append, upto_cons]
  by_cases h : t < max a (busyUntil d g s0 0 vs) + gone
  · rw [if_pos h, if_neg (by dsimp only; omega)]
    obtain ⟨us, hu⟩ := (totals_upto (d := d) (g := g) vs s0 0 t).1
    rw [hu]
    show (Spec.takeLast 1 (story (us.map .next ++ []))).events = []
    rw [story_values]
    rfl
  · rw [if_neg h, if_pos (by dsimp only; omega), (totals_upto (d := d) (g := g) vs s0 0 t).2 (by omega)]
    show (Spec.takeLast 1 (story (_ ++ [.completed]))).events = _
    rw [story_values]
    cases vs with
    | nil => rfl
    | cons x vs =>
      rw [if_neg (by simp)]
      simp only [story, List.append_nil, Spec.takeLast, List.map_cons]
      rw [show (1 : Int).toNat = 1 from rfl, accumulate_last]
      rfl

/-- C128: when the source has failed, its error is told after all values before it have been worked on, and no total at all. -/
theorem C128_reduce_failed (hq : q.Lawful) {ls s} (hr : LTS.run (reduced q Ops.nil (fun c y => (d c y, .ok (g c y))) s0 gone).step
      (reduced q Ops.nil (fun c y => (d c y, .ok (g c y))) s0 gone).init ls = some s) (hp : Calm q Ops.nil (fun c y => (d c y, .ok (g c y))) s0 gone ls)
    {vs : List (γ × Nat)} {a : Nat} {e : Err} {more : List (Notif γ × Nat)} (hc : q.calls s.1.1 = vs.map (fun x => (.next x.1, x.2)) ++ (.error e, a) :: more) :
    ∀ t < q.now s.1.1, upto t ((reduced q Ops.nil (fun c y => (d c y, .ok (g c y))) s0 gone).calls s) =
      if t < max a (busyUntil d g s0 0 vs) + gone then [] else [.error e] := by
  intro t ht
  rw [(reduced_upto hq (fun _ _ => ⟨_, _, rfl⟩) hr hp).2 t ht, hc, fold_totals (d := d) (g := g) (m := fun _ _ => (0, none)) (gone := gone) (fun _ _ => rfl),
    fold, upto_append, upto_cons]
  by_cases h : t < max a (busyUntil d g s0 0 vs) + gone
  · rw [if_pos h, if_neg (by dsimp only; omega)]
    obtain ⟨us, hu⟩ := (totals_upto (d := d) (g := g) vs s0 0 t).1
    rw [hu]
    show (Spec.takeLast 1 (story (us.map .next ++ []))).events = []
    rw [story_values]
    rfl
  · rw [if_neg h, if_pos (by dsimp only; omega), (totals_upto (d := d) (g := g) vs s0 0 t).2 (by omega)]
    show (Spec.takeLast 1 (story (_ ++ [.error e]))).events = _
    rw [story_values]
    rfl

/-! ## Examples -/

section Examples
open Nested (ofSeqAt run_any)

local notation "src" => fun l => Time.act (Sum.inl (Sum.inl l))
local notation "recv" => Time.act (Sum.inl (Sum.inr Label.receive))
local notation "go" => Time.act (Sum.inl (Sum.inr Label.go))
local notation "wake" => Time.act (Sum.inl (Sum.inr Label.wake))
local notation "lastA" => Time.act (Sum.inr (Sum.inl ()))
local notation "lastB" => Time.act (Sum.inr (Sum.inr ()))

/-- `pipe(from_iterable([3, 1]), reduce_async(f, 10))` where `f` adds, which takes as long as what is added. -/
abbrev demoReduce := reduced (ofSeqAt 5 [3, (1 : Nat)]) Ops.nil (fun (c : Nat) y => (y, .ok (c + y))) 10 1
abbrev demoReduceRun : List (Time ((Option Unit ⊕ Label Nat) ⊕ (takeLast 1 : Operator Nat Nat).direct.compileSlow.SlowLab)) :=
  [src (some ()), recv, go, .pass 3, wake, go, lastA, go, wake, go,
   recv, go, .pass 1, wake, go, lastA, go, wake, go,
   recv, go, .pass 1, wake, go, lastA, lastA, lastA, lastB, lastB, lastB, lastB, go, .pass 2]

/-- 10 + 3 + 1, at 5 + 3 + 1 + 1. -/
example : (LTS.run demoReduce.step demoReduce.init demoReduceRun).map (fun s => (demoReduce.calls s, demoReduce.now s, (ofSeqAt 5 [3, (1 : Nat)]).calls s.1.1)) =
    some ([(.next 14, 10), (.completed, 10)], 12, [(3, 5), (1, 5)].map (fun x => (.next x.1, x.2)) ++ (.completed, 5) :: []) := by decide +kernel
example : busyUntil (fun (_ y : Nat) => y) (· + ·) 10 0 [(3, 5), (1, 5)] = 9 := by decide
example : (ofSeqAt 5 [3, (1 : Nat)]).Lawful := Nested.ofSeq_lawful _ _
example : Calm (ofSeqAt 5 [3, (1 : Nat)]) Ops.nil (fun (c : Nat) y => (y, .ok (c + y))) 10 1 demoReduceRun := by
  refine Clocked.Prompt.of_rests (idle := fun s => ((takeLast 1 : Operator Nat Nat).direct.slowProc.step s.2.ps (.inl ())).isNone &&
    ((takeLast 1 : Operator Nat Nat).direct.slowProc.step s.2.ps (.inr ())).isNone) (fun s h l => ?_) (by decide +kernel)
  simp only [Bool.and_eq_true, Option.isNone_iff_eq_none] at h
  match l with
  | .inl () => exact h.1
  | .inr () => exact h.2

/-- `pipe(from_iterable([3, 1, 2]), map_async(f), filter_async(p), skip(1))`, as in C124. -/
abbrev demoBehind := ((ofSeqAt 5 [3, 1, (2 : Nat)]).through (stage (demoOps.handler (Handler.final fun _ _ => (0, none))) 0 1)).operate
  (skip 1 : Operator Nat Nat).direct.slowProc
abbrev demoBehindRun : List (Time ((Option Unit ⊕ Label Nat) ⊕ (skip 1 : Operator Nat Nat).direct.compileSlow.SlowLab)) :=
  [src (some ()), recv, go, .pass 3, wake, go, .pass 1, wake, go, lastA, go, wake, go,
   recv, go, .pass 1, wake, go, .pass 1, wake, go,
   recv, go, .pass 2, wake, go, .pass 1, wake, go, lastA, lastA, lastB, lastB, go, wake, go,
   recv, go, .pass 1, wake, go, lastA, lastA, lastB, lastB, go, .pass 1]

/-- Without the first of the results 6 and 4. -/
example : (LTS.run demoBehind.step demoBehind.init demoBehindRun).map (fun s => (demoBehind.calls s, demoBehind.now s)) =
    some ([(.next 4, 14), (.completed, 15)], 16) := by decide +kernel
example : Delivers (skip 1 : Operator Nat Nat).direct.slowProc Grammar (Spec.skip 1) := (C45_skip 1).direct.slow
example : demoBehind.Prompt (fun s => (skip 1 : Operator Nat Nat).direct.slowProc.Quiescent s.2.ps) demoBehindRun := by
  refine Clocked.Prompt.of_rests (idle := fun s => ((skip 1 : Operator Nat Nat).direct.slowProc.step s.2.ps (.inl ())).isNone &&
    ((skip 1 : Operator Nat Nat).direct.slowProc.step s.2.ps (.inr ())).isNone) (fun s h l => ?_) (by decide +kernel)
  simp only [Bool.and_eq_true, Option.isNone_iff_eq_none] at h
  match l with
  | .inl () => exact h.1
  | .inr () => exact h.2

end Examples

end Work
end Aio
