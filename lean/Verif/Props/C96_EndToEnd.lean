import Verif.Model.EndToEnd
import Verif.Spec.Delivery
import Verif.Props.C07_Pipelines
import Verif.Props.C15_16_Run
import Verif.Props.C20_26_Create
import Verif.Props.C27_30_Map
/-!
# C96: `run` over a pipeline over a list
-/

namespace Aio.Spec
variable {γ : Type}

/-- What `run` makes of a stream that ends: its last value, its error, or a cancellation if there was no value (C72). -/
def verdict : Story γ → Option (RunUntil.Outcome γ)
  | ⟨_, .running⟩ => none
  | ⟨_, .failed e⟩ => some (.raised e)
  | ⟨vs, .done⟩ => some (match vs.getLast? with | none => .cancelled | some v => .value (some v))

end Aio.Spec

namespace Aio.EndToEnd
open Spec
variable {α γ : Type} {op : Operator α γ} {G : Story α → Story γ} {kill : Bool} {w : Py Bool (Notif α) Unit}

/-- Nobody gives up: no timeout, and the task of `run` is not cancelled. -/
def Patient (ls : List (Label op)) : Prop := Label.main .timeout ∉ ls ∧ Label.main .cancel ∉ ls

/-- The future after some calls. -/
def futOf (ns : List (Notif γ)) : Awaitable.State γ := Awaitable.run Awaitable.init (ns.map .call)

theorem futOf_append (a b : List (Notif γ)) : futOf (a ++ b) = Awaitable.run (futOf a) (b.map .call) := by
  simp [futOf, Awaitable.run_append]

/-- The future is done iff the calls contain an end, and then as `run` should see it. -/
theorem futOf_events (t : Story γ) : (futOf t.events).fut = match verdict t with
    | none => .pending
    | some (.raised e) => .exception e
    | some (.value v) => .result v
    | some _ => .cancelled := by
  obtain ⟨vs, fin⟩ := t
  have hs : ∀ r : List (Notif γ), (vs.map Notif.next ++ r).map Awaitable.Label.call = Awaitable.sends vs ++ r.map .call := by
    intro r; simp [Awaitable.sends]
  cases fin with
  | running => simp only [futOf, Story.events, End.events, verdict, hs]; simpa using Awaitable.C15_open vs
  | failed e => simp only [futOf, Story.events, hs, End.events, verdict, List.map_cons]; exact Awaitable.C15_error vs e _
  | done =>
    simp only [futOf, Story.events, hs, End.events, verdict, List.map_cons, List.map_nil]
    rcases List.eq_nil_or_concat vs with rfl | ⟨init, v, rfl⟩
    · exact Awaitable.C15_no_value _
    · rw [List.concat_eq_append]
      simp only [List.getLast?_append, List.getLast?_singleton, Option.some_or]
      exact Awaitable.C15_last_value init v _

theorem prefix_events : ∀ {t : Story γ} {ns : List (Notif γ)}, ns <+: t.events → ∃ u : Story γ, ns = u.events ∧ (u.fin ≠ .running → u = t) := by
  rintro ⟨vs, fin⟩
  induction vs with
  | nil =>
    intro ns h
    cases ns with
    | nil => exact ⟨⟨[], .running⟩, rfl, fun h => absurd rfl h⟩
    | cons n r =>
      refine ⟨⟨[], fin⟩, ?_, fun _ => rfl⟩
      cases fin with
      | running => simp [Story.events] at h
      | failed e => simp [Story.events] at h ⊢; exact h
      | done => simp [Story.events] at h ⊢; exact h
  | cons v vs ih =>
    intro ns h
    cases ns with
    | nil => exact ⟨⟨[], .running⟩, rfl, fun h => absurd rfl h⟩
    | cons n r =>
      rw [show (Story.events ⟨v :: vs, fin⟩ : List (Notif γ)) = .next v :: Story.events ⟨vs, fin⟩ from rfl, List.cons_prefix_cons] at h
      obtain ⟨rfl, h⟩ := h
      obtain ⟨⟨us, ufin⟩, rfl, hu⟩ := ih h
      refine ⟨⟨v :: us, ufin⟩, rfl, fun hn => ?_⟩
      have := hu hn
      injection this with h1 h2
      subst h1 h2; rfl

private structure Inv (G : Story α → Story γ) (w : Py Bool (Notif α) Unit) (s : State op) : Prop where
  exec : s.run.phase = .subscribing ∨ s.run.phase = .waiting → ∃ es, op.protected.proc.exec op.protected.proc.init es = some (s.ps, s.outs) ∧
    Proc.inputs es = s.posts
  src : s.run.phase = .subscribing ∨ s.run.phase = .waiting →
    (s.src = ⟨true, false⟩ ∧ s.posts = []) ∨ (s.src.fresh = false ∧ s.posts = (w false).out)
  obv : s.run.phase = .subscribing ∨ s.run.phase = .waiting → s.run.obv = futOf s.outs
  over : ∀ o, s.run.phase = .disposing o ∨ s.run.phase = .done o → verdict (G (story (w false).out)) = some o

private theorem calls_phase (r : RunUntil.State γ) (ns : List (Notif γ)) : (calls r ns).phase = r.phase ∧ (calls r ns).disposals = r.disposals := ⟨rfl, rfl⟩

/-- A future that is done has been told the whole stream. -/
private theorem settled (hG : Delivers op.protected.proc (fun _ => True) G) {s : State op} {o : RunUntil.Outcome γ} {es}
    (hex : op.protected.proc.exec op.protected.proc.init es = some (s.ps, s.outs)) (hin : Proc.inputs es = s.posts)
    (hp : s.posts <+: (w false).out)
    (ho : match (futOf s.outs).fut with | .pending => False | .result v => o = .value v | .exception e => o = .raised e | .cancelled => o = .cancelled) :
    verdict (G (story (w false).out)) = some o := by
  have himp : op.protected.proc.Implements (fun ns => (G (story ns)).events) :=
    fun es s out h => ⟨hG.prefix_ es s out h trivial, hG.all es s out h trivial⟩
  have h1 : s.outs <+: (G (story (w false).out)).events := by
    have := (himp _ _ _ hex).1
    rw [hin] at this
    exact this.trans (himp.mono hG.ends hp)
  obtain ⟨u, hu, hut⟩ := prefix_events h1
  rw [hu, futOf_events] at ho
  have hfin : u.fin ≠ .running := by
    intro hr
    obtain ⟨vs, fin⟩ := u
    dsimp only at hr; subst hr
    exact ho
  rw [← hut hfin]
  revert ho
  rcases u with ⟨vs, _ | e | _⟩
  · exact absurd rfl hfin
  · simp only [verdict]; intro ho; rw [ho]
  · simp only [verdict]
    cases vs.getLast? with
    | none => simp only; intro ho; rw [ho]
    | some v => simp only; intro ho; rw [ho]

private theorem inv_step (hG : Delivers op.protected.proc (fun _ => True) G) {s s' : State op} {l : Label op} (hl : l ≠ .main .timeout ∧ l ≠ .main .cancel) (h : Inv G w s)
    (hs : step kill w s l = some s') : Inv G w s' := by
  cases l with
  | source =>
    simp only [step] at hs
    split at hs
    · cases hs
    · next t o hst =>
      cases hs
      refine ⟨fun hp => ?_, fun hp => ?_, fun hp => ?_, h.over⟩
      · obtain ⟨es, he, hi⟩ := h.exec hp
        refine ⟨es ++ o.map .feed, Proc.exec_append _ he (Proc.exec_map_feed _ _ _), ?_⟩
        simp [hi]
      · rcases h.src hp with ⟨h1, h2⟩ | ⟨h1, h2⟩
        · simp only [oneShot, h1, Bool.and_false, if_true, Bool.false_eq_true, if_false, Option.some.injEq, Prod.mk.injEq] at hst
          obtain ⟨rfl, rfl⟩ := hst
          exact .inr ⟨rfl, by simp [h2]⟩
        · simp [oneShot, h1] at hst
      · show Awaitable.run s.run.obv _ = _
        rw [h.obv hp, futOf_append]
  | worker l =>
    simp only [step] at hs
    split at hs
    · cases hs
    · next t o hst =>
      cases hs
      refine ⟨fun hp => ?_, h.src, fun hp => ?_, h.over⟩
      · obtain ⟨es, he, hi⟩ := h.exec hp
        refine ⟨es ++ [.step l], Proc.exec_append _ he (Proc.exec_step_intro (o2 := []) hst rfl |>.trans (by simp)), ?_⟩
        simp [hi]
      · show Awaitable.run s.run.obv _ = _
        rw [h.obv hp, futOf_append]
  | detach =>
    simp only [step] at hs
    split at hs
    · cases hs
    · next hne =>
      cases hs
      refine ⟨h.exec, fun hp => ?_, h.obv, h.over⟩
      rcases h.src hp with ⟨-, h2⟩ | ⟨h1, h2⟩
      · exact absurd h2 hne
      · exact .inr ⟨h1, h2⟩
  | main l =>
    have leave : ∀ o r, (s.run.phase = .subscribing ∨ s.run.phase = .waiting) →
        (match (futOf s.outs).fut with | .pending => False | .result v => o = .value v | .exception e => o = .raised e | .cancelled => o = .cancelled) →
        r.run.phase = .disposing o → Inv G w (r : State op) := by
      intro o r hp ho hr
      refine ⟨fun h => ?_, fun h => ?_, fun h => ?_, fun o' h' => ?_⟩
      · rw [hr] at h; rcases h with h | h <;> cases h
      · rw [hr] at h; rcases h with h | h <;> cases h
      · rw [hr] at h; rcases h with h | h <;> cases h
      · rw [hr] at h'
        rcases h' with h' | h'
        · cases h'
          obtain ⟨es, he, hi⟩ := h.exec hp
          refine settled hG he hi ?_ ho
          rcases h.src hp with ⟨-, h2⟩ | ⟨-, h2⟩
          · rw [h2]; exact List.nil_prefix
          · rw [h2]; exact List.prefix_refl _
        · cases h'
    simp only [step] at hs
    cases l with
    | obv l => cases hs
    | subscribeRaises e => cases hs
    | disposeRaises e => cases hs
    | timeout => exact absurd rfl hl.1
    | cancel => exact absurd rfl hl.2
    | subscribed =>
      simp only [main, RunUntil.step] at hs
      cases hph : s.run.phase with
      | subscribing =>
        rw [hph] at hs
        simp only [Nat.lt_irrefl, if_false, Option.some.injEq] at hs
        subst hs
        refine ⟨fun _ => h.exec (.inl hph), fun _ => h.src (.inl hph), fun _ => h.obv (.inl hph), fun o ho => ?_⟩
        rcases ho with ho | ho <;> cases ho
      | _ => rw [hph] at hs; cases hs
    | resume =>
      simp only [main, RunUntil.step] at hs
      cases hph : s.run.phase with
      | waiting =>
        have hobv := h.obv (.inr hph)
        rw [hph] at hs
        cases hfut : s.run.obv.fut with
        | pending => rw [hfut] at hs; cases hs
        | result v =>
          rw [hfut] at hs
          simp only [Option.some.injEq] at hs
          subst hs
          exact leave (.value v) _ (.inr hph) (by rw [← hobv, hfut]) rfl
        | exception e =>
          rw [hfut] at hs
          simp only [Option.some.injEq] at hs
          subst hs
          exact leave (.raised e) _ (.inr hph) (by rw [← hobv, hfut]) rfl
        | cancelled =>
          rw [hfut] at hs
          simp only [Option.some.injEq] at hs
          subst hs
          exact leave .cancelled _ (.inr hph) (by rw [← hobv, hfut]) rfl
      | _ => rw [hph] at hs; cases hs
    | disposed =>
      simp only [main, RunUntil.step] at hs
      cases hph : s.run.phase with
      | disposing o =>
        rw [hph] at hs
        simp only [Nat.lt_irrefl, if_false, Option.some.injEq] at hs
        subst hs
        refine ⟨fun h => ?_, fun h => ?_, fun h => ?_, fun o' ho => ?_⟩
        · rcases h with h | h <;> cases h
        · rcases h with h | h <;> cases h
        · rcases h with h | h <;> cases h
        · rcases ho with ho | ho
          · cases ho
          · cases ho; exact h.over o (.inl hph)
      | _ => rw [hph] at hs; cases hs

private theorem inv_reach (hG : Delivers op.protected.proc (fun _ => True) G) {ls : List (Label op)} {s : State op} (hr : LTS.run (step kill w) (init op) ls = some s)
    (hp : Patient ls) : Inv G w s := by
  refine LTS.inv_of (step := step kill w) (fun l => l ≠ .main .timeout ∧ l ≠ .main .cancel) (Inv G w) ?_ (fun _ _ _ hl => inv_step hG hl) ?_ hr
  · exact ⟨fun _ => ⟨[], rfl, rfl⟩, fun _ => .inl ⟨rfl, rfl⟩, fun _ => rfl, fun o h => by rcases h with h | h <;> cases h⟩
  · intro l hl
    exact ⟨fun h => hp.1 (h ▸ hl), fun h => hp.2 (h ▸ hl)⟩

/-- C96, for every source of one segment (`from_iterable`, `fail`, ...), every pipeline of operators (functions that raise
included) and every schedule: if `run` is over, it ended as the stream that the pipeline makes of what the source posts. -/
theorem C96_result (hG : Delivers op.protected.proc (fun _ => True) G) {ls : List (Label op)} {s : State op} (hr : LTS.run (step kill w) (init op) ls = some s)
    (hp : Patient ls) {o : RunUntil.Outcome γ} (h : s.run.phase = .done o) : verdict (G (story (w false).out)) = some o :=
  (inv_reach hG hr hp).over o (.inr h)

/-! ### progress -/

private theorem patient_append {a b : List (Label op)} (ha : Patient a) (hb : Patient b) : Patient (a ++ b) :=
  ⟨fun h => (List.mem_append.mp h).elim ha.1 hb.1, fun h => (List.mem_append.mp h).elim ha.2 hb.2⟩

private theorem run_workers : ∀ (ls : List op.protected.compile.Lab) (s : State op) {t out},
    op.protected.proc.exec s.ps (ls.map .step) = some (t, out) →
    LTS.run (step kill w) s (ls.map .worker) = some { s with ps := t, run := calls s.run out, outs := s.outs ++ out } := by
  intro ls
  induction ls with
  | nil =>
    intro s t out h
    simp at h
    obtain ⟨rfl, rfl⟩ := h
    simp [LTS.run, calls, Awaitable.run]
  | cons l ls ih =>
    intro s t out h
    obtain ⟨s1, o1, o2, h1, h2, rfl⟩ := Proc.exec_step_inv h
    refine LTS.run_cons.mpr ⟨{ s with ps := s1, run := calls s.run o1, outs := s.outs ++ o1 }, by simp only [step, h1], ?_⟩
    rw [ih _ h2]
    simp [calls, Awaitable.run]

/-- What is left once the pipeline has delivered everything. -/
private theorem resume_ {s : State op} {t : Story γ} {o : RunUntil.Outcome γ} (hph : s.run.phase = .waiting)
    (hobv : s.run.obv = futOf t.events) (hv : verdict t = some o) :
    ∃ s', LTS.run (step kill w) s [.main .resume, .main .disposed] = some s' ∧ s'.run.phase = .done o := by
  have hf := futOf_events t
  rw [hv, ← hobv] at hf
  obtain ⟨vs, fin⟩ := t
  cases fin with
  | running => cases hv
  | failed e =>
    cases hv
    refine ⟨_, by simp only [LTS.run, step, main, RunUntil.step, hph, hf, Option.bind, RunUntil.State.leave]; rfl, rfl⟩
  | done =>
    simp only [verdict] at hv
    split at hv
    · cases hv
      refine ⟨_, by simp only [LTS.run, step, main, RunUntil.step, hph, hf, Option.bind, RunUntil.State.leave]; rfl, rfl⟩
    · cases hv
      refine ⟨_, by simp only [LTS.run, step, main, RunUntil.step, hph, hf, Option.bind, RunUntil.State.leave]; rfl, rfl⟩

/-- C96, progress: whatever has happened so far, if the pipeline's stream ends then `run` can come to its end. -/
theorem C96_can_finish (hG : Delivers op.protected.proc (fun _ => True) G) {ls : List (Label op)} {s : State op} (hr : LTS.run (step kill w) (init op) ls = some s)
    (hp : Patient ls) {o : RunUntil.Outcome γ} (hv : verdict (G (story (w false).out)) = some o) :
    ∃ ls' s', Patient ls' ∧ LTS.run (step kill w) s ls' = some s' ∧ s'.run.phase = .done o := by
  have hinv := inv_reach hG hr hp
  -- once the task of `run` waits
  have waiting : ∀ {l0 s0}, Patient l0 → LTS.run (step kill w) s l0 = some s0 → s0.run.phase = .waiting →
      ∃ ls' s', Patient ls' ∧ LTS.run (step kill w) s ls' = some s' ∧ s'.run.phase = .done o := by
    intro l0 s0 hp0 hr0 hph0
    -- the source's task runs, if it did not yet
    obtain ⟨l1, s1, hp1, hr1, hph1, hf1⟩ : ∃ l1 s1, Patient l1 ∧ LTS.run (step kill w) s l1 = some s1 ∧ s1.run.phase = .waiting ∧
        s1.src.fresh = false := by
      have hinv0 := inv_reach hG (LTS.run_append.mpr ⟨s, hr, hr0⟩) (patient_append hp hp0)
      rcases hinv0.src (.inr hph0) with ⟨h1, -⟩ | ⟨h1, -⟩
      · obtain ⟨s1, hst, hph1, hf1⟩ : ∃ s1, step kill w s0 .source = some s1 ∧ s1.run.phase = .waiting ∧ s1.src.fresh = false := ⟨{ s0 with
            src := ⟨false, false⟩, ps := (op.protected.proc.feedAll s0.ps (w false).out).1,
            run := calls s0.run (op.protected.proc.feedAll s0.ps (w false).out).2, posts := s0.posts ++ (w false).out,
            outs := s0.outs ++ (op.protected.proc.feedAll s0.ps (w false).out).2 }, by simp [step, oneShot, h1], hph0, rfl⟩
        exact ⟨l0 ++ [.source], _, patient_append hp0 ⟨by simp, by simp⟩, LTS.run_append.mpr ⟨s0, hr0, LTS.run_cons.mpr ⟨_, hst, rfl⟩⟩, hph1, hf1⟩
      · exact ⟨l0, s0, hp0, hr0, hph0, h1⟩
    -- the workers run until nothing is left to do
    obtain ⟨wl, t, out, hw, hq⟩ := Proc.can_finish hG.ends s1.ps
    have hr2 := run_workers (kill := kill) (w := w) wl s1 hw
    have hpw : Patient (wl.map Label.worker : List (Label op)) := ⟨by simp, by simp⟩
    have hinv2 := inv_reach hG (LTS.run_append.mpr ⟨s, hr, LTS.run_append.mpr ⟨s1, hr1, hr2⟩⟩) (patient_append hp (patient_append hp1 hpw))
    obtain ⟨es, he, hi⟩ := hinv2.exec (.inr hph1)
    have hposts : s1.posts = (w false).out := by
      rcases hinv2.src (.inr hph1) with ⟨h1, -⟩ | ⟨-, h2⟩
      · have h1 : s1.src = ⟨true, false⟩ := h1
        rw [h1] at hf1; cases hf1
      · exact h2
    have hall := hG.all es _ _ he trivial hq
    rw [hi] at hall
    dsimp only at hall
    rw [hposts] at hall
    obtain ⟨s3, hr3, hd⟩ := resume_ (kill := kill) (w := w) (s := { s1 with ps := t, run := calls s1.run out, outs := s1.outs ++ out }) hph1
      (by rw [hinv2.obv (.inr hph1)]; exact congrArg futOf hall) hv
    exact ⟨l1 ++ wl.map .worker ++ [.main .resume, .main .disposed], s3, patient_append (patient_append hp1 hpw) ⟨by simp, by simp⟩,
      LTS.run_append.mpr ⟨_, LTS.run_append.mpr ⟨s1, hr1, hr2⟩, hr3⟩, hd⟩
  cases hph : s.run.phase with
  | subscribing =>
    refine waiting (l0 := [.main .subscribed]) (s0 := { s with run := { s.run with phase := .waiting } }) ⟨by simp, by simp⟩ ?_ rfl
    simp [LTS.run, step, main, RunUntil.step, hph]
  | waiting => exact waiting (l0 := []) ⟨by simp, by simp⟩ rfl hph
  | disposing o' =>
    have := hinv.over o' (.inl hph)
    rw [hv] at this; cases this
    refine ⟨[.main .disposed], { s with run := { s.run with phase := .done o } }, ⟨by simp, by simp⟩, ?_, rfl⟩
    simp [LTS.run, step, main, RunUntil.step, hph]
  | done o' =>
    have := hinv.over o' (.inr hph)
    rw [hv] at this; cases this
    exact ⟨[], s, ⟨by simp, by simp⟩, rfl, hph⟩

/-- How far `run` and the source's task have come. -/
private def todo (s : State op) : Nat :=
  (if s.src.fresh then 1 else 0) + match s.run.phase with
    | .subscribing => 3 | .waiting => 2 | .disposing _ => 1 | .done _ => 0

private theorem main_todo {s s' : State op} {l : RunUntil.Label γ} (h : main kill w s l = some s') : todo s' < todo s ∧ s'.ps = s.ps := by
  have hd : ∀ r : RunUntil.State γ, (if s.run.disposals < r.disposals then (oneShot kill w).dispose s.src else s.src).fresh = s.src.fresh := by
    intro r; split <;> rfl
  cases l with
  | obv l => cases h
  | subscribeRaises e => cases h
  | disposeRaises e => cases h
  | _ =>
    simp only [main, RunUntil.step] at h
    split at h
    · cases h
    · next r hr =>
      cases h
      refine ⟨?_, rfl⟩
      simp only [todo, hd]
      cases hph : s.run.phase <;> rw [hph] at hr <;> try (cases hr; done)
      all_goals
        first
        | (simp only [Option.some.injEq] at hr; subst hr; simp only [RunUntil.State.leave]; omega)
        | (cases hf : s.run.obv.fut <;> rw [hf] at hr <;> simp only [Option.some.injEq, reduceCtorEq] at hr
           all_goals subst hr; simp only [RunUntil.State.leave]; omega)

/-- C96: nothing goes on for ever (operators detach at most once each; those steps change nothing any more and are left
out here). -/
theorem C96_terminates (hG : Delivers op.protected.proc (fun _ => True) G) (s : State op) :
    Acc (fun s' s : State op => ∃ l, l ≠ .detach ∧ step kill w s l = some s') s := by
  suffices h : ∀ n s, todo s = n → Acc (fun s' s : State op => ∃ l, l ≠ .detach ∧ step kill w s l = some s') s from h _ s rfl
  intro n
  induction n using Nat.strongRecOn with
  | ind n ihn =>
    intro s hn
    obtain ⟨src, ps, run, posts, outs⟩ := s
    induction hG.ends ps generalizing run posts outs with
    | intro ps _ ihp =>
      constructor
      rintro s' ⟨l, hl, hs⟩
      cases l with
      | detach => exact absurd rfl hl
      | source =>
        simp only [step] at hs
        split at hs
        · cases hs
        · next t o hst =>
          cases hs
          have hfresh : src.fresh = true ∧ t.fresh = false := by
            simp only [oneShot] at hst
            split at hst
            · next hf =>
              split at hst <;> (simp at hst; obtain ⟨rfl, -⟩ := hst; exact ⟨hf, rfl⟩)
            · cases hst
          refine ihn _ ?_ _ rfl
          simp only [todo, hfresh.1, if_true] at hn
          simp only [todo, hfresh.2, calls, Bool.false_eq_true, if_false]
          omega
      | worker l =>
        simp only [step] at hs
        split at hs
        · cases hs
        · next t o hst =>
          cases hs
          exact ihp t ⟨l, o, hst⟩ _ _ _ hn
      | main l =>
        obtain ⟨h1, -⟩ := main_todo hs
        exact ihn _ (by omega) _ rfl

/-! ### lists -/

/-- C96 for `run(pipe(from_iterable(xs), op))`: if it is over, it has returned the last value of what the pipeline makes of
the list, or raised its error; and it can always get there. -/
theorem C96_list (hG : Delivers op.protected.proc (fun _ => True) G) (xs : List α) {ls : List (Label op)} {s : State op}
    (hr : LTS.run (step kill (ofSeqWorker xs none)) (init op) ls = some s) (hp : Patient ls) :
    (∀ o, s.run.phase = .done o → verdict (G ⟨xs, .done⟩) = some o) ∧
    (∀ o, verdict (G ⟨xs, .done⟩) = some o → ∃ ls' s', Patient ls' ∧ LTS.run (step kill (ofSeqWorker xs none)) s ls' = some s' ∧
      s'.run.phase = .done o) := by
  have hw : story (ofSeqWorker xs none false).out = ⟨xs, .done⟩ := by
    rw [ofSeqWorker_posts]; exact story_events ⟨xs, .done⟩
  refine ⟨fun o h => ?_, fun o h => ?_⟩
  · rw [← hw]; exact C96_result hG hr hp h
  · exact C96_can_finish hG hr hp (by rw [hw]; exact h)

/-- C96 for `run(pipe(fail(error), op))`. -/
theorem C96_fail (hG : Delivers op.protected.proc (fun _ => True) G) (e : Err) {ls : List (Label op)} {s : State op}
    (hr : LTS.run (step kill (poster.athrow e)) (init op) ls = some s) (hp : Patient ls) :
    (∀ o, s.run.phase = .done o → verdict (G ⟨[], .failed e⟩) = some o) ∧
    (∀ o, verdict (G ⟨[], .failed e⟩) = some o → ∃ ls' s', Patient ls' ∧ LTS.run (step kill (poster.athrow e)) s ls' = some s' ∧
      s'.run.phase = .done o) :=
  ⟨fun _ h => C96_result hG hr hp h, fun _ h => C96_can_finish hG hr hp h⟩

/-- What becomes of an iterable that raises: `run` does not return unless the pipeline ends by itself before. -/
theorem C96_raising_iterable (hG : Delivers op.protected.proc (fun _ => True) G) (xs : List α) (e : Err) {ls : List (Label op)} {s : State op}
    (hr : LTS.run (step kill (ofSeqWorker xs (some e))) (init op) ls = some s) (hp : Patient ls) {o : RunUntil.Outcome γ}
    (h : s.run.phase = .done o) : verdict (G ⟨xs, .running⟩) = some o := by
  have hw : story (ofSeqWorker xs (some e) false).out = ⟨xs, .running⟩ := by
    rw [ofSeqWorker_posts]; exact story_events ⟨xs, .running⟩
  rw [← hw]; exact C96_result hG hr hp h

/-- C96 with a function that raises: `run(pipe(from_iterable(xs), map(f)))` raises what the first call of `f` that raises
raised. -/
theorem C96_raising_function {β : Type} (f : α → Except Err β) (ps qs : List α) (x : α) (e : Err) (hf : FirstRaise f ps x e) (he : e ≠ .cancelled)
    {ls : List (Label (map f))} {s : State (map f)}
    (hr : LTS.run (step kill (ofSeqWorker (ps ++ x :: qs) none)) (init (map f)) ls = some s) (hp : Patient ls) {o : RunUntil.Outcome β}
    (h : s.run.phase = .done o) : o = .raised e := by
  have := (C96_list (map_acts (f := f)).delivers _ hr hp).1 o h
  simp only [map_raise f ps qs x e .done hf, raised_failed he, verdict, Option.some.injEq] at this
  exact this.symm

/-- `map(x + 10) | take(2)` -/
def demo : Operator Nat Nat := (map fun x => .ok (x + 10)).compose (takeOp 2)

/-- `run(pipe(from_iterable(xs), map(x + 10), take(2)))` returns the second element plus 10, if there are that many. -/
example (kill : Bool) (x y : Nat) (xs : List Nat) {ls : List (Label demo)} {s : State demo}
    (hr : LTS.run (step kill (ofSeqWorker (x :: y :: xs) none)) (init demo) ls = some s) (hp : Patient ls) {o : RunUntil.Outcome Nat}
    (h : s.run.phase = .done o) : o = .value (some (y + 10)) := by
  have hG : demo.Computes (Spec.take 2 ∘ mapped (· + 10)) :=
    C07_compose _ _ _ _ (map_acts.congr fun s => by
      have := tryEach_ok (fun x : Nat => some (x + 10)) s.vals s.fin
      simpa [Except.map, mapped] using this) (take_acts 2) (map_calm _) (take_calm 2)
  have := (C96_list hG.guarded _ hr hp).1 o h
  simpa [Spec.take, mapped, verdict] using this.symm

-- the source's safe worker, then the one of `take`
example : (LTS.run (step true (ofSeqWorker [1, 2, 3] none)) (init demo) [.source, .main .subscribed,
    .worker (.inr (.inl ())), .worker (.inr (.inl ())), .detach, .worker (.inr (.inr ())), .worker (.inr (.inr ())), .worker (.inr (.inr ())),
    .main .resume, .main .disposed]).map (fun s => s.run.phase) = some (.done (.value (some 12))) := by decide

end Aio.EndToEnd
