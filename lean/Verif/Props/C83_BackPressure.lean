import Verif.Lemmas.Slices
/-!
# C83: back-pressure through operators
-/

namespace Aio
open Spec
variable {α β γ : Type}

/-- The pipeline has no mailbox: every operator calls the next one directly. -/
def Chain.Direct : {α γ : Type} → Chain α γ → Prop
  | _, _, .done => True
  | _, _, .wrap _ c => c.Direct
  | _, _, .safe _ => False
  | _, _, .loop _ => False

theorem Chain.Direct.code : ∀ {α γ : Type} {c : Chain α γ}, c.Direct →
    ∃ (σ : Type) (obs : Observer σ (Notif γ) α) (s0 : σ), c.compile = .final obs s0
  | _, _, .done, _ => ⟨_, _, _, rfl⟩
  | _, _, .wrap w c, h => by
    obtain ⟨σ, obs, s0, hc⟩ := Chain.Direct.code (c := c) h
    exact ⟨_, _, _, by rw [Chain.compile, hc]; rfl⟩

theorem Code.final_quiescent {c : Code α γ} (h : ∃ (σ : Type) (obs : Observer σ (Notif γ) α) (s0 : σ), c = .final obs s0)
    (s : c.St) : c.proc.Quiescent s := by
  obtain ⟨σ, obs, s0, rfl⟩ := h
  intro l; cases l

/-- C83 for pipelines of operators without a mailbox (`map`, `filter`, `choose`, `scan` and their variants): when the
call of `asend` returns the final observer has been told everything that follows from it. -/
theorem C83_direct_partial {op : Operator α γ} {G : Story α → Story γ} (h : op.Computes G) (hd : op.direct.Direct)
    {es s out} (hr : op.direct.proc.exec op.direct.proc.init es = some (s, out)) (hg : Grammar (Proc.inputs es)) :
    out = (G (story (Proc.inputs es))).events :=
  h.direct.all es s out hr hg (Code.final_quiescent hd.code s)

/-- The processes behind the first mailbox do nothing when something is posted to it. -/
def Code.Lazy : Code α γ → Prop
  | .final _ _ => True
  | .more _ _ p => ∀ s i, (p.feed s i).2 = []

theorem Chain.code_lazy (c : Chain α γ) : c.compile.Lazy := by
  induction c with
  | done => trivial
  | wrap w c ih =>
    rw [Chain.compile]
    cases h : c.compile with
    | final obs s0 => trivial
    | more obs s0 p => rw [h] at ih; exact ih
  | safe c ih =>
    rw [Chain.compile]
    cases h : c.compile <;> exact fun s i => rfl
  | loop c ih =>
    rw [Chain.compile]
    cases h : c.compile <;> exact fun s i => rfl

theorem feedAll_lazy {St Lab ι ο : Type} {p : Proc St Lab ι ο} (h : ∀ s i, (p.feed s i).2 = []) (s : St) (is : List ι) :
    (p.feedAll s is).2 = [] := by
  induction is generalizing s with
  | nil => rfl
  | cons i is ih => simp [Proc.feedAll, h, ih]

theorem Chain.mailbox_code : ∀ {α γ : Type} {c : Chain α γ}, ¬ c.Direct →
    ∃ (σ μ St Lab : Type) (obs : Observer σ (Notif μ) α) (s0 : σ) (p : Proc St Lab (Notif μ) (Notif γ)),
      c.compile = .more obs s0 p
  | _, _, .done, h => absurd trivial h
  | _, _, .wrap w c, h => by
    obtain ⟨σ, μ, St, Lab, obs, s0, p, hc⟩ := Chain.mailbox_code (c := c) h
    exact ⟨_, _, _, _, _, _, _, by rw [Chain.compile, hc]; rfl⟩
  | _, _, .safe c, _ => by
    rw [Chain.compile]
    cases h : c.compile <;> exact ⟨_, _, _, _, _, _, _, rfl⟩
  | _, _, .loop c, _ => by
    rw [Chain.compile]
    cases h : c.compile <;> exact ⟨_, _, _, _, _, _, _, rfl⟩

/-- C83 is false of every pipeline with a mailbox in it (`skip`, `take`, `take_last`, `distinct_until_changed`, `zip_seq`,
...): all calls of the source may have returned, however many there were, before the final observer is told anything. -/
theorem C83_violated {c : Chain α γ} (h : ¬ c.Direct) (ns : List (Notif α)) :
    ∃ s, c.proc.exec c.proc.init (ns.map .feed) = some (s, []) := by
  have hl := c.code_lazy
  obtain ⟨σ, μ, St, Lab, obs, s0, p, hc⟩ := Chain.mailbox_code h
  unfold Chain.proc
  generalize c.compile = d at hc hl
  subst hc
  have : ((Code.more obs s0 p).proc.feedAll (Code.more obs s0 p).proc.init ns).2 = [] :=
    feedAll_lazy (fun s i => feedAll_lazy hl _ _) _ _
  refine ⟨((Code.more obs s0 p).proc.feedAll (Code.more obs s0 p).proc.init ns).1, ?_⟩
  rw [Proc.exec_map_feed, ← this]

example : (((map fun x => .ok (x + 1)).compose (filter fun x => .ok (x % 2 == 0))).direct : Chain Nat Nat).Direct := trivial
example : ((map fun x => .ok (x + 1)).compose (filter fun x => .ok (x % 2 == 0))).direct.proc.outputs
    ([.next 1, .next 2, .next 3].map .feed) = some [.next 2, .next 4] := by decide
example : ¬ (((map fun x => .ok (x + 1)).compose (skip 1)).direct : Chain Nat Nat).Direct := fun h => h
example : ((map fun x => .ok (x + 1)).compose (skip 1)).direct.proc.outputs
    ([.next 1, .next 2, .next 3].map .feed) = some [] := by decide

end Aio
