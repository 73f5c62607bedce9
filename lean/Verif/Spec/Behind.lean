import Verif.Model.Behind
import Verif.Spec.Merge
import Verif.Spec.Switch
import Verif.Spec.Delivery
/-!
# What flat_map, merge, concat_map, concat and flat_map_latest are supposed to do

`T es` is the stream of inner observables that the front produces in a run `es`: for `flat_map(f)`, the values of the
source with `f` applied. Everything else is said about what the subscriber of the composition gets, what the inner
observables sent (read off the schedule), and which of them were subscribed.
-/

namespace Aio
open Spec
open Merge (innerCalls arrivals noDone NoFailure unfinished)
variable {FS FL S β ω α : Type}

/-- In front: under the schedules `ok` the calls made are an initial part of `T`, and all of it once `quiet`. -/
structure Feeder.Sends (f : Feeder FS FL ω) (ok : List FL → Prop) (quiet : FS → Prop) (T : List FL → Story ω) : Prop where
  prefix_ : ∀ es s out, f.exec f.init es = some (s, out) → ok es → out <+: (T es).events
  all : ∀ es s out, f.exec f.init es = some (s, out) → ok es → quiet s → out = (T es).events

namespace Behind

/-- The inner observables follow the Rx grammar. -/
def Tame (ls : List (Label FL ω α)) : Prop := ∀ k, Grammar (innerCalls k (deeds ls))

/-- The inner observable number `k` has ended in this way. -/
def fin (k : Nat) (ls : List (Label FL ω α)) : End := Merge.fin k (deeds ls)

/-- `f` in front of `q = merge_inner(mx)`. -/
structure Flattens (f : Feeder FS FL ω) (q : Producer (Merge.State ω) (Merge.Label ω α) α) (mx : Int) (ok : List FL → Prop)
    (quiet : FS → Prop) (T : List FL → Story ω) : Prop where
  /-- the inner observables are subscribed in the order of the stream, none skipped, none twice -/
  order : ∀ {ls : List (Label FL ω α)} {s}, Reaches f q ls s → ok (fronts ls) → Tame ls →
    s.back.src.started <+: (T (fronts ls)).vals
  /-- and all of them, unless all slots are taken -/
  all : ∀ {ls : List (Label FL ω α)} {s}, Reaches f q ls s → ok (fronts ls) → Tame ls → NoFailure (deeds ls) →
    .cancel ∉ deeds ls → (∀ e, (T (fronts ls)).fin ≠ .failed e) → quiet s.front → Merge.Settled s.back.src →
    s.back.src.started = (T (fronts ls)).vals ∨ 0 < mx ∧ ((unfinished (deeds ls) s.back.src).length : Int) = mx
  /-- the subscriber gets what the inner observables send, in that order, up to the first error -/
  values : ∀ {ls : List (Label FL ω α)} {s}, Reaches f q ls s → ok (fronts ls) → Tame ls →
    Producer.NoRaise (backs ls) → (∀ e, (T (fronts ls)).fin ≠ .failed e) →
    noDone s.back.received <+: cut (arrivals (deeds ls)) ∧
    (Safe.Drained s.back.safe → noDone s.back.received = cut (arrivals (deeds ls)))
  /-- if the stream of inner observables fails the subscriber gets that error after what came before it -/
  fails : ∀ {ls : List (Label FL ω α)} {s e}, Reaches f q ls s → ok (fronts ls) → Tame ls →
    Producer.NoRaise (backs ls) → (T (fronts ls)).fin = .failed e →
    ∃ a b, arrivals (deeds ls) = a ++ b ∧ noDone s.back.received <+: cut (a ++ [.error e]) ∧
      (quiet s.front → Safe.Drained s.back.safe → noDone s.back.received = cut (a ++ [.error e]))
  /-- completion: not before the stream has completed and all its inner observables have -/
  onlyWhenDone : ∀ {ls : List (Label FL ω α)} {s}, Reaches f q ls s → ok (fronts ls) → Tame ls →
    Producer.NoRaise (backs ls) → .completed ∈ s.back.received →
    (T (fronts ls)).fin = .done ∧ s.back.src.started = (T (fronts ls)).vals ∧
      ∀ k < s.back.src.started.length, fin k ls = .done
  /-- and then it comes -/
  whenDone : ∀ {ls : List (Label FL ω α)} {s}, Reaches f q ls s → ok (fronts ls) → Tame ls →
    Producer.NoRaise (backs ls) → NoFailure (deeds ls) → .cancel ∉ deeds ls → quiet s.front → Merge.Settled s.back.src →
    Safe.Drained s.back.safe → (T (fronts ls)).fin = .done → (∀ k < s.back.src.started.length, fin k ls = .done) →
    s.back.received = arrivals (deeds ls) ++ [.completed]

/-- `f` in front of `q = merge_inner(1)`: inner observable `o` sends the stream `src o` when it is subscribed. -/
def Concats (f : Feeder FS FL ω) (q : Producer (Merge.State ω) (Merge.Label ω α) α) (ok : List FL → Prop)
    (quiet : FS → Prop) (T : List FL → Story ω) : Prop :=
  ∀ {src : ω → Story α} {ls : List (Label FL ω α)} {s}, Reaches f q ls s → ok (fronts ls) →
    Producer.NoRaise (backs ls) → (∀ e, (T (fronts ls)).fin ≠ .failed e) →
    (∀ k o, s.back.src.started[k]? = some o → innerCalls k (deeds ls) <+: (src o).events) →
    s.back.received <+: (concat ((T (fronts ls)).vals.map src) (T (fronts ls)).fin).events ∧
    ((∀ k o, s.back.src.started[k]? = some o → innerCalls k (deeds ls) = (src o).events) → NoFailure (deeds ls) →
      .cancel ∉ deeds ls → quiet s.front → Merge.Settled s.back.src → Safe.Drained s.back.safe →
      s.back.received = (concat ((T (fronts ls)).vals.map src) (T (fronts ls)).fin).events)

/-- `f` in front of `q = switch_latest`; `honour`: inner observables send no values or errors after they were disposed. -/
structure Switches (f : Feeder FS FL ω) (q : Producer (Switch.State ω) (Merge.Label ω α) α) (honour : Bool)
    (ok : List FL → Prop) (quiet : FS → Prop) (T : List FL → Story ω) : Prop where
  /-- the inner observables are subscribed in the order of the stream, none skipped -/
  order : ∀ {ls : List (Label FL ω α)} {s}, Reaches f q ls s → ok (fronts ls) → Tame ls →
    s.back.src.started <+: (T (fronts ls)).vals ∧
    (quiet s.front → Switch.Settled s.back.src → NoFailure (deeds ls) → s.back.src.started = (T (fronts ls)).vals)
  /-- only the one that was subscribed last is heard, if disposed ones keep quiet -/
  latest : honour = true → ∀ {ls : List (Label FL ω α)} {s s' i n}, Reaches f q ls s → ok (fronts ls) → n.kind ≠ .onCompleted →
    step f q s (.back (.own (.inner i n))) = some s' → Tame (ls ++ [.back (.own (.inner i n))]) →
    i = s.back.src.started.length
  /-- the older ones have been disposed -/
  older : ∀ {ls : List (Label FL ω α)} {s i}, Reaches f q ls s → .cancel ∉ deeds ls → 1 ≤ i →
    i < s.back.src.started.length → i ∈ s.back.src.disposed
  /-- the subscriber gets what the inner observables send, in that order, up to the first error -/
  values : ∀ {ls : List (Label FL ω α)} {s}, Reaches f q ls s → ok (fronts ls) → Tame ls →
    Producer.NoRaise (backs ls) → .cancel ∉ deeds ls → (∀ e, (T (fronts ls)).fin ≠ .failed e) →
    noDone s.back.received <+: cut (arrivals (deeds ls)) ∧
    (Safe.Drained s.back.safe → noDone s.back.received = cut (arrivals (deeds ls)))
  /-- if the stream of inner observables fails the subscriber gets that error after what came before it -/
  fails : ∀ {ls : List (Label FL ω α)} {s e}, Reaches f q ls s → ok (fronts ls) → Tame ls →
    Producer.NoRaise (backs ls) → .cancel ∉ deeds ls → (T (fronts ls)).fin = .failed e →
    ∃ a b, arrivals (deeds ls) = a ++ b ∧ noDone s.back.received <+: cut (a ++ [.error e]) ∧
      (quiet s.front → Safe.Drained s.back.safe → noDone s.back.received = cut (a ++ [.error e]))

end Behind

/-- `pipe(source, fl)` subscribes to, and delivers the events of, the inner observables that `G` makes of the source's
values (with at most `mx` of them at a time, unless `mx` is 0): behind a source with a safe observer whatever it does, and
behind a source that calls directly if it follows the Rx grammar. -/
structure Flattened.Merges (fl : Flattened β ω α (Merge.State ω)) (mx : Int) (G : Story β → Story ω) : Prop where
  guarded : Behind.Flattens fl.front.protected.proc.feeder fl.back mx (fun _ => True) fl.front.protected.proc.Quiescent
    (fun es => G (story (Proc.inputs es)))
  direct : Behind.Flattens fl.front.direct.proc.feeder fl.back mx (fun es => Grammar (Proc.inputs es))
    fl.front.direct.proc.Quiescent (fun es => G (story (Proc.inputs es)))

/-- `pipe(source, fl)` delivers them one after the other. -/
structure Flattened.Concatenates (fl : Flattened β ω α (Merge.State ω)) (G : Story β → Story ω) : Prop where
  guarded : Behind.Concats fl.front.protected.proc.feeder fl.back (fun _ => True) fl.front.protected.proc.Quiescent
    (fun es => G (story (Proc.inputs es)))
  direct : Behind.Concats fl.front.direct.proc.feeder fl.back (fun es => Grammar (Proc.inputs es))
    fl.front.direct.proc.Quiescent (fun es => G (story (Proc.inputs es)))

/-- `pipe(source, fl)` delivers those of the latest one. -/
structure Flattened.Mirrors (fl : Flattened β ω α (Switch.State ω)) (honour : Bool) (G : Story β → Story ω) : Prop where
  guarded : Behind.Switches fl.front.protected.proc.feeder fl.back honour (fun _ => True)
    fl.front.protected.proc.Quiescent (fun es => G (story (Proc.inputs es)))
  direct : Behind.Switches fl.front.direct.proc.feeder fl.back honour (fun es => Grammar (Proc.inputs es))
    fl.front.direct.proc.Quiescent (fun es => G (story (Proc.inputs es)))

end Aio
