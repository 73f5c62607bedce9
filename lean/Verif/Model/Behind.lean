import Verif.Model.Pipeline
import Verif.Model.Switch
import Verif.Model.Transform
/-!
# `merge_inner` and `switch_latest` behind another operator or source

transform.py:151-245 and 347-381, combine.py:160-171, __init__.py:203-206, 307-316, 541-555, 801-813: `flat_map*`,
`concat_map` and `flat_map_latest*` are `compose(map*(mapper), merge_inner(n))` or `compose(map*(mapper), switch_latest)`;
`merge` and `concat` are `pipe(of_seq([source, other]), merge_inner(n))`.

`Feeder` is what is in front: something that calls the observer of `merge_inner` / `switch_latest`. These observers only
post (combine.py:135-144, transform.py:319-329), so a call returns at once and the front goes on.
-/

namespace Aio
variable {FS FL S β ω α : Type}

/-- What runs in front: its atomic segments, and the calls each makes on the observer behind it. -/
structure Feeder (FS FL ω : Type) where
  init : FS
  step : FS → FL → Option (FS × List (Notif ω))

/-- Execute a list of segments; the result is the state and all calls made. -/
def Feeder.exec (f : Feeder FS FL ω) : FS → List FL → Option (FS × List (Notif ω))
  | s, [] => some (s, [])
  | s, l :: ls =>
    match f.step s l with
    | none => none
    | some (t, o) =>
      match f.exec t ls with
      | none => none
      | some (u, o') => some (u, o ++ o')

/-- A pipeline (`Model/Pipeline.lean`) in front: its segments are the calls of the source and the steps of its workers. -/
def Proc.feeder {St Lab : Type} (p : Proc St Lab (Notif β) (Notif ω)) : Feeder St (Proc.Ev (Notif β) Lab) ω where
  init := p.init
  step s e := p.exec s [e]

/-- A source of create.py (`Model/Create.lean`) in front. Its safe observer calls the observer behind it. -/
def Producer.feeder {L : Type} (p : Producer S L ω) : Feeder (Producer.State S ω) (Producer.Label L) ω where
  init := p.start
  step s l := (p.next s l).map fun t => (t, t.received.drop s.received.length)

namespace Behind

structure State (FS S α : Type) where
  front : FS
  back : Producer.State S α

/-- `front l`: something in front runs; `back l`: anything else happens (an inner observable makes a call, a worker runs,
somebody disposes the subscription). -/
inductive Label (FL ω α : Type) where
  | front (l : FL)
  | back (l : Producer.Label (Merge.Label ω α))

def start (f : Feeder FS FL ω) (q : Producer S (Merge.Label ω α) α) : State FS S α := ⟨f.init, q.start⟩

/-- One atomic segment. Only the front calls the outer observer. -/
def step (f : Feeder FS FL ω) (q : Producer S (Merge.Label ω α) α) (s : State FS S α) :
    Label FL ω α → Option (State FS S α)
  | .front l =>
    match f.step s.front l with
    | none => none
    | some (t, out) => (LTS.run q.next s.back (out.map fun n => .own (.outer n))).map (⟨t, ·⟩)
  | .back (.own (.outer _)) => none
  | .back l => (q.next s.back l).map (⟨s.front, ·⟩)

/-- The part of the schedule that concerns the front / the back. -/
def fronts (ls : List (Label FL ω α)) : List FL := ls.filterMap fun | .front l => some l | .back _ => none
def backs (ls : List (Label FL ω α)) : List (Producer.Label (Merge.Label ω α)) :=
  ls.filterMap fun | .front _ => none | .back l => some l

/-- Run a schedule from the start. -/
def exec (f : Feeder FS FL ω) (q : Producer S (Merge.Label ω α) α) (ls : List (Label FL ω α)) : Option (State FS S α) :=
  LTS.run (step f q) (start f q) ls

/-- The schedule `ls` leads to `s`. -/
def Reaches (f : Feeder FS FL ω) (q : Producer S (Merge.Label ω α) α) (ls : List (Label FL ω α)) (s : State FS S α) : Prop :=
  exec f q ls = some s

/-- What the inner observables, the subscriber and the worker did. -/
def deeds (ls : List (Label FL ω α)) : List (Merge.Label ω α) :=
  (backs ls).filterMap fun | .own l => some l | _ => none

end Behind
end Aio

namespace Aio
variable {β ω α S : Type}

/-- `compose(front, back)` where `back` is `merge_inner(n)` or `switch_latest`. -/
structure Flattened (β ω α S : Type) : Type 1 where
  front : Operator β ω
  back : Producer S (Merge.Label ω α) α

/-- `flat_map(mapper)`. transform.py:151-169. -/
def flatMap (mapper : β → Except Err ω) : Flattened β ω α (Merge.State ω) := ⟨map mapper, mergeInner 0⟩
/-- `flat_mapi(mapper)`. transform.py:172-192. -/
def flatMapi (mapper : β → Nat → Except Err ω) : Flattened β ω α (Merge.State ω) := ⟨mapi mapper, mergeInner 0⟩
/-- `flat_map_async(mapper)`. transform.py:195-214. -/
def flatMapAsync (mapper : β → Except Err ω) : Flattened β ω α (Merge.State ω) := ⟨mapAsync mapper, mergeInner 0⟩
/-- `flat_mapi_async(mapper)`. transform.py:217-236. -/
def flatMapiAsync (mapper : β → Nat → Except Err ω) : Flattened β ω α (Merge.State ω) := ⟨mapiAsync mapper, mergeInner 0⟩
/-- `concat_map(mapper)`. transform.py:239-245. -/
def concatMap (mapper : β → Except Err ω) : Flattened β ω α (Merge.State ω) := ⟨map mapper, mergeInner 1⟩
/-- `flat_map_latest(mapper)`. transform.py:366-381. -/
def flatMapLatest (honour : Bool) (mapper : β → Except Err ω) : Flattened β ω α (Switch.State ω) :=
  ⟨map mapper, switchLatest honour⟩
/-- `flat_map_latest_async(mapper)`. transform.py:347-363. -/
def flatMapLatestAsync (honour : Bool) (mapper : β → Except Err ω) : Flattened β ω α (Switch.State ω) :=
  ⟨mapAsync mapper, switchLatest honour⟩

end Aio
