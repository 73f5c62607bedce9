import Verif.Model.Nested
import Verif.Model.Timed
/-!
# The search box

README.md:255-270, the example of a long pipeline (also examples/autocomplete/autocomplete.py:51-58, with `flat_map_async` at the end):

    pipe(stream, map(...), filter(...), debounce(d), distinct_until_changed, map(search), switch_latest)

on one clock. Everything is put together from `Model/Timed.lean`, `Model/Clocked.lean` and `Model/Nested.lean`.
-/

namespace Aio
variable {S L SI LI α β ω γ : Type}

/-- `stream` calls the observer of the first operator directly (as `AsyncSubject` does, subject.py:116-143). `clean`: the operators before
`debounce`; `fresh`: those behind it, which get its values from a safe observer (timeshift.py:108, 122); `fam x t`: the observable for the
search `x`, subscribed at time `t`. -/
def Clocked.searches (q : Clocked S L α) (clean : Operator α β) (d : Nat) (fresh : Operator β ω) :=
  ((q.operate clean.direct.slowProc).through (Debounce.stage true d)).operate fresh.protected.slowProc

/-- With `switch_latest` behind it. -/
def Clocked.searchBox (q : Clocked S L α) (clean : Operator α β) (d : Nat) (fresh : Operator β ω) (fam : ω → Nat → Clocked SI LI γ) :=
  (q.searches clean d fresh).switched fam true

/-- A subject of which only `asend` is called, by code that is not modelled, and by one task at a time: `act v` is `asend(v)`.
subject.py:116-143, with one observer. -/
def Clocked.typed (t0 : Nat) : Clocked (Nat × List (Notif α × Nat)) α α where
  init := (t0, [])
  act s v := some (s.1, s.2 ++ [(.next v, s.1)])
  pass s d := some (s.1 + d, s.2)
  now s := s.1
  calls s := s.2

/-- The source's part of a schedule. -/
def Nested.outers {LO : Type} (ls : List (Time (Nested.Label LO LI ω γ))) : List (Time LO) :=
  ls.filterMap fun
    | .pass d => some (.pass d)
    | .act (.outer l) => some (.act l)
    | _ => none

end Aio
