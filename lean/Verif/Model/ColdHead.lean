import Verif.Model.Single
import Verif.Model.Piped
/-!
# An `AsyncSingleSubject` at the head of a pipeline
-/

namespace Aio

/-- `subject.subscribe_async(obv)`, subject.py:16-94, with the operators' first observer as observer 0: what it is told. It is called
directly. The calls of observers' methods return (`ret`) at any time, see `Piped.step`. -/
def Single.source (α : Type) : Source (Single.State α) (Single.Label α) α where
  init := Single.init
  step := Single.step
  out s := s.log.filterMap fun x => if x.2.1 = 0 then some x.2.2 else none

end Aio
