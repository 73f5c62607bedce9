/-!
# When the timed methods of the test subjects should send
-/

namespace Aio.Spec

/-- `.._at(when)` called at time `made`: at `when`, or at once if that is past. -/
def timeAt (w made : Int) : Int := if made ≤ w then w else made

/-- `.._later(delay)` called at time `made`: `delay` later, or at once if it is negative. -/
def timeLater (d made : Int) : Int := if 0 ≤ d then made + d else made

end Aio.Spec
