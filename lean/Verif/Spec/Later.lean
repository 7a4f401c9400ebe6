import Verif.Spec.Observe

/-!
# A clock that is wrong

The same happenings, of which all readings of the clock of the proxy are later by `d` (earlier if `d` is negative). The times in the spans, which other hosts set, are not changed.
-/

namespace Verif.Spec

/-- The same, `d` later. -/
def Happening.later (d : Time) : Happening → Happening
  | .receive now1 now2 s => .receive (now1 + d) (now2 + d) s
  | .tick now1 now2 nowFake => .tick (now1 + d) (now2 + d) fun id => nowFake id + d

end Verif.Spec
