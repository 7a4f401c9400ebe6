import Verif.Model.Span

namespace Verif

/-- A span up to the distinction of a nil and an empty tag map. -/
def Span.withTags (s : Span) : Span := { s with tags := some (s.tags.getD ∅) }

end Verif
