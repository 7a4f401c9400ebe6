import Verif.Spec.Span

/-!
# Specification of merging and of a trace under assembly
-/

namespace Verif.Spec

/-- A half that has a valid server timing counts as a server half. -/
def IsServer (s : Span) : Prop := 0 < s.timings.SR ∨ 0 < s.timings.SS

instance (s : Span) : Decidable (IsServer s) := inferInstanceAs (Decidable (_ ∨ _))

/-- The first text that is not empty. -/
def firstNonEmpty (a b : Str) : Str := if a = [] then b else a

/-- The first timestamp if it is valid, otherwise the second. -/
def firstValid (a b : Timestamp) : Timestamp := if 0 < a then a else b

/-- Two spans with the same id, in the order of arrival, become one:
* identity and (uncorrected) start and duration are those of the first one;
* the parent is that of the first one, unless it is unknown;
* service, name and each tag come from the preferred one if it has them: the one that arrived second if
  it is a server half, otherwise the one that arrived first;
* a server half contributes its server timings, anything else its client timings. -/
def merged (a b : Span) : Span :=
  let pref := if IsServer b then b else a
  let other := if IsServer b then a else b
  { id := a.id, trace := a.trace, timestamp := a.timestamp, duration := a.duration
    parent := if a.parent = 0 then b.parent else a.parent
    service := firstNonEmpty pref.service other.service
    name := firstNonEmpty pref.name other.name
    tags := some (other.tags.getD ∅ ∪ pref.tags.getD ∅)
    timings :=
      if IsServer b then
        { CS := a.timings.CS, CR := a.timings.CR
          SS := firstValid b.timings.SS a.timings.SS, SR := firstValid b.timings.SR a.timings.SR }
      else
        { CS := firstValid b.timings.CS a.timings.CS, CR := firstValid b.timings.CR a.timings.CR
          SS := a.timings.SS, SR := a.timings.SR } }

/-- The half of a shared span reported by the client: no server timings. -/
def IsClientHalf (s : Span) : Prop :=
  s.timings.SS = 0 ∧ s.timings.SR = 0 ∧ 0 ≤ s.timings.CS ∧ 0 ≤ s.timings.CR

/-- The half of a shared span reported by the server: a server timing and no client timings. -/
def IsServerHalf (s : Span) : Prop :=
  IsServer s ∧ s.timings.CS = 0 ∧ s.timings.CR = 0 ∧ 0 ≤ s.timings.SS ∧ 0 ≤ s.timings.SR

/-- The span that a trace should hold for an id after having received the spans `l` (in this order). -/
def held (id : Id) (l : List Span) : Option Span :=
  match l.filter (fun s => s.id == id) with
  | [] => none
  | s :: rest => some (rest.foldl merged s.withTags)

end Verif.Spec
