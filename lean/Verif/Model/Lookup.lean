import Verif.Model.Tree

/-!
# Functions of the API that the proxy itself does not use

correct.go `ByParent`, `GetSpan`, `Root`, `HasSpan`; proxy/span.go `HasParent`; proxy/id.go `OrZero`, `Or`, `Uint64OrNil`, `Int64`; proxy/timestamp.go `ToMicros`, `ToNanos`. Pointers to spans
are indices, pointers to ids are options.
-/

namespace Verif

/-- correct.go:103-104: one iteration of the loop of `ByParent`. -/
def byParentStep (spans : List Span) (result : Std.ExtTreeMap Id (List Nat)) (idx : Nat) : Std.ExtTreeMap Id (List Nat) :=
  match spans[idx]? with
  | some span => result.insert span.parent ((result[span.parent]?).getD [] ++ [idx])
  | none => result

/-- correct.go:99-108 `ByParent`. -/
def byParent (spans : List Span) : Std.ExtTreeMap Id (List Nat) := (List.range spans.length).foldl (byParentStep spans) ∅

/-- correct.go:110-112 `GetSpan`. -/
def Tree.getSpan (t : Tree) (spanId : Id) : Option Nat := getSpanRef t.spans spanId

/-- correct.go:115-117 `Root`. -/
def Tree.root (t : Tree) : Option Nat := getSpanRef t.spans t.traceId

/-- correct.go:575-577 `HasSpan`. -/
def hasSpan (spans : List Span) (id : Id) : Bool := (getSpanRef spans id).isSome

/-- proxy/span.go:43-45 `HasParent`. -/
def Span.hasParent (s : Span) : Bool := !s.isRoot

/-- proxy/id.go:27-33 `OrZero`. -/
def idOrZero : Option Id → Id
  | some id => id
  | none => 0

/-- proxy/id.go:35-41 `Or`. -/
def idOr (id : Option Id) (other : Id) : Id :=
  match id with
  | some id => id
  | none => other

/-- proxy/id.go:43-50 `Uint64OrNil`. -/
def idUint64OrNil : Option Id → Option UInt64
  | none => none
  | some id => if id = 0 then none else some id.toUInt64

/-- proxy/id.go:15-17 `Int64`, 19-21 `Uint64`, for any receiver. -/
def idInt64Of (id : Option Id) : Int64 := idOrZero id
def idUint64Of (id : Option Id) : UInt64 := (idOrZero id).toUInt64

/-- proxy/timestamp.go:16-18 `ToMicros`. -/
def toMicros (ts : Timestamp) : Int64 := ts / microsecond

/-- proxy/timestamp.go:20-22 `ToNanos`. -/
def toNanos (ts : Timestamp) : Int64 := ts

end Verif
