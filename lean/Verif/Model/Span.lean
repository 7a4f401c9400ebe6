import Verif.Model.Id

/-!
# proxy/span.go and proxy/timestamp.go
-/

namespace Verif

/-- proxy/timestamp.go:6 `type Timestamp int64` (nanoseconds). -/
abbrev Timestamp := Int64
/-- Go's `time.Duration`, an `int64` of nanoseconds. -/
abbrev Duration := Int64

/-- `time.Microsecond`. -/
def microsecond : Int64 := 1000
/-- `time.Millisecond`. -/
def millisecond : Int64 := 1000000
/-- `time.Second`. -/
def second : Int64 := 1000000000

/-- proxy/timestamp.go:8-10 `Microseconds` (multiplication wraps around). -/
def microseconds (us : Int64) : Timestamp := us * microsecond

/-- proxy/timestamp.go:12-14 `ToMillis` (Go division truncates towards zero, so does `Int64.div`). -/
def toMillis (ts : Timestamp) : Int64 := ts / millisecond

/-- proxy/timestamp.go:28-30 `Timestamp.Add`. -/
def tsAdd (ts : Timestamp) (d : Duration) : Timestamp := ts + d

/-- proxy/timestamp.go:32-34 `Timestamp.IsValid`. -/
def tsIsValid (ts : Timestamp) : Bool := decide (ts > 0)

/-- proxy/span.go:23-28 `Timings`. -/
@[ext] structure Timings where
  CS : Timestamp := 0
  CR : Timestamp := 0
  SS : Timestamp := 0
  SR : Timestamp := 0
deriving DecidableEq

/-- proxy/span.go:7-21 `Span`. `Tags` is `none` for a nil map. -/
@[ext] structure Span where
  id : Id := 0
  parent : Id := 0
  trace : Id := 0
  name : Str := []
  service : Str := []
  timestamp : Timestamp := 0
  duration : Duration := 0
  tags : Option TagMap := none
  timings : Timings := {}

/-- proxy/span.go:30-37 `NewSpan`. -/
def newSpan (name : Str) (trace id parent : Id) : Span :=
  { id := id, parent := parent, trace := trace, name := name }

/-- proxy/span.go:39-41 `NewRootSpan`. Note that the parent is the trace id, not the span id. -/
def newRootSpan (name : Str) (trace id : Id) : Span := newSpan name trace id trace

/-- proxy/span.go:47-49 `IsRoot`. -/
def Span.isRoot (s : Span) : Bool := s.parent == s.id

/-- proxy/span.go:51-57 `AddTag` (a nil map is replaced by an empty one first).
Simplification: the map is a value. Model/TagHeap has references; `C85_values` shows that it makes no difference. -/
def Span.addTag (s : Span) (key value : Str) : Span :=
  { s with tags := some ((s.tags.getD ∅).insert key value) }

/-- proxy/span.go:59-70 `AddTiming`. -/
def Span.addTiming (s : Span) (key : Str) (ns : Timestamp) : Span :=
  if key = b!"cs" then { s with timings := { s.timings with CS := ns } }
  else if key = b!"cr" then { s with timings := { s.timings with CR := ns } }
  else if key = b!"sr" then { s with timings := { s.timings with SR := ns } }
  else if key = b!"ss" then { s with timings := { s.timings with SS := ns } }
  else s

end Verif
