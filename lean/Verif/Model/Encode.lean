import Verif.Model.TimeJson
import Verif.Model.GoJson
import Verif.Model.Ring

/-!
# The admin view of the last spans

main.go:168 serves the result of `buffer.ToSlice` as JSON, encoded by `encoding/json` (Go 1.15, encode.go), of which the parts for `[]proxy.Span` are modelled here. The text of
`Marshaler`s is passed through `compact`, which leaves ids and times as they are (they have neither blanks nor characters that are escaped for HTML). The library that serves the page may
indent the text; this is not modelled.
-/

namespace Verif

/-- `htmlSafeSet` of tables.go for the bytes below 0x80. -/
def htmlSafe (b : UInt8) : Bool :=
  decide (0x20 ≤ b) && b != c!"\"" && b != c!"\\" && b != c!"<" && b != c!">" && b != c!"&"

/-- What follows the backslash for a byte below 0x80 that is not safe. -/
def escapeByte (b : UInt8) : Str :=
  if b = c!"\\" ∨ b = c!"\"" then [b]
  else if b = 0x0A then b!"n"
  else if b = 0x0D then b!"r"
  else if b = 0x09 then b!"t"
  else b!"u00" ++ [hexTable (b >>> 4), hexTable (b &&& 0xF)]

/-- The loop of `encodeState.string` with `escapeHTML`, from the index on. Every step consumes fuel; the number of bytes suffices. -/
def encodeLoop : (fuel : Nat) → Str → Str
  | 0, _ => []
  | _ + 1, [] => []
  | fuel + 1, b :: s =>
    if b < 0x80 then
      if htmlSafe b then b :: encodeLoop fuel s
      else c!"\\" :: (escapeByte b ++ encodeLoop fuel s)
    else
      let c := (decodeRune (b :: s)).1
      let size := (decodeRune (b :: s)).2
      if c = 0xFFFD ∧ size = 1 then b!"\\ufffd" ++ encodeLoop fuel s
      else if c = 0x2028 ∨ c = 0x2029 then b!"\\u202" ++ (hexTable (UInt8.ofNat (c % 16)) :: encodeLoop fuel ((b :: s).drop size))
      else (b :: s).take size ++ encodeLoop fuel ((b :: s).drop size)

/-- `encodeState.string`. -/
def encodeText (s : Str) : Str := c!"\"" :: (encodeLoop s.length s ++ b!"\"")

/-- `strconv.AppendInt` in base 10 for a number that is not negative: one digit after the other, from the last on. -/
def decimalDigits : (fuel : Nat) → Nat → Str
  | 0, _ => []
  | fuel + 1, n => if n < 10 then [UInt8.ofNat (48 + n)] else decimalDigits fuel (n / 10) ++ [UInt8.ofNat (48 + n % 10)]

/-- `intEncoder`; a 64 bit number has at most 20 digits. -/
def encodeNumber (n : Int64) : Str := if n < 0 then c!"-" :: decimalDigits 20 n.toInt.natAbs else decimalDigits 20 n.toInt.natAbs

/-- `structEncoder.encode` for the fields that are not omitted; `next` is the byte before the next field. -/
def encodeFields (next : UInt8) : List (Str × Str) → Str
  | [] => if next = c!"{" then b!"{}" else b!"}"
  | (name, text) :: l => next :: c!"\"" :: (name ++ (b!"\":" ++ (text ++ encodeFields c!"," l)))

/-- `mapEncoder.encode` after the opening brace; the keys are sorted. -/
def encodeEntries : List (Str × Str) → Str
  | [] => b!"}"
  | [e] => encodeText e.1 ++ c!":" :: (encodeText e.2 ++ b!"}")
  | e :: l => encodeText e.1 ++ c!":" :: (encodeText e.2 ++ c!"," :: encodeEntries l)

def encodeMap (m : TagMap) : Str := c!"{" :: encodeEntries m.toList

/-- A field with `omitempty` of type `Timestamp` is omitted if it is 0. -/
def encodeTime (zone : Int → Int) (name : Str) (ts : Timestamp) : Option (List (Str × Str)) :=
  if ts = 0 then some [] else (timestampMarshal zone ts).map fun t => [(name, t)]

/-- proxy/span.go:23-28 `Timings`. -/
def encodeTimings (zone : Int → Int) (t : Timings) : Option Str := do
  let cs ← encodeTime zone b!"cs" t.CS
  let cr ← encodeTime zone b!"cr" t.CR
  let ss ← encodeTime zone b!"ss" t.SS
  let sr ← encodeTime zone b!"sr" t.SR
  some (encodeFields c!"{" (cs ++ (cr ++ (ss ++ sr))))

/-- A field with `omitempty` of a map type is omitted if the map is nil or empty. -/
def encodeTags : Option TagMap → List (Str × Str)
  | none => []
  | some m => if m.isEmpty then [] else [(b!"tags", encodeMap m)]

/-- proxy/span.go:7-21 `Span`; `none` is an error. `MarshalJSON` of `proxy.Id` has a pointer receiver; it is used because the elements of a slice have
addresses (`condAddrEncoder`). -/
def encodeSpan (zone : Int → Int) (s : Span) : Option Str := do
  let ts ← timestampMarshal zone s.timestamp
  let timings ← encodeTimings zone s.timings
  some (encodeFields c!"{" ([(b!"id", idMarshalJSON s.id), (b!"parent", idMarshalJSON s.parent), (b!"trace", idMarshalJSON s.trace), (b!"name", encodeText s.name),
    (b!"service", encodeText s.service), (b!"timestamp", ts), (b!"duration", encodeNumber s.duration)] ++ (encodeTags s.tags ++ [(b!"timings", timings)])))

/-- `arrayEncoder.encode` after the opening bracket. -/
def encodeElements (zone : Int → Int) : List Span → Option Str
  | [] => some b!"]"
  | [s] => (encodeSpan zone s).map (· ++ b!"]")
  | s :: l => do
    let t ← encodeSpan zone s
    let r ← encodeElements zone l
    some (t ++ c!"," :: r)

/-- `sliceEncoder.encode` for `[]proxy.Span`. The result of `ToSlice` is nil if there are no spans. -/
def encodeView (zone : Int → Int) (l : List Span) : Option Str :=
  if l = [] then some b!"null" else (encodeElements zone l).map (c!"[" :: ·)

/-- main.go:168: the page with the last spans. -/
def adminView (zone : Int → Int) (b : Ring) : Option Str := encodeView zone b.toSlice

end Verif
