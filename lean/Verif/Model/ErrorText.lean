import Verif.Model.Json
import Verif.Model.Encode

/-!
# The texts of errors of the parser (codec/hyperjson, codec/json*.go, proxy/id.go)

What a client reads when its request of version 1 or 2 is refused. The decoders of `Model/Decoder.lean` and `Model/Json.lean` say when an error is returned; here is what its
method `Error` returns. The memory that a decoder writes to has no influence on its errors, so it is left out: `Texts` is a decoder without memory and with the texts of its errors
(`Texts.Of` in `Proofs/ErrorText.lean` relates the two).

Assumptions about libraries: `errors.WithMessage(err, m)` of github.com/pkg/errors has the text `m: err`; `%s` of a `Type` calls its method `String`; `%c` of a byte is the UTF-8 encoding of
the code point with this number; `%d` is decimal; `io.EOF` has the text `EOF`; reflect2 types have the names that package reflect gives to them.
-/

namespace Verif

/-! ## Formatting -/

/-- `%c` of a byte. -/
def charText (c : UInt8) : Str := encodeRune c.toNat

/-- codec/hyperjson/type_string.go:23. -/
def typeNames : Str := b!"TypeErrorTypeNullTypeObjectBeginTypeObjectEndTypeArrayBeginTypeArrayEndTypeBooleanTypeNumberTypeStringtypeWhitespace"

/-- codec/hyperjson/type_string.go:25. -/
def typeIndex : List Nat := [0, 9, 17, 32, 45, 59, 71, 82, 92, 102, 116]

/-- The number of a type, codec/hyperjson/parser.go:11-23. -/
def JType.code : JType → Nat
  | .error => 0
  | .null => 1
  | .objectBegin => 2
  | .objectEnd => 3
  | .arrayBegin => 4
  | .arrayEnd => 5
  | .boolean => 6
  | .number => 7
  | .string => 8
  | .whitespace => 9

/-- codec/hyperjson/type_string.go:27-32 `String`; `none`: an index or a slice bound is out of range. -/
def typeString (i : Nat) : Option Str :=
  if i ≥ typeIndex.length - 1 then some (b!"Type(" ++ decimalDigits 20 i ++ b!")")
  else
    match typeIndex[i]?, typeIndex[i + 1]? with
    | some a, some b => if a ≤ b ∧ b ≤ typeNames.length then some ((typeNames.drop a).take (b - a)) else none
    | _, _ => none

/-- `%s` of a type. -/
def JType.text (t : JType) : Str := (typeString t.code).getD []

/-- codec/hyperjson/parser.go:371-378 `wrongTypeError`. -/
def wrongTypeText (expected : JType) (c : UInt8) : Str :=
  if symbolTable c = .error then b!"expected token of type '" ++ expected.text ++ b!"', but found character '" ++ charText c ++ b!"'"
  else b!"expected token of type '" ++ expected.text ++ b!"', but found '" ++ (symbolTable c).text ++ b!"'"

/-! ## Operations of the parser -/

/-- codec/hyperjson/parser.go:411-443: the text when `bufferMore` failed, from the parser that it left. `readErr` is the text of the error of the reader. -/
def endText (readErr : Str) (p : Parser) : Str := if p.eof then b!"EOF" else b!"buffer more data: " ++ readErr

/-- The first character that is not a hexadecimal digit. -/
def firstNoHex (cs : List UInt8) : Option UInt8 := cs.find? fun c => (hexDigit? c).isNone

/-- codec/hyperjson/string.go:11-49: the text if this iteration fails. -/
def Unescape.errorText (st : Unescape) : Str :=
  -- line 19
  if st.idx + 1 ≥ st.buf.length then b!"premature end of input"
  -- line 33
  else if st.idx + 1 + 4 ≥ st.buf.length then b!"premature end of input while decoding unicode character"
  -- line 65
  else match firstNoHex ((st.buf.drop (st.idx + 2)).take 4) with
    | some c => b!"expected hexadecimal character but got '" ++ charText c ++ b!"'"
    | none => []

/-- codec/hyperjson/parser.go:180-182: the text if the escapes of the token cannot be decoded. -/
def decodeErrorText (value : List UInt8) : Str :=
  match decodeStringInPlace value with
  | some (.err st) => st.errorText
  | _ => []

/-- codec/hyperjson/parser.go:155-196: the text if the loop fails. -/
def readStringLoopText (readErr : Str) : Nat → Parser → (n : Nat) → (escapeNext escaped : Bool) → Str
  | 0, _, _, _, _ => []
  | fuel + 1, p, n, escapeNext, escaped =>
    if n < p.available then
      match p.buffer[p.tail + n]? with
      | none => []
      | some c =>
        if escapeNext then readStringLoopText readErr fuel p (n + 1) false escaped
        else if c = c!"\\" then readStringLoopText readErr fuel p (n + 1) true true
        else if c = c!"\"" then decodeErrorText ((p.buffer.drop p.tail).take n)
        else readStringLoopText readErr fuel p (n + 1) false escaped
    else
      match p.bufferMore with
      | .ok _ p => readStringLoopText readErr fuel p n escapeNext escaped
      | .err p => endText readErr p
      | _ => []

/-- The parser after an error. -/
def Run.failed? {α : Type} : Run α → Option Parser
  | .err p => some p
  | _ => none

/-- The type of token that is expected, codec/hyperjson/parser.go:306-308, 318-324. -/
def Word.type : Word → JType
  | .null => .null
  | .true => .boolean
  | .false => .boolean

/-- The text if the operation fails on this parser. -/
def Op.errorText (readErr : Str) (fuel : Nat) (p : Parser) : Op → Str
  -- codec/hyperjson/parser.go:268-270
  | .skipWhitespace => ((Parser.skipWhitespace fuel p).failed?.map (endText readErr)).getD []
  -- it does not fail
  | .current => []
  -- codec/hyperjson/parser.go:58-60, 75-77, 92-94, 109-111
  | .consume t => (p.current.map (wrongTypeText t.type)).getD []
  -- codec/hyperjson/parser.go:150-153
  | .readString => (p.current.map fun c => if c ≠ c!"\"" then wrongTypeText .string c else readStringLoopText readErr fuel { p with tail := p.tail + 1 } 0 false false).getD []
  -- codec/hyperjson/parser.go:208-211, 231-233
  | .readNumber => (p.current.map fun c =>
      if !isCharDigit c then wrongTypeText .number c else ((Parser.readNumberLoop fuel p 1).failed?.map (endText readErr)).getD []).getD []
  -- codec/hyperjson/parser.go:285-291, 398-400
  | .readWord w =>
    match Parser.require fuel p w.length with
    | .ok _ p => (p.current.map (wrongTypeText w.type)).getD []
    | .err p => b!"require(" ++ decimalDigits 20 w.length ++ b!"): " ++ endText readErr p
    | _ => []

/-! ## Decoders -/

/-- A decoder without its memory: operations, each with the text that is put in front of its error. -/
inductive Texts
  | done
  | fail (text : Str)
  | timeout
  | op (o : Op) (context : Str) (k : o.Res → Texts)

/-- The text of the error that a decoder returns, if it returns one. -/
def Texts.run (readErr : Str) (fuel : Nat) : Texts → Parser → Option Str
  | .done, _ => none
  | .fail text, _ => some text
  | .timeout, _ => none
  | .op o context k, p =>
    match o.run fuel p with
    | .ok a p => (k a).run readErr fuel p
    | .err _ => some (context ++ o.errorText readErr fuel p)
    | _ => none

/-- A decoder and then another one. -/
def Texts.andThen : Texts → Texts → Texts
  | .done, next => next
  | .fail text, _ => .fail text
  | .timeout, _ => .timeout
  | .op o context k, next => .op o context fun a => (k a).andThen next

/-- `errors.WithMessage`. -/
def Texts.withMessage (message : Str) : Texts → Texts
  | .done => .done
  | .fail text => .fail (message ++ b!": " ++ text)
  | .timeout => .timeout
  | .op o context k => .op o (message ++ b!": " ++ context) fun a => (k a).withMessage message

namespace Texts

/-- codec/hyperjson/parser.go:237-253 `NextType`. -/
def nextType (k : JType → Texts) : Texts :=
  .op .skipWhitespace [] fun _ => .op .current [] fun (c : UInt8) =>
    if symbolTable c = .error then .fail (b!"unexpected character: '" ++ charText c ++ b!"'") else k (symbolTable c)

/-- codec/hyperjson/parser.go:49-115: the four `Consume` methods. -/
def consume (t : Punct) : Texts := .op .skipWhitespace [] fun _ => .op (.consume t) [] fun _ => .done

/-- codec/hyperjson/parser.go:141-147 `ReadString`, with a message for its error. -/
def readString (context : Str) (k : Str → Texts) : Texts := .op .skipWhitespace context fun _ => .op .readString context k

/-- codec/hyperjson/parser.go:199-205 `ReadNumber`, with a message for its error. -/
def readNumber (context : Str) (k : Str → Texts) : Texts := .op .skipWhitespace context fun _ => .op .readNumber context k

/-- codec/hyperjson/parser.go:318-324 `readBoolean`. -/
def readBoolean : Texts :=
  .op .current [] fun (c : UInt8) => if c = c!"t" then .op (.readWord .true) [] fun _ => .done else .op (.readWord .false) [] fun _ => .done

/-- codec/hyperjson/parser.go:306-308 `readNull`. -/
def readNull : Texts := .op (.readWord .null) [] fun _ => .done

/-- codec/hyperjson/parser.go:117-139 `ReadLiteral`. -/
def readLiteral : Texts :=
  nextType fun next =>
    match next with
    | .string => .op .readString [] fun _ => .done
    | .number => .op .readNumber [] fun _ => .done
    | .boolean => readBoolean
    | .null => readNull
    | _ => .fail (b!"expected literal, got '" ++ next.text ++ b!"'")

mutual

/-- codec/hyperjson/parser_skip.go:14-40 `skip`. -/
def skip : Nat → JType → Texts
  | 0, _ => .timeout
  | fuel + 1, next =>
    match next with
    | .string => .op .readString [] fun _ => .done
    | .number => .op .readNumber [] fun _ => .done
    | .boolean => readBoolean
    | .null => readNull
    | .objectBegin => .op (.consume .objectBegin) [] fun _ => skipObjectLoop fuel
    | .arrayBegin => .op (.consume .arrayBegin) [] fun _ => skipArrayLoop fuel
    | _ => .fail (b!"can not skip unexpected symbol of type '" ++ next.text ++ b!"'")

/-- codec/hyperjson/parser_skip.go:47-62. -/
def skipArrayLoop : Nat → Texts
  | 0 => .timeout
  | fuel + 1 =>
    nextType fun next =>
      if next = .arrayEnd then .op (.consume .arrayEnd) [] fun _ => .done
      else (skip fuel next).andThen (skipArrayLoop fuel)

/-- codec/hyperjson/parser_skip.go:70-89. -/
def skipObjectLoop : Nat → Texts
  | 0 => .timeout
  | fuel + 1 =>
    nextType fun next =>
      if next = .objectEnd then .op (.consume .objectEnd) [] fun _ => .done
      else .op .readString [] fun _ => (nextType fun next => skip fuel next).andThen (skipObjectLoop fuel)

end

/-- codec/hyperjson/parser_skip.go:5-12 `Skip`. -/
def skipValue (fuel : Nat) : Texts := nextType fun next => skip fuel next

/-- codec/hyperjson/bind.go:12-31. -/
def uint64Value : Texts :=
  readNumber b!"decode uint64 value: " fun tok =>
    match tok.find? fun c => c < c!"0" || c > c!"9" with
    | some c => .fail (b!"Unexpected character in number: '" ++ charText c ++ b!"'")
    | none => .done

/-- codec/hyperjson/bind.go:33-43. -/
def stringValue : Texts := readString b!"decode value: " fun _ => .done

/-- codec/json.go:28-38. -/
def anyValue : Texts := readLiteral.withMessage b!"decode value"

/-- proxy/id.go:111-133: the text of the error of `ParseId`, if there is one. -/
def parseIdError (tok : Str) : Option Str :=
  if tok.length > 16 then some b!"hex value too large"
  else (tok.find? fun c => !((c!"0" ≤ c && c ≤ c!"9") || (c!"a" ≤ c && c ≤ c!"f") || (c!"A" ≤ c && c ≤ c!"F"))).map fun c =>
    b!"hex value must only contain [0-9a-f], got '" ++ charText c ++ b!"'"

/-- codec/json-v2.go:88-112. -/
def idValue (fuel : Nat) : Texts :=
  nextType fun next =>
    if next = .null then skipValue fuel
    else readString b!"decode id value: " fun tok =>
      match parseIdError tok with
      | some text => .fail text
      | none => .done

/-- codec/hyperjson/bind.go:52-80. -/
def mapLoop (key value : Texts) : Nat → Texts
  | 0 => .timeout
  | fuel + 1 =>
    nextType fun next =>
      if next = .objectEnd then consume .objectEnd
      else key.andThen (value.andThen (mapLoop key value fuel))

/-- codec/hyperjson/bind.go:45-82 `MakeMapDecoder`. -/
def makeMap (fuel : Nat) (key value : Texts) : Texts := ((consume .objectBegin).withMessage b!"begin object").andThen (mapLoop key value fuel)

/-- codec/hyperjson/bind.go:91-116. -/
def sliceLoop (name element : Str) (decoder : Texts) : Nat → Texts
  | 0 => .timeout
  | fuel + 1 =>
    nextType fun next =>
      if next = .arrayEnd then (consume .arrayEnd).withMessage (b!"decoding end of " ++ name)
      else (decoder.withMessage (b!"decoding element of type " ++ element)).andThen (sliceLoop name element decoder fuel)

/-- codec/hyperjson/bind.go:84-118 `MakeSliceDecoder`, with the names of the types of the slice and of its elements. -/
def makeSlice (fuel : Nat) (name element : Str) (decoder : Texts) : Texts :=
  ((consume .arrayBegin).withMessage (b!"decoding " ++ name)).andThen (sliceLoop name element decoder fuel)

/-- codec/hyperjson/bind.go:128-156. -/
def arrayLoop (skipFuel : Nat) (name element : Str) (len : Nat) (decoder : Texts) : Nat → Nat → Texts
  | 0, _ => .timeout
  | fuel + 1, idx =>
    nextType fun next =>
      if next = .arrayEnd then (consume .arrayEnd).withMessage (b!"decoding end of " ++ name)
      else if idx < len then (decoder.withMessage (b!"decoding array element of type " ++ element)).andThen (arrayLoop skipFuel name element len decoder fuel (idx + 1))
      else ((skipValue skipFuel).withMessage (b!"skipping out of range array element of type " ++ element)).andThen (arrayLoop skipFuel name element len decoder fuel (idx + 1))

/-- codec/hyperjson/bind.go:120-158 `MakeArrayDecoder`. -/
def makeArray (fuel : Nat) (name element : Str) (len : Nat) (decoder : Texts) : Texts :=
  ((consume .arrayBegin).withMessage (b!"decoding " ++ name)).andThen (arrayLoop fuel name element len decoder fuel 0)

/-- codec/hyperjson/bind.go:197-223. -/
def structLoop (skipFuel : Nat) (fields : List (Str × Texts)) : Nat → Texts
  | 0 => .timeout
  | fuel + 1 =>
    nextType fun next =>
      if next = .objectEnd then consume .objectEnd
      else readString [] fun key =>
        match fields.lookup key with
        | some decoder => decoder.andThen (structLoop skipFuel fields fuel)
        | none => (skipValue skipFuel).andThen (structLoop skipFuel fields fuel)

/-- codec/hyperjson/bind.go:166-224 `MakeStructDecoder`. -/
def makeStruct (fuel : Nat) (fields : List (Str × Texts)) : Texts :=
  ((consume .objectBegin).withMessage b!"begin object").andThen (structLoop fuel fields fuel)

section
variable (fuel : Nat)

/-- codec/json.go:19-25. -/
def endpointValue : Texts := makeStruct fuel [(b!"serviceName", stringValue)]

/-- codec/json-v2.go:114-168. -/
def spanV2Value : Texts :=
  makeStruct fuel
    [ (b!"id", idValue fuel), (b!"traceId", idValue fuel), (b!"parentId", idValue fuel), (b!"timestamp", uint64Value), (b!"duration", uint64Value), (b!"name", stringValue),
      (b!"tags", makeMap fuel stringValue stringValue), (b!"kind", stringValue), (b!"localEndpoint", endpointValue fuel) ]

/-- codec/json-v2.go:170-172. -/
def sliceSpanV2 : Texts := makeSlice fuel b!"[]codec.spanV2" b!"codec.spanV2" (spanV2Value fuel)

/-- codec/json-v1.go:179-195. -/
def binaryAnnotationV1Value : Texts := makeStruct fuel [(b!"key", stringValue), (b!"value", anyValue), (b!"endpoint", endpointValue fuel)]

/-- codec/json-v1.go:202-218. -/
def annotationV1Value : Texts := makeStruct fuel [(b!"timestamp", uint64Value), (b!"value", stringValue), (b!"endpoint", endpointValue fuel)]

/-- codec/json-v1.go:142-242. -/
def spanV1Value : Texts :=
  makeStruct fuel
    [ (b!"id", idValue fuel), (b!"traceId", idValue fuel), (b!"parentId", idValue fuel), (b!"timestamp", uint64Value), (b!"duration", uint64Value), (b!"name", stringValue),
      (b!"binaryAnnotations", makeSlice fuel b!"[]codec.binaryAnnotationV1" b!"codec.binaryAnnotationV1" (binaryAnnotationV1Value fuel)),
      (b!"annotations", makeArray fuel b!"[4]codec.annotationV1" b!"codec.annotationV1" 4 (annotationV1Value fuel)) ]

/-- codec/json-v1.go:244-246. -/
def sliceSpanV1 : Texts := makeSlice fuel b!"[]codec.spanV1" b!"codec.spanV1" (spanV1Value fuel)

end

end Texts

/-- codec/json-v2.go:31-56: the text of the error, if `ParseJsonV2` returns one. -/
def errorJsonV2 (readErr : Str) (fuel : Nat) (input : Reader) (buf : List UInt8) : Option Str :=
  ((Texts.sliceSpanV2 fuel).withMessage b!"parse spans for json v2").run readErr fuel (Parser.newWithReader input buf)

/-- codec/json-v1.go:50-79: the text of the error, if `ParseJsonV1` returns one. -/
def errorJsonV1 (readErr : Str) (fuel : Nat) (input : Reader) (buf : List UInt8) : Option Str :=
  ((Texts.sliceSpanV1 fuel).withMessage b!"parse spans for json v1").run readErr fuel (Parser.newWithReader input buf)

end Verif
