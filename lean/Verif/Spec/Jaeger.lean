import Verif.Spec.Document

/-!
# What a document of the jaeger format says

As in Spec/Document, with three parameters. `F names ms`: the conditions on the members of an object of which the format defines those with these names. `I`: how ids are written. `inRange`: the numbers
that may be the value of a tag. Of the model only the types of decoded values are used.
-/

namespace Verif.Spec

/-- UTF-8: the encoding of Unicode scalar values. -/
def Utf8Text (s : Str) : Prop := ∃ rs : List Nat, (∀ r ∈ rs, r < 0x110000 ∧ ¬ Surrogate r) ∧ s = rs.flatMap utf8

/-- As `JsonString`, for a literal in UTF-8 (RFC 8259, section 8.1). -/
def Utf8String (lit v : Str) : Prop := JsonString lit v ∧ Utf8Text lit

/-- The value is nested at most `n` levels deep. -/
inductive Nesting : Nat → Json → Prop
  | word {n : Nat} (w : JsonWord) : Nesting n (.word w)
  | number {n : Nat} (t : Str) : Nesting n (.number t)
  | string {n : Nat} (lit : Str) : Nesting n (.string lit)
  | array {n : Nat} {l : List Json} : (∀ j ∈ l, Nesting n j) → Nesting (n + 1) (.array l)
  | object {n : Nat} {ms : List (Str × Json)} : (∀ m ∈ ms, Nesting n m.2) → Nesting (n + 1) (.object ms)

/-- All numbers in the value are allowed. -/
inductive Numbers (inRange : Str → Prop) : Json → Prop
  | word (w : JsonWord) : Numbers inRange (.word w)
  | number {t : Str} : inRange t → Numbers inRange (.number t)
  | string (lit : Str) : Numbers inRange (.string lit)
  | array {l : List Json} : (∀ j ∈ l, Numbers inRange j) → Numbers inRange (.array l)
  | object {ms : List (Str × Json)} : (∀ m ∈ ms, Numbers inRange m.2) → Numbers inRange (.object ms)

/-- The names differ at most in the case of letters; the long s (U+017F) is a variant of s, the Kelvin sign (U+212A) of k. -/
inductive NameVariant : Str → Str → Prop
  | nil : NameVariant [] []
  | same {c : UInt8} {a b : Str} : NameVariant a b → NameVariant (c :: a) (c :: b)
  | lower {c : UInt8} {a b : Str} : c!"A" ≤ c → c ≤ c!"Z" → NameVariant a b → NameVariant (c :: a) ((c + 32) :: b)
  | upper {c : UInt8} {a b : Str} : c!"A" ≤ c → c ≤ c!"Z" → NameVariant a b → NameVariant ((c + 32) :: a) (c :: b)
  | longS {c : UInt8} {a b : Str} : c = c!"s" ∨ c = c!"S" → NameVariant a b → NameVariant (c :: a) (0xC5 :: 0xBF :: b)
  | kelvin {c : UInt8} {a b : Str} : c = c!"k" ∨ c = c!"K" → NameVariant a b → NameVariant (c :: a) (0xE2 :: 0x84 :: 0xAA :: b)

/-- No name occurs twice. -/
def UniqueNames (_ : List Str) (nms : List (Str × Json)) : Prop := (nms.map (·.1)).Nodup

/-- No name occurs twice, and none is a variant of a name of the format. -/
def ClearNames (fields : List Str) (nms : List (Str × Json)) : Prop :=
  (nms.map (·.1)).Nodup ∧ ∀ f ∈ fields, ∀ m ∈ nms, NameVariant f m.1 → m.1 = f

/-- An id: a string of up to 16 hexadecimal digits. -/
inductive HexOf : Json → Int64 → Prop
  | string {lit v : Str} {id : Int64} : JsonString lit v → v.length ≤ 16 → (∀ c ∈ v, IsHexDigit c) → id.toUInt64.toNat = hexValue v → HexOf (.string lit) id

/-- An id in which no digit is written as an escape. -/
inductive PlainHexOf : Json → Int64 → Prop
  | string {v : Str} {id : Int64} : v.length ≤ 16 → (∀ c ∈ v, IsHexDigit c) → id.toUInt64.toNat = hexValue v → PlainHexOf (.string v) id

/-- `null` stands for the default. -/
inductive OrNull {α : Type} (R : Json → α → Prop) (default : α) : Json → α → Prop
  | value {j : Json} {a : α} : R j a → OrNull R default j a
  | null : OrNull R default (.word .null) default

/-- An array. -/
inductive ArrayOf {α : Type} (R : Json → α → Prop) : Json → List α → Prop
  | array {l : List Json} {as : List α} : Pairwise₂ R l as → ArrayOf R (.array l) as

/-- The string, or `null` for the empty one. -/
def TextOf : Json → Str → Prop := OrNull (StringOf Utf8String) []

section

variable (F : List Str → List (Str × Json) → Prop) (I : Json → Int64 → Prop) (inRange : Str → Prop)

/-- A reference: its type, and the id. -/
inductive ReferenceOf : Json → Str × Int64 → Prop
  | object {ms nms : List (Str × Json)} {r : Str × Int64} : Named Utf8String ms nms → F [b!"refType", b!"spanID"] nms →
      Member nms b!"refType" TextOf [] r.1 → Member nms b!"spanID" I 0 r.2 → ReferenceOf (.object ms) r

/-- The value of a tag. -/
inductive TagValueOf : Json → JaegerValue → Prop
  | string {lit v : Str} : Utf8String lit v → TagValueOf (.string lit) (.string v)
  | other {j : Json} : (∀ lit, j ≠ .string lit) → Numbers inRange j → TagValueOf j .other

/-- A tag: its name, and its value. -/
inductive JaegerTagOf : Json → Str × JaegerValue → Prop
  | object {ms nms : List (Str × Json)} {r : Str × JaegerValue} : Named Utf8String ms nms → F [b!"key", b!"value"] nms →
      Member nms b!"key" TextOf [] r.1 → Member nms b!"value" (TagValueOf inRange) .other r.2 → JaegerTagOf (.object ms) r

/-- A span. -/
inductive JaegerSpanOf : Json → JaegerSpan → Prop
  | object {ms nms : List (Str × Json)} {v : JaegerSpan} : Named Utf8String ms nms →
      F [b!"traceID", b!"spanID", b!"operationName", b!"references", b!"startTime", b!"duration", b!"processID", b!"tags"] nms →
      Member nms b!"traceID" I 0 v.traceId →
      Member nms b!"spanID" I 0 v.spanId →
      Member nms b!"operationName" TextOf [] v.operationName →
      Member nms b!"references" (OrNull (ArrayOf (ReferenceOf F I)) []) [] v.references →
      Member nms b!"startTime" (OrNull MicrosOf 0) 0 v.timestamp →
      Member nms b!"duration" (OrNull MicrosOf 0) 0 v.duration →
      Member nms b!"processID" TextOf [] v.processId →
      Member nms b!"tags" (OrNull (ArrayOf (JaegerTagOf F inRange)) []) [] v.tags →
      JaegerSpanOf (.object ms) v

/-- A process: the name of its service. -/
inductive ProcessOf : Json → Str → Prop
  | object {ms nms : List (Str × Json)} {s : Str} : Named Utf8String ms nms → F [b!"serviceName"] nms → Member nms b!"serviceName" TextOf [] s → ProcessOf (.object ms) s

/-- The processes with their names; of several with the same name the last counts. -/
inductive ProcessesOf : Json → TagMap → Prop
  | object {ms : List (Str × Json)} {pairs : List (Str × Str)} {procs : TagMap} : Pairwise₂ (fun m p => Utf8String m.1 p.1 ∧ ProcessOf F m.2 p.2) ms pairs →
      (∀ key : Str, procs[key]? = (last? (fun p => p.1 = key) pairs).map (·.2)) → ProcessesOf (.object ms) procs

/-- The data of a trace. -/
inductive JaegerDataOf : Json → JaegerData → Prop
  | object {ms nms : List (Str × Json)} {d : JaegerData} : Named Utf8String ms nms → F [b!"spans", b!"processes"] nms →
      Member nms b!"spans" (OrNull (ArrayOf (JaegerSpanOf F I inRange)) []) [] d.spans →
      Member nms b!"processes" (OrNull (ProcessesOf F) ∅) ∅ d.processes →
      JaegerDataOf (.object ms) d

/-- A whole document. -/
inductive JaegerOf : Json → List JaegerData → Prop
  | object {ms nms : List (Str × Json)} {l : List JaegerData} : Named Utf8String ms nms → F [b!"data"] nms →
      Member nms b!"data" (OrNull (ArrayOf (JaegerDataOf F I inRange)) []) [] l → JaegerOf (.object ms) l

end

/-- The span for a span of the jaeger format with these processes. -/
def MeansJaeger (procs : TagMap) (v : JaegerSpan) (s : Span) : Prop :=
  s.id = v.spanId ∧ s.trace = v.traceId ∧ s.parent = parentJaeger v ∧ s.name = v.operationName ∧ s.service = (procs[v.processId]?).getD [] ∧
  (∀ key, (s.tags.getD ∅)[key]? = tagJaegerSpan v key) ∧ s.timestamp = nanos v.timestamp ∧ s.duration = orMillisecond (nanos v.duration) ∧
  (KindClient (kindJaeger v) → s.timings.CS = s.timestamp ∧ s.timings.CR = s.timestamp + s.duration) ∧
  (¬ KindClient (kindJaeger v) → s.timings.CS = 0 ∧ s.timings.CR = 0) ∧
  (KindServer (kindJaeger v) → s.timings.SR = s.timestamp ∧ s.timings.SS = s.timestamp + s.duration) ∧
  (¬ KindServer (kindJaeger v) → s.timings.SR = 0 ∧ s.timings.SS = 0)

/-- The spans for the data of several traces. -/
inductive SpansOf : List JaegerData → List Span → Prop
  | nil : SpansOf [] []
  | cons {d : JaegerData} {l : List JaegerData} {s1 s2 : List Span} : Pairwise₂ (MeansJaeger d.processes) d.spans s1 → SpansOf l s2 → SpansOf (d :: l) (s1 ++ s2)

/-! ## Where values of the wrong type may be -/

/-- A step into a value: to the member with a name, to any member, or to any element. -/
inductive JsonStep
  | name (n : Str)
  | anyName
  | element

/-- `JsonAt path j v`: the value `v` is at the end of the path in `j`. -/
inductive JsonAt : List JsonStep → Json → Json → Prop
  | here (j : Json) : JsonAt [] j j
  | member {p : List JsonStep} {ms : List (Str × Json)} {lit n : Str} {k v : Json} : (lit, k) ∈ ms → Utf8String lit n → JsonAt p k v → JsonAt (.name n :: p) (.object ms) v
  | anyMember {p : List JsonStep} {ms : List (Str × Json)} {lit : Str} {k v : Json} : (lit, k) ∈ ms → JsonAt p k v → JsonAt (.anyName :: p) (.object ms) v
  | element {p : List JsonStep} {l : List Json} {k v : Json} : k ∈ l → JsonAt p k v → JsonAt (.element :: p) (.array l) v

/-- The types of the format. -/
inductive JaegerType
  | id | text | micros | objects | array | value
deriving DecidableEq

/-- The value has the type. Everything but an id may be `null`. -/
def HasType (inRange : Str → Prop) : JaegerType → Json → Prop
  | .id, j => ∃ id, PlainHexOf j id
  | .text, j => j = .word .null ∨ ∃ lit, j = .string lit
  | .micros, j => j = .word .null ∨ ∃ v, MicrosOf j v
  | .objects, j => j = .word .null ∨ ∃ ms, j = .object ms
  | .array, j => j = .word .null ∨ ∃ l, j = .array l
  | .value, j => Numbers inRange j

/-- The places of a document that the format defines, and their types. -/
def jaegerPlaces : List (List JsonStep × JaegerType) :=
  let data := [.name b!"data", .element]
  let span := data ++ [.name b!"spans", .element]
  let reference := span ++ [.name b!"references", .element]
  let tag := span ++ [.name b!"tags", .element]
  let process := data ++ [.name b!"processes", .anyName]
  [([], .objects),
    ([.name b!"data"], .array), (data, .objects),
    (data ++ [.name b!"spans"], .array), (span, .objects),
    (span ++ [.name b!"traceID"], .id), (span ++ [.name b!"spanID"], .id), (span ++ [.name b!"operationName"], .text),
    (span ++ [.name b!"references"], .array), (reference, .objects), (reference ++ [.name b!"refType"], .text), (reference ++ [.name b!"spanID"], .id),
    (span ++ [.name b!"startTime"], .micros), (span ++ [.name b!"duration"], .micros), (span ++ [.name b!"processID"], .text),
    (span ++ [.name b!"tags"], .array), (tag, .objects), (tag ++ [.name b!"key"], .text), (tag ++ [.name b!"value"], .value),
    (data ++ [.name b!"processes"], .objects), (process, .objects), (process ++ [.name b!"serviceName"], .text)]

end Verif.Spec
