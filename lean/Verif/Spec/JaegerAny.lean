import Verif.Spec.Syntax
import Verif.Spec.View

/-!
# What any request of the jaeger format stands for

Spec/Jaeger is about documents that follow the format. Here are all documents: with fields that occur several times, in several spellings, with strings that are not UTF-8. A relation
`E : List Json → α → Prop` says what the values of a field, in the order of their occurrence, stand for together.
-/

namespace Verif.Spec

/-! ## Texts -/

/-- What a literal stands for. Bytes that are not UTF-8 and unpaired surrogates become the replacement character. -/
inductive GoString : Str → Str → Prop
  | nil : GoString [] []
  | ascii {c : UInt8} {lit v : Str} : c ≠ c!"\"" → c ≠ c!"\\" → 0x20 ≤ c → c < 0x80 → GoString lit v → GoString (c :: lit) (c :: v)
  | char {r : Nat} {lit v : Str} : Scalar r → 0x80 ≤ r → GoString lit v → GoString (utf8 r ++ lit) (utf8 r ++ v)
  | bad {b : UInt8} {lit v : Str} : 0x80 ≤ b → (∀ r rest, Scalar r → b :: lit ≠ utf8 r ++ rest) → GoString lit v → GoString (b :: lit) (utf8 0xFFFD ++ v)
  | short {e c : UInt8} {lit v : Str} : (e, c) ∈ shortEscapes → GoString lit v → GoString (c!"\\" :: e :: lit) (c :: v)
  | unicode {h1 h2 h3 h4 : UInt8} {r : Nat} {lit v : Str} : hex4 h1 h2 h3 h4 = some r → ¬ Surrogate r → GoString lit v →
      GoString (c!"\\" :: c!"u" :: h1 :: h2 :: h3 :: h4 :: lit) (utf8 r ++ v)
  | pair {h1 h2 h3 h4 l1 l2 l3 l4 : UInt8} {hi lo : Nat} {lit v : Str} : hex4 h1 h2 h3 h4 = some hi → hex4 l1 l2 l3 l4 = some lo → 0xD800 ≤ hi ∧ hi < 0xDC00 →
      0xDC00 ≤ lo ∧ lo < 0xE000 → GoString lit v →
      GoString (c!"\\" :: c!"u" :: h1 :: h2 :: h3 :: h4 :: c!"\\" :: c!"u" :: l1 :: l2 :: l3 :: l4 :: lit) (utf8 (0x10000 + (hi - 0xD800) * 0x400 + (lo - 0xDC00)) ++ v)
  | lone {h1 h2 h3 h4 : UInt8} {r : Nat} {lit v : Str} : hex4 h1 h2 h3 h4 = some r → Surrogate r →
      (∀ l1 l2 l3 l4 lo rest, lit = c!"\\" :: c!"u" :: l1 :: l2 :: l3 :: l4 :: rest → hex4 l1 l2 l3 l4 = some lo → ¬ (r < 0xDC00 ∧ 0xDC00 ≤ lo ∧ lo < 0xE000)) → GoString lit v →
      GoString (c!"\\" :: c!"u" :: h1 :: h2 :: h3 :: h4 :: lit) (utf8 0xFFFD ++ v)

mutual

/-- `JsonTextOf n j t`: `t` is a text for `j`, which is nested at most `n` deep. As `JsonText`, with the value. -/
inductive JsonTextOf : Nat → Json → Str → Prop
  | word {n : Nat} (w : JsonWord) : JsonTextOf n (.word w) w.text
  | number {n : Nat} {t : Str} : JsonNumber t → JsonTextOf n (.number t) t
  | string {n : Nat} {t : Str} : LiteralText t → JsonTextOf n (.string t) (c!"\"" :: (t ++ [c!"\""]))
  | emptyArray {n : Nat} {w : Str} : Blank w → JsonTextOf (n + 1) (.array []) (c!"[" :: (w ++ [c!"]"]))
  | array {n : Nat} {w u : Str} {l : List Json} : Blank w → ElementsTextOf n l u → JsonTextOf (n + 1) (.array l) (c!"[" :: (w ++ (u ++ [c!"]"])))
  | emptyObject {n : Nat} {w : Str} : Blank w → JsonTextOf (n + 1) (.object []) (c!"{" :: (w ++ [c!"}"]))
  | object {n : Nat} {w u : Str} {ms : List (Str × Json)} : Blank w → MembersTextOf n ms u → JsonTextOf (n + 1) (.object ms) (c!"{" :: (w ++ (u ++ [c!"}"])))

/-- The elements of an array. -/
inductive ElementsTextOf : Nat → List Json → Str → Prop
  | last {n : Nat} {j : Json} {t w : Str} : JsonTextOf n j t → Blank w → ElementsTextOf n [j] (t ++ w)
  | cons {n : Nat} {j : Json} {l : List Json} {t w w' u : Str} : JsonTextOf n j t → Blank w → Blank w' → ElementsTextOf n l u → ElementsTextOf n (j :: l) (t ++ (w ++ c!"," :: (w' ++ u)))

/-- The members of an object. -/
inductive MembersTextOf : Nat → List (Str × Json) → Str → Prop
  | last {n : Nat} {j : Json} {key w1 w2 t w : Str} : LiteralText key → Blank w1 → Blank w2 → JsonTextOf n j t → Blank w →
      MembersTextOf n [(key, j)] (c!"\"" :: (key ++ c!"\"" :: (w1 ++ c!":" :: (w2 ++ (t ++ w)))))
  | cons {n : Nat} {j : Json} {ms : List (Str × Json)} {key w1 w2 t w w' u : Str} : LiteralText key → Blank w1 → Blank w2 → JsonTextOf n j t → Blank w → Blank w' → MembersTextOf n ms u →
      MembersTextOf n ((key, j) :: ms) (c!"\"" :: (key ++ c!"\"" :: (w1 ++ c!":" :: (w2 ++ (t ++ (w ++ c!"," :: (w' ++ u)))))))

end

/-! ## Values of a field that occurs several times -/

/-- All values are right, and the last one that is not ignored counts. -/
def LastOf {α : Type} (R : Json → α → Prop) (ignored : Json → Prop) (default : α) (l : List Json) (a : α) : Prop :=
  (∀ j ∈ l, ignored j ∨ ∃ b, R j b) ∧
  (((∀ j ∈ l, ignored j) ∧ a = default) ∨ ∃ l1 j l2, l = l1 ++ j :: l2 ∧ ¬ ignored j ∧ R j a ∧ ∀ k ∈ l2, ignored k)

def IsNull (j : Json) : Prop := j = .word .null

/-- Strings; `null` is ignored. -/
def Texts : List Json → Str → Prop := LastOf (StringOf GoString) IsNull []

/-- Numbers of microseconds; `null` is ignored. -/
def Counts : List Json → UInt64 → Prop := LastOf MicrosOf IsNull 0

/-- Ids; `null` is an error. -/
def Ids : List Json → Int64 → Prop := LastOf PlainHexOf (fun _ => False) 0

/-- The elements of an array; all other values are like an array without elements. -/
def elementsOf : Json → List Json
  | .array es => es
  | _ => []

/-- The members of an object. -/
def membersOf : Json → List (Str × Json)
  | .object ms => ms
  | _ => []

/-- The arrays after the last one that is empty or `null`. -/
def currentArrays (l : List Json) : List (List Json) := ((l.map elementsOf).reverse.takeWhile fun es => !es.isEmpty).reverse

/-- Arrays: all values and all their elements are right. The last array tells how many elements there are. But an element is read together with those at the same place in the arrays before, back to
the last one that was empty or `null`. -/
def Arrays {α : Type} (E : List Json → α → Prop) (l : List Json) (as : List α) : Prop :=
  (∀ j ∈ l, IsNull j ∨ ∃ es, j = .array es ∧ ∀ e ∈ es, ∃ a, E [e] a) ∧
  as.length = ((currentArrays l).getLast?.getD []).length ∧
  ∀ (i : Nat) (a : α), as[i]? = some a → E ((currentArrays l).filterMap (·[i]?)) a

/-- The field that a name stands for: the one with this name, or else the first one of which it is a variant. -/
inductive FieldFor (fields : List Str) : Str → Str → Prop
  | exact {f : Str} : f ∈ fields → FieldFor fields f f
  | variant {before after : List Str} {n f : Str} : n ∉ fields → fields = before ++ f :: after → NameVariant f n → (∀ g ∈ before, ¬ NameVariant g n) → FieldFor fields n f

/-- The values of a field, in order. -/
inductive ValuesOf (fields : List Str) (f : Str) : List (Str × Json) → List Json → Prop
  | nil : ValuesOf fields f [] []
  | take {n : Str} {j : Json} {nms : List (Str × Json)} {vs : List Json} : FieldFor fields n f → ValuesOf fields f nms vs → ValuesOf fields f ((n, j) :: nms) (j :: vs)
  | skip {n : Str} {j : Json} {nms : List (Str × Json)} {vs : List Json} : ¬ FieldFor fields n f → ValuesOf fields f nms vs → ValuesOf fields f ((n, j) :: nms) vs

/-- Objects are read as one object with the members of all of them; `null` is ignored. These are the members, with their names. -/
def Objects (l : List Json) (nms : List (Str × Json)) : Prop :=
  (∀ j ∈ l, IsNull j ∨ ∃ ms, j = .object ms) ∧ Named GoString (l.flatMap membersOf) nms

/-- The values of a field stand for `a`. -/
def FieldIs {α : Type} (fields : List Str) (nms : List (Str × Json)) (f : Str) (E : List Json → α → Prop) (a : α) : Prop :=
  ∃ vs, ValuesOf fields f nms vs ∧ E vs a

/-! ## The format -/

def referenceFields : List Str := [b!"refType", b!"spanID"]

def References (l : List Json) (r : Str × Int64) : Prop :=
  ∃ nms, Objects l nms ∧ FieldIs referenceFields nms b!"refType" Texts r.1 ∧ FieldIs referenceFields nms b!"spanID" Ids r.2

/-- The value of a tag is any value. -/
inductive AnyValueOf (inRange : Str → Prop) : Json → JaegerValue → Prop
  | string {lit v : Str} : GoString lit v → AnyValueOf inRange (.string lit) (.string v)
  | other {j : Json} : (∀ lit, j ≠ .string lit) → Numbers inRange j → AnyValueOf inRange j .other

def tagFields : List Str := [b!"key", b!"value"]

def JaegerTags (inRange : Str → Prop) (l : List Json) (r : Str × JaegerValue) : Prop :=
  ∃ nms, Objects l nms ∧ FieldIs tagFields nms b!"key" Texts r.1 ∧ FieldIs tagFields nms b!"value" (LastOf (AnyValueOf inRange) (fun _ => False) .other) r.2

def spanFields : List Str := [b!"traceID", b!"spanID", b!"operationName", b!"references", b!"startTime", b!"duration", b!"processID", b!"tags"]

def JaegerSpans (inRange : Str → Prop) (l : List Json) (v : JaegerSpan) : Prop :=
  ∃ nms, Objects l nms ∧ FieldIs spanFields nms b!"traceID" Ids v.traceId ∧ FieldIs spanFields nms b!"spanID" Ids v.spanId ∧ FieldIs spanFields nms b!"operationName" Texts v.operationName ∧
    FieldIs spanFields nms b!"references" (Arrays References) v.references ∧ FieldIs spanFields nms b!"startTime" Counts v.timestamp ∧ FieldIs spanFields nms b!"duration" Counts v.duration ∧
    FieldIs spanFields nms b!"processID" Texts v.processId ∧ FieldIs spanFields nms b!"tags" (Arrays (JaegerTags inRange)) v.tags

def processFields : List Str := [b!"serviceName"]

def Process (l : List Json) (s : Str) : Prop := ∃ nms, Objects l nms ∧ FieldIs processFields nms b!"serviceName" Texts s

/-- The members of the objects after the last `null`. -/
def currentMembers (l : List Json) : List (Str × Json) := (l.reverse.takeWhile fun j => match j with | .object _ => true | _ => false).reverse.flatMap membersOf

/-- The processes: all values are right, and of the members with the same name (after the last `null`) the last one counts. -/
def Processes (l : List Json) (procs : TagMap) : Prop :=
  (∀ j ∈ l, IsNull j ∨ ∃ ms, j = .object ms ∧ ∀ m ∈ ms, ∃ s, Process [m.2] s) ∧
  ∃ nms, Named GoString (currentMembers l) nms ∧ ∀ key s, procs[key]? = some s ↔ ∃ a j b, nms = a ++ (key, j) :: b ∧ (∀ m ∈ b, m.1 ≠ key) ∧ Process [j] s

def dataFields : List Str := [b!"spans", b!"processes"]

def JaegerDatas (inRange : Str → Prop) (l : List Json) (d : JaegerData) : Prop :=
  ∃ nms, Objects l nms ∧ FieldIs dataFields nms b!"spans" (Arrays (JaegerSpans inRange)) d.spans ∧ FieldIs dataFields nms b!"processes" Processes d.processes

def requestFields : List Str := [b!"data"]

/-- What a value stands for as a request. -/
def JaegerRequest (inRange : Str → Prop) (j : Json) (l : List JaegerData) : Prop :=
  ∃ nms, Objects [j] nms ∧ FieldIs requestFields nms b!"data" (Arrays (JaegerDatas inRange)) l

end Verif.Spec
