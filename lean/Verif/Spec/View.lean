import Verif.Spec.TimeJson
import Verif.Spec.Id
import Verif.Spec.Jaeger

/-!
# What the admin view shows of a span
-/

namespace Verif.Spec

/-- A Unicode scalar value. -/
def Scalar (r : Nat) : Prop := r < 0x110000 ∧ ¬ Surrogate r

/-- `Replaced s v`: `v` is `s` with the replacement character for every byte that does not belong to the encoding of a character. -/
inductive Replaced : Str → Str → Prop
  | nil : Replaced [] []
  | char {r : Nat} {s v : Str} : Scalar r → Replaced s v → Replaced (utf8 r ++ s) (utf8 r ++ v)
  | bad {b : UInt8} {s v : Str} : (∀ r s', Scalar r → b :: s ≠ utf8 r ++ s') → Replaced s v → Replaced (b :: s) (utf8 0xFFFD ++ v)

/-- The literal stands for the string, as far as it can be written in JSON. -/
def ShownAs (lit s : Str) : Prop := ∃ v, Utf8String lit v ∧ Replaced s v

/-- The 16 hexadecimal digits of an id. -/
def IdText (lit : Str) (id : Int64) : Prop :=
  lit.length = 16 ∧ (∀ c ∈ lit, c ∈ hexDigitsLower) ∧ hexValue lit = id.toUInt64.toNat

/-- A date that denotes the time. -/
def TimeText (lit : Str) (ts : Int64) : Prop :=
  ∃ t : DateTime, t.Valid ∧ t.Text (c!"\"" :: (lit ++ b!"\"")) ∧ t.instant = ts.toInt

/-- A whole number. -/
def IntText (t : Str) (n : Int) : Prop :=
  (Digits t ∧ n = decimalValue t) ∨ ∃ d, t = c!"-" :: d ∧ Digits d ∧ n = -(decimalValue d : Int)

/-- The member `tags`, which is there if there are tags. It has one member for each of them. -/
def TagsView (S : Str → Str → Prop) (tags : Std.ExtTreeMap Str Str) (ms : List (Str × Json)) : Prop :=
  (ms = [] ∧ tags = ∅) ∨
  ∃ l pairs, ms = [(b!"tags", .object l)] ∧ pairs ≠ [] ∧ Pairwise₂ (fun m p => S m.1 p.1 ∧ ∃ lit, m.2 = .string lit ∧ S lit p.2) l pairs ∧
    (pairs.map Prod.fst).Nodup ∧ ∀ k v, (k, v) ∈ pairs ↔ tags[k]? = some v

/-- The members for the times that are known. -/
def TimingsView (known : List (Str × Int64)) (ms : List (Str × Json)) : Prop :=
  Pairwise₂ (fun m e => m.1 = e.1 ∧ ∃ lit, m.2 = .string lit ∧ TimeText lit e.2) ms (known.filter (·.2 ≠ 0))

/-- What is shown of a span; `S` tells which literals are right for a string. -/
inductive ViewOf (S : Str → Str → Prop) (s : Span) : Json → Prop
  | mk {id parent trace name service ts duration : Str} {tags timings : List (Str × Json)} :
      IdText id s.id → IdText parent s.parent → IdText trace s.trace → S name s.name → S service s.service → TimeText ts s.timestamp →
      IntText duration s.duration.toInt → TagsView S (s.tags.getD ∅) tags →
      TimingsView [(b!"cs", s.timings.CS), (b!"cr", s.timings.CR), (b!"ss", s.timings.SS), (b!"sr", s.timings.SR)] timings →
      ViewOf S s (.object ([(b!"id", .string id), (b!"parent", .string parent), (b!"trace", .string trace), (b!"name", .string name), (b!"service", .string service),
        (b!"timestamp", .string ts), (b!"duration", .number duration)] ++ (tags ++ [(b!"timings", .object timings)])))

/-- All strings of the span are UTF-8. -/
def TextSpan (s : Span) : Prop :=
  Utf8Text s.name ∧ Utf8Text s.service ∧ ∀ k v, (s.tags.getD ∅)[k]? = some v → Utf8Text k ∧ Utf8Text v

/-- The offset of the time zone is a number of minutes. -/
def MinuteZone (zone : Int → Int) : Prop := ∀ t, ∃ z : Int, zone t = z * 60 ∧ -1440 < z ∧ z < 1440

end Verif.Spec
