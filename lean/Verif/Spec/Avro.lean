import Verif.Model.Span

/-!
# Avro

The binary encoding of Apache Avro, for records with fields of the types `long`, `string` and `map<string>`.
-/

namespace Verif.Spec

/-- Groups of seven bits, the least significant ones first; the highest bit of a byte says that there are more. -/
inductive Varint : Nat → List UInt8 → Prop
  | last {b : UInt8} : b < 128 → Varint b.toNat [b]
  | more {b : UInt8} {n : Nat} {bs : List UInt8} : 128 ≤ b → Varint n bs → Varint (b.toNat - 128 + 128 * n) (b :: bs)

/-- There is no group of zeros at the end that could be left out. -/
def Shortest (bs : List UInt8) : Prop := bs.length = 1 ∨ bs.getLast? ≠ some 0

/-- 0, -1, 1, -2, 2, … are written as 0, 1, 2, 3, 4, … -/
def zigzag (n : Int) : Nat := if 0 ≤ n then (2 * n).toNat else (-2 * n - 1).toNat

/-- What may vary. -/
structure Avro where
  /-- how a long is written -/
  long : Int64 → List UInt8 → Prop
  /-- strings are shorter than this -/
  limit : Nat
  /-- which number may be given as the size of a block with this many bytes -/
  size : Int64 → Nat → Prop
  /-- whether -2^63 as the number of entries is taken for an empty block -/
  least : Prop

/-- The standard, for strings of limited size. -/
def Avro.standard (limit : Nat) : Avro := { long := fun n bs => Varint (zigzag n.toInt) bs, limit, size := fun n k => n.toInt = k, least := False }

/-- As short as possible, and without sizes of blocks. -/
def Avro.plain (limit : Nat) : Avro := { Avro.standard limit with long := fun n bs => Varint (zigzag n.toInt) bs ∧ Shortest bs, size := fun _ _ => False }

/-- What `BinaryDecode` takes for it: bits beyond the 64 of a long are ignored, strings are shorter than 2 GiB, the sizes of blocks are ignored, and -2^63 is the number of entries of an empty block. -/
def Avro.lenient : Avro := { long := fun n bs => ∃ m, Varint m bs ∧ m % 2 ^ 64 = zigzag n.toInt, limit := 2 ^ 31, size := fun _ _ => True, least := True }

variable (a : Avro)

def Avro.Text (s : Str) (bs : List UInt8) : Prop := s.length < a.limit ∧ ∃ n b, a.long n b ∧ n.toInt = s.length ∧ bs = b ++ s

inductive Avro.Entries : List (Str × Str) → List UInt8 → Prop
  | nil : Avro.Entries [] []
  | cons {k v : Str} {es : List (Str × Str)} {b1 b2 b3 : List UInt8} : a.Text k b1 → a.Text v b2 → Avro.Entries es b3 → Avro.Entries ((k, v) :: es) (b1 ++ (b2 ++ b3))

/-- A map is written in blocks, each with the number of its entries; if the number is negative, it is followed by the size of the block. A block with no entries is the last one. -/
inductive Avro.Blocks : List (Str × Str) → List UInt8 → Prop
  | last {b : List UInt8} : a.long 0 b → Avro.Blocks [] b
  | block {n : Int64} {es rest : List (Str × Str)} {b1 b2 b3 : List UInt8} : 0 < n.toInt → a.long n b1 → a.Entries es b2 → n.toInt = es.length → Avro.Blocks rest b3 →
      Avro.Blocks (es ++ rest) (b1 ++ (b2 ++ b3))
  | sized {n size : Int64} {es rest : List (Str × Str)} {b1 b2 b3 b4 : List UInt8} : n.toInt < 0 → (a.least → n.toInt ≠ -2 ^ 63) → a.long n b1 → a.long size b2 → a.size size b3.length → a.Entries es b3 → -n.toInt = es.length →
      Avro.Blocks rest b4 → Avro.Blocks (es ++ rest) (b1 ++ (b2 ++ (b3 ++ b4)))
  | least {n size : Int64} {rest : List (Str × Str)} {b1 b2 b3 : List UInt8} : a.least → n.toInt = -2 ^ 63 → a.long n b1 → a.long size b2 → Avro.Blocks rest b3 →
      Avro.Blocks rest (b1 ++ (b2 ++ b3))

/-- The map with these entries; the last one with a key counts. -/
def MapOfEntries (es : List (Str × Str)) (m : TagMap) : Prop := ∀ k v, m[k]? = some v ↔ ∃ before after, es = before ++ (k, v) :: after ∧ ∀ e ∈ after, e.1 ≠ k

/-- A span is a record with these fields. -/
def Avro.Record (s : Span) (bs : List UInt8) : Prop :=
  ∃ b1 b2 b3 b4 b5 b6 b7 b8 b9 b10 b11 b12 es m,
    a.long s.id b1 ∧ a.long s.trace b2 ∧ a.long s.parent b3 ∧ a.Text s.name b4 ∧ a.Text s.service b5 ∧ a.long s.timestamp b6 ∧ a.long s.duration b7 ∧
    a.long s.timings.CS b8 ∧ a.long s.timings.CR b9 ∧ a.long s.timings.SS b10 ∧ a.long s.timings.SR b11 ∧ a.Blocks es b12 ∧ MapOfEntries es m ∧ s.tags = some m ∧
    bs = b1 ++ (b2 ++ (b3 ++ (b4 ++ (b5 ++ (b6 ++ (b7 ++ (b8 ++ (b9 ++ (b10 ++ (b11 ++ b12))))))))))

end Verif.Spec
