import Verif.Model.Go

/-!
# proxy/id.go
-/

namespace Verif

/-- proxy/id.go:10 `type Id int64`. -/
abbrev Id := Int64

/-- Go conversion `byte(x)` of an `int64`: keep the low 8 bits. -/
def byteOf (x : Int64) : UInt8 := x.toUInt64.toUInt8

/-- Go conversion `Id(c)` of a byte. -/
def idOfByte (c : UInt8) : Id := c.toUInt64.toInt64

/-- proxy/id.go:53-62 and 73-82, the array of the eight bytes of an id, most significant first. -/
def idBytes (id : Id) : List UInt8 :=
  [ byteOf ((id >>> 56) &&& 0xff), byteOf ((id >>> 48) &&& 0xff),
    byteOf ((id >>> 40) &&& 0xff), byteOf ((id >>> 32) &&& 0xff),
    byteOf ((id >>> 24) &&& 0xff), byteOf ((id >>> 16) &&& 0xff),
    byteOf ((id >>> 8) &&& 0xff), byteOf (id &&& 0xff) ]

/-- `encoding/hex`: the table `"0123456789abcdef"` indexed by a nibble (0 to 15). -/
def hexTable (n : UInt8) : UInt8 := if n < 10 then 48 + n else 87 + n

/-- `hex.Encode`: two characters per byte, high nibble first. -/
def hexEncode (bs : List UInt8) : Str :=
  bs.flatMap fun (b : UInt8) => [hexTable (b >>> 4), hexTable (b &&& 0x0f)]

/-- proxy/id.go:52-68 `Id.String`. -/
def idString (id : Id) : Str := hexEncode (idBytes id)

/-- proxy/id.go:70-92 `Id.MarshalJSON` (never fails). -/
def idMarshalJSON (id : Id) : Str := [0x22] ++ hexEncode (idBytes id) ++ [0x22]

/-- proxy/id.go:115-129, one iteration of the loop of `ParseId`. `none` is the error branch.
In Go `+` and `|` have the same precedence and associate to the left,
so lines 121 and 124 read `((result << 4) | Id(c-'a')) + 10`. -/
def parseIdStep (result : Id) (c : UInt8) : Option Id :=
  if 48 ≤ c ∧ c ≤ 57 then some ((result <<< 4) ||| idOfByte (c - 48))
  else if 97 ≤ c ∧ c ≤ 102 then some (((result <<< 4) ||| idOfByte (c - 97)) + 10)
  else if 65 ≤ c ∧ c ≤ 70 then some (((result <<< 4) ||| idOfByte (c - 65)) + 10)
  else none

/-- proxy/id.go:109-132 `ParseId`; errors are `none`. -/
def parseId (bytes : Str) : Option Id :=
  if bytes.length > 16 then none
  else bytes.foldlM parseIdStep 0

/-- proxy/id.go:94-107 `Id.UnmarshalJSON`: the value stored, or `none` for an error. -/
def idUnmarshalJSON (bytes : Str) : Option Id :=
  if bytes.length < 2 ∨ bytes[0]? ≠ some 0x22 ∨ bytes[bytes.length - 1]? ≠ some 0x22 then none
  else parseId ((bytes.take (bytes.length - 1)).drop 1)

/-- proxy/id.go:19-21 `Id.Uint64` for a non-nil receiver. -/
def idUint64 (id : Id) : UInt64 := id.toUInt64

/-- proxy/id.go:23-25 `Id.IsUnknown`. -/
def idIsUnknown (id : Id) : Bool := id == 0

end Verif
