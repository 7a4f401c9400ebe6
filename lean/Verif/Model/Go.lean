import Std.Data.ExtTreeMap

/-!
# Go basics used by every part of the model

Go strings and byte slices are lists of bytes, Go maps are extensional finite maps.
-/

namespace Verif

/-- A Go `string` or `[]byte` (contents only; aliasing is modelled separately where it matters). -/
abbrev Str := List UInt8

/-- `b!"abc"` is the list of bytes of the (ASCII) literal `abc`. -/
syntax:max (name := bytesLit) "b!" str : term

macro_rules
  | `(b! $s:str) => do
    let bytes := s.getString.toUTF8.toList
    let elems := bytes.map fun (b : UInt8) => Lean.Syntax.mkNumLit (toString b.toNat)
    let arr := elems.toArray
    `(([$[$arr],*] : List UInt8))

/-- `c!"a"` is the byte of the (ASCII) character `a`. -/
syntax:max (name := byteLit) "c!" str : term

macro_rules
  | `(c! $s:str) => do
    let lit := Lean.Syntax.mkNumLit (toString (s.getString.toUTF8.toList.headD 0).toNat)
    `(($lit : UInt8))

/-- `map[string]string`. -/
abbrev TagMap := Std.ExtTreeMap Str Str

/-- What a `for k, v := range m` loop may see: the entries of the map in an arbitrary order
(Go specification: the iteration order over maps is not specified). -/
def IsRange {κ ν : Type} [Ord κ] [Std.TransOrd κ] (l : List (κ × ν)) (m : Std.ExtTreeMap κ ν) : Prop :=
  l.Perm m.toList

/-- `sort.Search(n, f)` of the Go standard library (src/sort/search.go):
`i, j := 0, n; for i < j { h := int(uint(i+j) >> 1); if !f(h) { i = h + 1 } else { j = h } }; return i`.
Simplification: `int` is `Nat` (slice lengths never exceed 2^63). -/
def sortSearchLoop (f : Nat → Bool) (i j : Nat) : Nat :=
  if h : i < j then
    let m := (i + j) / 2
    if !f m then sortSearchLoop f (m + 1) j else sortSearchLoop f i m
  else i
termination_by j - i
decreasing_by all_goals omega

/-- `sort.Search(n, f)`, see `sortSearchLoop`. -/
def sortSearch (n : Nat) (f : Nat → Bool) : Nat := sortSearchLoop f 0 n

end Verif
