import Verif.Model.BinaryMemory

/-!
# What decoding a message may cost
-/

namespace Verif

/-- The bytes of the slices made. -/
def made : List MemEvent → Nat
  | [] => 0
  | .make n :: e => n + made e
  | _ :: e => made e

/-- The calls of `ReadByte`. -/
def byteReads : List MemEvent → Nat
  | [] => 0
  | .byte :: e => 1 + byteReads e
  | _ :: e => byteReads e

/-- The writes to the map. -/
def inserts : List MemEvent → Nat
  | [] => 0
  | .insert :: e => 1 + inserts e
  | _ :: e => inserts e

/-- At most one pooled slice is out at any time, and in the end none is. -/
inductive PoolOrder : List MemEvent → Prop
  | nil : PoolOrder []
  | other {x : MemEvent} {e : List MemEvent} : x ≠ .get → x ≠ .put → PoolOrder e → PoolOrder (x :: e)
  | pair {e : List MemEvent} : PoolOrder e → PoolOrder (.get :: .put :: e)

end Verif
