import Verif.Model.Partition

/-!
# Shares of the partitions

How many trace ids belong to a partition.
-/

namespace Verif.Spec

/-- The number of those below `n` for which `p` holds. -/
def countBelow (p : Nat → Bool) : Nat → Nat
  | 0 => 0
  | n + 1 => countBelow p n + if p n then 1 else 0

/-- A message of the trace `t` goes to partition `r` of `n`. -/
def belongs (n r : Int32) (t : Nat) : Bool := hashPartition (littleEndian (UInt64.ofNat t)) n = r

/-- The spans of the trace `t` are read by member `i` of `k`, if there are `n` partitions. -/
def readBy (n k i : Nat) (t : Nat) : Bool := (rangePlan n k i).any fun r => belongs (Int32.ofNat n) (Int32.ofNat r) t

end Verif.Spec
