import Verif.Model.Balance

/-!
# The partition of a message

main.go:57-64 leaves `Producer.Partitioner` as `sarama.NewConfig` sets it, to `NewHashPartitioner`. So the producer
finds the partition from the key, with `hash/fnv` of the standard library. It also leaves `Consumer.Group.Rebalance.Strategy`, which is
`BalanceStrategyRange`: it decides which proxy reads which partitions.
-/

namespace Verif

/-- `hash/fnv` `New32a`, `Write`, `Sum32`. -/
def fnv32a (bs : List UInt8) : UInt32 := bs.foldl (fun h b => (h ^^^ b.toUInt32) * 16777619) 2166136261

/-- sarama v1.26.1 partitioner.go `hashPartitioner.Partition`, with a key and without `referenceAbs`; `%` of Go has the
sign of the dividend, as that of `Int32`. -/
def hashPartition (key : List UInt8) (n : Int32) : Int32 :=
  let partition := (fnv32a key).toInt32 % n
  if partition < 0 then -partition else partition

/-- sarama v1.26.1 balance_strategy.go `BalanceStrategyRange`: `math.Floor(pos*step + 0.5)` for `step` partitions of `n` for each of `k`
members. Simplification: exact arithmetic. (With 12 partitions and at most 12
members `pos*step + 0.5` is a whole number only for `k = 8`, where `step` is 1.5 and nothing is rounded; otherwise it is further from a whole
number than the rounding errors are large.) -/
def rangeBound (n k pos : Nat) : Nat := (2 * pos * n + k) / (2 * k)

/-- The partitions `partitions[min:max]` of member number `i`, in the order of `balanceStrategySortable`. -/
def rangePlan (n k i : Nat) : List Nat := List.range' (rangeBound n k i) (rangeBound n k (i + 1) - rangeBound n k i)

end Verif
