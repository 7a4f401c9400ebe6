import Verif.Model.Offsets

/-!
# What is said about the offsets of a partition
-/

namespace Verif

namespace Spec

/-- What became of a message: a span that was handed to the callback, or a warning with the reason. -/
def Accounted (p : KafkaPartition) (i : Nat) : Prop :=
  ∃ v, p.log[i]? = some v ∧ ((∃ s, decodeKafkaMessage v = some s ∧ (i, s) ∈ p.delivered) ∨ decodeKafkaMessage v = none ∧ ∃ line, consumeLog v = some line ∧ (i, line) ∈ p.warnings)

/-- Nobody has the partition, and there is no committed offset from which a claim can go on: either there is none at all, or the message has been deleted. -/
def NoOffset (p : KafkaPartition) : Prop := p.session = none ∧ (p.committed = none ∨ ∃ o, p.committed = some o ∧ o < p.lowest)

/-- How often a message was reported. -/
def reports (p : KafkaPartition) (i : Nat) : Nat := (p.warnings.filter fun w => w.1 = i).length

/-- A history, with the number of claims. -/
inductive PartitionHistory : Nat → KafkaPartition → Prop
  | init : PartitionHistory 0 {}
  | claim {n : Nat} {p q : KafkaPartition} : PartitionHistory n p → p.Step q → p.session.isNone → q.session.isSome → PartitionHistory (n + 1) q
  | step {n : Nat} {p q : KafkaPartition} : PartitionHistory n p → p.Step q → ¬ (p.session.isNone ∧ q.session.isSome) → PartitionHistory n q

end Spec

end Verif
