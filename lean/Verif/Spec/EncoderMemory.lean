import Verif.Model.Balance

/-!
# How much memory it takes to encode spans for Kafka

What is sent, and what was allocated, in a history of the pool of encoders.
-/

namespace Verif.Spec

/-- The bytes that were allocated: also those that nobody refers to anymore. -/
def allocatedBytes (p : Pool) : Nat := p.heap.bytes.sizes.sum

/-- The slice headers that were allocated. -/
def allocatedHeaders (p : Pool) : Nat := p.heap.headers.sizes.sum

/-- The size of a message: its key and its value. -/
def messageBytes (h : Heap) (m : Message) : Nat := (h.deref m.key).length + (h.deref m.value).length

/-- The size of all messages. -/
def sentBytes (p : Pool) : Nat := (p.sent.map fun x => messageBytes p.heap x.2.2).sum

/-- The memory that a message keeps from being collected: the blocks of bytes of its key and of its value. -/
def keptBytes (h : Heap) (m : Message) : Nat :=
  let key := (h.headers.data m.key.block m.key.index).block
  let value := (h.headers.data m.value.block m.value.index).block
  h.bytes.sizes.getD key 0 + if value = key then 0 else h.bytes.sizes.getD value 0

/-- The slice headers that a message keeps from being collected. -/
def keptHeaders (h : Heap) (m : Message) : Nat :=
  h.headers.sizes.getD m.key.block 0 + if m.value.block = m.key.block then 0 else h.headers.sizes.getD m.value.block 0

end Verif.Spec
