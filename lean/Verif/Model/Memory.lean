import Verif.Model.Go

/-!
# Memory

A small model of Go's memory where aliasing matters: allocated blocks of cells, and slices of them.
Allocation always yields a new block.
-/

namespace Verif

/-- Memory with cells of type `α`: the sizes of the blocks allocated so far, and their contents. -/
structure Mem (α : Type) where
  sizes : List Nat := []
  data : Nat → Nat → α

/-- The address of a cell. -/
structure Addr where
  block : Nat
  index : Nat
deriving DecidableEq

/-- A Go slice: a block, an offset, a length and a capacity (measured from the offset). -/
structure Slice where
  block : Nat := 0
  off : Nat := 0
  len : Nat := 0
  cap : Nat := 0
deriving DecidableEq

/-- The size of a block, zero if it is not allocated. -/
def Mem.size {α} (m : Mem α) (block : Nat) : Nat := m.sizes.getD block 0

/-- `make([]T, n)`: a new block filled with the zero value. -/
def Mem.alloc {α} (m : Mem α) (zero : α) (n : Nat) : Mem α × Slice :=
  ({ sizes := m.sizes ++ [n]
     data := fun b i => if b = m.sizes.length then zero else m.data b i },
   { block := m.sizes.length, off := 0, len := n, cap := n })

/-- The cells of a slice. -/
def Mem.read {α} (m : Mem α) (s : Slice) : List α :=
  (List.range s.len).map fun i => m.data s.block (s.off + i)

/-- `copy` of `vs` to the given position. (Whether it is within the block is checked by the callers.) -/
def Mem.write {α} (m : Mem α) (block off : Nat) (vs : List α) : Mem α :=
  { m with data := fun b i =>
      if b = block then
        match vs[i - off]? with
        | some v => if off ≤ i then v else m.data b i
        | none => m.data b i
      else m.data b i }

end Verif
