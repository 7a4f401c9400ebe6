import Verif.Proofs.Avro
import Verif.Props.Binary

/-!
# C08: how bad it is

The largest number of bytes requested for each byte of the message.
-/

namespace Verif

open Spec

theorem varint_lt {m : Nat} {c : List UInt8} (h : Varint m c) : m < 2 ^ (7 * c.length) := by
  induction h with
  | @last b hb => exact UInt8.lt_iff_toNat_lt.mp hb
  | @more b n bs hb _ ih =>
    have hlt : b.toNat < 256 := b.toNat_lt
    rw [List.length_cons, Nat.mul_add, Nat.pow_add]
    omega

/-- C08: a byte of the message makes the decoder request at most a fifth of 2^31-1 bytes, and there is a message for which this is the exact number. -/
theorem C08_factor : (∀ bs : List UInt8, 5 * readStringRequest bs ≤ (2 ^ 31 - 1) * bs.length) ∧ ∃ bs : List UInt8, 5 * readStringRequest bs = (2 ^ 31 - 1) * bs.length ∧ bs ≠ [] := by
  refine ⟨fun bs => ?_, [254, 255, 255, 255, 15], by decide +kernel, by decide⟩
  have hmax := (C08_allocation_partial bs).1
  by_cases h5 : 5 ≤ bs.length
  · have := Nat.mul_le_mul_left (2 ^ 31 - 1) h5
    omega
  · have h4 : 2 * readStringRequest bs < 2 ^ (7 * bs.length) := by
      have hpos : 0 < 2 ^ (7 * bs.length) := Nat.two_pow_pos _
      unfold readStringRequest
      split
      · omega
      · next len rest h =>
        split
        · omega
        · split
          · next hr hbig =>
            unfold readLong at h
            split at h
            · cases h
            · next u r hl =>
              cases h
              obtain ⟨m, c, hc, hm⟩ := readLongLoop_sound hl
              have hv := readLongLoop_varint hm 0 0 rest (by decide)
              rw [← hc, hl] at hv
              have hu : u.toNat ≤ m := by
                rw [Option.some.injEq, Prod.mk.injEq] at hv
                rw [hv.1, UInt64.toNat_ofNat']
                refine Nat.le_trans (Nat.mod_le _ _) ?_
                simp
              have hz := unzigzag u
              unfold Spec.zigzag at hz
              rw [if_pos (by unfold needsFreshSlice pooledBufferSliceLength at hbig; omega)] at hz
              have hlt := varint_lt hm
              have hle : 2 ^ (7 * c.length) ≤ 2 ^ (7 * bs.length) := Nat.pow_le_pow_right (by decide) (by rw [hc, List.length_append]; omega)
              omega
          · omega
    have : bs.length = 0 ∨ bs.length = 1 ∨ bs.length = 2 ∨ bs.length = 3 ∨ bs.length = 4 := by omega
    rcases this with h | h | h | h | h <;> rw [h] at h4 ⊢ <;> omega

/-- A message with a request of a pooled size, and one for a slice of its own. -/
example : readStringRequest [16] = 0 ∧ readStringRequest [130, 128, 1] = 8193 := by decide +kernel

end Verif
