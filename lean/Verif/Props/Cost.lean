import Verif.Proofs.Cost
import Verif.Props.Parser

/-!
# Parsing takes time proportional to the size of the request (C97)
-/

namespace Verif

open Spec

theorem steps_bound {σ : Type} (prog : Prog σ) (hsafe : prog.Safe false) (hp : prog.Paced 5) (r : Reader) (buf : List UInt8)
    (hfit : TokensFit buf.length r.data) (h0 : 0 < buf.length) {fuel : Nat} (hf : 2 * r.data.length + r.script.length + 1 < fuel) :
    prog.steps fuel (Parser.newWithReader r buf) ≤ 19 * r.data.length + r.script.length + 28 := by
  have hw : (Parser.newWithReader r buf).work = 2 * r.data.length + r.script.length + 1 := by
    simp [Parser.work, Parser.newWithReader, Parser.available]
  have := Prog.cost h0 prog (Nat.le_refl 5) fuel (Parser.newWithReader r buf) (newWithReader_ok r buf) (Nat.le_refl _) (by omega)
    (by rw [newWithReader_rest]; exact hfit) hsafe (by simp) hp
  rw [newWithReader_rest, hw] at this
  omega

/-- A request of version 2 whose strings and numbers fit into the buffer: whatever else is in the body, however it is delivered, the call returns, and what was done until then is
bounded by the number of bytes and of calls of `Read` that the reader answers by less than it could. -/
theorem C97_v2 (newCap : Nat → Nat → Nat) (r : Reader) (buf : List UInt8) (hfit : TokensFit buf.length r.data) (h0 : 0 < buf.length) :
    ∃ out, out ≠ .panic ∧ out ≠ .timeout ∧ ∃ enough, ∀ fuel, enough ≤ fuel → parseJsonV2 newCap fuel r buf = out ∧
      stepsJsonV2 newCap fuel r buf ≤ 19 * r.data.length + r.script.length + 28 := by
  obtain ⟨out, h1, h2, h3⟩ := C21_v2 newCap h0 hfit
  obtain ⟨n, hn⟩ := h3 r buf rfl (Nat.le_refl _)
  exact ⟨out, h1, h2, n + 2 * r.data.length + r.script.length + 2, fun fuel hf => ⟨hn fuel (by omega),
    steps_bound _ (decoderSliceSpanV2_safe newCap fuel _ _) (decoderSliceSpanV2_paced newCap fuel _) r buf hfit h0 (by omega)⟩⟩

/-- The same for version 1, whatever earlier requests left in the pool. -/
theorem C97_v1 (newCap : Nat → Nat → Nat) (r : Reader) (buf : List UInt8) (pool : List SpanV1) (hfit : TokensFit buf.length r.data)
    (h0 : 0 < buf.length) :
    ∃ out, out.1 ≠ .panic ∧ out.1 ≠ .timeout ∧ ∃ enough, ∀ fuel, enough ≤ fuel → parseJsonV1 newCap fuel r buf pool = out ∧
      stepsJsonV1 newCap fuel r buf pool ≤ 19 * r.data.length + r.script.length + 28 := by
  obtain ⟨out, h1, h2, h3⟩ := C21_v1 newCap pool h0 hfit
  obtain ⟨n, hn⟩ := h3 r buf rfl (Nat.le_refl _)
  exact ⟨out, h1, h2, n + 2 * r.data.length + r.script.length + 2, fun fuel hf => ⟨hn fuel (by omega),
    steps_bound _ (decoderSliceSpanV1_safe newCap fuel _ _) (decoderSliceSpanV1_paced newCap fuel _) r buf hfit h0 (by omega)⟩⟩

/-- A body of 43 bytes, all at once, in a buffer of 16 bytes. -/
theorem C97_witness :
    let data := b!"[{\"id\":\"1\",\"x\":[true,{\"a\":\"\\u0041\"}, 17 ]}]"
    data.length = 43 ∧ TokensFit 16 data ∧
      stepsJsonV2 (fun _ n => n) 200 { data, script := [], failing := false, idle := false } (List.replicate 16 0) = 125 := by
  decide +kernel

end Verif
