import Verif.Spec.EncoderMemory
import Verif.Props.Balance

/-!
# C157: how much memory it takes to encode spans for Kafka
-/

namespace Verif

open Spec

/-! ## The buffer -/

/-- Only `Grow` with at most ten bytes is called. -/
def BufOp.Modest : BufOp → Prop
  | .grow n => n ≤ 10
  | .write _ => True

theorem writeLongOps_modest (r : Int64) : ∀ op ∈ writeLongOps r, op.Modest := by
  intro op h
  rcases List.mem_cons.mp h with rfl | h
  · exact Nat.le_refl 10
  · obtain ⟨b, _, rfl⟩ := List.mem_map.mp h
    trivial

theorem writeStringOps_modest (s : Str) : ∀ op ∈ writeStringOps s, op.Modest := by
  intro op h
  rcases List.mem_append.mp h with h | h
  · exact writeLongOps_modest _ _ h
  · rw [List.mem_singleton.mp h]; trivial

theorem writeMapStringOps_modest (ord : List (Str × Str)) : ∀ op ∈ writeMapStringOps ord, op.Modest := by
  intro op h
  rcases List.mem_append.mp h with h | h
  · exact writeLongOps_modest _ _ h
  · split at h
    · cases h
    · rcases List.mem_append.mp h with h | h
      · obtain ⟨e, _, h⟩ := List.mem_flatMap.mp h
        rcases List.mem_append.mp h with h | h <;> exact writeStringOps_modest _ _ h
      · exact writeLongOps_modest _ _ h

theorem binaryEncodeOps_modest (r : Span) (ord : List (Str × Str)) : ∀ op ∈ binaryEncodeOps r ord, op.Modest := by
  have app : ∀ {l l' : List BufOp}, (∀ op ∈ l, op.Modest) → (∀ op ∈ l', op.Modest) → ∀ op ∈ l ++ l', op.Modest :=
    fun h h' op hm => (List.mem_append.mp hm).elim (h op) (h' op)
  have L := writeLongOps_modest
  have S := writeStringOps_modest
  exact app (app (app (app (app (app (app (app (app (app (app (L _) (L _)) (L _)) (S _)) (S _)) (L _)) (L _)) (L _)) (L _)) (L _)) (L _)) (writeMapStringOps_modest ord)

/-- What a buffer that was created at `b0` in a memory `m0` has allocated: nothing, or at most five times what was written. -/
structure BufCost (m0 : Mem UInt8) (b0 : Slice) (st : Mem UInt8 × Slice) : Prop where
  room : st.2.len ≤ st.2.cap
  cost : (st.1.sizes = m0.sizes ∧ st.2.block = b0.block ∧ st.2.off = b0.off ∧ st.2.cap = 512) ∨
    (m0.sizes.length ≤ st.2.block ∧ st.1.size st.2.block = st.2.cap ∧ 512 < st.2.len + 10 ∧ st.2.cap ≤ 3 * (st.2.len + 10) ∧
      ∃ a, st.1.sizes.sum = m0.sizes.sum + a ∧ a ≤ 2 * st.2.cap ∧ a ≤ 5 * (st.2.len + 10))
  before : m0.sizes.length ≤ st.1.sizes.length

theorem BufCost.step {m0 b0 st} (h : BufCost m0 b0 st) (op : BufOp) (ho : op.Modest) : BufCost m0 b0 (bufStep st op) := by
  obtain ⟨m, b⟩ := st
  obtain ⟨hr, hc, hbf⟩ := h
  dsimp only at hr hc hbf
  cases op with
  | grow n =>
    have ho : n ≤ 10 := ho
    show BufCost m0 b0 (bufGrow m b n)
    unfold bufGrow
    split
    · exact ⟨hr, hc, hbf⟩
    · next hn =>
      refine ⟨?_, .inr ⟨hbf, ?_, ?_, ?_, 2 * b.cap + n + (m.sizes.sum - m0.sizes.sum), ?_, ?_, ?_⟩, ?_⟩
      · dsimp only [Mem.alloc]; omega
      · simp only [Mem.alloc, Mem.size, Mem.write_sizes, getD_append_self]
      · dsimp only [Mem.alloc]
        rcases hc with hc | ⟨_, _, _, _, _⟩ <;> omega
      · dsimp only [Mem.alloc]; omega
      · simp only [Mem.alloc, Mem.write_sizes, List.sum_append, List.sum_cons, List.sum_nil]
        rcases hc with hc | ⟨_, _, _, _, a, ha, _⟩
        · rw [hc.1]; omega
        · omega
      · dsimp only [Mem.alloc]
        rcases hc with hc | ⟨_, _, _, _, a, ha, _⟩
        · rw [hc.1]; omega
        · omega
      · dsimp only [Mem.alloc]
        rcases hc with hc | ⟨_, _, _, _, a, ha, _⟩
        · rw [hc.1]; omega
        · omega
      · simp only [Mem.alloc, Mem.write_sizes, List.length_append]; omega
  | write bs =>
    show BufCost m0 b0 ((bufGrow m b bs.length).1.write (bufGrow m b bs.length).2.block ((bufGrow m b bs.length).2.off + (bufGrow m b bs.length).2.len) bs,
      { (bufGrow m b bs.length).2 with len := (bufGrow m b bs.length).2.len + bs.length })
    unfold bufGrow
    split
    · next hn =>
      refine ⟨by dsimp only; omega, ?_, hbf⟩
      rcases hc with hc | ⟨h1, h2, h3, h4, a, h5, h6, h7⟩
      · exact .inl hc
      · refine .inr ⟨h1, h2, ?_, ?_, a, h5, h6, ?_⟩ <;> dsimp only <;> omega
    · next hn =>
      refine ⟨?_, .inr ⟨hbf, ?_, ?_, ?_, 2 * b.cap + bs.length + (m.sizes.sum - m0.sizes.sum), ?_, ?_, ?_⟩, ?_⟩
      · dsimp only [Mem.alloc]; omega
      · simp only [Mem.alloc, Mem.size, Mem.write_sizes, getD_append_self]
      · dsimp only [Mem.alloc]
        rcases hc with hc | ⟨_, _, _, _, _⟩ <;> omega
      · dsimp only [Mem.alloc]; omega
      · simp only [Mem.alloc, Mem.write_sizes, List.sum_append, List.sum_cons, List.sum_nil]
        rcases hc with hc | ⟨_, _, _, _, a, ha, _⟩
        · rw [hc.1]; omega
        · omega
      · dsimp only [Mem.alloc]
        rcases hc with hc | ⟨_, _, _, _, a, ha, _⟩
        · rw [hc.1]; omega
        · omega
      · dsimp only [Mem.alloc]
        rcases hc with hc | ⟨_, _, _, _, a, ha, _⟩
        · rw [hc.1]; omega
        · omega
      · simp only [Mem.alloc, Mem.write_sizes, List.length_append]; omega

theorem BufCost.run {m0 b0 st} (h : BufCost m0 b0 st) (ops : List BufOp) (ho : ∀ op ∈ ops, op.Modest) : BufCost m0 b0 (ops.foldl bufStep st) := by
  induction ops generalizing st with
  | nil => exact h
  | cons op ops ih => exact ih (h.step op (ho _ (by simp))) fun o hm => ho o (by simp [hm])

/-! ## One call of `Encode` -/

/-- What one call of `Encode` allocates and consumes. -/
structure EncodeCost (h : Heap) (enc : Encoder) (len : Nat) (h' : Heap) (enc' : Encoder) (msg : Message) : Prop where
  bytes : ∃ fill base new, h'.bytes.sizes.sum = h.bytes.sizes.sum + fill + new ∧
    (enc.buf.len < 520 ∧ fill = 32768 ∧ base = 32768 ∨ 520 ≤ enc.buf.len ∧ fill = 0 ∧ base = enc.buf.len) ∧
    (new = 0 ∧ len ≤ 512 ∧ enc'.buf.len + 8 + len = base ∨ 502 < len ∧ new ≤ 5 * (len + 10) ∧ enc'.buf.len + 8 = base)
  headers : ∃ fill, h'.headers.sizes.sum = h.headers.sizes.sum + fill ∧
    (enc.slices.len < 2 ∧ fill = 1024 ∧ enc'.slices.len = 1022 ∨ 2 ≤ enc.slices.len ∧ fill = 0 ∧ enc'.slices.len + 2 = enc.slices.len)
  bufBlock : 520 ≤ enc.buf.len ∧ enc'.buf.block = enc.buf.block ∨ h'.bytes.size enc'.buf.block = 32768
  slicesBlock : 2 ≤ enc.slices.len ∧ enc'.slices.block = enc.slices.block ∨ h'.headers.size enc'.slices.block = 1024
  key : (h'.headers.data msg.key.block msg.key.index).block = enc'.buf.block
  value : (h'.headers.data msg.value.block msg.value.index).block = enc'.buf.block ∨
    h'.bytes.size (h'.headers.data msg.value.block msg.value.index).block ≤ 3 * (len + 10)
  keyHeader : msg.key.block = enc'.slices.block
  valueHeader : msg.value.block = enc'.slices.block

theorem refill_cost {α} (m : Mem α) (zero : α) (s : Slice) (n size : Nat) :
    let r := if s.len < n then m.alloc zero size else (m, s)
    ∃ fill, r.1.sizes.sum = m.sizes.sum + fill ∧ (s.len < n ∧ fill = size ∧ r.2.len = size ∧ r.1.size r.2.block = size ∨ n ≤ s.len ∧ fill = 0 ∧ r.2 = s) := by
  dsimp only
  split
  · next h => exact ⟨size, by simp [Mem.alloc], .inl ⟨h, rfl, rfl, by simp only [Mem.alloc, Mem.size, getD_append_self]⟩⟩
  · exact ⟨0, rfl, .inr ⟨by omega, rfl, rfl⟩⟩

theorem encode_cost {h : Heap} {enc : Encoder} {span : Span} {ord : List (Str × Str)} {h' : Heap} {enc' : Encoder} {msg : Message}
    (hb : Free h.bytes enc.buf) (he : encode h enc span ord = some (h', enc', msg)) : EncodeCost h enc (binaryEncode span ord).length h' enc' msg := by
  have rb := refill h.bytes 0 enc.buf (8 + expectedMaxSpanSize) (32 * 1024) hb (by decide) (by decide)
  have cb := refill_cost h.bytes 0 enc.buf (8 + expectedMaxSpanSize) (32 * 1024)
  have ch := refill_cost h.headers {} enc.slices 2 1024
  unfold encode at he
  generalize (if enc.buf.len < 8 + expectedMaxSpanSize then h.bytes.alloc 0 (32 * 1024) else (h.bytes, enc.buf)) = rB at rb cb he
  generalize (if enc.slices.len < 2 then h.headers.alloc {} 1024 else (h.headers, enc.slices)) = rH at ch he
  obtain ⟨mB, sB⟩ := rB
  obtain ⟨mH, sH⟩ := rH
  obtain ⟨fB, hfB, cb⟩ := cb
  obtain ⟨fH, hfH, ch⟩ := ch
  obtain ⟨b1, b2, b3, b4, -, -⟩ := rb
  have hexp : expectedMaxSpanSize = 512 := rfl
  rw [hexp] at b3 cb
  dsimp only at he hfB hfH cb ch b1 b2 b3 b4
  by_cases hl2 : sH.len < 2
  · rw [if_pos hl2] at he; cases he
  rw [if_neg hl2] at he
  have hl8 : ¬ sB.len < 8 := by omega
  rw [if_neg hl8] at he
  have hcap : (sB.from 8).cap = sB.len - 8 := by unfold Slice.from; dsimp only; rw [b1.1]
  rw [if_neg (by rw [hcap]; omega)] at he
  have hsize : sB.off + sB.len = mB.size sB.block := by
    rcases b1.2 with hx | hx
    · omega
    · exact hx.2
  generalize hm1 : mB.write sB.block sB.off (littleEndian span.trace.toUInt64) = m1 at he
  have hm1s : m1.sizes = mB.sizes := by rw [← hm1]; rfl
  have init : BufInv m1 { block := sB.block, off := sB.off + 8, len := 0, cap := 512 }
      (m1, { block := sB.block, off := sB.off + 8, len := 0, cap := 512 }) [] := by
    refine ⟨rfl, by simp, Or.inl ⟨rfl, rfl, rfl⟩, ?_, by rw [hm1s]; exact b4, ⟨[], by simp⟩, fun _ _ _ _ => rfl⟩
    have e : m1.size sB.block = mB.size sB.block := by unfold Mem.size; rw [hm1s]
    dsimp only
    rw [e, ← hsize]; omega
  have run := init.run (binaryEncodeOps span ord)
  have cinit : BufCost m1 { block := sB.block, off := sB.off + 8, len := 0, cap := 512 } (m1, { block := sB.block, off := sB.off + 8, len := 0, cap := 512 }) :=
    ⟨by simp, .inl ⟨rfl, rfl, rfl, rfl⟩, Nat.le_refl _⟩
  have crun := cinit.run (binaryEncodeOps span ord) (binaryEncodeOps_modest span ord)
  rw [List.nil_append, binaryEncodeOps_bytes] at run
  have hfrom : (sB.from 8).len = sB.len - 8 := rfl
  have hfb : (sB.from 8).block = sB.block := rfl
  have hfo : (sB.from 8).off = sB.off + 8 := rfl
  simp only [hfb, hfo, hexp] at he
  generalize (binaryEncodeOps span ord).foldl bufStep (m1, { block := sB.block, off := sB.off + 8, len := 0, cap := 512 }) = res at run crun he
  obtain ⟨m2, b⟩ := res
  have hlen : b.len = (binaryEncode span ord).length := by
    have := congrArg List.length run.contents
    rwa [Mem.read_length] at this
  obtain ⟨croom, ccost, -⟩ := crun
  obtain ⟨more, hmore⟩ := run.sizes
  dsimp only at he croom ccost hmore
  have hm2s : m2.size sB.block = mB.size sB.block := by
    unfold Mem.size
    rw [hmore, getD_append_left _ _ _ _ (by rw [hm1s]; exact b4), hm1s]
  by_cases h0 : b.len = 0 ∨ (sB.from 8).len = 0
  · rw [if_pos h0] at he; cases he
  rw [if_neg h0] at he
  rw [hm1s] at ccost
  have hhk : ∀ v w : Slice, ((mH.write sH.block sH.off [v]).write sH.block (sH.off + 1) [w]).data sH.block sH.off = v := by
    intro v w
    rw [Mem.write_data, dif_neg (by omega), Mem.write_data, dif_pos ⟨rfl, by omega, by simp⟩]
    simp
  have hhv : ∀ v w : Slice, ((mH.write sH.block sH.off [v]).write sH.block (sH.off + 1) [w]).data sH.block (sH.off + 1) = w := by
    intro v w
    rw [Mem.write_data, dif_pos ⟨rfl, by omega, by simp⟩]
    simp
  have hbb : 520 ≤ enc.buf.len ∧ sB.block = enc.buf.block ∨ m2.size sB.block = 32768 := by
    rcases cb with ⟨_, _, _, hs⟩ | ⟨h1, _, h3⟩
    · exact .inr (by rw [hm2s]; exact hs)
    · exact .inl ⟨h1, by rw [h3]⟩
  have hhb : 2 ≤ enc.slices.len ∧ sH.block = enc.slices.block ∨ mH.size sH.block = 1024 := by
    rcases ch with ⟨_, _, _, hs⟩ | ⟨h1, _, h3⟩
    · exact .inr hs
    · exact .inl ⟨h1, by rw [h3]⟩
  have hhd : ∃ fill, mH.sizes.sum = h.headers.sizes.sum + fill ∧
      (enc.slices.len < 2 ∧ fill = 1024 ∧ sH.len - 2 = 1022 ∨ 2 ≤ enc.slices.len ∧ fill = 0 ∧ sH.len - 2 + 2 = enc.slices.len) := by
    refine ⟨fH, hfH, ?_⟩
    rcases ch with ⟨h1, h2, h3, _⟩ | ⟨h1, h2, h3⟩
    · exact .inl ⟨h1, h2, by omega⟩
    · subst h3; exact .inr ⟨h1, h2, by omega⟩
  have hbase : enc.buf.len < 520 ∧ fB = 32768 ∧ sB.len = 32768 ∨ 520 ≤ enc.buf.len ∧ fB = 0 ∧ sB.len = enc.buf.len := by
    rcases cb with ⟨h1, h2, h3, _⟩ | ⟨h1, h2, h3⟩
    · exact .inl ⟨h1, h2, h3⟩
    · subst h3; exact .inr ⟨h1, h2, rfl⟩
  rcases ccost with ⟨c1, c2, c3, c4⟩ | ⟨c1, c2, c3, c4, a, c5, c6, c7⟩
  · have hsm : b.block = sB.block ∧ b.off = sB.off + 8 := ⟨c2, c3⟩
    rw [if_neg (by rw [hfrom]; rintro ⟨_, hlt⟩; omega), if_pos hsm] at he
    cases he
    refine ⟨⟨fB, sB.len, 0, ?_, hbase, .inl ⟨rfl, by omega, ?_⟩⟩, hhd, hbb, hhb, ?_, .inl ?_, rfl, rfl⟩
    · dsimp only; rw [c1, hfB]; rfl
    · show sB.len - 8 - b.len + 8 + _ = sB.len
      omega
    · dsimp only; rw [hhk]; rfl
    · dsimp only; rw [hhv]; exact c2
  · have hsm : ¬ (b.block = sB.block ∧ b.off = sB.off + 8) := by rintro ⟨e, _⟩; omega
    rw [if_neg (fun hx => hsm hx.1), if_neg hsm] at he
    cases he
    refine ⟨⟨fB, sB.len, a, ?_, hbase, .inr ⟨by omega, by omega, ?_⟩⟩, hhd, hbb, hhb, ?_, .inr ?_, rfl, rfl⟩
    · dsimp only; rw [c5, hfB]
    · show sB.len - 8 + 8 = sB.len
      omega
    · dsimp only; rw [hhk]; rfl
    · dsimp only; rw [hhv, c2]; omega

/-! ## The pool -/

theorem sum_set_encoder (f : Encoder → Nat) : ∀ {l : List Encoder} {j : Nat} {x y : Encoder}, l[j]? = some x → ((l.set j y).map f).sum + f x = (l.map f).sum + f y
  | [], _, _, _, h => by simp at h
  | e :: l, 0, x, y, h => by
    obtain rfl : e = x := by simpa using h
    simp only [List.set_cons_zero, List.map_cons, List.sum_cons]; omega
  | e :: l, j + 1, x, y, h => by
    have := sum_set_encoder f (l := l) (j := j) (y := y) (by simpa using h)
    simp only [List.set_cons_succ, List.map_cons, List.sum_cons]; omega

theorem encoder_sum_le {α : Type} (f : α → Nat) (c : Nat) (l : List α) (h : ∀ x ∈ l, f x ≤ c) : (l.map f).sum ≤ c * l.length := by
  induction l with
  | nil => simp
  | cons x l ih =>
    have h1 := h x (by simp)
    have h2 := ih fun y hy => h y (by simp [hy])
    rw [List.map_cons, List.sum_cons, List.length_cons, Nat.mul_add]; omega

/-- What is accounted for a message, in parts of 1/62 byte. -/
def messageWeight (x : Span × List (Str × Str) × Message) : Nat :=
  63 * 8 + if (binaryEncode x.1 x.2.1).length ≤ 502 then 63 * (binaryEncode x.1 x.2.1).length else 317 * (binaryEncode x.1 x.2.1).length

/-- What is left of the memory of an encoder, without the bytes that are never used. -/
def Encoder.usable (e : Encoder) : Nat := e.buf.len - 519

structure CostInv (p : Pool) : Prop where
  bytes : 62 * p.heap.bytes.sizes.sum ≤ (p.sent.map messageWeight).sum + 63 * (p.encoders.map Encoder.usable).sum
  buf : ∀ e ∈ p.encoders, e.buf.len ≤ 32760 ∧ (e.buf.len ≠ 0 → p.heap.bytes.size e.buf.block = 32768)
  headers : p.heap.headers.sizes.sum = 2 * p.sent.length + (p.encoders.map fun e => e.slices.len).sum
  slices : ∀ e ∈ p.encoders, e.slices.len ≤ 1022 ∧ e.slices.len % 2 = 0 ∧ (e.slices.len ≠ 0 → p.heap.headers.size e.slices.block = 1024)
  key : ∀ x ∈ p.sent, p.heap.bytes.size (p.heap.headers.data x.2.2.key.block x.2.2.key.index).block = 32768
  value : ∀ x ∈ p.sent, (p.heap.headers.data x.2.2.value.block x.2.2.value.index).block = (p.heap.headers.data x.2.2.key.block x.2.2.key.index).block ∨
    p.heap.bytes.size (p.heap.headers.data x.2.2.value.block x.2.2.value.index).block ≤ 3 * ((binaryEncode x.1 x.2.1).length + 10)
  header : ∀ x ∈ p.sent, p.heap.headers.size x.2.2.key.block = 1024 ∧ x.2.2.value.block = x.2.2.key.block

theorem CostInv.step {p q : Pool} (hp : PoolInv p) (h : CostInv p) (st : Pool.Step p q) : CostInv q := by
  cases st with
  | new =>
    refine ⟨?_, ?_, ?_, ?_, h.key, h.value, h.header⟩
    · have h1 := h.bytes
      rw [List.map_append, List.sum_append]
      exact Nat.le_trans h1 (Nat.add_le_add_left (Nat.mul_le_mul_left 63 (Nat.le_add_right _ _)) _)
    · intro e he
      rcases List.mem_append.mp he with he | he
      · exact h.buf e he
      · rw [List.mem_singleton.mp he]; exact ⟨by decide, fun hn => absurd rfl hn⟩
    · have := h.headers
      simpa using this
    · intro e he
      rcases List.mem_append.mp he with he | he
      · exact h.slices e he
      · rw [List.mem_singleton.mp he]; exact ⟨by decide, by decide, fun hn => absurd rfl hn⟩
  | @encode j enc enc' span ord h' m hj he =>
    have hmem := List.mem_of_getElem? hj
    have C := encode_cost (hp.freeB enc hmem) he
    obtain ⟨h2, enc2, m2, he2, E⟩ := encode_spec span ord (hp.freeB enc hmem) (hp.freeH enc hmem)
    rw [he] at he2
    cases he2
    obtain ⟨fill, base, new, hsum, hfill, hnew⟩ := C.bytes
    obtain ⟨fillH, hsumH, hfillH⟩ := C.headers
    obtain ⟨hb1, hb2⟩ := h.buf enc hmem
    obtain ⟨hs1, hs2, hs3⟩ := h.slices enc hmem
    have hbsize : h'.bytes.size enc'.buf.block = 32768 := by
      rcases C.bufBlock with ⟨hl, hb⟩ | hb
      · rw [hb, E.laterB.size]
        · exact hb2 (by omega)
        · rcases (hp.freeB enc hmem).2 with h0 | h0
          · omega
          · exact h0.1
      · exact hb
    have hhsize : h'.headers.size enc'.slices.block = 1024 := by
      rcases C.slicesBlock with ⟨hl, hb⟩ | hb
      · rw [hb, E.laterH.size]
        · exact hs3 (by omega)
        · rcases (hp.freeH enc hmem).2 with h0 | h0
          · omega
          · exact h0.1
      · exact hb
    have other : ∀ e, e ∈ p.encoders.set j enc' → e = enc' ∨ e ∈ p.encoders := by
      intro e hm
      rcases mem_set_iff' hm with rfl | ⟨i, _, hi⟩
      · exact .inl rfl
      · exact .inr (List.mem_of_getElem? hi)
    have dk : ∀ x ∈ p.sent, h'.headers.data x.2.2.key.block x.2.2.key.index = p.heap.headers.data x.2.2.key.block x.2.2.key.index :=
      fun x hx => E.laterH.frame _ _ (hp.sent x hx).keyIn ((hp.sent x hx).keyOut enc hmem)
    have dv : ∀ x ∈ p.sent, h'.headers.data x.2.2.value.block x.2.2.value.index = p.heap.headers.data x.2.2.value.block x.2.2.value.index :=
      fun x hx => E.laterH.frame _ _ (hp.sent x hx).valueIn ((hp.sent x hx).valueOut enc hmem)
    refine ⟨?_, ?_, ?_, ?_, ?_, ?_, ?_⟩
    · have h1 := h.bytes
      have h2 := sum_set_encoder Encoder.usable (y := enc') hj
      have h3 : 62 * (fill + new) + 63 * enc.usable ≤ messageWeight (span, ord, m) + 63 * enc'.usable := by
        unfold messageWeight Encoder.usable
        dsimp only
        split <;> omega
      rw [List.map_append, List.sum_append, List.map_singleton, List.sum_singleton, hsum]
      generalize ((p.encoders.set j enc').map Encoder.usable).sum = a at *
      generalize (p.encoders.map Encoder.usable).sum = b at *
      generalize (p.sent.map messageWeight).sum = c at *
      generalize messageWeight (span, ord, m) = d at *
      generalize p.heap.bytes.sizes.sum = e at *
      omega
    · intro e hm
      rcases other e hm with rfl | hm
      · exact ⟨by omega, fun _ => hbsize⟩
      · refine ⟨(h.buf e hm).1, fun hn => ?_⟩
        show h'.bytes.size _ = _
        rw [E.laterB.size]
        · exact (h.buf e hm).2 hn
        · rcases (hp.freeB e hm).2 with h0 | h0
          · exact absurd h0 hn
          · exact h0.1
    · have h1 := h.headers
      have h2 := sum_set_encoder (fun e => e.slices.len) (y := enc') hj
      dsimp only at h2 ⊢
      rw [List.length_append, List.length_singleton, hsumH]
      omega
    · intro e hm
      rcases other e hm with rfl | hm
      · exact ⟨by omega, by omega, fun _ => hhsize⟩
      · refine ⟨(h.slices e hm).1, (h.slices e hm).2.1, fun hn => ?_⟩
        show h'.headers.size _ = _
        rw [E.laterH.size]
        · exact (h.slices e hm).2.2 hn
        · rcases (hp.freeH e hm).2 with h0 | h0
          · exact absurd h0 hn
          · exact h0.1
    · intro x hx
      rcases List.mem_append.mp hx with hx | hx
      · show h'.bytes.size (h'.headers.data _ _).block = _
        rw [dk x hx, E.laterB.size (hp.sent x hx).keyBytesIn]
        exact h.key x hx
      · rw [List.mem_singleton.mp hx]
        show h'.bytes.size (h'.headers.data _ _).block = _
        rw [C.key]; exact hbsize
    · intro x hx
      rcases List.mem_append.mp hx with hx | hx
      · show (h'.headers.data _ _).block = (h'.headers.data _ _).block ∨ h'.bytes.size (h'.headers.data _ _).block ≤ _
        rw [dk x hx, dv x hx, E.laterB.size (hp.sent x hx).valueBytesIn]
        exact h.value x hx
      · rw [List.mem_singleton.mp hx]
        show (h'.headers.data _ _).block = (h'.headers.data _ _).block ∨ h'.bytes.size (h'.headers.data _ _).block ≤ _
        rw [C.key]; exact C.value
    · intro x hx
      rcases List.mem_append.mp hx with hx | hx
      · refine ⟨?_, (h.header x hx).2⟩
        show h'.headers.size _ = _
        rw [E.laterH.size (hp.sent x hx).keyIn]
        exact (h.header x hx).1
      · rw [List.mem_singleton.mp hx]
        exact ⟨by show h'.headers.size _ = _; rw [C.keyHeader]; exact hhsize, by rw [C.keyHeader, C.valueHeader]⟩

theorem Pool.Reachable.cost {p : Pool} (h : p.Reachable) : CostInv p := by
  induction h with
  | init => exact ⟨by decide, by simp, rfl, by simp, by simp, by simp, by simp⟩
  | step hp st ih => exact ih.step hp.inv st

theorem messageBytes_eq {p : Pool} (hp : p.Reachable) {x : Span × List (Str × Str) × Message} (hx : x ∈ p.sent) :
    messageBytes p.heap x.2.2 = 8 + (binaryEncode x.1 x.2.1).length := by
  unfold messageBytes
  rw [(hp.inv.sent x hx).key, (hp.inv.sent x hx).value]; rfl

theorem weight_le {p : Pool} (hp : p.Reachable) : ∀ l : List (Span × List (Str × Str) × Message), (∀ x ∈ l, x ∈ p.sent) →
    (l.map messageWeight).sum ≤ 317 * (l.map fun x => messageBytes p.heap x.2.2).sum
  | [], _ => by simp
  | x :: l, h => by
    have h1 := weight_le hp l fun y hy => h y (by simp [hy])
    have h2 := messageBytes_eq hp (h x (by simp))
    simp only [List.map_cons, List.sum_cons]
    have h3 : messageWeight x ≤ 317 * messageBytes p.heap x.2.2 := by
      rw [h2]; unfold messageWeight; split <;> omega
    omega

/-- C157: what was allocated for messages, garbage included, is at most six times what was sent, and 32 KB for each encoder. -/
theorem C157_bytes (p : Pool) (hp : p.Reachable) : allocatedBytes p ≤ 6 * sentBytes p + 32 * 1024 * p.encoders.length := by
  have h1 := hp.cost.bytes
  have h2 := weight_le hp p.sent fun _ h => h
  have h3 := encoder_sum_le Encoder.usable 32241 p.encoders fun e he => by have := (hp.cost.buf e he).1; unfold Encoder.usable; omega
  unfold allocatedBytes sentBytes
  omega

theorem weight_small {p : Pool} (hp : p.Reachable) : ∀ l : List (Span × List (Str × Str) × Message), (∀ x ∈ l, x ∈ p.sent) →
    (∀ x ∈ l, messageBytes p.heap x.2.2 ≤ 510) → (l.map messageWeight).sum = 63 * (l.map fun x => messageBytes p.heap x.2.2).sum
  | [], _, _ => by simp
  | x :: l, h, hs => by
    have h1 := weight_small hp l (fun y hy => h y (by simp [hy])) fun y hy => hs y (by simp [hy])
    have h2 := messageBytes_eq hp (h x (by simp))
    have h4 := hs x (by simp)
    simp only [List.map_cons, List.sum_cons]
    have h3 : messageWeight x = 63 * messageBytes p.heap x.2.2 := by
      unfold messageWeight
      rw [if_pos (by omega), h2]; omega
    omega

/-- C157: if no message is larger than 510 bytes, it is at most what was sent and one in 62 bytes more, besides the 32 KB for each encoder. -/
theorem C157_small (p : Pool) (hp : p.Reachable) (hs : ∀ x ∈ p.sent, messageBytes p.heap x.2.2 ≤ 510) :
    62 * allocatedBytes p ≤ 63 * sentBytes p + 62 * (32 * 1024 * p.encoders.length) := by
  have h1 := hp.cost.bytes
  have h2 := weight_small hp p.sent (fun _ h => h) hs
  have h3 := encoder_sum_le Encoder.usable 32241 p.encoders fun e he => by have := (hp.cost.buf e he).1; unfold Encoder.usable; omega
  unfold allocatedBytes sentBytes
  omega

/-- C157: two slice headers for each message, and less than 1024 for each encoder. -/
theorem C157_headers (p : Pool) (hp : p.Reachable) :
    2 * p.sent.length ≤ allocatedHeaders p ∧ allocatedHeaders p ≤ 2 * p.sent.length + 1022 * p.encoders.length := by
  have h1 := hp.cost.headers
  have h3 := encoder_sum_le (fun e : Encoder => e.slices.len) 1022 p.encoders fun e he => (hp.cost.slices e he).1
  unfold allocatedHeaders
  omega

/-- C157: a message that is still needed keeps from being collected: 32 KB however small it is, and three times its size if its value did not fit there; and 1024 slice headers. -/
theorem C157_kept (p : Pool) (hp : p.Reachable) (x : Span × List (Str × Str) × Message) (hx : x ∈ p.sent) :
    32 * 1024 ≤ keptBytes p.heap x.2.2 ∧ keptBytes p.heap x.2.2 ≤ 32 * 1024 + 3 * (messageBytes p.heap x.2.2 + 2) ∧
      keptHeaders p.heap x.2.2 = 1024 := by
  have h1 := hp.cost.key x hx
  have h2 := hp.cost.value x hx
  have h3 := hp.cost.header x hx
  have h4 := messageBytes_eq hp hx
  unfold Mem.size at h1 h2 h3
  unfold keptBytes keptHeaders
  dsimp only
  rw [h1, h3.1, if_pos h3.2]
  refine ⟨by omega, ?_, rfl⟩
  rcases h2 with h2 | h2
  · rw [if_pos h2]; omega
  · split
    · omega
    · omega

/-- Witness: two thousand messages from one encoder, so that its memory was replaced on the way. -/
example : ∃ p : Pool, p.Reachable ∧ p.encoders.length = 1 ∧ p.sent.length = 2000 ∧
    (∀ x ∈ p.sent, messageBytes p.heap x.2.2 ≤ 510) ∧ 2 * (32 * 1024) < sentBytes p := by
  obtain ⟨p, hp, h1, h2⟩ := pool_encodes (List.replicate 2000 ({ name := b!"get /articles/of/the/day", service := b!"articles", trace := 7 }, []))
  have hlen : p.sent.length = 2000 := by
    rw [← List.length_map, h2, List.length_replicate]
  have hx : ∀ x ∈ p.sent, messageBytes p.heap x.2.2 = 52 := by
    intro x hx
    have := List.mem_map_of_mem (f := fun x : Span × List (Str × Str) × Message => (x.1, x.2.1)) hx
    rw [h2] at this
    have h3 := List.eq_of_mem_replicate this
    rw [messageBytes_eq hp hx]
    simp only [Prod.mk.injEq] at h3
    rw [h3.1, h3.2]
    decide +kernel
  refine ⟨p, hp, h1, hlen, fun x h => by rw [hx x h]; omega, ?_⟩
  have : p.sent.map (fun x => messageBytes p.heap x.2.2) = List.replicate 2000 52 := by
    rw [← hlen]; exact List.map_eq_replicate_iff.mpr hx
  unfold sentBytes
  rw [this, List.sum_replicate_nat]
  decide

/-- Witness: a message whose value has a block of its own. -/
example : ∃ p : Pool, p.Reachable ∧ ∃ x ∈ p.sent, 1000 < messageBytes p.heap x.2.2 := by
  obtain ⟨p, hp, _, h2⟩ := pool_encodes [({ name := List.replicate 1000 97, trace := 7 }, [])]
  rw [List.map_eq_cons_iff] at h2
  obtain ⟨x, l, hl, hx, _⟩ := h2
  refine ⟨p, hp, x, by rw [hl]; simp, ?_⟩
  rw [messageBytes_eq hp (by rw [hl]; simp)]
  simp only [Prod.mk.injEq] at hx
  rw [hx.1, hx.2]
  decide +kernel

end Verif
