import Verif.Model.Balance
import Verif.Props.Binary

/-!
# Proofs about the Kafka encoder
-/

namespace Verif

/-! ## Memory -/

namespace Mem

variable {α : Type}

theorem write_data (m : Mem α) (block off : Nat) (vs : List α) (b i : Nat) :
    (m.write block off vs).data b i =
      if h : b = block ∧ off ≤ i ∧ i < off + vs.length then vs[i - off]'(by omega) else m.data b i := by
  unfold write
  dsimp only
  by_cases hb : b = block
  · rw [if_pos hb]
    by_cases hi : off ≤ i
    · by_cases hl : i < off + vs.length
      · rw [List.getElem?_eq_getElem (by omega), dif_pos ⟨hb, hi, hl⟩]
        simp [hi]
      · rw [List.getElem?_eq_none (by omega), dif_neg (fun h => hl h.2.2)]
    · rw [dif_neg (fun h => hi h.2.1)]
      split <;> simp [hi]
  · rw [if_neg hb, dif_neg (fun h => hb h.1)]

theorem write_sizes (m : Mem α) (block off : Nat) (vs : List α) : (m.write block off vs).sizes = m.sizes := rfl

theorem read_congr {m m' : Mem α} {s : Slice} (h : ∀ i < s.len, m'.data s.block (s.off + i) = m.data s.block (s.off + i)) :
    m'.read s = m.read s := by
  unfold read
  apply List.map_congr_left
  intro i hi
  exact h i (List.mem_range.mp hi)

theorem read_length (m : Mem α) (s : Slice) : (m.read s).length = s.len := by simp [read]

/-- Reading what has just been written. -/
theorem read_write (m : Mem α) (s : Slice) (vs : List α) (h : vs.length = s.len) : (m.write s.block s.off vs).read s = vs := by
  apply List.ext_getElem
  · rw [read_length, h]
  · intro i h1 h2
    simp only [read, List.getElem_map, List.getElem_range]
    rw [write_data, dif_pos ⟨rfl, by omega, by omega⟩]
    congr 1
    omega

theorem read_append (m : Mem α) (s : Slice) (vs : List α) :
    (m.write s.block (s.off + s.len) vs).read { s with len := s.len + vs.length } = m.read s ++ vs := by
  apply List.ext_getElem
  · simp [read_length]
  · intro i h1 h2
    rw [read_length] at h1
    dsimp only at h1
    simp only [read, List.getElem_map, List.getElem_range, List.getElem_append, List.length_map, List.length_range]
    rw [write_data]
    by_cases hi : i < s.len
    · rw [dif_neg (by omega), dif_pos hi]
    · rw [dif_pos ⟨rfl, by omega, by omega⟩, dif_neg hi]
      congr 1
      omega

end Mem

/-! ## The bytes written are those of `binaryEncode` -/

def BufOp.bytes : BufOp → List UInt8
  | .grow _ => []
  | .write bs => bs

theorem writeLongOps_bytes (r : Int64) : (writeLongOps r).flatMap BufOp.bytes = writeLong r := by
  unfold writeLongOps
  rw [List.flatMap_cons, List.flatMap_map]
  simp [BufOp.bytes]

theorem writeStringOps_bytes (s : Str) : (writeStringOps s).flatMap BufOp.bytes = writeString s := by
  unfold writeStringOps writeString
  rw [List.flatMap_append, writeLongOps_bytes]
  simp [BufOp.bytes]

theorem writeMapStringOps_bytes (ord : List (Str × Str)) : (writeMapStringOps ord).flatMap BufOp.bytes = writeMapString ord := by
  unfold writeMapStringOps writeMapString
  rw [List.flatMap_append, writeLongOps_bytes]
  split
  · rfl
  · rw [List.flatMap_append, writeLongOps_bytes, List.flatMap_assoc]
    simp [List.flatMap_append, writeStringOps_bytes]

theorem binaryEncodeOps_bytes (r : Span) (ord : List (Str × Str)) :
    (binaryEncodeOps r ord).flatMap BufOp.bytes = binaryEncode r ord := by
  unfold binaryEncodeOps binaryEncode
  simp only [List.flatMap_append, writeLongOps_bytes, writeStringOps_bytes, writeMapStringOps_bytes]

theorem writeLong_ne (r : Int64) : writeLong r ≠ [] := by
  unfold writeLong encodeInt
  split
  · simp
  · next h =>
    unfold encodeIntLoop
    rw [dif_pos]
    · simp
    · rw [gt_iff_lt, UInt64.lt_iff_toNat_lt]
      have : (((r <<< 1) ^^^ (r >>> 63)).toUInt64).toNat ≠ 0 := by
        intro he; apply h; exact UInt64.toNat_inj.mp (by simpa using he)
      simpa using Nat.pos_of_ne_zero this

theorem binaryEncode_ne (r : Span) (ord : List (Str × Str)) : binaryEncode r ord ≠ [] := by
  unfold binaryEncode
  simp only [List.append_assoc]
  intro h
  exact writeLong_ne _ (List.append_eq_nil_iff.mp h).1

/-! ## Filling the buffer -/

/-- The state of a buffer that was created at `b0` in a memory `m0`, with `acc` written so far. -/
structure BufInv (m0 : Mem UInt8) (b0 : Slice) (st : Mem UInt8 × Slice) (acc : List UInt8) : Prop where
  contents : st.1.read st.2 = acc
  room : st.2.len ≤ st.2.cap
  place : (st.2.block = b0.block ∧ st.2.off = b0.off ∧ st.2.cap = b0.cap) ∨ m0.sizes.length ≤ st.2.block
  bounds : st.2.off + st.2.cap ≤ st.1.size st.2.block
  inside : st.2.block < st.1.sizes.length
  sizes : ∃ more, st.1.sizes = m0.sizes ++ more
  frame : ∀ b i, b < m0.sizes.length → (b = b0.block → i < b0.off) → st.1.data b i = m0.data b i

theorem getD_append_left {α} (l l' : List α) (d : α) (i : Nat) (h : i < l.length) : (l ++ l').getD i d = l.getD i d := by
  simp [List.getD_eq_getElem?_getD, List.getElem?_append_left h]

theorem getD_append_self {α} (l : List α) (a d : α) : (l ++ [a]).getD l.length d = a := by
  simp [List.getD_eq_getElem?_getD]

theorem BufInv.grow {m0 b0 st acc} (h : BufInv m0 b0 st acc) (n : Nat) :
    BufInv m0 b0 (bufGrow st.1 st.2 n) acc ∧ (bufGrow st.1 st.2 n).2.len + n ≤ (bufGrow st.1 st.2 n).2.cap := by
  unfold bufGrow
  obtain ⟨more, hmore⟩ := h.sizes
  have hle : m0.sizes.length ≤ st.1.sizes.length := by rw [hmore]; simp
  split
  · next hn => exact ⟨h, by have := h.room; dsimp only; omega⟩
  · next hn =>
    have hroom := h.room
    unfold Mem.alloc
    dsimp only
    refine ⟨⟨?_, ?_, Or.inr hle, ?_, ?_, ?_, ?_⟩, ?_⟩
    · rw [← h.contents]
      exact Mem.read_write _ { block := st.1.sizes.length, off := 0, len := st.2.len } _ (Mem.read_length _ _)
    · dsimp only; omega
    · simp only [Mem.size, Mem.write_sizes, getD_append_self]; omega
    · simp [Mem.write_sizes]
    · exact ⟨more ++ [2 * st.2.cap + n], by simp [Mem.write_sizes, hmore]⟩
    · intro b i hb hi
      rw [Mem.write_data, dif_neg (by omega)]
      dsimp only
      rw [if_neg (by omega)]
      exact h.frame b i hb hi
    · omega

theorem BufInv.step {m0 b0 st acc} (h : BufInv m0 b0 st acc) (op : BufOp) : BufInv m0 b0 (bufStep st op) (acc ++ op.bytes) := by
  cases op with
  | grow n => rw [show acc ++ (BufOp.grow n).bytes = acc from List.append_nil _]; exact (h.grow n).1
  | write bs =>
    obtain ⟨g, hcap⟩ := h.grow bs.length
    show BufInv m0 b0 _ (acc ++ bs)
    unfold bufStep
    dsimp only
    generalize bufGrow st.1 st.2 bs.length = gst at g hcap
    refine ⟨?_, hcap, g.place, ?_, g.inside, g.sizes, ?_⟩
    · rw [← g.contents]; exact Mem.read_append _ _ _
    · exact g.bounds
    · intro b i hb hi
      rw [Mem.write_data, dif_neg, g.frame b i hb hi]
      rintro ⟨rfl, h2, h3⟩
      rcases g.place with ⟨p1, p2, p3⟩ | p
      · have := hi p1; omega
      · omega

theorem BufInv.run {m0 b0 st acc} (h : BufInv m0 b0 st acc) (ops : List BufOp) :
    BufInv m0 b0 (ops.foldl bufStep st) (acc ++ ops.flatMap BufOp.bytes) := by
  induction ops generalizing st acc with
  | nil => simpa using h
  | cons op ops ih =>
    rw [List.foldl_cons, List.flatMap_cons, ← List.append_assoc]
    exact ih (h.step op)

/-! ## Encoding -/

/-- A free slice of an encoder: it is empty, or it is the rest of an allocated block. -/
def Free {α} (m : Mem α) (s : Slice) : Prop :=
  s.cap = s.len ∧ (s.len = 0 ∨ (s.block < m.sizes.length ∧ s.off + s.len = m.size s.block))

/-- The slice `s` lies outside of what is free. -/
def Outside (s free : Slice) : Prop := free.len = 0 ∨ s.block ≠ free.block ∨ s.off + s.len ≤ free.off

/-- The header at `p` lies outside of what is free. -/
def OutsideA (p : Addr) (free : Slice) : Prop := free.len = 0 ∨ p.block ≠ free.block ∨ p.index < free.off

/-- The memory `m'` is a later state of `m` in which nothing but (new blocks and) the free part `free` of
`m` was written. -/
structure Later {α} (m : Mem α) (free : Slice) (m' : Mem α) : Prop where
  sizes : ∃ more, m'.sizes = m.sizes ++ more
  frame : ∀ b i, b < m.sizes.length → (free.len = 0 ∨ b ≠ free.block ∨ i < free.off) → m'.data b i = m.data b i

theorem Later.size {α} {m m' : Mem α} {free : Slice} (h : Later m free m') {b : Nat} (hb : b < m.sizes.length) : m'.size b = m.size b := by
  obtain ⟨more, hm⟩ := h.sizes
  unfold Mem.size
  rw [hm, getD_append_left _ _ _ _ hb]

theorem Later.length {α} {m m' : Mem α} {free : Slice} (h : Later m free m') : m.sizes.length ≤ m'.sizes.length := by
  obtain ⟨more, hm⟩ := h.sizes
  rw [hm]; simp

theorem Later.read {α} {m m' : Mem α} {free : Slice} (h : Later m free m') {s : Slice} (hb : s.block < m.sizes.length)
    (ho : Outside s free) : m'.read s = m.read s := by
  apply Mem.read_congr
  intro i hi
  apply h.frame _ _ hb
  rcases ho with ho | ho | ho
  · exact Or.inl ho
  · exact Or.inr (Or.inl ho)
  · exact Or.inr (Or.inr (by omega))

/-- The part of a memory that an encoder may write: what is left after the step is within what was
free, or in a new block. -/
def Shrinks {α} (m : Mem α) (free free' : Slice) : Prop :=
  free'.len = 0 ∨ m.sizes.length ≤ free'.block ∨ (free'.block = free.block ∧ free.len ≠ 0 ∧ free.off ≤ free'.off)

theorem Free.later {α} {m m' : Mem α} {free s : Slice} (h : Free m s) (hl : Later m free m') : Free m' s := by
  refine ⟨h.1, ?_⟩
  rcases h.2 with h | ⟨h1, h2⟩
  · exact Or.inl h
  · exact Or.inr ⟨Nat.lt_of_lt_of_le h1 hl.length, by rw [hl.size h1]; exact h2⟩

/-- What one call of `Encode` does. -/
structure Encoded (h : Heap) (enc : Encoder) (span : Span) (ord : List (Str × Str)) (h' : Heap) (enc' : Encoder)
    (msg : Message) : Prop where
  laterB : Later h.bytes enc.buf h'.bytes
  laterH : Later h.headers enc.slices h'.headers
  freeB : Free h'.bytes enc'.buf
  freeH : Free h'.headers enc'.slices
  shrinksB : Shrinks h.bytes enc.buf enc'.buf
  shrinksH : Shrinks h.headers enc.slices enc'.slices
  key : h'.deref msg.key = littleEndian span.trace.toUInt64
  value : h'.deref msg.value = binaryEncode span ord
  keyOut : OutsideA msg.key enc'.slices
  valueOut : OutsideA msg.value enc'.slices
  keyIn : msg.key.block < h'.headers.sizes.length
  valueIn : msg.value.block < h'.headers.sizes.length
  keyBytesOut : Outside (h'.headers.data msg.key.block msg.key.index) enc'.buf
  valueBytesOut : Outside (h'.headers.data msg.value.block msg.value.index) enc'.buf
  keyBytesIn : (h'.headers.data msg.key.block msg.key.index).block < h'.bytes.sizes.length
  valueBytesIn : (h'.headers.data msg.value.block msg.value.index).block < h'.bytes.sizes.length
  keyFresh : msg.key.block = enc.slices.block ∧ enc.slices.len ≠ 0 ∧ enc.slices.off ≤ msg.key.index ∨ h.headers.sizes.length ≤ msg.key.block
  valueFresh : msg.value.block = enc.slices.block ∧ enc.slices.len ≠ 0 ∧ enc.slices.off ≤ msg.value.index ∨ h.headers.sizes.length ≤ msg.value.block
  keyBytesFresh : ∀ s, s = h'.headers.data msg.key.block msg.key.index →
    s.block = enc.buf.block ∧ enc.buf.len ≠ 0 ∧ enc.buf.off ≤ s.off ∨ h.bytes.sizes.length ≤ s.block
  valueBytesFresh : ∀ s, s = h'.headers.data msg.value.block msg.value.index →
    s.block = enc.buf.block ∧ enc.buf.len ≠ 0 ∧ enc.buf.off ≤ s.off ∨ h.bytes.sizes.length ≤ s.block

/-- Getting memory: a sufficiently long rest, or a new block. -/
theorem refill {α} (m : Mem α) (zero : α) (s : Slice) (n size : Nat) (hs : Free m s) (hn : n ≤ size) (h0 : 0 < n) :
    let r := if s.len < n then m.alloc zero size else (m, s)
    Free r.1 r.2 ∧ Later m s r.1 ∧ n ≤ r.2.len ∧ r.2.block < r.1.sizes.length ∧
      (m.sizes.length ≤ r.2.block ∨ (r.2 = s ∧ s.len ≠ 0)) ∧ m.sizes.length ≤ r.1.sizes.length := by
  dsimp only
  split
  · unfold Mem.alloc
    dsimp only
    refine ⟨⟨rfl, Or.inr ⟨by simp, by simp [Mem.size, List.getD_eq_getElem?_getD]⟩⟩, ⟨⟨[size], rfl⟩, ?_⟩, hn, by simp, Or.inl (Nat.le_refl _), by simp⟩
    intro b i hb _
    dsimp only
    rw [if_neg (by omega)]
  · next hlt =>
    refine ⟨hs, ⟨⟨[], by simp⟩, fun _ _ _ _ => rfl⟩, by dsimp only; omega, ?_, Or.inr ⟨rfl, by omega⟩, Nat.le_refl _⟩
    rcases hs.2 with h | h
    · omega
    · exact h.1

theorem encode_spec {h : Heap} {enc : Encoder} (span : Span) (ord : List (Str × Str))
    (hb : Free h.bytes enc.buf) (hh : Free h.headers enc.slices) :
    ∃ h' enc' msg, encode h enc span ord = some (h', enc', msg) ∧ Encoded h enc span ord h' enc' msg := by
  have rb := refill h.bytes 0 enc.buf (8 + expectedMaxSpanSize) (32 * 1024) hb (by decide) (by decide)
  have rh := refill h.headers {} enc.slices 2 1024 hh (by decide) (by decide)
  unfold encode
  generalize (if enc.buf.len < 8 + expectedMaxSpanSize then h.bytes.alloc 0 (32 * 1024) else (h.bytes, enc.buf)) = rB at rb
  generalize (if enc.slices.len < 2 then h.headers.alloc {} 1024 else (h.headers, enc.slices)) = rH at rh
  obtain ⟨mB, sB⟩ := rB
  obtain ⟨mH, sH⟩ := rH
  dsimp only at rb rh ⊢
  have b1 := rb.1
  have b2 := rb.2.1
  have b3 := rb.2.2.1
  have b4 := rb.2.2.2.1
  have b5 := rb.2.2.2.2.1
  have b6 := rb.2.2.2.2.2
  have h1 := rh.1
  have h2 := rh.2.1
  have h3 := rh.2.2.1
  have h4 := rh.2.2.2.1
  have h5 := rh.2.2.2.2.1
  have h6 := rh.2.2.2.2.2
  have hexp : expectedMaxSpanSize = 512 := rfl
  rw [hexp] at b3
  have hl2 : ¬ sH.len < 2 := by omega
  have hl8 : ¬ sB.len < 8 := by omega
  rw [if_neg hl2, if_neg hl8]
  have hcap : (sB.from 8).cap = sB.len - 8 := by unfold Slice.from; dsimp only; rw [b1.1]
  rw [if_neg (by rw [hcap]; omega)]
  have hsize : sB.off + sB.len = mB.size sB.block := by
    rcases b1.2 with hx | hx
    · omega
    · exact hx.2
  -- the buffer
  generalize hm1 : mB.write sB.block sB.off (littleEndian span.trace.toUInt64) = m1
  have hm1s : m1.sizes = mB.sizes := by rw [← hm1]; rfl
  have init : BufInv m1 { block := sB.block, off := sB.off + 8, len := 0, cap := 512 }
      (m1, { block := sB.block, off := sB.off + 8, len := 0, cap := 512 }) [] := by
    refine ⟨rfl, by simp, Or.inl ⟨rfl, rfl, rfl⟩, ?_, by rw [hm1s]; exact b4, ⟨[], by simp⟩, fun _ _ _ _ => rfl⟩
    have e : m1.size sB.block = mB.size sB.block := by unfold Mem.size; rw [hm1s]
    dsimp only
    rw [e, ← hsize]; omega
  have run := init.run (binaryEncodeOps span ord)
  rw [List.nil_append, binaryEncodeOps_bytes] at run
  have hfrom : (sB.from 8).len = sB.len - 8 := rfl
  have hfb : (sB.from 8).block = sB.block := rfl
  have hfo : (sB.from 8).off = sB.off + 8 := rfl
  simp only [hfb, hfo, hm1, hexp]
  generalize (binaryEncodeOps span ord).foldl bufStep (m1, { block := sB.block, off := sB.off + 8, len := 0, cap := 512 }) = res at run
  obtain ⟨m2, b⟩ := res
  have hlen : b.len = (binaryEncode span ord).length := by
    have := congrArg List.length run.contents
    rwa [Mem.read_length] at this
  have hpos : 0 < b.len := by rw [hlen]; exact List.length_pos_iff.mpr (binaryEncode_ne _ _)
  have hcon := run.contents
  have hroom := run.room
  have hplace := run.place
  have hbounds := run.bounds
  have hinside := run.inside
  obtain ⟨more, hmore⟩ := run.sizes
  have hframe := run.frame
  dsimp only at hcon hroom hplace hbounds hinside hmore hframe ⊢
  rw [if_neg (by rw [hfrom]; omega)]
  have hsame_len : b.block = sB.block ∧ b.off = sB.off + 8 → b.len ≤ 512 := by
    intro hsm
    rcases hplace with ⟨_, _, hc⟩ | hp
    · omega
    · rw [hm1s] at hp; omega
  rw [if_neg (by rw [hfrom]; rintro ⟨hsm, hlt⟩; have := hsame_len hsm; omega)]
  -- the headers
  have hhk : ∀ v w : Slice, ((mH.write sH.block sH.off [v]).write sH.block (sH.off + 1) [w]).data sH.block sH.off = v := by
    intro v w
    rw [Mem.write_data, dif_neg (by omega), Mem.write_data, dif_pos ⟨rfl, by omega, by simp⟩]
    simp
  have hhv : ∀ v w : Slice, ((mH.write sH.block sH.off [v]).write sH.block (sH.off + 1) [w]).data sH.block (sH.off + 1) = w := by
    intro v w
    rw [Mem.write_data, dif_pos ⟨rfl, by omega, by simp⟩]
    simp
  have hm2le : mB.sizes.length ≤ m2.sizes.length := by rw [hmore, hm1s]; simp
  -- the key bytes
  have hkey : m2.read { sB with len := 8 } = littleEndian span.trace.toUInt64 := by
    have e1 : m2.read { sB with len := 8 } = m1.read { sB with len := 8 } := by
      apply Mem.read_congr
      intro i hi
      apply hframe
      · rw [hm1s]; exact b4
      · intro _; dsimp only at hi ⊢; omega
    rw [e1, ← hm1]
    exact Mem.read_write mB { sB with len := 8 } _ rfl
  -- the later states of the memories
  have laterB : Later h.bytes enc.buf m2 := by
    obtain ⟨m3, hm3⟩ := b2.sizes
    refine ⟨⟨m3 ++ more, by rw [hmore, hm1s, hm3, List.append_assoc]⟩, ?_⟩
    intro bl i hbl hout
    have hblB : bl < mB.sizes.length := Nat.lt_of_lt_of_le hbl b6
    have hlt : bl = sB.block → i < sB.off := by
      intro he
      rcases b5 with hx | ⟨hx, hne⟩
      · omega
      · rcases hout with ho | ho | ho
        · exact absurd ho hne
        · rw [he, hx] at ho; exact absurd rfl ho
        · rw [hx]; exact ho
    rw [hframe bl i (by rw [hm1s]; exact hblB) (fun he => by have := hlt he; omega), ← hm1, Mem.write_data, dif_neg]
    · exact b2.frame bl i hbl hout
    · rintro ⟨he, hle, _⟩
      have := hlt he; omega
  have laterH : Later h.headers enc.slices ((mH.write sH.block sH.off [{ sB with len := 8 }]).write sH.block (sH.off + 1) [b]) := by
    obtain ⟨m3, hm3⟩ := h2.sizes
    refine ⟨⟨m3, hm3⟩, ?_⟩
    intro bl i hbl hout
    have hlt : bl = sH.block → i < sH.off := by
      intro he
      rcases h5 with hx | ⟨hx, hne⟩
      · omega
      · rcases hout with ho | ho | ho
        · exact absurd ho hne
        · rw [he, hx] at ho; exact absurd rfl ho
        · rw [hx]; exact ho
    rw [Mem.write_data, dif_neg, Mem.write_data, dif_neg]
    · exact h2.frame bl i hbl hout
    · rintro ⟨he, hle, _⟩
      have := hlt he; omega
    · rintro ⟨he, hle, _⟩
      have := hlt he; omega
  have hsizeH : sH.off + sH.len = mH.size sH.block := by
    rcases h1.2 with hx | hx
    · omega
    · exact hx.2
  have hsizeB2 : m2.size sB.block = mB.size sB.block := by
    unfold Mem.size
    rw [hmore, getD_append_left _ _ _ _ (by rw [hm1s]; exact b4), hm1s]
  have freshB : ∀ off, sB.off ≤ off → sB.block = enc.buf.block ∧ enc.buf.len ≠ 0 ∧ enc.buf.off ≤ off ∨ h.bytes.sizes.length ≤ sB.block := by
    intro off hoff
    rcases b5 with hx | ⟨hx, hne⟩
    · exact Or.inr hx
    · left; rw [hx] at hoff ⊢; exact ⟨rfl, hne, hoff⟩
  have freshH : ∀ off, sH.off ≤ off → sH.block = enc.slices.block ∧ enc.slices.len ≠ 0 ∧ enc.slices.off ≤ off ∨ h.headers.sizes.length ≤ sH.block := by
    intro off hoff
    rcases h5 with hx | ⟨hx, hne⟩
    · exact Or.inr hx
    · left; rw [hx] at hoff ⊢; exact ⟨rfl, hne, hoff⟩
  have shrB : ∀ off len, sB.off ≤ off → Shrinks h.bytes enc.buf { block := sB.block, off := off, len := len, cap := len } := by
    intro off len hoff
    rcases freshB off hoff with hx | hx
    · exact Or.inr (Or.inr hx)
    · exact Or.inr (Or.inl hx)
  have hb8 : sB.from 8 = { block := sB.block, off := sB.off + 8, len := sB.len - 8, cap := sB.len - 8 } := by
    unfold Slice.from; rw [b1.1]
  have hm2in : sB.block < m2.sizes.length := Nat.lt_of_lt_of_le b4 hm2le
  by_cases hsm : b.block = sB.block ∧ b.off = sB.off + 8
  · have hle := hsame_len hsm
    rw [if_pos hsm]
    refine ⟨_, _, _, rfl, ?_⟩
    have hfin : (sB.from 8).from b.len =
        { block := sB.block, off := sB.off + 8 + b.len, len := sB.len - 8 - b.len, cap := sB.len - 8 - b.len } := by
      rw [hb8]; rfl
    refine ⟨laterB, laterH, ?_, ?_, ?_, ?_, ?_, ?_, ?_, ?_, h4, h4, ?_, ?_, ?_, ?_, freshH _ (by simp), freshH _ (by simp), ?_, ?_⟩
    · dsimp only
      rw [hfin]
      refine ⟨rfl, Or.inr ⟨hm2in, ?_⟩⟩
      dsimp only
      rw [hsizeB2, ← hsize]; omega
    · refine ⟨by unfold Slice.from; dsimp only; rw [h1.1], Or.inr ⟨h4, ?_⟩⟩
      show sH.off + 2 + (sH.len - 2) = mH.size sH.block
      omega
    · dsimp only; rw [hfin]; exact shrB _ _ (by omega)
    · rcases freshH (sH.off + 2) (by omega) with hx | hx
      · exact Or.inr (Or.inr hx)
      · exact Or.inr (Or.inl hx)
    · unfold Heap.deref; dsimp only; rw [hhk]; exact hkey
    · unfold Heap.deref; dsimp only; rw [hhv]; exact hcon
    · exact Or.inr (Or.inr (by show sH.off < sH.off + 2; omega))
    · exact Or.inr (Or.inr (by show sH.off + 1 < sH.off + 2; omega))
    · dsimp only; rw [hhk, hfin]; exact Or.inr (Or.inr (by dsimp only; omega))
    · dsimp only; rw [hhv, hfin]; exact Or.inr (Or.inr (by dsimp only; omega))
    · dsimp only; rw [hhk]; exact hm2in
    · dsimp only; rw [hhv]; exact hinside
    · intro s hs
      dsimp only at hs; rw [hhk] at hs; subst hs
      exact freshB _ (Nat.le_refl _)
    · intro s hs
      dsimp only at hs; rw [hhv] at hs; subst hs
      rw [hsm.1]; exact freshB _ (by omega)
  · rw [if_neg hsm]
    refine ⟨_, _, _, rfl, ?_⟩
    have hnew : mB.sizes.length ≤ b.block := by
      rcases hplace with hx | hx
      · exact absurd ⟨hx.1, hx.2.1⟩ hsm
      · rw [hm1s] at hx; exact hx
    refine ⟨laterB, laterH, ?_, ?_, ?_, ?_, ?_, ?_, ?_, ?_, h4, h4, ?_, ?_, ?_, ?_, freshH _ (by simp), freshH _ (by simp), ?_, ?_⟩
    · dsimp only
      rw [hb8]
      refine ⟨rfl, Or.inr ⟨hm2in, ?_⟩⟩
      dsimp only
      rw [hsizeB2, ← hsize]; omega
    · refine ⟨by unfold Slice.from; dsimp only; rw [h1.1], Or.inr ⟨h4, ?_⟩⟩
      show sH.off + 2 + (sH.len - 2) = mH.size sH.block
      omega
    · dsimp only; rw [hb8]; exact shrB _ _ (by omega)
    · rcases freshH (sH.off + 2) (by omega) with hx | hx
      · exact Or.inr (Or.inr hx)
      · exact Or.inr (Or.inl hx)
    · unfold Heap.deref; dsimp only; rw [hhk]; exact hkey
    · unfold Heap.deref; dsimp only; rw [hhv]; exact hcon
    · exact Or.inr (Or.inr (by show sH.off < sH.off + 2; omega))
    · exact Or.inr (Or.inr (by show sH.off + 1 < sH.off + 2; omega))
    · dsimp only; rw [hhk, hb8]; exact Or.inr (Or.inr (by dsimp only; omega))
    · dsimp only; rw [hhv, hb8]; exact Or.inr (Or.inl (by dsimp only; omega))
    · dsimp only; rw [hhk]; exact hm2in
    · dsimp only; rw [hhv]; exact hinside
    · intro s hs
      dsimp only at hs; rw [hhk] at hs; subst hs
      exact freshB _ (Nat.le_refl _)
    · intro s hs
      dsimp only at hs; rw [hhv] at hs; subst hs
      right; omega

/-! ## The pool -/

/-- Two free slices do not overlap. -/
def Apart (a b : Slice) : Prop := a.len = 0 ∨ b.len = 0 ∨ a.block ≠ b.block

/-- A message that has been made: it still says what it said, and nothing free overlaps with it. -/
structure SentInv (h : Heap) (encs : List Encoder) (span : Span) (ord : List (Str × Str)) (m : Message) : Prop where
  key : h.deref m.key = littleEndian span.trace.toUInt64
  value : h.deref m.value = binaryEncode span ord
  keyIn : m.key.block < h.headers.sizes.length
  valueIn : m.value.block < h.headers.sizes.length
  keyBytesIn : (h.headers.data m.key.block m.key.index).block < h.bytes.sizes.length
  valueBytesIn : (h.headers.data m.value.block m.value.index).block < h.bytes.sizes.length
  keyOut : ∀ e ∈ encs, OutsideA m.key e.slices
  valueOut : ∀ e ∈ encs, OutsideA m.value e.slices
  keyBytesOut : ∀ e ∈ encs, Outside (h.headers.data m.key.block m.key.index) e.buf
  valueBytesOut : ∀ e ∈ encs, Outside (h.headers.data m.value.block m.value.index) e.buf

structure PoolInv (p : Pool) : Prop where
  freeB : ∀ e ∈ p.encoders, Free p.heap.bytes e.buf
  freeH : ∀ e ∈ p.encoders, Free p.heap.headers e.slices
  apart : ∀ (i j : Nat) (ei ej : Encoder), i ≠ j → p.encoders[i]? = some ei → p.encoders[j]? = some ej →
    Apart ei.buf ej.buf ∧ Apart ei.slices ej.slices
  sent : ∀ x ∈ p.sent, SentInv p.heap p.encoders x.1 x.2.1 x.2.2

theorem Outside.shrinks {α} {m : Mem α} {free free' s : Slice} (h : Outside s free) (hs : Shrinks m free free')
    (hin : s.block < m.sizes.length) : Outside s free' := by
  rcases hs with hs | hs | ⟨h1, h2, h3⟩
  · exact Or.inl hs
  · exact Or.inr (Or.inl (by omega))
  · rcases h with h | h | h
    · exact absurd h h2
    · exact Or.inr (Or.inl (by rw [h1]; exact h))
    · exact Or.inr (Or.inr (by omega))

theorem OutsideA.shrinks {α} {m : Mem α} {free free' : Slice} {p : Addr} (h : OutsideA p free) (hs : Shrinks m free free')
    (hin : p.block < m.sizes.length) : OutsideA p free' := by
  rcases hs with hs | hs | ⟨h1, h2, h3⟩
  · exact Or.inl hs
  · exact Or.inr (Or.inl (by omega))
  · rcases h with h | h | h
    · exact absurd h h2
    · exact Or.inr (Or.inl (by rw [h1]; exact h))
    · exact Or.inr (Or.inr (by omega))

theorem Apart.shrinks {α} {m : Mem α} {free free' other : Slice} (h : Apart free other) (hs : Shrinks m free free')
    (ho : Free m other) : Apart free' other := by
  rcases hs with hs | hs | ⟨h1, h2, _⟩
  · exact Or.inl hs
  · rcases ho.2 with h0 | ⟨h0, _⟩
    · exact Or.inr (Or.inl h0)
    · exact Or.inr (Or.inr (by omega))
  · rcases h with h | h | h
    · exact absurd h h2
    · exact Or.inr (Or.inl h)
    · exact Or.inr (Or.inr (by rw [h1]; exact h))

theorem Apart.symm {a b : Slice} (h : Apart a b) : Apart b a := by
  rcases h with h | h | h
  · exact Or.inr (Or.inl h)
  · exact Or.inl h
  · exact Or.inr (Or.inr (Ne.symm h))

theorem outside_fresh {α} {m : Mem α} {free other s : Slice}
    (hf : s.block = free.block ∧ free.len ≠ 0 ∧ free.off ≤ s.off ∨ m.sizes.length ≤ s.block)
    (ha : Apart free other) (ho : Free m other) : Outside s other := by
  rcases hf with ⟨h1, h2, _⟩ | h
  · rcases ha with ha | ha | ha
    · exact absurd ha h2
    · exact Or.inl ha
    · exact Or.inr (Or.inl (by rw [h1]; exact ha))
  · rcases ho.2 with h0 | ⟨h0, _⟩
    · exact Or.inl h0
    · exact Or.inr (Or.inl (by omega))

theorem outsideA_fresh {α} {m : Mem α} {free other : Slice} {p : Addr}
    (hf : p.block = free.block ∧ free.len ≠ 0 ∧ free.off ≤ p.index ∨ m.sizes.length ≤ p.block)
    (ha : Apart free other) (ho : Free m other) : OutsideA p other := by
  rcases hf with ⟨h1, h2, _⟩ | h
  · rcases ha with ha | ha | ha
    · exact absurd ha h2
    · exact Or.inl ha
    · exact Or.inr (Or.inl (by rw [h1]; exact ha))
  · rcases ho.2 with h0 | ⟨h0, _⟩
    · exact Or.inl h0
    · exact Or.inr (Or.inl (by omega))

theorem mem_set_iff' {α} {l : List α} {j : Nat} {a x : α} (h : x ∈ l.set j a) :
    x = a ∨ ∃ i, i ≠ j ∧ l[i]? = some x := by
  obtain ⟨i, hi⟩ := List.getElem?_of_mem h
  rw [List.getElem?_set] at hi
  split at hi
  · split at hi
    · exact Or.inl (Option.some.inj hi).symm
    · cases hi
  · next hne => exact Or.inr ⟨i, fun he => hne he.symm, hi⟩

theorem PoolInv.init : PoolInv {} :=
  { freeB := fun _ h => (List.not_mem_nil h).elim
    freeH := fun _ h => (List.not_mem_nil h).elim
    apart := fun _ _ _ _ _ h => by simp at h
    sent := fun _ h => (List.not_mem_nil h).elim }

theorem free_empty {α} (m : Mem α) : Free m {} := ⟨rfl, Or.inl rfl⟩

theorem PoolInv.step {p q : Pool} (h : PoolInv p) (st : Pool.Step p q) : PoolInv q := by
  cases st with
  | new =>
    refine ⟨?_, ?_, ?_, ?_⟩
    · intro e he
      rcases List.mem_append.mp he with he | he
      · exact h.freeB e he
      · rw [List.mem_singleton.mp he]; exact free_empty _
    · intro e he
      rcases List.mem_append.mp he with he | he
      · exact h.freeH e he
      · rw [List.mem_singleton.mp he]; exact free_empty _
    · intro i j ei ej hne hi hj
      have key : ∀ (k : Nat) (ek : Encoder), (p.encoders ++ [({} : Encoder)])[k]? = some ek →
          p.encoders[k]? = some ek ∨ ek = {} := by
        intro k ek hk
        rw [List.getElem?_append] at hk
        split at hk
        · exact Or.inl hk
        · right
          have := List.mem_of_getElem? hk
          simpa using this
      rcases key i ei hi with hi | hi
      · rcases key j ej hj with hj | hj
        · exact h.apart i j ei ej hne hi hj
        · subst hj; exact ⟨Or.inr (Or.inl rfl), Or.inr (Or.inl rfl)⟩
      · subst hi; exact ⟨Or.inl rfl, Or.inl rfl⟩
    · intro x hx
      have s := h.sent x hx
      have ext : ∀ {P : Encoder → Prop}, (∀ e ∈ p.encoders, P e) → P {} → ∀ e ∈ p.encoders ++ [({} : Encoder)], P e := by
        intro P h1 h2 e he
        rcases List.mem_append.mp he with he | he
        · exact h1 e he
        · rw [List.mem_singleton.mp he]; exact h2
      exact ⟨s.key, s.value, s.keyIn, s.valueIn, s.keyBytesIn, s.valueBytesIn, ext s.keyOut (Or.inl rfl),
        ext s.valueOut (Or.inl rfl), ext s.keyBytesOut (Or.inl rfl), ext s.valueBytesOut (Or.inl rfl)⟩
  | @encode j enc enc' span ord h' m hj he =>
    have hmem := List.mem_of_getElem? hj
    obtain ⟨h2, enc2, m2, he2, E⟩ := encode_spec span ord (h.freeB enc hmem) (h.freeH enc hmem)
    rw [he] at he2
    injection he2 with he2
    injection he2 with e1 e2
    injection e2 with e2 e3
    subst e1 e2 e3
    have apartOf : ∀ (i : Nat) (e : Encoder), i ≠ j → p.encoders[i]? = some e → Apart enc.buf e.buf ∧ Apart enc.slices e.slices :=
      fun i e hne hi => h.apart j i enc e (Ne.symm hne) hj hi
    refine ⟨?_, ?_, ?_, ?_⟩
    · intro e hm
      rcases mem_set_iff' hm with rfl | ⟨i, _, hi⟩
      · exact E.freeB
      · exact (h.freeB e (List.mem_of_getElem? hi)).later E.laterB
    · intro e hm
      rcases mem_set_iff' hm with rfl | ⟨i, _, hi⟩
      · exact E.freeH
      · exact (h.freeH e (List.mem_of_getElem? hi)).later E.laterH
    · intro a b ea eb hne ha hb
      dsimp only at ha hb
      rw [List.getElem?_set] at ha hb
      have new : ∀ (i : Nat) (e : Encoder), i ≠ j → p.encoders[i]? = some e → Apart enc'.buf e.buf ∧ Apart enc'.slices e.slices := by
        intro i e hij hi
        have hA := apartOf i e hij hi
        exact ⟨hA.1.shrinks E.shrinksB (h.freeB e (List.mem_of_getElem? hi)),
          hA.2.shrinks E.shrinksH (h.freeH e (List.mem_of_getElem? hi))⟩
      by_cases haj : j = a
      · have hbj : ¬ j = b := fun hb => hne (haj.symm.trans hb)
        rw [if_pos haj] at ha
        rw [if_neg hbj] at hb
        split at ha
        · injection ha with ha
          subst ha
          exact new b eb (Ne.symm hbj) hb
        · cases ha
      · rw [if_neg haj] at ha
        by_cases hbj : j = b
        · rw [if_pos hbj] at hb
          split at hb
          · injection hb with hb
            subst hb
            have := new a ea (Ne.symm haj) ha
            exact ⟨this.1.symm, this.2.symm⟩
          · cases hb
        · rw [if_neg hbj] at hb
          exact h.apart a b ea eb hne ha hb
    · intro x hx
      rcases List.mem_append.mp hx with hx | hx
      · -- an earlier message
        have s := h.sent x hx
        have dk : h'.headers.data x.2.2.key.block x.2.2.key.index = p.heap.headers.data x.2.2.key.block x.2.2.key.index :=
          E.laterH.frame _ _ s.keyIn (s.keyOut enc hmem)
        have dv : h'.headers.data x.2.2.value.block x.2.2.value.index = p.heap.headers.data x.2.2.value.block x.2.2.value.index :=
          E.laterH.frame _ _ s.valueIn (s.valueOut enc hmem)
        refine ⟨?_, ?_, Nat.lt_of_lt_of_le s.keyIn E.laterH.length, Nat.lt_of_lt_of_le s.valueIn E.laterH.length, ?_, ?_, ?_, ?_, ?_, ?_⟩
        · have := s.key
          unfold Heap.deref at this ⊢
          rw [dk, E.laterB.read s.keyBytesIn (s.keyBytesOut enc hmem)]
          exact this
        · have := s.value
          unfold Heap.deref at this ⊢
          rw [dv, E.laterB.read s.valueBytesIn (s.valueBytesOut enc hmem)]
          exact this
        · rw [dk]; exact Nat.lt_of_lt_of_le s.keyBytesIn E.laterB.length
        · rw [dv]; exact Nat.lt_of_lt_of_le s.valueBytesIn E.laterB.length
        · intro e hm
          rcases mem_set_iff' hm with rfl | ⟨i, _, hi⟩
          · exact (s.keyOut enc hmem).shrinks E.shrinksH s.keyIn
          · exact s.keyOut e (List.mem_of_getElem? hi)
        · intro e hm
          rcases mem_set_iff' hm with rfl | ⟨i, _, hi⟩
          · exact (s.valueOut enc hmem).shrinks E.shrinksH s.valueIn
          · exact s.valueOut e (List.mem_of_getElem? hi)
        · intro e hm
          rw [dk]
          rcases mem_set_iff' hm with rfl | ⟨i, _, hi⟩
          · exact (s.keyBytesOut enc hmem).shrinks E.shrinksB s.keyBytesIn
          · exact s.keyBytesOut e (List.mem_of_getElem? hi)
        · intro e hm
          rw [dv]
          rcases mem_set_iff' hm with rfl | ⟨i, _, hi⟩
          · exact (s.valueBytesOut enc hmem).shrinks E.shrinksB s.valueBytesIn
          · exact s.valueBytesOut e (List.mem_of_getElem? hi)
      · -- the message just made
        rw [List.mem_singleton.mp hx]
        refine ⟨E.key, E.value, E.keyIn, E.valueIn, E.keyBytesIn, E.valueBytesIn, ?_, ?_, ?_, ?_⟩
        · intro e hm
          rcases mem_set_iff' hm with rfl | ⟨i, hij, hi⟩
          · exact E.keyOut
          · exact outsideA_fresh E.keyFresh (apartOf i e hij hi).2 (h.freeH e (List.mem_of_getElem? hi))
        · intro e hm
          rcases mem_set_iff' hm with rfl | ⟨i, hij, hi⟩
          · exact E.valueOut
          · exact outsideA_fresh E.valueFresh (apartOf i e hij hi).2 (h.freeH e (List.mem_of_getElem? hi))
        · intro e hm
          rcases mem_set_iff' hm with rfl | ⟨i, hij, hi⟩
          · exact E.keyBytesOut
          · exact outside_fresh (E.keyBytesFresh _ rfl) (apartOf i e hij hi).1 (h.freeB e (List.mem_of_getElem? hi))
        · intro e hm
          rcases mem_set_iff' hm with rfl | ⟨i, hij, hi⟩
          · exact E.valueBytesOut
          · exact outside_fresh (E.valueBytesFresh _ rfl) (apartOf i e hij hi).1 (h.freeB e (List.mem_of_getElem? hi))

theorem Pool.Reachable.inv {p : Pool} (h : p.Reachable) : PoolInv p := by
  induction h with
  | init => exact PoolInv.init
  | step _ st ih => exact ih.step st

end Verif
