import Verif.Spec.BinaryError
import Verif.Proofs.Binary

/-!
# Helpers for C107
-/

namespace Verif

open Spec

theorem DecE.bind_of_ok {α β} {x : DecE α} {f : α → DecE β} {s a s'} (h : x s = .ok (a, s')) : (x >>= f) s = f a s' := by
  show (x s >>= fun p => f p.1 p.2) = _
  rw [h]; rfl

theorem DecE.bind_of_error {α β} {x : DecE α} {f : α → DecE β} {s e} (h : x s = .error e) : (x >>= f) s = .error e := by
  show (x s >>= fun p => f p.1 p.2) = _
  rw [h]; rfl

/-! ## The same without the errors -/

def SameValue {α} (d : DecE α) (d' : Dec α) (bs : List UInt8) : Prop := (d bs).toOption = d' bs

theorem SameValue.bind {α β} {d : DecE α} {d' : Dec α} {f : α → DecE β} {f' : α → Dec β} {bs} (h : SameValue d d' bs) (hf : ∀ a rest, d bs = .ok (a, rest) → SameValue (f a) (f' a) rest) :
    SameValue (d >>= f) (d' >>= f') bs := by
  unfold SameValue at *
  cases e : d bs with
  | error x =>
    rw [DecE.bind_of_error e]
    rw [e] at h
    show none = (d' bs >>= fun p => f' p.1 p.2)
    rw [← h]; rfl
  | ok p =>
    obtain ⟨a, rest⟩ := p
    rw [DecE.bind_of_ok e]
    rw [e] at h
    rw [Dec.bind_of_some (h.symm.trans rfl : d' bs = some (a, rest))]
    exact hf a rest e

theorem SameValue.pure {α} (a : α) (bs) : SameValue (Pure.pure a) (Pure.pure a) bs := rfl

theorem readLongE_agrees (bs) : SameValue readLongE readLong bs := by
  have h : ∀ (bs : List UInt8) v s, (readLongLoopE v s bs).toOption = readLongLoop v s bs := by
    intro bs
    induction bs with
    | nil => intro v s; rfl
    | cons b bs ih =>
      intro v s
      unfold readLongLoopE readLongLoop
      by_cases hb : (b &&& 128 == 0) = true
      · simp only [hb, if_true]; rfl
      · simp only [hb]; exact ih _ _
  unfold SameValue readLongE readLong
  rw [← h]
  cases readLongLoopE 0 0 bs <;> rfl

theorem readStringE_agrees (bs) : SameValue readStringE readBinaryString bs := by
  refine (readLongE_agrees bs).bind fun len rest _ => ?_
  by_cases h1 : lengthRefused len
  · unfold SameValue
    rw [if_pos h1, if_pos h1]; rfl
  · unfold SameValue
    rw [if_neg h1, if_neg h1]
    by_cases h2 : len = 0
    · rw [if_pos h2, if_pos h2]; rfl
    · rw [if_neg h2, if_neg h2]
      unfold readFullE readFull
      by_cases h3 : len.toInt.toNat ≤ rest.length
      · rw [if_pos h3, if_pos h3]; rfl
      · rw [if_neg h3, if_neg h3]
        by_cases h4 : rest.length = 0
        · rw [if_pos h4]; rfl
        · rw [if_neg h4]; rfl

theorem readEntriesE_agrees (n : Nat) : ∀ m bs, SameValue (readEntriesE n m) (readEntries n m) bs := by
  induction n with
  | zero => exact fun m bs => SameValue.pure m bs
  | succ n ih => exact fun m bs => (readStringE_agrees bs).bind fun k _ _ => (readStringE_agrees _).bind fun v _ _ => ih _ _

/-- The outer loop, once. -/
def blocksBody (m : TagMap) : DecE TagMap := do
  let blk ← readLongE
  if blk = 0 then return m
  else if blk < 0 then do
    let _ ← readLongE
    let m' ← readEntriesE (-blk).toInt.toNat m
    readBlocksE m'
  else do
    let m' ← readEntriesE blk.toInt.toNat m
    readBlocksE m'

theorem readBlocksE_eq (m : TagMap) (bs : List UInt8) : readBlocksE m bs = blocksBody m bs := by
  rw [readBlocksE]
  unfold blocksBody
  split
  · next e h => rw [DecE.bind_of_error h]
  · next blk bs1 h =>
    rw [DecE.bind_of_ok h]
    by_cases h0 : blk = 0
    · rw [if_pos h0, if_pos h0]; rfl
    · rw [if_neg h0, if_neg h0]
      by_cases h1 : blk < 0
      · rw [if_pos h1, if_pos h1]
        split
        · next e h2 => rw [DecE.bind_of_error h2]
        · next h2 =>
          rw [DecE.bind_of_ok h2]
          split
          · next e h3 => rw [DecE.bind_of_error h3]
          · next h3 => rw [DecE.bind_of_ok h3]
      · rw [if_neg h1, if_neg h1]
        split
        · next e h3 => rw [DecE.bind_of_error h3]
        · next h3 => rw [DecE.bind_of_ok h3]

def blocksBody' (m : TagMap) : Dec TagMap := do
  let blk ← readLong
  if blk = 0 then return m
  else if blk < 0 then do
    let _ ← readLong
    let m' ← readEntries (-blk).toInt.toNat m
    readBlocks m'
  else do
    let m' ← readEntries blk.toInt.toNat m
    readBlocks m'

theorem Dec.bind_of_none {α β} {x : Dec α} {f : α → Dec β} {s} (h : x s = none) : (x >>= f) s = none := by
  show (x s >>= fun p => f p.1 p.2) = _
  rw [h]; rfl

theorem readBlocks_eq (m : TagMap) (bs : List UInt8) : readBlocks m bs = blocksBody' m bs := by
  rw [readBlocks]
  unfold blocksBody'
  split
  · next h => rw [Dec.bind_of_none h]
  · next blk bs1 h =>
    rw [Dec.bind_of_some h]
    by_cases h0 : blk = 0
    · rw [if_pos h0, if_pos h0]; rfl
    · rw [if_neg h0, if_neg h0]
      by_cases h1 : blk < 0
      · rw [if_pos h1, if_pos h1]
        split
        · next h2 => rw [Dec.bind_of_none h2]
        · next h2 =>
          rw [Dec.bind_of_some h2]
          split
          · next h3 => rw [Dec.bind_of_none h3]
          · next h3 => rw [Dec.bind_of_some h3]
      · rw [if_neg h1, if_neg h1]
        split
        · next h3 => rw [Dec.bind_of_none h3]
        · next h3 => rw [Dec.bind_of_some h3]

theorem readBlocksE_agrees (n : Nat) : ∀ m bs, bs.length ≤ n → SameValue (readBlocksE m) (readBlocks m) bs := by
  induction n with
  | zero =>
    intro m bs hb
    have : bs = [] := List.eq_nil_of_length_eq_zero (by omega)
    subst this
    unfold SameValue
    rw [readBlocksE_eq, readBlocks_eq]; rfl
  | succ n ih =>
    intro m bs hb
    unfold SameValue
    rw [readBlocksE_eq, readBlocks_eq]
    refine (readLongE_agrees bs).bind fun blk rest hl => ?_
    have hlt := readLongE_length hl
    by_cases h0 : blk = 0
    · rw [if_pos h0, if_pos h0]; exact SameValue.pure _ _
    · rw [if_neg h0, if_neg h0]
      by_cases h1 : blk < 0
      · rw [if_pos h1, if_pos h1]
        exact (readLongE_agrees _).bind fun _ rest' hl' => (readEntriesE_agrees _ _ _).bind fun m' rest'' hl'' => ih _ _ (by
          have := readLongE_length hl'
          have := readEntriesE_length hl''
          simp only at *
          omega)
      · rw [if_neg h1, if_neg h1]
        exact (readEntriesE_agrees _ _ _).bind fun m' rest'' hl'' => ih _ _ (by
          have := readEntriesE_length hl''
          simp only at *
          omega)

theorem binaryDecodeE_agrees (bs) : SameValue binaryDecodeE binaryDecode bs :=
  (readLongE_agrees _).bind fun _ _ _ => (readLongE_agrees _).bind fun _ _ _ => (readLongE_agrees _).bind fun _ _ _ => (readStringE_agrees _).bind fun _ _ _ => (readStringE_agrees _).bind fun _ _ _ =>
  (readLongE_agrees _).bind fun _ _ _ => (readLongE_agrees _).bind fun _ _ _ => (readLongE_agrees _).bind fun _ _ _ => (readLongE_agrees _).bind fun _ _ _ => (readLongE_agrees _).bind fun _ _ _ =>
  (readLongE_agrees _).bind fun _ _ _ => SameValue.bind (d' := readMapString) (readBlocksE_agrees _ ∅ _ (Nat.le_refl _)) fun _ _ _ => SameValue.pure _ _

/-! ## Which results are final -/

/-- More input decides. -/
def Decided {α} : Except BinaryError (α × List UInt8) → Prop
  | .ok (_, rest) => rest = []
  | .error e => ¬ Short e

/-- A value stays if more input follows. -/
def StableE {α} (d : DecE α) : Prop := ∀ bs a rest ext, d bs = .ok (a, rest) → d (bs ++ ext) = .ok (a, rest ++ ext)

theorem StableE.of {α} {d : DecE α} {d' : Dec α} (h : ∀ bs, SameValue d d' bs) (hs : Stable d') : StableE d := fun bs a rest ext hd => by
  have h1 := h bs
  unfold SameValue at h
  have h2 : d' bs = some (a, rest) := by rw [← h, hd]; rfl
  have h3 := hs bs a rest ext h2
  rw [← h] at h3
  cases e : d (bs ++ ext) with
  | error x => rw [e] at h3; cases h3
  | ok p =>
    rw [e] at h3
    exact congrArg Except.ok (Option.some.inj h3)

/-- At this input: an error that is not about missing input stays, and missing input can be supplied. -/
structure GoodAt {α} (d : DecE α) (bs : List UInt8) : Prop where
  final : ∀ e ext, d bs = .error e → ¬ Short e → d (bs ++ ext) = .error e
  more : ∀ e, d bs = .error e → Short e → ∃ ext, Decided (d (bs ++ ext))
  less : ∀ a rest, d bs = .ok (a, rest) → rest.length ≤ bs.length

theorem GoodAt.bind {α β} {d : DecE α} {f : α → DecE β} {bs} (hs : StableE d) (hd : GoodAt d bs) (hf : ∀ a rest, d bs = .ok (a, rest) → GoodAt (f a) rest) (hn : ∀ a, GoodAt (f a) []) : GoodAt (d >>= f) bs := by
  constructor
  · intro e ext h he
    cases h1 : d bs with
    | error e' =>
      rw [DecE.bind_of_error h1] at h
      cases h
      rw [DecE.bind_of_error (hd.final _ ext h1 he)]
    | ok p =>
      obtain ⟨a, s⟩ := p
      rw [DecE.bind_of_ok h1] at h
      rw [DecE.bind_of_ok (hs _ _ _ ext h1)]
      exact (hf a s h1).final _ ext h he
  · intro e h he
    cases h1 : d bs with
    | error e' =>
      rw [DecE.bind_of_error h1] at h
      cases h
      obtain ⟨ext, hx⟩ := hd.more _ h1 he
      cases h2 : d (bs ++ ext) with
      | error e' =>
        rw [h2] at hx
        exact ⟨ext, by rw [DecE.bind_of_error h2]; exact hx⟩
      | ok p =>
        obtain ⟨a, s⟩ := p
        rw [h2] at hx
        have hs : s = [] := hx
        subst hs
        -- what comes next may lack input, too
        cases h3 : f a [] with
        | ok q =>
          obtain ⟨b, s⟩ := q
          have := (hn a).less _ _ h3
          have hs : s = [] := List.eq_nil_of_length_eq_zero (by simpa using this)
          subst hs
          exact ⟨ext, by rw [DecE.bind_of_ok h2, h3]; rfl⟩
        | error e' =>
          by_cases he' : Short e'
          · obtain ⟨ext', hx'⟩ := (hn a).more _ h3 he'
            refine ⟨ext ++ ext', ?_⟩
            rw [← List.append_assoc, DecE.bind_of_ok (hs _ _ _ ext' h2)]
            exact hx'
          · exact ⟨ext, by rw [DecE.bind_of_ok h2, h3]; exact he'⟩
    | ok p =>
      obtain ⟨a, s⟩ := p
      rw [DecE.bind_of_ok h1] at h
      obtain ⟨ext, hx⟩ := (hf a s h1).more _ h he
      exact ⟨ext, by rw [DecE.bind_of_ok (hs _ _ _ ext h1)]; exact hx⟩
  · intro b rest h
    obtain ⟨a, s, h1, h2⟩ := DecE.bind_ok.mp h
    exact Nat.le_trans ((hf a s h1).less _ _ h2) (hd.less _ _ h1)

theorem GoodAt.pure {α} (a : α) (bs) : GoodAt (Pure.pure a) bs :=
  ⟨fun _ _ h => (nomatch h), fun _ h => (nomatch h), fun _ _ h => by cases h; exact Nat.le_refl _⟩

theorem readLongE_stable : StableE readLongE := .of readLongE_agrees readLong_stable
theorem readStringE_stable : StableE readStringE := .of readStringE_agrees readString_stable
theorem readEntriesE_stable (n m) : StableE (readEntriesE n m) := .of (readEntriesE_agrees n m) (readEntries_stable n m)
theorem readMapStringE_stable : StableE readMapStringE := .of (d' := readMapString) (fun bs => readBlocksE_agrees _ ∅ bs (Nat.le_refl _)) readMapString_stable

theorem readLongLoopE_error {v s bs e} (h : readLongLoopE v s bs = .error e) : e = .eof ∧ ∃ a, readLongLoopE v s (bs ++ [0]) = .ok (a, []) := by
  induction bs generalizing v s with
  | nil => cases h; exact ⟨rfl, _, rfl⟩
  | cons b bs ih =>
    unfold readLongLoopE at h
    dsimp only at h
    by_cases hb : (b &&& 128 == 0) = true
    · rw [if_pos hb] at h; cases h
    · rw [if_neg hb] at h
      obtain ⟨h1, a, h2⟩ := ih h
      refine ⟨h1, a, ?_⟩
      rw [List.cons_append]
      unfold readLongLoopE
      dsimp only
      rw [if_neg hb]
      exact h2

theorem readLongE_error {bs e} (h : readLongE bs = .error e) : e = .eof ∧ ∃ a, readLongE (bs ++ [0]) = .ok (a, []) := by
  unfold readLongE at h ⊢
  cases e' : readLongLoopE 0 0 bs with
  | ok p => rw [e'] at h; cases h
  | error x =>
    rw [e'] at h
    cases h
    obtain ⟨h1, a, h2⟩ := readLongLoopE_error e'
    rw [h2]
    exact ⟨h1, _, rfl⟩

theorem readLongE_good (bs) : GoodAt readLongE bs := by
  refine ⟨fun e ext h he => ?_, fun e h _ => ?_, fun a rest h => Nat.le_of_lt (readLongE_length h)⟩
  · exact absurd (.inl (readLongE_error h).1) he
  · obtain ⟨_, a, h2⟩ := readLongE_error h
    exact ⟨[0], by rw [h2]; rfl⟩

theorem readFullE_good (n : Nat) (bs) : GoodAt (readFullE n) bs := by
  have herr : ∀ e, readFullE n bs = .error e → Short e ∧ bs.length < n := fun e h => by
    unfold readFullE at h
    by_cases h1 : n ≤ bs.length
    · rw [if_pos h1] at h; cases h
    · rw [if_neg h1] at h
      by_cases h2 : bs.length = 0
      · rw [if_pos h2] at h; cases h; exact ⟨.inl rfl, by omega⟩
      · rw [if_neg h2] at h; cases h; exact ⟨.inr rfl, by omega⟩
  refine ⟨fun e ext h he => absurd (herr e h).1 he, fun e h _ => ?_, fun a rest h => readFullE_length h⟩
  refine ⟨List.replicate (n - bs.length) 0, ?_⟩
  have hl : (bs ++ List.replicate (n - bs.length) (0 : UInt8)).length = n := by
    have := (herr e h).2
    rw [List.length_append, List.length_replicate]; omega
  unfold readFullE
  rw [if_pos (by omega)]
  show List.drop n _ = []
  rw [List.drop_eq_nil_iff]; omega

theorem readStringE_good (bs) : GoodAt readStringE bs := by
  have : ∀ (len : Int64) rest, GoodAt (if lengthRefused len then throw (.range len) else if len = 0 then Pure.pure [] else readFullE len.toInt.toNat) rest := fun len rest => by
    by_cases h1 : lengthRefused len
    · rw [if_pos h1]
      exact ⟨fun e ext h _ => h, fun e h he => (by cases h; rcases he with h | h <;> cases h), fun _ _ h => (nomatch h)⟩
    · rw [if_neg h1]
      by_cases h2 : len = 0
      · rw [if_pos h2]; exact GoodAt.pure _ _
      · rw [if_neg h2]; exact readFullE_good _ _
  exact GoodAt.bind readLongE_stable (readLongE_good bs) (fun len rest _ => this len rest) fun len => this len []

theorem readEntriesE_good (n : Nat) : ∀ m bs, GoodAt (readEntriesE n m) bs := by
  induction n with
  | zero => exact fun m bs => GoodAt.pure m bs
  | succ n ih =>
    exact fun m bs => GoodAt.bind readStringE_stable (readStringE_good bs)
      (fun k rest _ => GoodAt.bind readStringE_stable (readStringE_good _) (fun v _ _ => ih _ _) fun v => ih _ _)
      fun k => GoodAt.bind readStringE_stable (readStringE_good _) (fun v _ _ => ih _ _) fun v => ih _ _

theorem readBlocksE_good_nil (m : TagMap) : GoodAt (readBlocksE m) [] := by
  have h : readBlocksE m [] = .error .eof := by rw [readBlocksE_eq]; rfl
  refine ⟨fun e ext h' he => ?_, fun e _ _ => ⟨[0], ?_⟩, fun a rest h' => ?_⟩
  · rw [h] at h'; cases h'; exact absurd (.inl rfl) he
  · rw [readBlocksE_eq]; rfl
  · rw [h] at h'; cases h'

theorem readBlocksE_good (n : Nat) : ∀ m bs, bs.length ≤ n → GoodAt (readBlocksE m) bs := by
  induction n with
  | zero =>
    intro m bs hb
    have : bs = [] := List.eq_nil_of_length_eq_zero (by omega)
    subst this
    exact readBlocksE_good_nil m
  | succ n ih =>
    intro m bs hb
    have hrest : ∀ (blk : Int64) rest, rest.length ≤ n → GoodAt (if blk = 0 then Pure.pure m else if blk < 0 then readLongE >>= fun _ => readEntriesE (-blk).toInt.toNat m >>= fun m' => readBlocksE m'
        else readEntriesE blk.toInt.toNat m >>= fun m' => readBlocksE m') rest := fun blk rest hr => by
      have hent : ∀ (n' : Nat) rest, rest.length ≤ n → GoodAt (readEntriesE n' m >>= fun m' => readBlocksE m') rest := fun n' rest hr =>
        GoodAt.bind (readEntriesE_stable _ _) (readEntriesE_good _ _ _) (fun m' rest' h => ih _ _ (by have := readEntriesE_length h; simp only at this; omega)) fun m' => readBlocksE_good_nil m'
      by_cases h0 : blk = 0
      · rw [if_pos h0]; exact GoodAt.pure _ _
      · rw [if_neg h0]
        by_cases h1 : blk < 0
        · rw [if_pos h1]
          exact GoodAt.bind readLongE_stable (readLongE_good _) (fun _ rest' h => hent _ _ (by have := readLongE_length h; simp only at this; omega)) fun _ => hent _ _ (Nat.zero_le _)
        · rw [if_neg h1]
          exact hent _ _ hr
    have : GoodAt (blocksBody m) bs := GoodAt.bind readLongE_stable (readLongE_good bs) (fun blk rest h => hrest blk rest (by have := readLongE_length h; simp only at this; omega)) fun blk => hrest blk [] (Nat.zero_le _)
    have e : readBlocksE m = blocksBody m := funext (readBlocksE_eq m)
    rw [e]
    exact this

/-- Like `bind`, for decoders that are good everywhere. -/
theorem GoodAt.seq {α β} {d : DecE α} {f : α → DecE β} (hs : StableE d) (hd : ∀ bs, GoodAt d bs) (hf : ∀ a rest, GoodAt (f a) rest) (bs) : GoodAt (d >>= f) bs :=
  GoodAt.bind hs (hd bs) (fun a rest _ => hf a rest) fun a => hf a []

theorem binaryDecodeE_good : ∀ bs, GoodAt binaryDecodeE bs :=
  GoodAt.seq readLongE_stable readLongE_good fun _ => GoodAt.seq readLongE_stable readLongE_good fun _ => GoodAt.seq readLongE_stable readLongE_good fun _ =>
  GoodAt.seq readStringE_stable readStringE_good fun _ => GoodAt.seq readStringE_stable readStringE_good fun _ =>
  GoodAt.seq readLongE_stable readLongE_good fun _ => GoodAt.seq readLongE_stable readLongE_good fun _ => GoodAt.seq readLongE_stable readLongE_good fun _ =>
  GoodAt.seq readLongE_stable readLongE_good fun _ => GoodAt.seq readLongE_stable readLongE_good fun _ => GoodAt.seq readLongE_stable readLongE_good fun _ =>
  GoodAt.seq readMapStringE_stable (fun bs => readBlocksE_good _ ∅ bs (Nat.le_refl _)) fun _ => GoodAt.pure _

theorem binaryDecodeE_stable : StableE binaryDecodeE := .of binaryDecodeE_agrees binaryDecode_stable

/-! ## Where a message is cut -/

/-- The error for a field of which only these bytes are there. -/
def cutError : BinaryField → List UInt8 → BinaryError
  | .number _, _ => .eof
  | .text s, q => if (writeLong (Int64.ofNat s.length)).length < q.length then .unexpectedEof else .eof

/-- The decoder reads exactly these fields. -/
structure ReadsFields {α} (d : DecE α) (fs : List BinaryField) (a : α) : Prop where
  whole : ∀ rest, d (fs.flatMap BinaryField.bytes ++ rest) = .ok (a, rest)
  cut : ∀ before f after q q', fs = before ++ f :: after → f.bytes = q ++ q' → q' ≠ [] → d (before.flatMap BinaryField.bytes ++ q) = .error (cutError f q)

theorem ReadsFields.bind {α β} {d : DecE α} {f : α → DecE β} {fs gs a b} (hd : ReadsFields d fs a) (hf : ReadsFields (f a) gs b) : ReadsFields (d >>= f) (fs ++ gs) b := by
  refine ⟨fun rest => ?_, fun before x after q q' he hb hq => ?_⟩
  · rw [List.flatMap_append, List.append_assoc, DecE.bind_of_ok (hd.whole _)]
    exact hf.whole rest
  · rcases List.append_eq_append_iff.mp he with ⟨l, h1, h2⟩ | ⟨l, h1, h2⟩
    · rw [h1, List.flatMap_append, List.append_assoc, DecE.bind_of_ok (hd.whole _)]
      exact hf.cut l x after q q' h2 hb hq
    · cases l with
      | nil =>
        rw [List.append_nil] at h1
        rw [← h1]
        have := hd.whole q
        rw [DecE.bind_of_ok this]
        exact hf.cut [] x after q q' (by simpa using h2.symm) hb hq
      | cons y l =>
        rw [List.cons_append] at h2
        obtain ⟨rfl, h2⟩ := List.cons.inj h2
        exact DecE.bind_of_error (hd.cut before x l q q' h1 hb hq)

theorem ReadsFields.pure {α} (a : α) : ReadsFields (Pure.pure a : DecE α) [] a :=
  ⟨fun _ => rfl, fun before f after _ _ h => by simp at h⟩

theorem readLongE_write (v : Int64) (rest : List UInt8) : readLongE (writeLong v ++ rest) = .ok (v, rest) := by
  have h := readLongE_agrees (writeLong v ++ rest)
  unfold SameValue at h
  rw [readLong_writeLong] at h
  cases e : readLongE (writeLong v ++ rest) with
  | error x => rw [e] at h; cases h
  | ok p => rw [e] at h; exact congrArg Except.ok (Option.some.inj h)

theorem readLongE_cut {v : Int64} {q q' : List UInt8} (h : writeLong v = q ++ q') (hq : q' ≠ []) : readLongE q = .error .eof := by
  cases e : readLongE q with
  | error x => rw [(readLongE_error e).1]
  | ok p =>
    obtain ⟨a, rest⟩ := p
    have h1 := readLongE_stable q a rest q' e
    have h2 := readLongE_write v []
    rw [List.append_nil, h, h1] at h2
    cases rest with
    | nil =>
      simp only [Except.ok.injEq, Prod.mk.injEq, List.nil_append] at h2
      exact absurd h2.2 hq
    | cons x rest => simp at h2

theorem singleton_split {α} {x y : α} {before after : List α} (h : [x] = before ++ y :: after) : before = [] ∧ y = x := by
  cases before with
  | nil => simp at h; exact ⟨rfl, h.1.symm⟩
  | cons z l => simp at h

theorem readLongE_reads (v : Int64) : ReadsFields readLongE [.number v] v := by
  refine ⟨fun rest => ?_, fun before f after q q' he hb hq => ?_⟩
  · simpa [BinaryField.bytes] using readLongE_write v rest
  · obtain ⟨rfl, rfl⟩ := singleton_split he
    exact readLongE_cut hb hq

theorem readStringE_reads (s : Str) (hs : s.length < 2 ^ 31) : ReadsFields readStringE [.text s] s := by
  have whole : ∀ rest, readStringE (writeLong (Int64.ofNat s.length) ++ (s ++ rest)) = .ok (s, rest) := fun rest => by
    have h := readStringE_agrees (writeString s ++ rest)
    unfold SameValue at h
    rw [readString_writeString s rest hs] at h
    unfold writeString at h
    rw [List.append_assoc] at h
    cases e : readStringE (writeLong (Int64.ofNat s.length) ++ (s ++ rest)) with
    | error x => rw [e] at h; cases h
    | ok p => rw [e] at h; exact congrArg Except.ok (Option.some.inj h)
  refine ⟨fun rest => ?_, fun before f after q q' he hb hq => ?_⟩
  · simpa [BinaryField.bytes] using whole rest
  · obtain ⟨rfl, rfl⟩ := singleton_split he
    rw [List.flatMap_nil, List.nil_append]
    have hb : writeLong (Int64.ofNat s.length) ++ s = q ++ q' := hb
    unfold cutError
    dsimp only
    rcases List.append_eq_append_iff.mp hb with ⟨l, h1, h2⟩ | ⟨l, h1, h2⟩
    · -- in the bytes of the text
      have hl : l.length < s.length := by
        rw [h2, List.length_append]
        have : q'.length ≠ 0 := fun e => hq (List.eq_nil_of_length_eq_zero e)
        omega
      have hi := int64_ofNat_toInt s.length (by omega)
      have z : Int64.toInt 0 = 0 := rfl
      have hr : ¬ lengthRefused (Int64.ofNat s.length) := by
        unfold lengthRefused
        simp only [Int64.lt_iff_toInt_lt, gt_iff_lt, hi]
        have b : Int64.toInt 2147483647 = 2147483647 := rfl
        rw [z, b]; omega
      have h0 : Int64.ofNat s.length ≠ 0 := fun e => by
        have := congrArg Int64.toInt e
        rw [hi, z] at this; omega
      rw [h1]
      unfold readStringE
      rw [DecE.bind_of_ok (readLongE_write _ _), if_neg hr, if_neg h0, int64_ofNat_toNat _ (by omega)]
      unfold readFullE
      rw [if_neg (by omega)]
      by_cases hz : l.length = 0
      · rw [if_pos hz, if_neg (by rw [List.length_append]; omega)]
      · rw [if_neg hz, if_pos (by rw [List.length_append]; omega)]
    · -- in the length
      cases l with
      | nil =>
        rw [List.append_nil] at h1
        rw [List.nil_append] at h2
        have hne : s.length ≠ 0 := fun e => hq (by rw [h2]; exact List.eq_nil_of_length_eq_zero e)
        have hi := int64_ofNat_toInt s.length (by omega)
        have z : Int64.toInt 0 = 0 := rfl
        have hr : ¬ lengthRefused (Int64.ofNat s.length) := by
          unfold lengthRefused
          simp only [Int64.lt_iff_toInt_lt, gt_iff_lt, hi]
          have b : Int64.toInt 2147483647 = 2147483647 := rfl
          rw [z, b]; omega
        have h0 : Int64.ofNat s.length ≠ 0 := fun e => by
          have := congrArg Int64.toInt e
          rw [hi, z] at this; omega
        have hw := readLongE_write (Int64.ofNat s.length) []
        rw [List.append_nil] at hw
        rw [← h1, if_neg (by omega)]
        unfold readStringE
        rw [DecE.bind_of_ok hw, if_neg hr, if_neg h0, int64_ofNat_toNat _ (by omega)]
        unfold readFullE
        rw [if_neg (by simp only [List.length_nil]; omega)]; rfl
      | cons x l =>
        rw [if_neg (by rw [h1, List.length_append]; omega)]
        exact DecE.bind_of_error (readLongE_cut h1 (by simp))

theorem readEntriesE_reads (l : List (Str × Str)) (h : ∀ e ∈ l, e.1.length < 2 ^ 31 ∧ e.2.length < 2 ^ 31) : ∀ m, ReadsFields (readEntriesE l.length m) (l.flatMap fun e => [.text e.1, .text e.2]) (insertAll l m) := by
  induction l with
  | nil => exact fun m => .pure m
  | cons e l ih =>
    intro m
    have he := h e (by simp)
    have := (readStringE_reads e.1 he.1).bind (f := fun k => readStringE >>= fun v => readEntriesE l.length (m.insert k v))
      ((readStringE_reads e.2 he.2).bind (f := fun v => readEntriesE l.length (m.insert e.1 v)) (ih (fun e' h' => h e' (List.mem_cons_of_mem _ h')) _))
    exact this

theorem readMapStringE_reads (l : List (Str × Str)) (hl : l.length < 2 ^ 63) (h : ∀ e ∈ l, e.1.length < 2 ^ 31 ∧ e.2.length < 2 ^ 31) :
    ReadsFields readMapStringE (.number (Int64.ofNat l.length) :: if l = [] then [] else l.flatMap (fun e => [.text e.1, .text e.2]) ++ [.number 0]) (insertAll l ∅) := by
  have hend : ∀ m, ReadsFields (readBlocksE m) [.number 0] m := fun m => by
    rw [show readBlocksE m = blocksBody m from funext (readBlocksE_eq m)]
    exact (readLongE_reads 0).bind (gs := []) (.pure m)
  rw [show readMapStringE = blocksBody ∅ from funext (readBlocksE_eq ∅)]
  by_cases h0 : l = []
  · subst h0
    rw [if_pos rfl]
    refine ReadsFields.bind (fs := [_]) (gs := []) (readLongE_reads _) ?_
    rw [if_pos (by rfl)]
    exact .pure _
  · have hpos : l.length ≠ 0 := fun e => h0 (List.eq_nil_of_length_eq_zero e)
    have hi := int64_ofNat_toInt l.length hl
    have z : Int64.toInt 0 = 0 := rfl
    have h1 : Int64.ofNat l.length ≠ 0 := fun e => by
      have := congrArg Int64.toInt e
      rw [hi, z] at this; omega
    have h2 : ¬ Int64.ofNat l.length < 0 := by
      rw [Int64.lt_iff_toInt_lt, hi, z]; omega
    rw [if_neg h0]
    refine ReadsFields.bind (fs := [_]) (readLongE_reads _) ?_
    rw [if_neg h1, if_neg h2, int64_ofNat_toNat _ hl]
    exact (readEntriesE_reads l h ∅).bind (hend _)

theorem binaryDecodeE_reads (s : Span) (ord : List (Str × Str)) (hn : s.name.length < 2 ^ 31) (hsv : s.service.length < 2 ^ 31) (hl : ord.length < 2 ^ 63)
    (h : ∀ e ∈ ord, e.1.length < 2 ^ 31 ∧ e.2.length < 2 ^ 31) : ∃ a, ReadsFields binaryDecodeE (messageFields s ord) a :=
  ⟨_, (readLongE_reads s.id).bind ((readLongE_reads s.trace).bind ((readLongE_reads s.parent).bind ((readStringE_reads s.name hn).bind ((readStringE_reads s.service hsv).bind
    ((readLongE_reads s.timestamp).bind ((readLongE_reads s.duration).bind ((readLongE_reads s.timings.CS).bind ((readLongE_reads s.timings.CR).bind ((readLongE_reads s.timings.SS).bind
    ((readLongE_reads s.timings.SR).bind (by
      have := (readMapStringE_reads ord hl h).bind (gs := []) (f := fun tags => Pure.pure ({ id := s.id, trace := s.trace, parent := s.parent, name := s.name, service := s.service, timestamp := s.timestamp, duration := s.duration, timings := { CS := s.timings.CS, CR := s.timings.CR, SS := s.timings.SS, SR := s.timings.SR }, tags := some tags } : Span)) (.pure _)
      rw [List.append_nil] at this
      exact this)))))))))))⟩

/-- A proper prefix ends in some field. -/
theorem prefix_field (fs : List BinaryField) : ∀ {p q : List UInt8}, fs.flatMap BinaryField.bytes = p ++ q → q ≠ [] →
    ∃ before f after x y, fs = before ++ f :: after ∧ f.bytes = x ++ y ∧ y ≠ [] ∧ p = before.flatMap BinaryField.bytes ++ x := by
  induction fs with
  | nil => intro p q h hq; simp at h; exact absurd h.2 hq
  | cons f fs ih =>
    intro p q h hq
    rw [List.flatMap_cons] at h
    rcases List.append_eq_append_iff.mp h with ⟨l, h1, h2⟩ | ⟨l, h1, h2⟩
    · obtain ⟨before, g, after, x, y, e1, e2, e3, e4⟩ := ih h2 hq
      exact ⟨f :: before, g, after, x, y, by rw [e1]; rfl, e2, e3, by rw [h1, e4, List.flatMap_cons, List.append_assoc]⟩
    · cases l with
      | nil =>
        rw [List.nil_append] at h2
        obtain ⟨before, g, after, x, y, e1, e2, e3, e4⟩ := ih (p := []) (q := q) (by simpa using h2.symm) hq
        refine ⟨f :: before, g, after, x, y, by rw [e1]; rfl, e2, e3, ?_⟩
        rw [List.append_nil] at h1
        rw [List.flatMap_cons, List.append_assoc, ← e4, List.append_nil, h1]
      | cons z l => exact ⟨[], f, fs, p, z :: l, rfl, h1, by simp, rfl⟩

end Verif
