import Verif.Spec.BinaryMemory
import Verif.Props.Binary
import Verif.Proofs.BinaryError

/-!
# C109: what decoding a message costs
-/

namespace Verif

theorem made_append (a b : List MemEvent) : made (a ++ b) = made a + made b := by
  induction a with
  | nil => simp [made]
  | cons x a ih => cases x <;> simp [made, ih, Nat.add_assoc]

theorem byteReads_append (a b : List MemEvent) : byteReads (a ++ b) = byteReads a + byteReads b := by
  induction a with
  | nil => simp [byteReads]
  | cons x a ih => cases x <;> simp [byteReads, ih, Nat.add_assoc]

theorem inserts_append (a b : List MemEvent) : inserts (a ++ b) = inserts a + inserts b := by
  induction a with
  | nil => simp [inserts]
  | cons x a ih => cases x <;> simp [inserts, ih, Nat.add_assoc]

theorem PoolOrder.append {a b : List MemEvent} (ha : PoolOrder a) (hb : PoolOrder b) : PoolOrder (a ++ b) := by
  induction ha with
  | nil => exact hb
  | other h₁ h₂ _ ih => exact .other h₁ h₂ ih
  | pair _ ih => exact .pair ih

/-- What a decoder may have done when it returns an error, having found `n` bytes. -/
structure FailCost (n : Nat) (e : List MemEvent) : Prop where
  pool : PoolOrder e
  reads : byteReads e ≤ n + 1
  total : byteReads e + made e ≤ n + 1 ∨ ∃ e₁ k, e = e₁ ++ [.make k] ∧ byteReads e₁ + made e₁ ≤ n ∧ 8192 < k ∧ k ≤ 2 ^ 31 - 1

/-- What a decoder may have done when it returns a value, having found `n` bytes and left `r`. -/
structure OkCost (n r : Nat) (e : List MemEvent) : Prop where
  pool : PoolOrder e
  total : byteReads e + made e + r ≤ n

structure CostAt {α : Type} (x : DecM α) (bs : List UInt8) : Prop where
  fail : ∀ {e}, x bs = (none, e) → FailCost bs.length e
  ok : ∀ {a r e}, x bs = (some (a, r), e) → OkCost bs.length r.length e

abbrev CostOf {α : Type} (x : DecM α) : Prop := ∀ bs, CostAt x bs

theorem OkCost.append {n r r' : Nat} {e e' : List MemEvent} (h : OkCost n r e) (h' : OkCost r r' e') : OkCost n r' (e ++ e') := by
  refine ⟨h.pool.append h'.pool, ?_⟩
  have := h.total; have := h'.total
  rw [byteReads_append, made_append]; omega

theorem OkCost.fail {n r : Nat} {e e' : List MemEvent} (h : OkCost n r e) (h' : FailCost r e') : FailCost n (e ++ e') := by
  have ht := h.total; have hr := h'.reads
  refine ⟨h.pool.append h'.pool, by rw [byteReads_append]; omega, ?_⟩
  rcases h'.total with h1 | ⟨e₁, k, rfl, h1, h3⟩
  · left; rw [byteReads_append, made_append]; omega
  · right
    exact ⟨e ++ e₁, k, by simp, by rw [byteReads_append, made_append]; omega, h3⟩

theorem costOf_pure {α : Type} (a : α) : CostOf (DecM.pure a : DecM α) := fun _ =>
  { fail := fun h => by cases h
    ok := fun h => by cases h; exact ⟨.nil, by simp [byteReads, made]⟩ }

theorem CostAt.bind {α β : Type} {x : DecM α} {f : α → DecM β} {bs : List UInt8} (hx : CostAt x bs) (hf : ∀ a r, (x bs).1 = some (a, r) → CostAt (f a) r) :
    CostAt (DecM.bind x f) bs := by
  constructor
  · intro e h
    unfold DecM.bind at h
    split at h
    · next hb => cases h; exact hx.fail hb
    · next a rest e1 hb =>
      injection h with h1 h2
      subst h2
      exact (hx.ok hb).fail ((hf a rest (by rw [hb])).fail (Prod.ext h1 rfl))
  · intro b r e h
    unfold DecM.bind at h
    split at h
    · cases h
    · next a rest e1 hb =>
      injection h with h1 h2
      subst h2
      exact (hx.ok hb).append ((hf a rest (by rw [hb])).ok (Prod.ext h1 rfl))

theorem costOf_bind {α β : Type} {x : DecM α} {f : α → DecM β} (hx : CostOf x) (hf : ∀ a, CostOf (f a)) : CostOf (x >>= f) :=
  fun bs => (hx bs).bind fun a r _ => hf a r

theorem readLongLoopM_cost (v : UInt64) (shift : Nat) (bs : List UInt8) :
    PoolOrder (readLongLoopM v shift bs).2 ∧ made (readLongLoopM v shift bs).2 = 0 ∧
    match (readLongLoopM v shift bs).1 with
    | none => byteReads (readLongLoopM v shift bs).2 = bs.length + 1
    | some (_, r) => byteReads (readLongLoopM v shift bs).2 + r.length = bs.length := by
  induction bs generalizing v shift with
  | nil => exact ⟨.other (by decide) (by decide) .nil, rfl, rfl⟩
  | cons b bs ih =>
    simp only [readLongLoopM]
    split
    · exact ⟨.other (by decide) (by decide) .nil, rfl, by simp [byteReads]; omega⟩
    · obtain ⟨h1, h2, h3⟩ := ih (v ||| goShl (b &&& 127).toUInt64 shift) (shift + 7)
      refine ⟨.other (by decide) (by decide) h1, by simpa [made] using h2, ?_⟩
      simp only
      generalize readLongLoopM (v ||| goShl (b &&& 127).toUInt64 shift) (shift + 7) bs = x at *
      rcases x with ⟨_ | ⟨a, r⟩, e⟩
      · simp only [byteReads, List.length_cons] at *; omega
      · simp only [byteReads, List.length_cons] at *; omega

theorem readLongM_cost : CostOf readLongM := by
  intro bs
  constructor
  · intro e h
    obtain ⟨h1, h2, h3⟩ := readLongLoopM_cost 0 0 bs
    unfold readLongM at h
    generalize readLongLoopM 0 0 bs = x at *
    rcases x with ⟨_ | ⟨a, r⟩, e'⟩
    · cases h
      simp only at h1 h2 h3
      exact ⟨h1, by omega, .inl (by omega)⟩
    · cases h
  · intro a r e h
    obtain ⟨h1, h2, h3⟩ := readLongLoopM_cost 0 0 bs
    unfold readLongM at h
    generalize readLongLoopM 0 0 bs = x at *
    rcases x with ⟨_ | ⟨a, r⟩, e'⟩
    · cases h
    · cases h
      simp only at h1 h2 h3
      exact ⟨h1, by omega⟩

theorem readStringM_cost : CostOf readStringM := by
  refine costOf_bind readLongM_cost fun len bs => ?_
  by_cases h1 : lengthRefused len
  · rw [if_pos h1]
    exact ⟨fun h => by cases h; exact ⟨.nil, by simp [byteReads], .inl (by simp [byteReads, made])⟩, fun h => by cases h⟩
  · rw [if_neg h1]
    by_cases h2 : len = 0
    · rw [if_pos h2]; exact costOf_pure _ bs
    · rw [if_neg h2]
      simp only [not_or, gt_iff_lt, Int64.not_lt] at h1
      have hl : len.toInt ≤ 2147483647 := Int64.le_iff_toInt_le.mp h1.2
      have hm : ∀ n, PoolOrder [.make n] := fun n => .other (by simp) (by simp) .nil
      by_cases h3 : needsFreshSlice len
      · rw [if_pos h3]
        constructor
        · intro e h
          injection h with h h'
          subst h'
          refine ⟨hm _, by simp [byteReads], .inr ⟨[], _, rfl, by simp [byteReads, made], ?_, ?_⟩⟩
          · have : len.toInt > (pooledBufferSliceLength : Nat) := h3
            simp only [pooledBufferSliceLength] at this; omega
          · omega
        · intro a r e h
          injection h with h h'
          subst h'
          unfold readFull at h
          split at h
          · cases h
            refine ⟨hm _, ?_⟩
            show 0 + (_ + 0) + (bs.drop _).length ≤ bs.length
            rw [List.length_drop]; omega
          · cases h
      · rw [if_neg h3]
        constructor
        · intro e h
          injection h with h h'
          subst h'
          exact ⟨.pair .nil, by simp [byteReads], .inl (by simp [byteReads, made])⟩
        · intro a r e h
          injection h with h h'
          subst h'
          have := readFull_length h
          exact ⟨.pair .nil, by simpa [byteReads, made] using this⟩

theorem readEntriesM_cost (n : Nat) (m : TagMap) : CostOf (readEntriesM n m) := by
  induction n generalizing m with
  | zero => exact costOf_pure m
  | succ n ih =>
    refine costOf_bind readStringM_cost fun key => costOf_bind readStringM_cost fun val => costOf_bind (fun bs => ⟨fun h => ?_, fun h => ?_⟩) ih
    · cases h
    · cases h; exact ⟨.other (by decide) (by decide) .nil, by simp [byteReads, made]⟩

theorem readBlocksM_eq (m : TagMap) (bs : List UInt8) : readBlocksM m bs = DecM.bind readLongM (fun blk =>
    if blk = 0 then DecM.pure m
    else if blk < 0 then DecM.bind readLongM fun _ => DecM.bind (readEntriesM (-blk).toInt.toNat m) readBlocksM
    else DecM.bind (readEntriesM blk.toInt.toNat m) readBlocksM) bs := by
  rw [readBlocksM]
  unfold DecM.bind
  split
  · next h => rw [h]
  · next blk bs1 e1 h =>
    rw [h]
    simp only
    split
    · simp [DecM.pure]
    · split
      · simp only
        split
        · next h2 => rw [h2]
        · next h2 =>
          rw [h2]; simp only
          split
          · next h3 => rw [h3]; simp
          · next h3 => rw [h3]; simp
      · simp only
        split
        · next h3 => rw [h3]
        · next h3 => rw [h3]; simp

/-- Induction over the blocks of a map. -/
theorem readBlocksM_induct {P : TagMap → List UInt8 → Prop} (h : ∀ m bs, (∀ m' bs', bs'.length < bs.length → P m' bs') → P m bs) (m : TagMap) (bs : List UInt8) : P m bs := by
  suffices ∀ n bs, bs.length ≤ n → ∀ m, P m bs from this _ _ (Nat.le_refl _) m
  intro n
  induction n with
  | zero => exact fun bs hn m => h m bs fun _ _ h' => by omega
  | succ n ih => exact fun bs hn m => h m bs fun m' bs' h' => ih bs' (by omega) m'

theorem readBlocksM_cost (m : TagMap) : CostOf (readBlocksM m) := by
  intro bs
  refine readBlocksM_induct (P := fun m bs => CostAt (readBlocksM m) bs) (fun m bs ih => ?_) m bs
  refine (?_ : CostAt (fun bs => DecM.bind readLongM _ bs) bs) |> cast (congrArg (CostAt · bs) (funext (readBlocksM_eq m)).symm)
  refine (readLongM_cost bs).bind fun blk bs1 h => ?_
  rw [readLongM_fst] at h
  have hl := readLong_length h
  simp only at hl
  have he : ∀ n bs2, bs2.length < bs.length → CostAt (DecM.bind (readEntriesM n m) readBlocksM) bs2 := fun n bs2 h2 =>
    (readEntriesM_cost n m bs2).bind fun m' bs3 h3 => ih m' bs3 (by
      rw [readEntriesM_fst] at h3
      have := readEntries_length h3
      simp only at this; omega)
  split
  · exact costOf_pure m bs1
  · split
    · refine (readLongM_cost bs1).bind fun _ bs2 h2 => he _ bs2 ?_
      rw [readLongM_fst] at h2
      have := readLong_length h2
      simp only at this; omega
    · exact he _ bs1 hl

theorem binaryDecodeM_cost : CostOf binaryDecodeM := by
  refine costOf_bind readLongM_cost fun _ => costOf_bind readLongM_cost fun _ => costOf_bind readLongM_cost fun _ =>
    costOf_bind readStringM_cost fun _ => costOf_bind readStringM_cost fun _ => costOf_bind readLongM_cost fun _ => costOf_bind readLongM_cost fun _ =>
    costOf_bind readLongM_cost fun _ => costOf_bind readLongM_cost fun _ => costOf_bind readLongM_cost fun _ => costOf_bind readLongM_cost fun _ =>
    costOf_bind (readBlocksM_cost ∅) fun _ => costOf_pure _

theorem DecM.bind_fst_at {α β : Type} {x : DecM α} {f : α → DecM β} {x' : Dec α} {f' : α → Dec β} {bs : List UInt8} (hx : (x bs).1 = x' bs)
    (hf : ∀ a r, x' bs = some (a, r) → (f a r).1 = f' a r) : (DecM.bind x f bs).1 = (x' >>= f') bs := by
  unfold DecM.bind
  show _ = (x' bs >>= fun p => f' p.1 p.2)
  rw [← hx] at hf ⊢
  rcases hb : x bs with ⟨r | ⟨a, rest⟩, e⟩
  · rfl
  · exact hf a rest (by rw [hb])

theorem readBlocksM_fst (m : TagMap) (bs : List UInt8) : (readBlocksM m bs).1 = readBlocks m bs := by
  refine readBlocksM_induct (P := fun m bs => (readBlocksM m bs).1 = readBlocks m bs) (fun m bs ih => ?_) m bs
  rw [readBlocksM_eq, readBlocks_eq]
  refine DecM.bind_fst_at (readLongM_fst bs) fun blk bs1 h => ?_
  have hl := readLong_length h
  simp only at hl
  have he : ∀ n bs2, bs2.length < bs.length → (DecM.bind (readEntriesM n m) readBlocksM bs2).1 = (readEntries n m >>= readBlocks) bs2 := fun n bs2 h2 =>
    DecM.bind_fst_at (readEntriesM_fst n m bs2) fun m' bs3 h3 => ih m' bs3 (by
      have := readEntries_length h3
      simp only at this; omega)
  split
  · rfl
  · split
    · refine DecM.bind_fst_at (readLongM_fst bs1) fun _ bs2 h2 => he _ bs2 ?_
      have := readLong_length h2
      simp only at this; omega
    · exact he _ bs1 hl

/-- Two bytes read for an entry, up to a balance. -/
structure InsertsAt {α : Type} (x : DecM α) (bs : List UInt8) (k f : Int) : Prop where
  fail : ∀ {e}, x bs = (none, e) → 2 * (inserts e : Int) ≤ byteReads e + f
  ok : ∀ {a r e}, x bs = (some (a, r), e) → 2 * (inserts e : Int) ≤ byteReads e + k

theorem InsertsAt.bind {α β : Type} {x : DecM α} {f : α → DecM β} {bs : List UInt8} {k₁ f₁ k₂ f₂ k f' : Int} (hx : InsertsAt x bs k₁ f₁)
    (hf : ∀ a r, (x bs).1 = some (a, r) → InsertsAt (f a) r k₂ f₂) (hk : k₁ + k₂ ≤ k) (hf₁ : f₁ ≤ f') (hf₂ : k₁ + f₂ ≤ f') : InsertsAt (DecM.bind x f) bs k f' := by
  constructor
  · intro e h
    unfold DecM.bind at h
    split at h
    · next hb => cases h; have := hx.fail hb; omega
    · next a rest e1 hb =>
      have h3 := hx.ok hb
      have h4 := hf a rest (by rw [hb])
      rcases hc : f a rest with ⟨o, e2⟩
      rw [hc] at h
      cases h
      have h4 := h4.fail hc
      simp only [inserts_append, byteReads_append]
      omega
  · intro b r e h
    unfold DecM.bind at h
    split at h
    · cases h
    · next a rest e1 hb =>
      have h3 := hx.ok hb
      have h4 := hf a rest (by rw [hb])
      rcases hc : f a rest with ⟨o, e2⟩
      rw [hc] at h
      cases h
      have h4 := h4.ok hc
      simp only [inserts_append, byteReads_append]
      omega

theorem readLongLoopM_inserts (v : UInt64) (shift : Nat) (bs : List UInt8) :
    inserts (readLongLoopM v shift bs).2 = 0 ∧ 0 < byteReads (readLongLoopM v shift bs).2 := by
  induction bs generalizing v shift with
  | nil => exact ⟨rfl, Nat.one_pos⟩
  | cons b bs ih =>
    simp only [readLongLoopM]
    split
    · exact ⟨rfl, Nat.one_pos⟩
    · exact ⟨(ih _ _).1, by simp only [byteReads]; omega⟩

theorem readLongM_inserts (bs : List UInt8) : InsertsAt readLongM bs (-1) (-1) := by
  obtain ⟨h1, h2⟩ := readLongLoopM_inserts 0 0 bs
  constructor
  · intro e h
    unfold readLongM at h
    split at h
    · next hb => rw [hb] at h1 h2; cases h; simp only at h1 h2; omega
    · cases h
  · intro a r e h
    unfold readLongM at h
    split at h
    · cases h
    · next hb => rw [hb] at h1 h2; cases h; simp only at h1 h2; omega

theorem readStringM_inserts (bs : List UInt8) : InsertsAt readStringM bs (-1) (-1) := by
  refine (readLongM_inserts bs).bind (k₂ := 0) (f₂ := 0) (fun len r _ => ?_) (by omega) (by omega) (by omega)
  split
  · exact ⟨fun h => by cases h; decide, fun h => by cases h⟩
  · split
    · exact ⟨fun h => by (cases h), fun h => by cases h; decide⟩
    · split
      · exact ⟨fun h => by injection h with _ h; subst h; exact Int.le_refl 0, fun h => by injection h with _ h; subst h; exact Int.le_refl 0⟩
      · exact ⟨fun h => by injection h with _ h; subst h; decide, fun h => by injection h with _ h; subst h; decide⟩

theorem readEntriesM_inserts (n : Nat) (m : TagMap) (bs : List UInt8) : InsertsAt (readEntriesM n m) bs 0 0 := by
  induction n generalizing m bs with
  | zero => exact ⟨fun h => by (cases h), fun h => by cases h; decide⟩
  | succ n ih =>
    refine (readStringM_inserts bs).bind (k₂ := 1) (f₂ := 1) (fun key r _ => ?_) (by omega) (by omega) (by omega)
    refine (readStringM_inserts r).bind (k₂ := 2) (f₂ := 2) (fun val r' _ => ?_) (by omega) (by omega) (by omega)
    refine InsertsAt.bind (k₁ := 2) (f₁ := 2) (k₂ := 0) (f₂ := 0) ⟨fun h => ?_, fun h => ?_⟩ (fun m r _ => ih m r) (by omega) (by omega) (by omega)
    · cases h
    · cases h; decide

theorem readBlocksM_inserts (m : TagMap) (bs : List UInt8) : InsertsAt (readBlocksM m) bs 0 0 := by
  refine readBlocksM_induct (P := fun m bs => InsertsAt (readBlocksM m) bs 0 0) (fun m bs ih => ?_) m bs
  refine (?_ : InsertsAt (fun bs => DecM.bind readLongM _ bs) bs 0 0) |> cast (congrArg (InsertsAt · bs 0 0) (funext (readBlocksM_eq m)).symm)
  refine (readLongM_inserts bs).bind (k₂ := 0) (f₂ := 0) (fun blk bs1 h => ?_) (by omega) (by omega) (by omega)
  rw [readLongM_fst] at h
  have hl := readLong_length h
  simp only at hl
  have he : ∀ n bs2, bs2.length < bs.length → InsertsAt (DecM.bind (readEntriesM n m) readBlocksM) bs2 0 0 := fun n bs2 h2 =>
    (readEntriesM_inserts n m bs2).bind (k₂ := 0) (f₂ := 0) (fun m' bs3 h3 => ih m' bs3 (by
      rw [readEntriesM_fst] at h3
      have := readEntries_length h3
      simp only at this; omega)) (by omega) (by omega) (by omega)
  split
  · exact ⟨fun h => by (cases h), fun h => by cases h; decide⟩
  · split
    · refine (readLongM_inserts bs1).bind (k₂ := 0) (f₂ := 0) (fun _ bs2 h2 => he _ bs2 ?_) (by omega) (by omega) (by omega)
      rw [readLongM_fst] at h2
      have := readLong_length h2
      simp only at this; omega
    · exact he _ bs1 hl

theorem binaryDecodeM_inserts (bs : List UInt8) : InsertsAt binaryDecodeM bs (-1) (-1) := by
  have hl : ∀ {β : Type} {f : Int64 → DecM β} {bs : List UInt8}, (∀ a r, InsertsAt (f a) r 0 0) → InsertsAt (DecM.bind readLongM f) bs 0 0 := fun h =>
    (readLongM_inserts _).bind (fun a r _ => h a r) (by omega) (by omega) (by omega)
  have hs : ∀ {β : Type} {f : Str → DecM β} {bs : List UInt8}, (∀ a r, InsertsAt (f a) r 0 0) → InsertsAt (DecM.bind readStringM f) bs 0 0 := fun h =>
    (readStringM_inserts _).bind (fun a r _ => h a r) (by omega) (by omega) (by omega)
  refine (readLongM_inserts _).bind (k₂ := 0) (f₂ := 0) (fun _ _ _ => ?_) (by omega) (by omega) (by omega)
  refine hl fun _ _ => hl fun _ _ => hs fun _ _ => hs fun _ _ => hl fun _ _ => hl fun _ _ => hl fun _ _ => hl fun _ _ => hl fun _ _ => hl fun _ _ => ?_
  refine (readBlocksM_inserts ∅ _).bind (k₂ := 0) (f₂ := 0) (fun _ _ _ => ?_) (by omega) (by omega) (by omega)
  exact ⟨fun h => by (cases h), fun h => by cases h; decide⟩

/-- C109: apart from what it counts, the decoder is the one of the other properties. -/
theorem C109_agrees (bs : List UInt8) : (binaryDecodeM bs).1 = binaryDecode bs :=
  DecM.bind_fst readLongM_fst (fun _ => DecM.bind_fst readLongM_fst fun _ => DecM.bind_fst readLongM_fst fun _ =>
    DecM.bind_fst readStringM_fst fun _ => DecM.bind_fst readStringM_fst fun _ => DecM.bind_fst readLongM_fst fun _ => DecM.bind_fst readLongM_fst fun _ =>
    DecM.bind_fst readLongM_fst fun _ => DecM.bind_fst readLongM_fst fun _ => DecM.bind_fst readLongM_fst fun _ => DecM.bind_fst readLongM_fst fun _ =>
    DecM.bind_fst (readBlocksM_fst ∅) fun _ _ => rfl) bs

/-- C109, in time proportional to the message: every byte is read at most once by `ReadByte` (and the end is noticed once), and every entry of the map took two of them, whatever
counts the message announces. -/
theorem C109_time (bs : List UInt8) : byteReads (binaryDecodeM bs).2 ≤ bs.length + 1 ∧ 2 * inserts (binaryDecodeM bs).2 ≤ byteReads (binaryDecodeM bs).2 := by
  have h1 := binaryDecodeM_cost bs
  have h2 := binaryDecodeM_inserts bs
  rcases hb : binaryDecodeM bs with ⟨_ | ⟨s, r⟩, e⟩
  · have := (h1.fail hb).reads; have := h2.fail hb
    simp only; omega
  · have := (h1.ok hb).total; have := h2.ok hb
    simp only; omega

/-- C109, in no more memory than the message has bytes, if it is decoded. -/
theorem C109_memory {bs rest : List UInt8} {s : Span} (h : binaryDecode bs = some (s, rest)) : made (binaryDecodeM bs).2 + rest.length ≤ bs.length := by
  rw [← C109_agrees] at h
  have h1 := binaryDecodeM_cost bs
  rcases hb : binaryDecodeM bs with ⟨o, e⟩
  rw [hb] at h
  cases h
  have := (h1.ok hb).total
  simp only; omega

/-- C109, of a message that is refused: all slices together are not larger than the message, but for the last one if that was made for a string that is not there. -/
theorem C109_refused {bs : List UInt8} (h : binaryDecode bs = none) :
    made (binaryDecodeM bs).2 ≤ bs.length ∨ ∃ e k, (binaryDecodeM bs).2 = e ++ [.make k] ∧ made e ≤ bs.length ∧ 8192 < k ∧ k ≤ 2 ^ 31 - 1 := by
  rw [← C109_agrees] at h
  have h1 := binaryDecodeM_cost bs
  have h2 := binaryDecodeM_inserts bs
  rcases hb : binaryDecodeM bs with ⟨o, e⟩
  rw [hb] at h
  cases h
  have h2 := h2.fail hb
  rcases (h1.fail hb).total with h3 | ⟨e, k, he, h3, h4⟩
  · left; simp only; omega
  · exact .inr ⟨e, k, he, by omega, h4⟩

/-- C109: a slice of the pool that is taken is put back before another one is taken, and before the decoder returns, with or without an error. -/
theorem C109_pool (bs : List UInt8) : PoolOrder (binaryDecodeM bs).2 := by
  have h1 := binaryDecodeM_cost bs
  rcases hb : binaryDecodeM bs with ⟨_ | ⟨s, r⟩, e⟩
  · exact (h1.fail hb).pool
  · exact (h1.ok hb).pool

/-- C109, of what `BinaryEncode` wrote: never more memory than the message has bytes. -/
theorem C109_own (s : Span) (ord : List (Str × Str)) (he : Encodable s) (ho : IsRange ord (s.tags.getD ∅)) :
    made (binaryDecodeM (binaryEncode s ord)).2 ≤ (binaryEncode s ord).length := by
  have h := C04_span_roundtrip s ord [] he ho
  rw [List.append_nil] at h
  exact Nat.le_of_add_right_le (C109_memory h)

/-- C109: with the message of 8 bytes, the exception is as large as it can be. -/
theorem C109_exception : (binaryDecodeM [2, 2, 0, 254, 255, 255, 255, 15]).1.isNone ∧
    (binaryDecodeM [2, 2, 0, 254, 255, 255, 255, 15]).2 = [.byte, .byte, .byte, .byte, .byte, .byte, .byte, .byte, .make (2 ^ 31 - 1)] := by
  decide +kernel

/-- C109, an example: two pooled slices, an empty string, an entry; `3` announces two entries with their size, the other one is not there. -/
theorem C109_witness : (binaryDecodeM ([2, 4, 0, 2, 110, 2, 115, 0, 0, 0, 0, 0, 0] ++ [3, 8, 2, 107, 0])).2 =
    [.byte, .byte, .byte, .byte, .get, .put, .byte, .get, .put, .byte, .byte, .byte, .byte, .byte, .byte, .byte, .byte, .byte, .get, .put, .byte, .insert, .byte] := by
  decide +kernel

end Verif
