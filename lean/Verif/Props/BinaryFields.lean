import Verif.Proofs.BinaryFields

/-!
# The span that BinaryDecode returns together with an error: C155
-/

namespace Verif

open Spec

/-- C155: apart from the span that comes with an error, this is `BinaryDecode` of C107. -/
theorem C155_agrees (bs : List UInt8) : binaryDecodeE bs = withoutSpan (binaryDecodeFull bs) := by
  have h12 : ∀ s bs, (pure s : DecE Span) bs = withoutSpan (decodeFields [] s bs) := fun _ _ => rfl
  have h11 := decodeFields_step readMapStringE (fun s v => { s with tags := some v }) _ _ h12
  have h10 := decodeFields_step readLongE (fun s v => { s with timings := { s.timings with SR := v } }) _ _ h11
  have h9 := decodeFields_step readLongE (fun s v => { s with timings := { s.timings with SS := v } }) _ _ h10
  have h8 := decodeFields_step readLongE (fun s v => { s with timings := { s.timings with CR := v } }) _ _ h9
  have h7 := decodeFields_step readLongE (fun s v => { s with timings := { s.timings with CS := v } }) _ _ h8
  have h6 := decodeFields_step readLongE (fun s v => { s with duration := v }) _ _ h7
  have h5 := decodeFields_step readLongE (fun s v => { s with timestamp := v }) _ _ h6
  have h4 := decodeFields_step readStringE (fun s v => { s with service := v }) _ _ h5
  have h3 := decodeFields_step readStringE (fun s v => { s with name := v }) _ _ h4
  have h2 := decodeFields_step readLongE (fun s v => { s with parent := v }) _ _ h3
  have h1 := decodeFields_step readLongE (fun s v => { s with trace := v }) _ _ h2
  have h0 := decodeFields_step readLongE (fun s v => { s with id := v }) _ _ h1
  exact h0 {} bs

/-- C155: with an error, the span has the fields before it, and zeros: bytes that follow never change what is there, whether they complete the message or not. -/
theorem C155_preview (bs ext : List UInt8) (e : BinaryError) (h : (binaryDecodeFull bs).2 = .error e) : ∃ k, k < 12 ∧ (binaryDecodeFull bs).1 = firstFields k (binaryDecodeFull (bs ++ ext)).1 := by
  rcases decodeFields_preview spanFields 0 {} bs ext (fun i r hr => by rw [Nat.zero_add]; exact spanFields_set i r hr) rfl with ⟨a, -, -⟩ | ⟨-, j, hj, ht⟩
  · unfold binaryDecodeFull at h
    rw [h] at a
    cases a
  · exact ⟨j, hj, by rw [Nat.zero_add] at ht; exact ht⟩

/-- C155: a whole message gives the same span with whatever follows. -/
theorem C155_whole (bs ext rest : List UInt8) (h : (binaryDecodeFull bs).2 = .ok rest) : binaryDecodeFull (bs ++ ext) = ((binaryDecodeFull bs).1, .ok (rest ++ ext)) := by
  have h1 := C155_agrees bs
  have h2 := C155_agrees (bs ++ ext)
  rw [show binaryDecodeFull bs = ((binaryDecodeFull bs).1, .ok rest) by rw [← h]] at h1
  rw [(C107_final bs ext).1 _ _ h1] at h2
  revert h2
  cases binaryDecodeFull (bs ++ ext) with
  | mk s r =>
    cases r with
    | error e => intro h2; cases h2
    | ok r => intro h2; injection h2 with h2; injection h2 with h2 h3; rw [h2, h3]

/-- C155: for a span with an error, there are never tags, not even those that have been read already. -/
theorem C155_tags (bs : List UInt8) (e : BinaryError) (h : (binaryDecodeFull bs).2 = .error e) : (binaryDecodeFull bs).1.tags = none := by
  obtain ⟨k, hk, ht⟩ := C155_preview bs [] e h
  rw [ht]
  exact if_neg (by omega)

/-- C155: a message that is cut gives exactly the fields that are complete. -/
theorem C155_cut (s : Span) (ord : List (Str × Str)) (he : Encodable s) (ho : IsRange ord (s.tags.getD ∅)) (p q : List UInt8) (hpq : binaryEncode s ord = p ++ q) (hq : q ≠ []) :
    (binaryDecodeFull p).1 = firstFields (completeFields (fieldBytes s ord) p.length) s ∧ (binaryDecodeFull p).2.isOk = false ∧ completeFields (fieldBytes s ord) p.length < 12 := by
  obtain ⟨hn, hsv, hsz, ht⟩ := he
  have hl : ord.length < 2 ^ 63 := by
    rw [ho.length_eq, Std.ExtTreeMap.length_toList]; exact hsz
  have hent : ∀ e ∈ ord, e.1.length < 2 ^ 31 ∧ e.2.length < 2 ^ 31 := fun e he =>
    ht e.1 e.2 (Std.ExtTreeMap.mem_toList_iff_getElem?_eq_some.mp (ho.mem_iff.mp he))
  obtain ⟨e, h1, h2⟩ := (messageChain s ord hn hsv hl hent).cut p q rfl ((fieldBytes_flatten s ord).trans hpq) hq
  unfold binaryDecodeFull
  rw [h1]
  refine ⟨?_, rfl, h2⟩
  dsimp only
  rw [Nat.zero_add]
  exact firstFields_tags h2 s _

/-- A message that ends within the name, and one that ends within its tags: the tag that has been read is not there. -/
theorem C155_witness :
    binaryEncode { id := 1, trace := 2, name := b!"abc" } [] = [2, 4, 0, 6, 97] ++ [98, 99, 0, 0, 0, 0, 0, 0, 0, 0] ∧
    (binaryDecodeFull [2, 4, 0, 6, 97]).1 = { id := 1, trace := 2 } ∧
    completeFields (fieldBytes { id := 1, trace := 2, name := b!"abc" } []) 5 = 3 ∧
    let r := binaryDecodeFull [2, 4, 0, 2, 97, 0, 0, 0, 0, 0, 0, 0, 4, 2, 97, 2, 98, 2]
    r.1.id = 1 ∧ r.1.name = b!"a" ∧ r.1.tags = none := by
  have e1 : binaryEncode { id := 1, trace := 2, name := b!"abc" } [] = [2, 4, 0, 6, 97] ++ [98, 99, 0, 0, 0, 0, 0, 0, 0, 0] := by decide +kernel
  have e2 : completeFields (fieldBytes { id := 1, trace := 2, name := b!"abc" } []) 5 = 3 := by decide +kernel
  refine ⟨e1, ?_, e2, ?_⟩
  · have := (C155_cut { id := 1, trace := 2, name := b!"abc" } [] ⟨by decide, by decide, by decide, by simp⟩ (.refl _) _ _ e1 (by decide)).1
    rw [this]
    exact congrArg (fun k => firstFields k _) e2
  · intro r
    refine ⟨by decide +kernel, by decide +kernel, ?_⟩
    have h : r.2.isOk = false := by decide +kernel
    cases hr : r.2 with
    | ok rest => rw [hr] at h; cases h
    | error e => exact C155_tags _ e hr

end Verif
