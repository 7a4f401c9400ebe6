import Verif.Proofs.BinaryError
import Verif.Props.Binary
import Verif.Model.Balance

/-!
# The errors for messages that cannot be decoded: C107
-/

namespace Verif

open Spec

/-- C107: apart from the errors, this is the decoder of C03 to C08. -/
theorem C107_agrees (bs : List UInt8) : (binaryDecodeE bs).toOption = binaryDecode bs := binaryDecodeE_agrees bs

/-- C107: a span, or the error about a length, does not depend on what follows, … -/
theorem C107_final (bs ext : List UInt8) :
    (∀ s rest, binaryDecodeE bs = .ok (s, rest) → binaryDecodeE (bs ++ ext) = .ok (s, rest ++ ext)) ∧
    ∀ n, binaryDecodeE bs = .error (.range n) → binaryDecodeE (bs ++ ext) = .error (.range n) :=
  ⟨fun s rest h => binaryDecodeE_stable bs s rest ext h, fun n h => (binaryDecodeE_good bs).final _ ext h (by rintro (h | h) <;> cases h)⟩

/-- C107: … while with the errors at the end of the input, something may follow that decides it: a span that ends there, or the error about a length. -/
theorem C107_short {bs : List UInt8} {e : BinaryError} (h : binaryDecodeE bs = .error e) (he : Short e) :
    ∃ ext, (∃ s, binaryDecodeE (bs ++ ext) = .ok (s, [])) ∨ ∃ n, binaryDecodeE (bs ++ ext) = .error (.range n) := by
  obtain ⟨ext, hx⟩ := (binaryDecodeE_good bs).more e h he
  refine ⟨ext, ?_⟩
  generalize binaryDecodeE (bs ++ ext) = r at hx
  match r, hx with
  | .ok (s, rest), hx => exact .inl ⟨s, by rw [show rest = [] from hx]⟩
  | .error (.range n), _ => exact .inr ⟨n, rfl⟩
  | .error .eof, hx => exact absurd (.inl rfl) hx
  | .error .unexpectedEof, hx => exact absurd (.inr rfl) hx

/-- C107: so these errors are exactly the results that can change when more input follows. -/
theorem C107_exact (bs : List UInt8) : (∃ e, binaryDecodeE bs = .error e ∧ Short e) ↔ ∃ ext, (binaryDecodeE (bs ++ ext)).map Prod.fst ≠ (binaryDecodeE bs).map Prod.fst := by
  constructor
  · rintro ⟨e, h, he⟩
    obtain ⟨ext, ⟨s, hx⟩ | ⟨n, hx⟩⟩ := C107_short h he
    · exact ⟨ext, by rw [hx, h]; simp [Except.map]⟩
    · refine ⟨ext, ?_⟩
      rw [hx, h]
      rcases he with rfl | rfl <;> simp [Except.map]
  · rintro ⟨ext, hx⟩
    cases h : binaryDecodeE bs with
    | ok p =>
      rw [(C107_final bs ext).1 p.1 p.2 h, h] at hx
      exact absurd rfl hx
    | error e =>
      match e, h with
      | .eof, _ => exact ⟨_, rfl, .inl rfl⟩
      | .unexpectedEof, _ => exact ⟨_, rfl, .inr rfl⟩
      | .range n, h =>
        rw [(C107_final bs ext).2 n h, h] at hx
        exact absurd rfl hx

/-! ## The lengths that are named -/

def NamesRefused {α} (d : DecE α) : Prop := ∀ bs n, d bs = .error (.range n) → lengthRefused n

theorem NamesRefused.bind {α β} {d : DecE α} {f : α → DecE β} (hd : NamesRefused d) (hf : ∀ a, NamesRefused (f a)) : NamesRefused (d >>= f) := fun bs n h => by
  cases h1 : d bs with
  | error e => rw [DecE.bind_of_error h1] at h; cases h; exact hd _ _ h1
  | ok p => rw [DecE.bind_of_ok h1] at h; exact hf _ _ _ h

theorem readLongE_names : NamesRefused readLongE := fun bs n h => by cases (readLongE_error h).1

theorem readStringE_names : NamesRefused readStringE := by
  refine readLongE_names.bind fun len bs n h => ?_
  by_cases h1 : lengthRefused len
  · rw [if_pos h1] at h; cases h; exact h1
  · rw [if_neg h1] at h
    by_cases h2 : len = 0
    · rw [if_pos h2] at h; cases h
    · rw [if_neg h2] at h
      unfold readFullE at h
      split at h
      · cases h
      · split at h <;> cases h

theorem readEntriesE_names (n : Nat) : ∀ m, NamesRefused (readEntriesE n m) := by
  induction n with
  | zero => exact fun m bs n h => (nomatch h)
  | succ n ih => exact fun m => readStringE_names.bind fun _ => readStringE_names.bind fun _ => ih _

theorem readBlocksE_names (k : Nat) : ∀ m bs, bs.length ≤ k → ∀ n, readBlocksE m bs = .error (.range n) → lengthRefused n := by
  induction k with
  | zero =>
    intro m bs hb n h
    rw [List.eq_nil_of_length_eq_zero (Nat.le_zero.mp hb), readBlocksE_eq] at h
    cases h
  | succ k ih =>
    intro m bs hb n h
    rw [readBlocksE_eq] at h
    unfold blocksBody at h
    cases h1 : readLongE bs with
    | error e => rw [DecE.bind_of_error h1] at h; cases h; exact readLongE_names _ _ h1
    | ok p =>
      obtain ⟨blk, bs1⟩ := p
      have l1 := readLongE_length h1
      rw [DecE.bind_of_ok h1] at h
      have ent : ∀ (c : Nat) bs2, bs2.length ≤ k → (readEntriesE c m >>= fun m' => readBlocksE m') bs2 = .error (.range n) → lengthRefused n := fun c bs2 hk h => by
        cases h3 : readEntriesE c m bs2 with
        | error e => rw [DecE.bind_of_error h3] at h; cases h; exact readEntriesE_names _ _ _ _ h3
        | ok p =>
          rw [DecE.bind_of_ok h3] at h
          exact ih _ _ (Nat.le_trans (readEntriesE_length h3) hk) n h
      by_cases h0 : blk = 0
      · rw [if_pos h0] at h; cases h
      · rw [if_neg h0] at h
        by_cases hlt : blk < 0
        · rw [if_pos hlt] at h
          cases h2 : readLongE bs1 with
          | error e => rw [DecE.bind_of_error h2] at h; cases h; exact readLongE_names _ _ h2
          | ok p =>
            have l2 := readLongE_length h2
            rw [DecE.bind_of_ok h2] at h
            exact ent _ _ (by simp only at l1 l2; omega) h
        · rw [if_neg hlt] at h
          exact ent _ _ (by simp only at l1; omega) h

/-- C107: the length in an error is one that no text may have. -/
theorem C107_length {bs : List UInt8} {n : Int64} (h : binaryDecodeE bs = .error (.range n)) : n < 0 ∨ n > 2147483647 := by
  have : NamesRefused binaryDecodeE :=
    readLongE_names.bind fun _ => readLongE_names.bind fun _ => readLongE_names.bind fun _ => readStringE_names.bind fun _ => readStringE_names.bind fun _ => readLongE_names.bind fun _ =>
    readLongE_names.bind fun _ => readLongE_names.bind fun _ => readLongE_names.bind fun _ => readLongE_names.bind fun _ => readLongE_names.bind fun _ =>
    NamesRefused.bind (d := readMapStringE) (fun bs n h => readBlocksE_names _ ∅ bs (Nat.le_refl _) n h) fun _ _ _ h => (nomatch h)
  exact this bs n h

/-! ## Messages that are cut -/

theorem binaryEncode_fields (s : Span) (ord : List (Str × Str)) : binaryEncode s ord = (messageFields s ord).flatMap BinaryField.bytes := by
  unfold binaryEncode messageFields writeMapString writeString
  rw [List.flatMap_append]
  by_cases h : ord = []
  · subst h
    simp [BinaryField.bytes]
  · rw [if_neg h, if_neg (fun e => h (List.eq_nil_of_length_eq_zero e))]
    have : ∀ l : List (Str × Str), (l.flatMap fun e => [BinaryField.text e.1, .text e.2]).flatMap BinaryField.bytes =
        l.flatMap fun e => (writeLong (Int64.ofNat e.1.length) ++ e.1) ++ (writeLong (Int64.ofNat e.2.length) ++ e.2) := fun l => by
      rw [List.flatMap_assoc]
      congr 1
      funext e
      simp [BinaryField.bytes]
    rw [List.flatMap_append, this]
    simp [BinaryField.bytes]

/-- C107: the error for a message that is cut anywhere: `unexpected EOF` within the bytes of a text, after the first one, and `EOF` everywhere else. -/
theorem C107_cut (s : Span) (ord : List (Str × Str)) (he : Encodable s) (ho : IsRange ord (s.tags.getD ∅)) (p q : List UInt8) (hpq : binaryEncode s ord = p ++ q) (hq : q ≠ []) :
    (CutInText (messageFields s ord) p → binaryDecodeE p = .error .unexpectedEof) ∧ (¬ CutInText (messageFields s ord) p → binaryDecodeE p = .error .eof) := by
  obtain ⟨hn, hsv, hsz, ht⟩ := he
  have hl : ord.length < 2 ^ 63 := by
    rw [ho.length_eq, Std.ExtTreeMap.length_toList]; exact hsz
  have hent : ∀ e ∈ ord, e.1.length < 2 ^ 31 ∧ e.2.length < 2 ^ 31 := by
    intro e he
    exact ht e.1 e.2 (Std.ExtTreeMap.mem_toList_iff_getElem?_eq_some.mp (ho.mem_iff.mp he))
  obtain ⟨a, hr⟩ := binaryDecodeE_reads s ord hn hsv hl hent
  constructor
  · rintro ⟨before, t, after, part, rest, h1, h2, h3, h4, h5⟩
    have := hr.cut before (.text t) after (writeLong (Int64.ofNat t.length) ++ part) rest h1 (by unfold BinaryField.bytes; rw [List.append_assoc, ← h2]) h4
    rw [h5, List.append_assoc, this]
    unfold cutError
    dsimp only
    have : part.length ≠ 0 := fun e => h3 (List.eq_nil_of_length_eq_zero e)
    rw [if_pos (by rw [List.length_append]; omega)]
  · intro hcut
    rw [binaryEncode_fields] at hpq
    obtain ⟨before, f, after, x, y, h1, h2, h3, h4⟩ := prefix_field _ hpq hq
    rw [h4, hr.cut before f after x y h1 h2 h3]
    cases f with
    | number v => rfl
    | text t =>
      unfold cutError
      dsimp only
      rw [if_neg]
      intro hlt
      refine hcut ?_
      have h2 : writeLong (Int64.ofNat t.length) ++ t = x ++ y := h2
      rcases List.append_eq_append_iff.mp h2 with ⟨l, e1, e2⟩ | ⟨l, e1, e2⟩
      · refine ⟨before, t, after, l, y, h1, e2, ?_, h3, by rw [h4, e1, List.append_assoc]⟩
        rintro rfl
        rw [e1, List.append_nil] at hlt
        exact Nat.lt_irrefl _ hlt
      · have := congrArg List.length e1
        rw [List.length_append] at this
        omega

/-- C107: what is logged for a message that is not passed on; there is such a line if and only if it is not passed on. -/
theorem C107_log (v : List UInt8) : (consumeLog v = none ↔ ∃ s, decodeKafkaMessage v = some s) ∧ ∀ line, consumeLog v = some line →
    line = b!"Cannot deserialize kafka message: deserialize avro message: EOF" ∨ line = b!"Cannot deserialize kafka message: deserialize avro message: unexpected EOF" ∨
    ∃ n : Int64, (n < 0 ∨ n > 2147483647) ∧ line = b!"Cannot deserialize kafka message: deserialize avro message: string length out of range: " ++ encodeNumber n := by
  have hd : decodeKafkaMessage v = (binaryDecodeE v).toOption.map Prod.fst := by rw [C107_agrees]; rfl
  unfold consumeLog
  rw [hd]
  cases h : binaryDecodeE v with
  | ok p => exact ⟨⟨fun _ => ⟨p.1, rfl⟩, fun _ => rfl⟩, fun _ h => (nomatch h)⟩
  | error e =>
    refine ⟨⟨fun h => (nomatch h), fun ⟨_, h⟩ => (nomatch h)⟩, fun line hline => ?_⟩
    rw [← Option.some.inj hline]
    match e, h with
    | .eof, _ => exact .inl rfl
    | .unexpectedEof, _ => exact .inr (.inl rfl)
    | .range n, h => exact .inr (.inr ⟨n, C107_length h, rfl⟩)

theorem error_of {α : Type} {r : Except BinaryError α} {e : BinaryError} (h : (match r with | .ok _ => none | .error e => some e) = some e) : r = .error e := by
  cases r with
  | ok _ => cases h
  | error x => rw [Option.some.inj h]

/-- A message that is cut in its name, one that is cut before it, and one with a negative length. -/
theorem C107_witness : binaryDecodeE [2, 4, 0, 6, 97, 98] = .error .unexpectedEof ∧ binaryDecodeE [2, 4, 0, 6] = .error .eof ∧
    binaryDecodeE [2, 4, 0, 5] = .error (.range (-3)) ∧ consumeLog [2, 4, 0, 5] = some b!"Cannot deserialize kafka message: deserialize avro message: string length out of range: -3" ∧
    binaryEncode { id := 1, trace := 2, name := b!"abc" } [] = [2, 4, 0, 6, 97, 98] ++ [99, 0, 0, 0, 0, 0, 0, 0, 0] ∧
    CutInText (messageFields { id := 1, trace := 2, name := b!"abc" } []) [2, 4, 0, 6, 97, 98] ∧ ¬ CutInText (messageFields { id := 1, trace := 2, name := b!"abc" } []) [2, 4, 0, 6] := by
  have e1 : binaryDecodeE [2, 4, 0, 6] = .error .eof := error_of (by decide +kernel)
  have e2 : binaryEncode { id := 1, trace := 2, name := b!"abc" } [] = [2, 4, 0, 6] ++ [97, 98, 99, 0, 0, 0, 0, 0, 0, 0, 0] := by decide +kernel
  refine ⟨error_of (by decide +kernel), e1, error_of (by decide +kernel), by decide +kernel, by decide +kernel, ⟨[.number 1, .number 2, .number 0], b!"abc", _, b!"ab", b!"c", rfl, rfl, by decide, by decide, by decide +kernel⟩, fun h => ?_⟩
  have := (C107_cut { id := 1, trace := 2, name := b!"abc" } [] ⟨by decide, by decide, by decide, by simp⟩ (.refl _) _ _ e2 (by decide)).1 h
  rw [e1] at this
  cases this

/-- The error about a length is final, but `EOF` does not promise that a span can follow: here, every continuation of the length is refused. -/
theorem C107_doomed : binaryDecodeE [2, 4, 0, 255, 255, 255, 255, 255] = .error .eof ∧ binaryDecodeE ([2, 4, 0, 255, 255, 255, 255, 255] ++ [0]) = .error (.range (-17179869184)) :=
  ⟨error_of (by decide +kernel), error_of (by decide +kernel)⟩

end Verif
