import Verif.Proofs.JsonString

/-!
# Properties of string unescaping (C19, C20)
-/

namespace Verif

/-! ## C19: decoding in place is safe -/

/-- The states the loop goes through on a token. -/
inductive UnescapeReaches (input : List UInt8) : Unescape → Prop
  | start : UnescapeReaches input { buf := input, n := 0, idx := 0 }
  | step {st st' : Unescape} : UnescapeReaches input st → st.step = .continue st' → UnescapeReaches input st'

/-- One iteration from a state whose decoded bytes are behind the position. -/
theorem Unescape.step_spec (st : Unescape) (hn : st.n ≤ st.idx) (hi : st.idx ≤ st.buf.length) :
    st.step ≠ .panic ∧ st.step ≠ .moved ∧
    ∀ st', st.step = .continue st' → st'.n ≤ st'.idx ∧ st'.idx ≤ st'.buf.length ∧ st.idx < st'.idx ∧
      st'.buf.length = st.buf.length ∧ st'.buf.drop st'.idx = st.buf.drop st'.idx := by
  obtain ⟨buf, n, idx⟩ := st
  simp only at hn hi
  have app : ∀ (c : UInt8) (idx' : Nat), idx < idx' → idx' ≤ buf.length →
      Unescape.append ⟨buf, n, idx⟩ c idx' ≠ .panic ∧ Unescape.append ⟨buf, n, idx⟩ c idx' ≠ .moved ∧
      ∀ st', Unescape.append ⟨buf, n, idx⟩ c idx' = .continue st' → st'.n ≤ st'.idx ∧ st'.idx ≤ st'.buf.length ∧ idx < st'.idx ∧
      st'.buf.length = buf.length ∧ st'.buf.drop st'.idx = buf.drop st'.idx := by
    intro c idx' h1 h2
    rw [Unescape.append_fits _ _ (by simp; omega)]
    refine ⟨by simp, by simp, ?_⟩
    intro st' h
    injection h with h
    subst h
    obtain ⟨w1, w2, w3⟩ := unescape_written (buf := buf) (n := n) (idx := idx') [c] (by simp; omega) h2
    exact ⟨by simp; omega, by simp only [List.length_singleton] at w1; simp only [w1]; exact h2, h1, w1, w3⟩
  unfold Unescape.step
  simp only
  split
  · exact ⟨by simp, by simp, by simp⟩
  · rename_i ch hg
    have hlt : idx < buf.length := (List.getElem?_eq_some_iff.mp hg).1
    split
    · exact app _ _ (by omega) (by omega)
    · split
      · exact ⟨by simp, by simp, by simp⟩
      · rename_i h1
        split
        · rename_i hg1
          rw [List.getElem?_eq_none_iff] at hg1
          omega
        · split
          · exact app _ _ (by omega) (by omega)
          · split
            · exact ⟨by simp, by simp, by simp⟩
            · rename_i h4
              split
              · omega
              · split
                · exact ⟨by simp, by simp, by simp⟩
                · rename_i r hx
                  split
                  · omega
                  · refine ⟨by simp, by simp, ?_⟩
                    intro st' h
                    injection h with h
                    subst h
                    have hl := encodeRune_length r
                    simp only
                    rw [writeAt_eq _ _ _ (by omega)]
                    obtain ⟨w1, w2, w3⟩ := unescape_written (buf := buf) (n := n) (idx := idx + 1 + 1 + 4) (encodeRune r)
                      (by omega) (by omega)
                    exact ⟨by omega, by rw [w1]; omega, by omega, w1, w3⟩

/-- Whatever the bytes of a token, the result of decoding it in place is that of decoding it in fresh memory: the bytes at the start
of the token's memory are the decoded ones, the memory keeps its size; and the errors are the same. No index or slice bound is
out of range, and no `append` leaves the memory of the token. -/
theorem C19_in_place (input : List UInt8) :
    match Spec.unescape input with
    | none => ∃ st, decodeStringInPlace input = some (.err st)
    | some out => ∃ st, decodeStringInPlace input = some (.done st) ∧ st.buf.length = input.length ∧ st.n = out.length ∧
        st.buf.take st.n = out := by
  have := unescapeLoop_spec (input.length + 1) { buf := input, n := 0, idx := 0 } (Nat.le_refl _) (Nat.zero_le _) (by simp)
  simp only [List.drop_zero] at this
  rcases h : Spec.unescape input with _ | out
  · rw [h] at this
    exact ⟨this.choose, this.choose_spec.1⟩
  · rw [h] at this
    obtain ⟨st, e1, e2, e3, e4, e5, e6⟩ := this
    exact ⟨st, e1, e2, by simpa using e3, by simpa using e6⟩

/-- At every moment of the loop, the decoded bytes end at or before the position: nothing has been written from the position on, where
the memory still holds the bytes of the token that remain to be read. The next iteration neither panics nor leaves the memory. -/
theorem C19_writes_behind_reads {input : List UInt8} {st : Unescape} (h : UnescapeReaches input st) :
    st.n ≤ st.idx ∧ st.buf.length = input.length ∧ st.buf.drop st.idx = input.drop st.idx ∧ st.step ≠ .panic ∧
      st.step ≠ .moved := by
  have : st.n ≤ st.idx ∧ st.idx ≤ st.buf.length ∧ st.buf.length = input.length ∧ st.buf.drop st.idx = input.drop st.idx := by
    induction h with
    | start => simp
    | step _ hs ih =>
      rename_i st st' _
      obtain ⟨h1, h2, h3, h4⟩ := ih
      obtain ⟨_, _, h5⟩ := st.step_spec h1 h2
      obtain ⟨g1, g2, g3, g4, g5⟩ := h5 _ hs
      refine ⟨g1, g2, by omega, ?_⟩
      rw [g5]
      have : st'.idx = st.idx + (st'.idx - st.idx) := by omega
      rw [this, ← List.drop_drop, h4, List.drop_drop]
  obtain ⟨h1, h2, h3, h4⟩ := this
  obtain ⟨g1, g2, _⟩ := st.step_spec h1 h2
  exact ⟨h1, h3, h4, g1, g2⟩

/-- Tokens with every kind of escape: half of a surrogate pair becomes U+FFFD, incomplete and non-hexadecimal escapes are errors. -/
theorem C19_witness :
    Spec.unescape b!"a\\\"b\\u00e9\\u20AC\\ud83d\\/" =
      some [0x61, 0x22, 0x62, 0xC3, 0xA9, 0xE2, 0x82, 0xAC, 0xEF, 0xBF, 0xBD, 0x2F] ∧
    Spec.unescape b!"\\u00" = none ∧ Spec.unescape b!"\\u00xy" = none := by
  decide +kernel

/-! ## C20: agreement with the JSON standard -/

/-- The literals without control character escapes and surrogate pairs are decoded as the standard says. -/
theorem unescape_plain {lit v : List UInt8} (h : Spec.PlainString lit v) : Spec.unescape lit = some v := by
  induction h with
  | nil => rfl
  | char hq hb hc _ ih =>
    unfold Spec.unescape
    rw [if_pos hb, ih]
    rfl
  | short h _ ih =>
    unfold Spec.unescape
    rw [if_neg (by simp)]
    simp only
    rw [if_pos (by rcases h with h | h | h <;> rw [h] <;> decide), ih]
    rfl
  | unicode h hs _ ih =>
    unfold Spec.unescape
    rw [if_neg (by simp)]
    simp only [ne_eq, not_true_eq_false, if_false, h, ih]
    simp [Spec.runeBytes, hs]

/-- `PlainString` is the standard's reading. -/
theorem plain_json {lit v : List UInt8} (h : Spec.PlainString lit v) : Spec.JsonString lit v := by
  induction h with
  | nil => exact .nil
  | char hq hb hc _ ih => exact .char hq hb hc ih
  | short h _ ih =>
    refine .short ?_ ih
    rcases h with h | h | h <;> rw [h] <;> decide
  | unicode h hs _ ih => exact .unicode h hs ih

end Verif
